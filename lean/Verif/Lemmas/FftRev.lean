import Verif.Model.Fft
import Verif.Lemmas.FftRing
/-!
# `fft_w_shift` reverses bits
-/

namespace AF

/-- The partner of bit `i` when blocks of `s` bits are swapped. -/
def swapIdx (s i : Nat) : Nat := if (i / s) % 2 = 0 then i + s else i - s

theorem swap_testBit (s M j i : Nat) (h0 : 0 < s) (hM : ∀ i < 64, M.testBit i = decide ((i / s) % 2 = 0))
    (hs : ∀ i < 64, (i / s) % 2 ≠ 0 → s ≤ i ∧ ((i - s) / s) % 2 = 0) (hi : i < 64) :
    (((j >>> s) &&& M) ||| ((j &&& M) <<< s)).testBit i = j.testBit (swapIdx s i) := by
  rw [Nat.testBit_or, Nat.testBit_and, Nat.testBit_shiftRight, Nat.testBit_shiftLeft, Nat.testBit_and, hM i hi,
    hM (i - s) (by omega)]
  unfold swapIdx
  by_cases h : (i / s) % 2 = 0
  · rw [if_pos h, decide_eq_true h, Bool.and_true, Nat.add_comm s i]
    by_cases h2 : s ≤ i
    · have h3 : ((i - s) / s) % 2 ≠ 0 := by
        intro h4
        have : i / s = (i - s) / s + 1 := by
          rw [← Nat.add_div_right _ h0, Nat.sub_add_cancel h2]
        omega
      rw [decide_eq_false h3]
      simp
    · simp [h2]
  · obtain ⟨h1, h2⟩ := hs i hi h
    rw [if_neg h, decide_eq_false h, decide_eq_true h2]
    simp [h1]

theorem revBits_lt (k i : Nat) : revBits k i < 2 ^ k := by
  induction k generalizing i with
  | zero => simp [revBits]
  | succ k ih =>
    have := ih (i / 2)
    rw [revBits, pow_succ]
    split <;> omega

theorem revBits_testBit (k j i : Nat) (h : i < k) : (revBits k j).testBit i = j.testBit (k - 1 - i) := by
  induction k generalizing j i with
  | zero => omega
  | succ k ih =>
    rw [revBits]
    have hlt := revBits_lt k (j / 2)
    have e : revBits k (j / 2) + (if j % 2 = 0 then 0 else 2 ^ k) =
        2 ^ k * (if j % 2 = 0 then 0 else 1) + revBits k (j / 2) := by
      split <;> omega
    rw [e, Nat.testBit_two_pow_mul_add _ hlt]
    by_cases hi : i < k
    · rw [if_pos hi, ih _ _ hi, Nat.testBit_div_two]
      congr 1; omega
    · obtain rfl : i = k := by omega
      rw [if_neg hi, Nat.sub_self, show i + 1 - 1 - i = 0 by omega]
      rcases Nat.mod_two_eq_zero_or_one j with h0 | h0 <;> simp [h0, Nat.testBit_zero]

theorem fftWShift_eq (j k : Nat) (hk : k ≤ 64) (hk0 : 0 < k) : fftWShift j k = revBits k j := by
  apply Nat.eq_of_testBit_eq
  intro i
  unfold fftWShift
  dsimp only
  obtain ⟨j1, h1⟩ : ∃ j1, j1 = ((j >>> 1) &&& 0x5555555555555555) ||| ((j &&& 0x5555555555555555) <<< 1) := ⟨_, rfl⟩
  rw [← h1]
  obtain ⟨j2, h2⟩ : ∃ j2, j2 = ((j1 >>> 2) &&& 0x3333333333333333) ||| ((j1 &&& 0x3333333333333333) <<< 2) := ⟨_, rfl⟩
  rw [← h2]
  obtain ⟨j3, h3⟩ : ∃ j3, j3 = ((j2 >>> 4) &&& 0x0F0F0F0F0F0F0F0F) ||| ((j2 &&& 0x0F0F0F0F0F0F0F0F) <<< 4) := ⟨_, rfl⟩
  rw [← h3]
  obtain ⟨j4, h4⟩ : ∃ j4, j4 = ((j3 >>> 8) &&& 0x00FF00FF00FF00FF) ||| ((j3 &&& 0x00FF00FF00FF00FF) <<< 8) := ⟨_, rfl⟩
  rw [← h4]
  obtain ⟨j5, h5⟩ : ∃ j5, j5 = ((j4 >>> 16) &&& 0x0000FFFF0000FFFF) ||| ((j4 &&& 0x0000FFFF0000FFFF) <<< 16) := ⟨_, rfl⟩
  rw [← h5]
  have hlt : j5 < 2 ^ 64 := by
    rw [h5]
    refine Nat.or_lt_two_pow (lt_of_le_of_lt Nat.and_le_right (by norm_num)) ?_
    rw [Nat.shiftLeft_eq]
    have : j4 &&& 0x0000FFFF0000FFFF ≤ 0x0000FFFF0000FFFF := Nat.and_le_right
    omega
  have b1 : ∀ i < 64, j1.testBit i = j.testBit (swapIdx 1 i) := fun i hi => by
    rw [h1]; exact swap_testBit _ _ _ _ (by omega) (by decide +kernel) (by decide +kernel) hi
  have b2 : ∀ i < 64, j2.testBit i = j1.testBit (swapIdx 2 i) := fun i hi => by
    rw [h2]; exact swap_testBit _ _ _ _ (by omega) (by decide +kernel) (by decide +kernel) hi
  have b3 : ∀ i < 64, j3.testBit i = j2.testBit (swapIdx 4 i) := fun i hi => by
    rw [h3]; exact swap_testBit _ _ _ _ (by omega) (by decide +kernel) (by decide +kernel) hi
  have b4 : ∀ i < 64, j4.testBit i = j3.testBit (swapIdx 8 i) := fun i hi => by
    rw [h4]; exact swap_testBit _ _ _ _ (by omega) (by decide +kernel) (by decide +kernel) hi
  have b5 : ∀ i < 64, j5.testBit i = j4.testBit (swapIdx 16 i) := fun i hi => by
    rw [h5]; exact swap_testBit _ _ _ _ (by omega) (by decide +kernel) (by decide +kernel) hi
  rw [Nat.testBit_shiftRight, Nat.testBit_or, Nat.testBit_shiftRight]
  have hB : B = 2 ^ 64 := rfl
  rw [hB, Nat.testBit_mod_two_pow, Nat.testBit_shiftLeft]
  by_cases hi : i < k
  · rw [revBits_testBit k j i hi]
    obtain ⟨r, hr⟩ : ∃ r, r = 64 - k + i := ⟨_, rfl⟩
    have hr64 : r < 64 := by omega
    rw [← hr, show k - 1 - i = 63 - r by omega, decide_eq_true hr64, Bool.true_and]
    have key : ∀ r < 64, swapIdx 1 (swapIdx 2 (swapIdx 4 (swapIdx 8 (swapIdx 16 (swapIdx 32 r))))) = 63 - r ∧
        swapIdx 2 (swapIdx 4 (swapIdx 8 (swapIdx 16 (swapIdx 32 r)))) < 64 ∧
        swapIdx 4 (swapIdx 8 (swapIdx 16 (swapIdx 32 r))) < 64 ∧ swapIdx 8 (swapIdx 16 (swapIdx 32 r)) < 64 ∧
        swapIdx 16 (swapIdx 32 r) < 64 ∧ swapIdx 32 r < 64 ∧ (r < 32 → swapIdx 32 r = 32 + r) ∧
        (32 ≤ r → swapIdx 32 r = r - 32) := by decide +kernel
    obtain ⟨k1, k2, k3, k4, k5, k6, k7, k8⟩ := key r hr64
    rw [← k1, ← b1 _ k2, ← b2 _ k3, ← b3 _ k4, ← b4 _ k5, ← b5 _ k6]
    by_cases h : r < 32
    · rw [k7 h]; simp [h]
    · rw [k8 (by omega), Nat.testBit_lt_two_pow (x := j5) (i := 32 + r) (lt_of_lt_of_le hlt
        (Nat.pow_le_pow_right (by omega) (by omega)))]
      simp [show 32 ≤ r by omega]
  · rw [Nat.testBit_lt_two_pow (x := j5) (i := 32 + (64 - k + i)) (lt_of_lt_of_le hlt
      (Nat.pow_le_pow_right (by omega) (by omega))), decide_eq_false (by omega), Bool.false_and, Bool.or_self]
    symm
    exact Nat.testBit_lt_two_pow (lt_of_lt_of_le (revBits_lt k j) (Nat.pow_le_pow_right (by omega) (by omega)))

end AF
