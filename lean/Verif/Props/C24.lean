import Verif.Lemmas.Conv
import Verif.Props.C10
/-!
# C24: `set_exponent` scales by a power of two
-/

namespace AF

theorem C24_set_exponent (x : Num) (hx : x.WF) (h0 : (x.toK : ℚ) ≠ 0) (e : ℤ) (he : EMIN ≤ e)
    (he' : e ≤ EMAX) :
    ∃ v, (BF.num x).setExponent e = .num v ∧ v.WF ∧ v.s = x.s ∧ v.inexact = x.inexact ∧
      v.m.m.length = x.m.m.length ∧ (v.toK : ℚ) = x.toK * 2 ^ (e - x.e) := by
  have hz : x.isZero = false := by
    rw [← Bool.not_eq_true]; exact fun h => h0 (hx.toK_eq_zero.2 h)
  refine ⟨x.setExponent e, rfl, ?_⟩
  unfold Num.setExponent
  rw [if_pos (by simp [hz])]
  have hn0 := hx.n_pos hz
  have hle := hx.n_le
  have hv0 : val x.m.m ≠ 0 := hx.val_ne hz
  by_cases hc : (x.isSubnormal && decide (e > EMIN)) = true
  · rw [if_pos hc]
    simp only [Bool.and_eq_true, decide_eq_true_eq, Num.isSubnormal_iff] at hc
    have hmin := hx.norm hn0 hc.1
    dsimp only
    have key : ∀ (k n : Nat) (e2 : ℤ), k ≤ 64 * x.m.m.length - x.m.n → n = x.m.n + k →
        e2 + k = x.e + (e - x.e) → EMIN ≤ e2 → e2 ≤ EMAX → (n < 64 * x.m.m.length → e2 = EMIN) →
        (Num.mk e2 x.s ⟨shiftLeft x.m.m k, n⟩ x.inexact).WF ∧
          (shiftLeft x.m.m k).length = x.m.m.length ∧
          ((Num.mk e2 x.s ⟨shiftLeft x.m.m k, n⟩ x.inexact).toK : ℚ) = x.toK * 2 ^ (e - x.e) := by
      intro k n e2 hk hn he2 h1 h2 hnorm
      have hlt : val x.m.m * 2 ^ k < B ^ x.m.m.length := by
        calc val x.m.m * 2 ^ k < 2 ^ x.m.n * 2 ^ k :=
              Nat.mul_lt_mul_of_pos_right (by rw [hx.bits]; exact Nat.lt_size_self _) (by positivity)
          _ ≤ 2 ^ (64 * x.m.m.length) := by
              rw [← pow_add]; exact Nat.pow_le_pow_right (by norm_num) (by omega)
          _ = B ^ x.m.m.length := (B_pow _).symm
      have hv : val (shiftLeft x.m.m k) = val x.m.m * 2 ^ k := by
        rw [val_shiftLeft hx.wf, Nat.mod_eq_of_lt hlt]
      refine ⟨⟨shiftLeft_wf hx.wf _, ?_, h1, h2, ?_, ?_⟩, shiftLeft_length _ _, ?_⟩
      · dsimp only; rw [hv, size_mul_two_pow hv0, ← hx.bits, hn]
      · dsimp only; rw [shiftLeft_length]; exact fun _ h => hnorm h
      · dsimp only; rw [shiftLeft_length]; exact hx.sized
      · unfold Num.toK
        dsimp only
        rw [hv, shiftLeft_length, show e2 = x.e + (e - x.e) - k by omega]
        push_cast
        rw [show x.e + (e - x.e) - (k : ℤ) - 64 * (x.m.m.length : ℤ) =
          (x.e - 64 * (x.m.m.length : ℤ)) + (e - x.e) - k by ring, two_zpow_sub, two_zpow_add, zpow_natCast]
        field_simp
    by_cases h1 : ((x.m.maxBitLen - x.m.n : ℕ) : ℤ) ≥ e - EMIN
    · rw [if_pos h1]
      unfold Mantissa.maxBitLen at h1
      obtain ⟨k1, k2, k3⟩ := key (e - EMIN).toNat (x.m.n + (e - EMIN).toNat) x.e (by omega) rfl
        (by omega) (by omega) (by omega) (fun _ => hmin)
      exact ⟨k1, rfl, rfl, k2, k3⟩
    · rw [if_neg h1]
      unfold Mantissa.maxBitLen at h1 ⊢
      obtain ⟨k1, k2, k3⟩ := key (x.m.m.length * 64 - x.m.n) (x.m.m.length * 64)
        (e - ((x.m.m.length * 64 - x.m.n : ℕ) : ℤ)) (by omega) (by omega)
        (by omega) (by omega) (by omega) (fun h => by omega)
      exact ⟨k1, rfl, rfl, k2, k3⟩
  · rw [if_neg hc]
    simp only [Bool.and_eq_true, decide_eq_true_eq, Num.isSubnormal_iff] at hc
    refine ⟨⟨hx.wf, hx.bits, he, he', ?_, hx.sized⟩, rfl, rfl, rfl, ?_⟩
    · intro _ h
      dsimp only at h ⊢
      have : ¬ e > EMIN := fun h3 => hc ⟨h, h3⟩
      omega
    · unfold Num.toK
      dsimp only
      rw [show e - (64 * x.m.m.length : ℕ) = (x.e - (64 * x.m.m.length : ℕ)) + (e - x.e) by ring, two_zpow_add]
      ring

theorem C24_set_exponent_zero (x : Num) (hx : x.WF) (h0 : (x.toK : ℚ) = 0) (e : ℤ) :
    (BF.num x).setExponent e = .num x := by
  have hz := hx.toK_eq_zero.1 h0
  simp [BF.setExponent, Num.setExponent, hz]

example : ∃ v, (BF.num exB).setExponent 7 = .num v ∧ v.WF ∧ v.s = exB.s ∧ v.inexact = exB.inexact ∧
    v.m.m.length = exB.m.m.length ∧ (v.toK : ℚ) = exB.toK * 2 ^ ((7 : ℤ) - exB.e) :=
  C24_set_exponent exB exB_WF (by rw [exB_val]; norm_num) 7 (by decide) (by decide)

/-- A subnormal number: the smallest positive 64-bit number. -/
def exSub : Num := { e := EMIN, s := .pos, m := { m := [1], n := 1 }, inexact := false }
theorem exSub_WF : exSub.WF := Num.WF_of_check (by decide)
theorem exSub_ne : (exSub.toK : ℚ) ≠ 0 := by
  rw [Ne, exSub_WF.toK_eq_zero]; decide

example : ∃ v, (BF.num exSub).setExponent (EMIN + 10) = .num v ∧ v.WF ∧ v.s = exSub.s ∧
    v.inexact = exSub.inexact ∧ v.m.m.length = exSub.m.m.length ∧
    (v.toK : ℚ) = exSub.toK * 2 ^ (EMIN + 10 - exSub.e) :=
  C24_set_exponent exSub exSub_WF exSub_ne (EMIN + 10) (by decide) (by decide)

end AF
