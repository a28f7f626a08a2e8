import Verif.Lemmas.DecInt
/-!
# C33: decimal integer conversion

Digits to integer: exact for every digit string and every history of the cache of powers of ten, and refused when
a digit is above 9.

Integer to digits: the full statement is that the digits returned evaluate to the integer. It is refuted: if an
aligned block of 64 (128, 256, ...) decimal digits that is not the leading one has 32 (64, 128, ...) leading zeros
but does not fit into a word, these zeros are dropped. The partial theorem covers every integer without such a
block (`GapFree`).
-/

namespace AF

/-- No aligned block of `2^(i+1)` decimal digits (`i ≥ 5`) below the leading one has an all-zero upper half and a
lower half of at least `2^64`. -/
def GapFree (v : Nat) : Prop :=
  ∀ i ≥ 5, ∀ j, 10 ^ (2 ^ (i + 1) * (j + 1)) ≤ v →
    let b := v / 10 ^ (2 ^ (i + 1) * j) % 10 ^ 2 ^ (i + 1)
    b < 2 ^ 64 ∨ 10 ^ 2 ^ i ≤ b

set_option exponentiation.threshold 50000 in
/-- The digit count `n * 301029996 / 10^9 + 1` used by `conv_to_dec` suffices for `n` bits. -/
theorem two_pow_lt_ten_pow (n : Nat) : 2 ^ n < 10 ^ (n * 301029996 / 1000000000 + 1) := by
  set q := n * 301029996 / 1000000000 + 1 with hq
  have h1 : n * 12655 < q * 42039 := by omega
  have h2 : (2 : ℕ) ^ 42039 ≤ 10 ^ 12655 := by decide +kernel
  by_contra hc
  have h3 : (10 ^ q) ^ 42039 ≤ (2 ^ n) ^ 42039 := Nat.pow_le_pow_left (by omega) _
  have h4 : ((2 : ℕ) ^ n) ^ 42039 ≤ 10 ^ (n * 12655) := by
    rw [← pow_mul, Nat.mul_comm n 42039, pow_mul, Nat.mul_comm n 12655, pow_mul]
    exact Nat.pow_le_pow_left h2 _
  have h5 : (10 : ℕ) ^ (n * 12655) < 10 ^ (q * 42039) := Nat.pow_lt_pow_right (by norm_num) h1
  rw [pow_mul 10 q] at h5
  omega

theorem GapFree.top {v : Nat} (h : GapFree v) (p : Nat) : TopGood p v := by
  intro i _ j
  by_cases hv : v < 10 ^ (2 ^ (i + 1) * (j + 1))
  · exact Or.inr hv
  · left
    by_cases h5 : 5 ≤ i
    · exact h i h5 j (by omega)
    · generalize v / 10 ^ (2 ^ (i + 1) * j) % 10 ^ 2 ^ (i + 1) = b
      unfold GoodBlock
      have : 10 ^ 2 ^ i ≤ 10 ^ 2 ^ 4 := Nat.pow_le_pow_right (by norm_num) (Nat.pow_le_pow_right (by norm_num) (by omega))
      norm_num at this ⊢
      omega

/-- Digits to integer, with the cache as the caller prepares it. -/
theorem C33_from_dec (tp : List TenPow) (htp : TenHist tp) (ds : List Nat) (hne : ds ≠ []) :
    let r := mantFromDec ds (tenpowers tp (log2Ceil ds.length))
    ((∀ d ∈ ds, d ≤ 9) → ∃ m, r = .ok m ∧ Wf m.m ∧ val m.m = digNat 10 ds ∧ m.n = Nat.size (digNat 10 ds)) ∧
    ((∃ d ∈ ds, 9 < d) → r = .error .invalidArgument) := by
  intro r
  obtain ⟨h1, h2⟩ := tenpowers_ok htp.ok (log2Ceil ds.length)
  exact ⟨fun hd => mantFromDec_spec h1 hne hd
    ((le_pow_log2Ceil _).trans (Nat.pow_le_pow_right (by norm_num) h2)), fun hd => mantFromDec_bad hd⟩

example : mantFromDec [0, 1, 2, 3, 4, 5, 6, 7, 8, 9, 0, 1, 2, 3, 4, 5, 6, 7, 8, 9] (tenpowers [] 5) =
    .ok ⟨[1234567890123456789], 61⟩ := by decide +kernel

/-- Integer to digits, with the cache and the depth as the caller chooses them. -/
theorem C33_to_dec_partial (tp : List TenPow) (htp : TenHist tp) (x : Mantissa) (hw : Wf x.m)
    (hn : x.n = Nat.size (val x.m)) (h4 : 4 ≤ x.n) (hg : GapFree (val x.m)) :
    let k := log2Ceil (x.n * 301029996 / 1000000000 + 1)
    ∃ ds, mantToDec (tenpowers tp k) (k - 1) x (1 <<< k) true = .ok ds ∧ digNat 10 ds = val x.m ∧
      (∀ d ∈ ds, d ≤ 9) ∧ ds.head? ≠ some 0 := by
  intro k
  obtain ⟨h1, h2⟩ := tenpowers_ok htp.ok k
  have hk : x.n * 301029996 / 1000000000 + 1 ≤ 2 ^ k := le_pow_log2Ceil _
  have hk0 : 0 < k := by
    rcases Nat.eq_zero_or_pos k with h | h
    · rw [h] at hk; omega
    · exact h
  have hlt : val x.m < 10 ^ 2 ^ (k - 1 + 1) := by
    rw [Nat.sub_add_cancel hk0]
    refine lt_of_lt_of_le (b := 2 ^ x.n) (by rw [hn]; exact Nat.lt_size_self _) ?_
    exact (two_pow_lt_ten_pow _).le.trans (Nat.pow_le_pow_right (by norm_num) hk)
  obtain ⟨ds, a1, a2, a3, _, a5⟩ := mantToDec_spec h1 (k - 1) x true ⟨hw, hn⟩ hlt (Or.inr (by omega)) (hg.top _)
  refine ⟨ds, ?_, a2, a3, a5 rfl⟩
  rw [← a1, Nat.one_shiftLeft, Nat.sub_add_cancel hk0]

/-- An integer of 100 digits that meets the hypothesis. -/
def exDecInt : Mantissa := ⟨[0, 0, 0, 0, 1, 2], 322⟩

example : exDecInt.n = Nat.size (val exDecInt.m) ∧ GapFree (val exDecInt.m) := by
  refine ⟨by decide +kernel, ?_⟩
  intro i hi j hj
  have hv : val exDecInt.m < 10 ^ 128 := by decide +kernel
  have h1 : 2 ^ (i + 1) * (j + 1) < 128 := by
    by_contra hc
    have : (10 : ℕ) ^ 128 ≤ 10 ^ (2 ^ (i + 1) * (j + 1)) := Nat.pow_le_pow_right (by norm_num) (by omega)
    omega
  have h2 : i = 5 := by
    by_contra hc
    have : 2 ^ 7 ≤ 2 ^ (i + 1) := Nat.pow_le_pow_right (by norm_num) (by omega)
    have : 2 ^ (i + 1) * 1 ≤ 2 ^ (i + 1) * (j + 1) := Nat.mul_le_mul_left _ (by omega)
    omega
  subst h2
  have h3 : j = 0 := by omega
  subst h3
  decide +kernel

/-- The integer `10^64 + 2^64`; its lower 64 digits have 44 leading zeros. -/
def exGap : Mantissa := ⟨[(10 ^ 64 + 2 ^ 64) % B, (10 ^ 64 + 2 ^ 64) / B % B, (10 ^ 64 + 2 ^ 64) / B ^ 2 % B,
  (10 ^ 64 + 2 ^ 64) / B ^ 3], 213⟩

/-- The digits returned are those of `10^32 + 2^64`: 32 zeros are missing. -/
theorem C33_to_dec_refuted :
    Wf exGap.m ∧ exGap.n = Nat.size (val exGap.m) ∧ val exGap.m = 10 ^ 64 + 2 ^ 64 ∧
    let k := log2Ceil (exGap.n * 301029996 / 1000000000 + 1)
    ∃ ds, mantToDec (tenpowers [] k) (k - 1) exGap (1 <<< k) true = .ok ds ∧ digNat 10 ds = 10 ^ 32 + 2 ^ 64 := by
  refine ⟨by unfold Wf; decide +kernel, by decide +kernel, by decide +kernel, ?_⟩
  refine ⟨1 :: (List.replicate 12 0 ++ [1, 8, 4, 4, 6, 7, 4, 4, 0, 7, 3, 7, 0, 9, 5, 5, 1, 6, 1, 6]), ?_, ?_⟩ <;>
    decide +kernel

end AF
