import Verif.Lemmas.NumRoot
import Verif.Lemmas.Op
import Verif.Lemmas.Samples
/-! # Roots of numbers are in the normal range -/

namespace AF
set_option linter.unusedSectionVars false

variable {K : Type*} [Field K] [LinearOrder K] [IsStrictOrderedRing K]

theorem Num.WF.abs_ge {x : Num} (hx : x.WF) (h0 : (x.toK : K) ≠ 0) :
    (2 : K) ^ (EMIN - (64 * x.m.m.length : ℕ)) ≤ |(x.toK : K)| := by
  rw [Num.abs_val]
  have hv : 1 ≤ val x.m.m := by
    rcases Nat.eq_zero_or_pos (val x.m.m) with h | h
    · exact absurd (by unfold Num.toK; rw [h]; simp) h0
    · exact h
  have hv' : (1 : K) ≤ val x.m.m := by exact_mod_cast hv
  have h1 : (2 : K) ^ (EMIN - (64 * x.m.m.length : ℕ)) ≤ 2 ^ (x.e - (64 * x.m.m.length : ℕ)) :=
    zpow_le_zpow_right₀ (by norm_num) (by have := hx.emin; omega)
  have h2 := two_zpow_pos (K := K) (x.e - (64 * x.m.m.length : ℕ))
  nlinarith

theorem zpow_mul_nat (a : ℤ) (k : ℕ) : (2 : K) ^ (a * k) = ((2 : K) ^ a) ^ k := by
  rw [zpow_mul, zpow_natCast]

/-- The `k`-th root of a number does not overflow. -/
theorem root_normal {x : Num} (hx : x.WF) {k : ℕ} (hk : 2 ≤ k) {y : K} (hy : y ^ k = x.toK) {rm : RM}
    {P : Nat} (hP : 0 < P) (hn : (2 : K) ^ (EMIN - 1) ≤ |y|) : NormalRange rm P y := by
  refine NormalRange.of_bounds hP hn (b := EMAX - 1) ?_ le_rfl (by omega)
  by_contra hc
  push Not at hc
  have h1 : ((2 : K) ^ (EMAX - 1)) ^ k ≤ |y| ^ k := pow_le_pow_left₀ (two_zpow_pos _).le hc.le k
  rw [← abs_pow, hy, ← zpow_mul_nat] at h1
  have h2 := lt_of_le_of_lt h1 hx.abs_lt_emax
  have h3 := (zpow_lt_zpow_iff_right₀ (by norm_num : (1 : K) < 2)).1 h2
  have hk' : (2 : ℤ) ≤ k := by exact_mod_cast hk
  unfold EMAX at h3
  nlinarith

/-- The `k`-th root of a nonzero number of up to `2^31` bits does not underflow. -/
theorem root_short {x : Num} (hx : x.WF) {k : ℕ} (hk : 2 ≤ k) {y : K} (hy : y ^ k = x.toK)
    (h0 : (x.toK : K) ≠ 0) (hl : 64 * x.m.m.length ≤ 2 ^ 31) : (2 : K) ^ (EMIN - 1) ≤ |y| := by
  by_contra hc
  push Not at hc
  have h1 : |y| ^ k < ((2 : K) ^ (EMIN - 1)) ^ k := pow_lt_pow_left₀ hc (abs_nonneg _) (by omega)
  rw [← abs_pow, hy, ← zpow_mul_nat] at h1
  have h2 := lt_of_le_of_lt (hx.abs_ge h0) h1
  have h3 := (zpow_lt_zpow_iff_right₀ (by norm_num : (1 : K) < 2)).1 h2
  have hk' : (2 : ℤ) ≤ k := by exact_mod_cast hk
  have hl' : ((64 * x.m.m.length : ℕ) : ℤ) ≤ 2 ^ 31 := by exact_mod_cast hl
  unfold EMIN at h3
  nlinarith

theorem Num.WF.sign_of_nonneg {x : Num} (h0 : (0 : K) ≤ x.toK) :
    x.s = .pos ∨ (x.toK : K) = 0 := by
  by_cases h : x.s = .pos
  · exact Or.inl h
  · right
    have hn : x.s = .neg := by
      cases hs : x.s with
      | pos => exact absurd hs h
      | neg => rfl
    have h1 := Num.toK_eq (K := K) x
    rw [hn] at h1
    have : (x.toK : K) = -|(x.toK : K)| := by rw [h1]; simp [Sign.toK]
    have := abs_nonneg (x.toK : K)
    linarith

end AF
