import Verif.Props.C04
/-!
# C05: the cube root is correctly rounded

The exact result is the unique real `y` with `y^3 = x` (of either sign).
-/

namespace AF

/-- The exact result exists and is unique, so that the theorems below speak about every operand. -/
theorem exists_real_cbrt (a : ℝ) : ∃ y : ℝ, y ^ 3 = a ∧ ∀ z : ℝ, z ^ 3 = a → z = y := by
  have hc : Continuous fun t : ℝ => t ^ 3 := continuous_pow 3
  have h1 : ∃ y : ℝ, y ^ 3 = a := by
    have hmem : a ∈ Set.Icc ((fun t : ℝ => t ^ 3) (-(|a| + 1))) ((fun t : ℝ => t ^ 3) (|a| + 1)) := by
      have h0 := abs_nonneg a
      have h2 := neg_abs_le a
      have h3 := le_abs_self a
      have h4 : |a| ≤ (|a| + 1) ^ 3 := by nlinarith [sq_nonneg |a|, mul_nonneg h0 (sq_nonneg |a|)]
      constructor
      · show (-(|a| + 1)) ^ 3 ≤ a
        have : (-(|a| + 1)) ^ 3 = -(|a| + 1) ^ 3 := by ring
        linarith
      · show a ≤ (|a| + 1) ^ 3
        linarith
    obtain ⟨y, _, hy⟩ := intermediate_value_Icc (by have := abs_nonneg a; linarith) hc.continuousOn hmem
    exact ⟨y, hy⟩
  obtain ⟨y, hy⟩ := h1
  refine ⟨y, hy, fun z hz => ?_⟩
  have h3 : Odd 3 := ⟨1, rfl⟩
  exact h3.strictMono_pow.injective (by simpa using hz.trans hy.symm)

theorem C05_cbrt_correctly_rounded (x : Num) (hx : x.WF) (y : ℝ) (hy : y ^ 3 = x.toK)
    (hn : (2 : ℝ) ^ (EMIN - 1) ≤ |y|) (p : Nat) (hp : ValidP p) (rm : RM) :
    ∃ v, BF.cbrt (.num x) p rm = .num v ∧ 64 * v.m.m.length = precBits p ∧
      RoundsPrec rm (precBits p) y v.toK :=
  (BF.cbrt_delivers hx hp rm hy).normal (root_normal hx (by norm_num) hy (precBits_pos hp.pos) hn)

/-- For every nonzero number with a mantissa of up to `2^31` bits, subnormal included. -/
theorem C05_cbrt_correctly_rounded_short (x : Num) (hx : x.WF) (y : ℝ) (hy : y ^ 3 = x.toK)
    (h0 : (x.toK : ℝ) ≠ 0) (hl : 64 * x.m.m.length ≤ 2 ^ 31) (p : Nat) (hp : ValidP p) (rm : RM) :
    ∃ v, BF.cbrt (.num x) p rm = .num v ∧ 64 * v.m.m.length = precBits p ∧
      RoundsPrec rm (precBits p) y v.toK :=
  C05_cbrt_correctly_rounded x hx y hy (root_short hx (by norm_num) hy h0 hl) p hp rm

/-- A numeric result has the sign of the operand and is marked inexact exactly when the operand is or
the root was rounded; a result is never a NaN or an infinity. -/
theorem C05_cbrt_sign_inexact (x : Num) (hx : x.WF) (y : ℝ) (hy : y ^ 3 = x.toK) (p : Nat)
    (hp : ValidP p) (rm : RM) :
    ∃ v, BF.cbrt (.num x) p rm = .num v ∧ (0 < (x.toK : ℝ) → v.s = .pos) ∧
      ((x.toK : ℝ) < 0 → v.s = .neg) ∧
      (v.inexact = true ↔ x.inexact = true ∨ (v.toK : ℝ) ≠ y) := by
  have h := BF.cbrt_delivers hx hp rm hy
  have hp3 : (0 < (x.toK : ℝ) → 0 < y) := by
    intro h0; rw [← hy] at h0
    exact (Odd.pow_pos_iff ⟨1, rfl⟩).1 h0
  have hn3 : ((x.toK : ℝ) < 0 → y < 0) := by
    intro h0; rw [← hy] at h0
    exact (Odd.pow_neg_iff ⟨1, rfl⟩).1 h0
  cases hr : BF.cbrt (.num x) p rm with
  | num v =>
    rw [hr] at h
    exact ⟨v, rfl, fun h0 => h.2.2.1 (hp3 h0), fun h0 => h.2.2.2.1 (hn3 h0), h.2.2.2.2.1⟩
  | inf s =>
    rw [hr] at h
    obtain ⟨_, t, h1, h2⟩ := h
    have h3 : (2 : ℝ) ^ (EMIN - 1) ≤ |y| := by
      by_contra hc
      push Not at hc
      have := h1.abs_le (precBits_pos hp.pos) hc.le
      have h4 := (zpow_le_zpow_iff_right₀ (by norm_num : (1 : ℝ) < 2)).1 (h2.trans this)
      exact absurd h4 (by decide)
    exact absurd ((root_normal hx (by norm_num) hy (precBits_pos hp.pos) h3).2 t h1) (not_lt.2 h2)
  | nan e => rw [hr] at h; exact absurd h id

theorem C05_cbrt_zero (x : Num) (hx : x.WF) (h0 : (x.toK : ℝ) = 0) (p : Nat) (hp : ValidP p) (rm : RM) :
    ∃ v, BF.cbrt (.num x) p rm = .num v ∧ 64 * v.m.m.length = precBits p ∧ (v.toK : ℝ) = 0 :=
  (BF.cbrt_delivers hx hp rm (y := (0 : ℝ)) (by rw [h0]; norm_num)).zero rfl

/-- A negative operand of 128 bits, about `-1/8`. -/
example : ∃ y : ℝ, y ^ 3 = exB.toK ∧ ∃ v, BF.cbrt (.num exB) 100 .toOdd = .num v ∧
    64 * v.m.m.length = precBits 100 ∧ RoundsPrec .toOdd (precBits 100) y v.toK := by
  obtain ⟨y, hy, _⟩ := exists_real_cbrt exB.toK
  exact ⟨y, hy, C05_cbrt_correctly_rounded_short exB exB_WF y hy (by rw [exB_val_real]; norm_num)
    (by decide) 100 ValidP_100 .toOdd⟩

example : ∃ v, BF.cbrt (.num (Num.zero 64 .neg false)) 100 .up = .num v ∧
    64 * v.m.m.length = precBits 100 ∧ (v.toK : ℝ) = 0 :=
  C05_cbrt_zero _ (zero_WF (by decide) _ _) (zero_toK _ _ _) 100 ValidP_100 .up

end AF
