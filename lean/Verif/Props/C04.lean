import Verif.Lemmas.RootBounds
import Mathlib.Analysis.Real.Sqrt
/-!
# C04: the square root is correctly rounded

The exact result is the real square root. The root of a number cannot overflow; it can be below the
normal range only when the operand is subnormal with a mantissa of more than `2^31` bits, hence the
two forms of the theorem.
-/

namespace AF

theorem C04_sqrt_correctly_rounded (x : Num) (hx : x.WF) (h0 : (0 : ℝ) ≤ x.toK)
    (hn : (2 : ℝ) ^ (EMIN - 1) ≤ √(x.toK : ℝ)) (p : Nat) (hp : ValidP p) (rm : RM) :
    ∃ v, BF.sqrt (.num x) p rm = .num v ∧ 64 * v.m.m.length = precBits p ∧
      RoundsPrec rm (precBits p) √(x.toK : ℝ) v.toK :=
  (BF.sqrt_delivers hx (Num.WF.sign_of_nonneg h0) hp rm (Real.sqrt_nonneg _)
    (Real.mul_self_sqrt h0)).normal
    (root_normal hx (k := 2) le_rfl (by rw [Real.sq_sqrt h0]) (precBits_pos hp.pos)
      (by rwa [abs_of_nonneg (Real.sqrt_nonneg _)]))

/-- For every positive number with a mantissa of up to `2^31` bits, subnormal included. -/
theorem C04_sqrt_correctly_rounded_short (x : Num) (hx : x.WF) (h0 : (0 : ℝ) < x.toK)
    (hl : 64 * x.m.m.length ≤ 2 ^ 31) (p : Nat) (hp : ValidP p) (rm : RM) :
    ∃ v, BF.sqrt (.num x) p rm = .num v ∧ 64 * v.m.m.length = precBits p ∧
      RoundsPrec rm (precBits p) √(x.toK : ℝ) v.toK := by
  refine C04_sqrt_correctly_rounded x hx h0.le ?_ p hp rm
  have := root_short hx (k := 2) le_rfl (Real.sq_sqrt h0.le) h0.ne' hl
  rwa [abs_of_nonneg (Real.sqrt_nonneg _)] at this

/-- The result is marked inexact exactly when the operand is or the root was rounded. -/
theorem C04_sqrt_inexact (x : Num) (hx : x.WF) (h0 : (0 : ℝ) ≤ x.toK) (p : Nat) (hp : ValidP p)
    (rm : RM) (v : Num) (hv : BF.sqrt (.num x) p rm = .num v) :
    v.inexact = true ↔ x.inexact = true ∨ (v.toK : ℝ) ≠ √(x.toK : ℝ) := by
  have h := BF.sqrt_delivers hx (Num.WF.sign_of_nonneg h0) hp rm (Real.sqrt_nonneg _)
    (Real.mul_self_sqrt h0)
  rw [hv] at h
  exact h.2.2.2.2.1

theorem C04_sqrt_zero (x : Num) (hx : x.WF) (h0 : (x.toK : ℝ) = 0) (p : Nat) (hp : ValidP p) (rm : RM) :
    ∃ v, BF.sqrt (.num x) p rm = .num v ∧ 64 * v.m.m.length = precBits p ∧ (v.toK : ℝ) = 0 :=
  (BF.sqrt_delivers hx (Or.inr h0) hp rm le_rfl (by rw [h0, mul_zero])).zero rfl

theorem C04_sqrt_negative (x : Num) (hx : x.WF) (h0 : (x.toK : ℝ) < 0) (p : Nat) (rm : RM) :
    BF.sqrt (.num x) p rm = .nan (some .invalidArgument) := by
  have hz : ¬ x.isZero = true := fun h => absurd (hx.toK_eq_zero (K := ℝ) |>.2 h) h0.ne
  have hs : x.s = .neg := by
    by_contra hc
    have hp : x.s = .pos := by
      cases h : x.s with
      | pos => rfl
      | neg => exact absurd h hc
    have h1 := Num.toK_eq (K := ℝ) x
    rw [hp] at h1
    have : (x.toK : ℝ) = |(x.toK : ℝ)| := by conv_lhs => rw [h1]; simp [Sign.toK]
    have := abs_nonneg (x.toK : ℝ)
    linarith
  unfold BF.sqrt BF.wrap Num.sqrt
  dsimp only
  by_cases hp : roundP p ≥ PMAX
  · rw [if_pos hp]; rfl
  · rw [if_neg hp, if_neg hz, if_pos hs]; rfl

theorem exA_val_real : (exA.toK : ℝ) = 9223372036854775809 / 9223372036854775808 := by
  norm_num [Num.toK, exA, Sign.toK, val, MSB]

theorem exB_val_real : (exB.toK : ℝ) =
    -170141183460469231787027535937012760581 / 1361129467683753853853498429727072845824 := by
  norm_num [Num.toK, exB, Sign.toK, val, MSB, B, zpow_neg]

/-- The root of `1 + 2^-63`, irrational, to 128 bits. -/
example : ∃ v, BF.sqrt (.num exA) 100 .up = .num v ∧ 64 * v.m.m.length = precBits 100 ∧
    RoundsPrec .up (precBits 100) √(exA.toK : ℝ) v.toK :=
  C04_sqrt_correctly_rounded_short exA exA_WF (by rw [exA_val_real]; norm_num) (by decide) 100
    ValidP_100 .up

example : BF.sqrt (.num exB) 100 .up = .nan (some .invalidArgument) :=
  C04_sqrt_negative exB exB_WF (by rw [exB_val_real]; norm_num) 100 .up

example : ∃ v, BF.sqrt (.num (Num.zero 64 .neg false)) 100 .up = .num v ∧
    64 * v.m.m.length = precBits 100 ∧ (v.toK : ℝ) = 0 :=
  C04_sqrt_zero _ (zero_WF (by decide) _ _) (zero_toK _ _ _) 100 ValidP_100 .up

end AF
