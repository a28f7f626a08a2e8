import Verif.Lemmas.ExtDiv
/-!
# C08: the reciprocal is correctly rounded
-/

namespace AF

theorem C08_reciprocal_correctly_rounded (x : Num) (hx : x.WF) (hx0 : (x.toK : ℚ) ≠ 0)
    (p : Nat) (hp : ValidP p) (rm : RM) (hn : NormalRange rm (precBits p) (1 / x.toK : ℚ)) :
    ∃ v, BF.reciprocal (.num x) p rm = .num v ∧ 64 * v.m.m.length = precBits p ∧
      RoundsPrec rm (precBits p) (1 / x.toK : ℚ) v.toK :=
  (BF.reciprocal_delivers hx hx0 hp rm).normal hn

example : ∃ v, BF.reciprocal (.num exB) 64 .toOdd = .num v ∧ 64 * v.m.m.length = 64 ∧
    RoundsPrec .toOdd 64 (1 / exB.toK : ℚ) v.toK :=
  C08_reciprocal_correctly_rounded exB exB_WF (by rw [exB_val]; norm_num) 64 ValidP_64 .toOdd
    (NormalRange.of_bounds (by decide) (a := 1) (b := 5)
      (by rw [exB_val, abs_of_neg (by norm_num)]; norm_num)
      (by rw [exB_val, abs_of_neg (by norm_num)]; norm_num) (by decide) (by decide))

/-- The reciprocal of a zero is the infinity with the sign of the zero. -/
theorem C08_reciprocal_of_zero (x : Num) (hx : x.WF) (hx0 : (x.toK : ℚ) = 0) (p : Nat) (rm : RM) :
    BF.reciprocal (.num x) p rm = .inf x.s := by
  have hz : x.isZero = true := hx.toK_eq_zero.1 hx0
  have h1 : Num.ONE.isZero = false := by decide
  simp only [BF.reciprocal, Num.reciprocal, Num.div, hz, h1, if_true, Bool.false_eq_true, if_false,
    BF.resultToExt, Num.isPositive]
  by_cases h : x.s = .pos
  · simp [h, BF.INF_POS]
  · have h' : x.s = .neg := by cases h2 : x.s <;> simp_all
    simp [h', BF.INF_NEG]

example : BF.reciprocal (.num (Num.zero 128 .neg false)) 64 .toEven = .inf .neg :=
  C08_reciprocal_of_zero (Num.zero 128 .neg false) (zero_WF (by decide) _ _) (zero_toK _ _ _) 64 .toEven

/-- The reciprocal of an infinity is a zero of the requested precision with the sign of the infinity. -/
theorem C08_reciprocal_of_inf (s : Sign) (p : Nat) (hp : ValidP p) (rm : RM) :
    ∃ v, BF.reciprocal (.inf s) p rm = .num v ∧ v.WF ∧ 64 * v.m.m.length = precBits p ∧ (v.toK : ℚ) = 0 ∧
      v.s = s ∧ v.inexact = false := by
  refine ⟨Num.zero p s false, ?_, zero_WF ?_ _ _, by simp [Num.zero, Mantissa.new, precBits, wordLen],
    zero_toK _ _ _, rfl, rfl⟩
  · show (BF.new p).setSign s = _
    unfold BF.new Num.new
    rw [if_neg (by have := hp.lt_PMAX; have := hp.roundP; unfold precBits at this; omega)]; rfl
  · have := hp.2; unfold precBits at this; unfold wordLen; omega

theorem C08_reciprocal_of_nan (e : Option Err) (p : Nat) (rm : RM) : BF.reciprocal (.nan e) p rm = .nan e := rfl

example : ∃ v, BF.reciprocal (.inf .neg) 100 .up = .num v ∧ v.WF ∧ 64 * v.m.m.length = precBits 100 ∧
    (v.toK : ℚ) = 0 ∧ v.s = .neg ∧ v.inexact = false :=
  C08_reciprocal_of_inf .neg 100 ValidP_100 .up

end AF
