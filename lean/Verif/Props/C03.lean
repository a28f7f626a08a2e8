import Verif.Lemmas.ExtDiv
/-!
# C03: division is correctly rounded

For a finite dividend and a finite nonzero divisor of any precision and exponent (subnormal included)
and every accepted `p`: when the exact quotient is in the normal range, `div` returns a number of
`64 * ceil(p / 64)` bits which is the exact quotient correctly rounded in the requested direction; a
zero dividend gives zero.
-/

namespace AF

theorem C03_div_correctly_rounded (x y : Num) (hx : x.WF) (hy : y.WF) (hy0 : (y.toK : ℚ) ≠ 0)
    (p : Nat) (hp : ValidP p) (rm : RM) (hn : NormalRange rm (precBits p) (x.toK / y.toK : ℚ)) :
    ∃ v, BF.div (.num x) (.num y) p rm = .num v ∧ 64 * v.m.m.length = precBits p ∧
      RoundsPrec rm (precBits p) (x.toK / y.toK : ℚ) v.toK :=
  (BF.div_delivers hx hy hy0 hp rm).normal hn

/-- The hypotheses hold for `1 + 2^-63` (64 bits) divided by about `-1/8` (128 bits); the exact
quotient has infinitely many binary digits. -/
example : ∃ v, BF.div (.num exA) (.num exB) 100 .up = .num v ∧ 64 * v.m.m.length = 128 ∧
    RoundsPrec .up 128 (exA.toK / exB.toK : ℚ) v.toK :=
  C03_div_correctly_rounded exA exB exA_WF exB_WF (by rw [exB_val]; norm_num) 100 ValidP_100 .up
    (NormalRange.of_bounds (by decide) (a := 1) (b := 5)
      (by rw [exA_val, exB_val, abs_of_neg (by norm_num)]; norm_num)
      (by rw [exA_val, exB_val, abs_of_neg (by norm_num)]; norm_num) (by decide) (by decide))

theorem C03_div_zero (x y : Num) (hx : x.WF) (hy : y.WF) (hy0 : (y.toK : ℚ) ≠ 0)
    (p : Nat) (hp : ValidP p) (rm : RM) (hz : (x.toK : ℚ) = 0) :
    ∃ v, BF.div (.num x) (.num y) p rm = .num v ∧ 64 * v.m.m.length = precBits p ∧ v.toK = (0 : ℚ) :=
  (BF.div_delivers hx hy hy0 hp rm).zero (by rw [hz, zero_div])

example : ∃ v, BF.div (.num (Num.zero 64 .neg false)) (.num exB) 100 .up = .num v ∧
    64 * v.m.m.length = 128 ∧ v.toK = (0 : ℚ) :=
  C03_div_zero _ exB (zero_WF (by decide) _ _) exB_WF (by rw [exB_val]; norm_num) 100 ValidP_100 .up
    (zero_toK _ _ _)

end AF
