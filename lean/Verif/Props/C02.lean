import Verif.Lemmas.Samples
/-!
# C02: multiplication is correctly rounded

For finite operands of any precision and exponent (subnormal included) and every accepted `p`: when
the exact product is in the normal range, `mul` returns a number of `64 * ceil(p / 64)` bits which is
the exact product correctly rounded in the requested direction; a zero product gives zero.
-/

namespace AF

theorem C02_mul_correctly_rounded (x y : Num) (hx : x.WF) (hy : y.WF) (p : Nat) (hp : ValidP p)
    (rm : RM) (hn : NormalRange rm (precBits p) (x.toK * y.toK : ℚ)) :
    ∃ v, BF.mul (.num x) (.num y) p rm = .num v ∧ 64 * v.m.m.length = precBits p ∧
      RoundsPrec rm (precBits p) (x.toK * y.toK : ℚ) v.toK :=
  (BF.mul_delivers hx hy hp rm).normal hn

/-- The hypotheses hold for `1 + 2^-63` (64 bits) times about `-1/8` (128 bits) at 64 bits; the exact
product has 192 bits, so it is rounded. -/
example : ∃ v, BF.mul (.num exA) (.num exB) 64 .down = .num v ∧ 64 * v.m.m.length = 64 ∧
    RoundsPrec .down 64 (exA.toK * exB.toK : ℚ) v.toK :=
  C02_mul_correctly_rounded exA exB exA_WF exB_WF 64 ValidP_64 .down
    (NormalRange.of_bounds (by decide) (a := -4) (b := 1)
      (by rw [exA_val, exB_val, abs_of_neg (by norm_num)]; norm_num)
      (by rw [exA_val, exB_val, abs_of_neg (by norm_num)]; norm_num) (by decide) (by decide))

theorem C02_mul_zero (x y : Num) (hx : x.WF) (hy : y.WF) (p : Nat) (hp : ValidP p)
    (rm : RM) (hz : (x.toK * y.toK : ℚ) = 0) :
    ∃ v, BF.mul (.num x) (.num y) p rm = .num v ∧ 64 * v.m.m.length = precBits p ∧ v.toK = (0 : ℚ) :=
  (BF.mul_delivers hx hy hp rm).zero hz

example : ∃ v, BF.mul (.num exB) (.num (Num.zero 64 .neg false)) 100 .up = .num v ∧
    64 * v.m.m.length = 128 ∧ v.toK = (0 : ℚ) :=
  C02_mul_zero exB _ exB_WF (zero_WF (by decide) _ _) 100 ValidP_100 .up (by rw [zero_toK, mul_zero])

end AF
