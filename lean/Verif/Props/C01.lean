import Verif.Lemmas.Samples
/-!
# C01: addition and subtraction are correctly rounded

For finite operands of any precision and exponent (subnormal included) and every accepted `p`: when
the exact sum is in the normal range, `add` returns a number of `64 * ceil(p / 64)` bits which is the
exact sum correctly rounded in the requested direction; when the exact sum is zero it returns zero.
-/

namespace AF

theorem C01_add_correctly_rounded (x y : Num) (hx : x.WF) (hy : y.WF) (p : Nat) (hp : ValidP p)
    (rm : RM) (hn : NormalRange rm (precBits p) (x.toK + y.toK : ℚ)) :
    ∃ v, BF.add (.num x) (.num y) p rm = .num v ∧ 64 * v.m.m.length = precBits p ∧
      RoundsPrec rm (precBits p) (x.toK + y.toK : ℚ) v.toK :=
  (BF.add_delivers hx hy hp rm).normal hn

/-- The hypotheses hold for `1 + 2^-63` (64 bits) plus about `-1/8` (128 bits) at 64 bits; the exact
sum has more than 64 bits, so it is rounded. -/
example : ∃ v, BF.add (.num exA) (.num exB) 64 .up = .num v ∧ 64 * v.m.m.length = 64 ∧
    RoundsPrec .up 64 (exA.toK + exB.toK : ℚ) v.toK :=
  C01_add_correctly_rounded exA exB exA_WF exB_WF 64 ValidP_64 .up
    (NormalRange.of_bounds (by decide) (a := -1) (b := 1)
      (by rw [exA_val, exB_val, abs_of_pos (by norm_num)]; norm_num)
      (by rw [exA_val, exB_val, abs_of_pos (by norm_num)]; norm_num) (by decide) (by decide))

theorem C01_sub_correctly_rounded (x y : Num) (hx : x.WF) (hy : y.WF) (p : Nat) (hp : ValidP p)
    (rm : RM) (hn : NormalRange rm (precBits p) (x.toK - y.toK : ℚ)) :
    ∃ v, BF.sub (.num x) (.num y) p rm = .num v ∧ 64 * v.m.m.length = precBits p ∧
      RoundsPrec rm (precBits p) (x.toK - y.toK : ℚ) v.toK :=
  (BF.sub_delivers hx hy hp rm).normal hn

example : ∃ v, BF.sub (.num exA) (.num exB) 100 .toEven = .num v ∧ 64 * v.m.m.length = 128 ∧
    RoundsPrec .toEven 128 (exA.toK - exB.toK : ℚ) v.toK :=
  C01_sub_correctly_rounded exA exB exA_WF exB_WF 100 ValidP_100 .toEven
    (NormalRange.of_bounds (by decide) (a := 0) (b := 1)
      (by rw [exA_val, exB_val, abs_of_pos (by norm_num)]; norm_num)
      (by rw [exA_val, exB_val, abs_of_pos (by norm_num)]; norm_num) (by decide) (by decide))

theorem C01_add_zero (x y : Num) (hx : x.WF) (hy : y.WF) (p : Nat) (hp : ValidP p)
    (rm : RM) (hz : (x.toK + y.toK : ℚ) = 0) :
    ∃ v, BF.add (.num x) (.num y) p rm = .num v ∧ 64 * v.m.m.length = precBits p ∧ v.toK = (0 : ℚ) :=
  (BF.add_delivers hx hy hp rm).zero hz

theorem C01_sub_zero (x y : Num) (hx : x.WF) (hy : y.WF) (p : Nat) (hp : ValidP p)
    (rm : RM) (hz : (x.toK - y.toK : ℚ) = 0) :
    ∃ v, BF.sub (.num x) (.num y) p rm = .num v ∧ 64 * v.m.m.length = precBits p ∧ v.toK = (0 : ℚ) :=
  (BF.sub_delivers hx hy hp rm).zero hz

example : ∃ v, BF.sub (.num exB) (.num exB) 100 .toEven = .num v ∧ 64 * v.m.m.length = 128 ∧
    v.toK = (0 : ℚ) :=
  C01_sub_zero exB exB exB_WF exB_WF 100 ValidP_100 .toEven (sub_self _)

end AF
