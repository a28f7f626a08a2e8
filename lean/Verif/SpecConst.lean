import Verif.Spec
import Verif.SpecNum
import Mathlib.Data.Real.Basic
/-!
# Specification of the mathematical constants
-/

namespace AF

/-- What a delivered constant is: `v` stands for the irrational number `y`. It has `P` bits, its sign and its inexact
mark are right. In the four directed modes it is `y` correctly rounded; in the nearest modes it is within
`1/2 + 2^-61` units in the last place of the relative bound, in mode `None` within `1 + 2^-60`. -/
structure ConstRounded (rm : RM) (P : Nat) (y : ℝ) (v : Num) : Prop where
  wf : v.WF
  prec : 64 * v.m.m.length = P
  sign : v.s = .pos
  inexact : v.inexact = true
  directed : rm = .up ∨ rm = .down ∨ rm = .toZero ∨ rm = .fromZero → RoundsFmt rm P y v.toK
  nearest : rm = .toEven ∨ rm = .toOdd → |v.toK - y| ≤ |y| * (2 ^ (-(P : ℤ)) * (1 + 2 ^ (-60 : ℤ)))
  none : rm = .none → |v.toK - y| ≤ |y| * (2 ^ (1 - (P : ℤ)) * (1 + 2 ^ (-60 : ℤ)))

/-- The `g` bits of `y` below its first `P` bits are equal, up to the last place. -/
def NearGrid (P g : Nat) (y : ℝ) : Prop :=
  ∃ q : ℤ, (2 : ℝ) ^ (q - 1) ≤ y ∧ y < 2 ^ q ∧ ∃ j : ℤ, |y - j * 2 ^ (q - (P : ℤ))| ≤ 2 ^ (q - (P : ℤ) - g)

/-- A weaker description: `v` stands for a number `t` within `2^(-P-7)` of `y`. In the four directed modes it is `t`
correctly rounded; in the nearest modes it is within `1/2 + 2^-6` units in the last place of the relative bound of
`y`, in mode `None` within `1 + 2^-6`. -/
structure ConstClose (rm : RM) (P : Nat) (y : ℝ) (v : Num) : Prop where
  wf : v.WF
  prec : 64 * v.m.m.length = P
  sign : v.s = .pos
  inexact : v.inexact = true
  directed : rm = .up ∨ rm = .down ∨ rm = .toZero ∨ rm = .fromZero →
    ∃ t : ℝ, |t - y| ≤ y * 2 ^ (-(P : ℤ) - 7) ∧ RoundsFmt rm P t v.toK
  nearest : rm = .toEven ∨ rm = .toOdd → |v.toK - y| ≤ |y| * (2 ^ (-(P : ℤ)) * (1 + 2 ^ (-6 : ℤ)))
  none : rm = .none → |v.toK - y| ≤ |y| * (2 ^ (1 - (P : ℤ)) * (1 + 2 ^ (-6 : ℤ)))

end AF
