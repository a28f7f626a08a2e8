import Verif.SpecConst
/-!
# Specification of the values of functions
-/

namespace AF

/-- What a delivered value of a function is: `v` stands for the number `y`, which is not zero and not a number of the
format. It has `P` bits, its sign and its inexact mark are right. In the four directed modes it is `y` correctly
rounded; in the nearest modes it is within `1/2 + 2^-61` units in the last place of the relative bound, in mode `None`
within `1 + 2^-60`. -/
structure FunRounded (rm : RM) (P : Nat) (y : ℝ) (v : Num) : Prop where
  wf : v.WF
  prec : 64 * v.m.m.length = P
  pos : 0 < y → v.s = .pos
  neg : y < 0 → v.s = .neg
  inexact : v.inexact = true
  directed : rm = .up ∨ rm = .down ∨ rm = .toZero ∨ rm = .fromZero → RoundsFmt rm P y v.toK
  nearest : rm = .toEven ∨ rm = .toOdd → |v.toK - y| ≤ |y| * (2 ^ (-(P : ℤ)) * (1 + 2 ^ (-60 : ℤ)))
  none : rm = .none → |v.toK - y| ≤ |y| * (2 ^ (1 - (P : ℤ)) * (1 + 2 ^ (-60 : ℤ)))

end AF
