import Verif.Model.ExtDiv
import Verif.SpecExt
/-!
# The four rounded arithmetic operations, as one family

Used to state properties which hold for `add`, `sub`, `mul` and `div` alike.
-/

namespace AF

/-- The four operations of `BigFloat` which take a precision and a rounding mode. -/
inductive Op
  | add | sub | mul | div
  deriving DecidableEq, Repr

namespace Op

/-- The operation of the library. -/
def apply : Op → BF → BF → Nat → RM → BF
  | add => BF.add
  | sub => BF.sub
  | mul => BF.mul
  | div => BF.div

variable {K : Type*} [Field K]

/-- The mathematical operation. -/
def exact : Op → K → K → K
  | add, a, b => a + b
  | sub, a, b => a - b
  | mul, a, b => a * b
  | div, a, b => a / b

/-- Where the mathematical operation is defined: the divisor is not zero. -/
def Dom : Op → K → Prop
  | div, b => b ≠ 0
  | _, _ => True

end Op

end AF
