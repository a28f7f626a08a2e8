import Verif.SpecNum
import Verif.Model.Radix
/-!
# Specification of digit strings

The value of a digit string, independent of how the library reads or writes digits.
-/

namespace AF

variable {K : Type*} [Field K] [LinearOrder K]

/-- The natural number written by the digits `ds`, most significant first, in radix `b`. -/
def digNat (b : Nat) (ds : List Nat) : Nat := ds.foldl (fun a d => a * b + d) 0

/-- The value `± 0.d₁d₂d₃… · b^e` of sign, digits and exponent. -/
def radixVal (b : Nat) (d : Digits) : K :=
  Sign.toK d.1 * (digNat b d.2.1 : K) * (b : K) ^ (d.2.2 - d.2.1.length)

end AF
