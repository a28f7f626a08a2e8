import Verif.Model.Ext
/-!
# Model of the random numbers (feature `random`)

The random generator is an argument: `Draws` holds the values that the calls of `rand::random` return, in the
order of the calls. Nothing is assumed about their distribution.
-/

namespace AF

/-- The values returned by `rand::random` during one call of `random_normal`: the words of the mantissa
(mantissa/mantissa.rs 1162-1164), the word that is mixed into the lowest one (1169), the `isize` from which the
exponent is made (num.rs 1323) and the byte that decides the sign (num.rs 1328). -/
structure Draws where
  words : List Nat
  mix : Nat
  r : Int
  byte : Nat

/-- `ret.m[0] ^= w` (mantissa/mantissa.rs 1169); the buffer is not empty where this is executed. -/
def xorLow (m : List Nat) (w : Nat) : List Nat :=
  match m with
  | [] => []
  | a :: t => (a ^^^ w) :: t

/-- `Mantissa::random_normal` (mantissa/mantissa.rs 1159-1172). The buffer has as many words as were drawn. -/
def Mantissa.randomNormal (d : Draws) : Mantissa :=
  let ret : Mantissa := ⟨d.words, 0⟩
  if !ret.isAllZero then
    let m := (maximize ret.m).1
    ⟨xorLow m (d.mix >>> 1), 64 * m.length⟩
  else ret

/-- `isize::abs`: the smallest value has no absolute value; `checked` builds panic, others return it unchanged. -/
def isizeAbs (checked : Bool) (r : Int) : Except Err Int :=
  if r = -2 ^ 63 then (if checked then .error .panic else .ok r) else .ok r.natAbs

/-- `as Exponent`: reduction to 32 bits, two's complement. -/
def asExponent (z : Int) : Int := (z + 2 ^ 31) % 2 ^ 32 - 2 ^ 31

/-- The choice of the exponent (num.rs 1322-1327). -/
def randomExponent (checked : Bool) (from_ to r : Int) : Except Err Int :=
  if from_ < to then
    match isizeAbs checked r with
    | .error x => .error x
    | .ok a => .ok (asExponent (a.tmod (to - from_) + from_))
  else .ok from_

namespace Num

/-- `random_normal` (num.rs 1314-1336), 64-bit target. `checked` tells whether arithmetic overflow panics. -/
def randomNormal (checked : Bool) (p : Nat) (from_ to : Int) (d : Draws) : Except Err Num :=
  if p ≥ PMAX then .error .invalidArgument
  else
    let m := Mantissa.randomNormal d
    match randomExponent checked from_ to d.r with
    | .error x => .error x
    | .ok e => .ok { e, s := if d.byte &&& 1 = 0 then .pos else .neg, m, inexact := false }

end Num

namespace BF

/-- `random_normal` (ext.rs 728-734). -/
def randomNormal (checked : Bool) (p : Nat) (from_ to : Int) (d : Draws) : BF :=
  resultToExt (Num.randomNormal checked p from_ to d) false true

end BF

end AF
