import Verif.Model.Num
import Verif.Spec
import Mathlib.Data.Nat.Size
/-!
# Specification of numbers and of rounded results

The value of a number, its well-formedness, and what it means for an operation to deliver the
correctly rounded exact value. Only the data of a number (`words`, `bit length`, `sign`,
`exponent`, `inexact`) is used, none of the model's functions.
-/

namespace AF

variable {K : Type*} [Field K] [LinearOrder K]

/-- The value of a number: `± 0.m · 2^e`, the mantissa read as a binary fraction. -/
def Num.toK (x : Num) : K :=
  Sign.toK x.s * (val x.m.m : K) * (2 : K) ^ (x.e - (64 * x.m.m.length : ℕ))

/-- The invariant of numbers built through the public interface. -/
structure Num.WF (x : Num) : Prop where
  /-- words are words -/
  wf : Wf x.m.m
  /-- the stored bit length is the position of the highest set bit -/
  bits : x.m.n = Nat.size (val x.m.m)
  emin : EMIN ≤ x.e
  emax : x.e ≤ EMAX
  /-- a non-zero number without its top bit set has the minimal exponent -/
  norm : 0 < x.m.n → x.m.n < 64 * x.m.m.length → x.e = EMIN
  /-- the precision limit enforced by every constructor -/
  sized : 64 * x.m.m.length ≤ 2 ^ 62 - 2 ^ 31

/-- The two round-to-nearest modes. -/
def RM.nearest : RM → Bool
  | .toEven | .toOdd => true
  | _ => false

/-- `r` is `x` correctly rounded to the format with `P` significant bits and smallest exponent
`EMIN` (gradual underflow: the grid is never finer than `2^(EMIN-P)`), unbounded above. -/
def RoundsFmt (rm : RM) (P : Nat) (x r : K) : Prop :=
  (x = 0 ∧ r = 0) ∨
  ∃ q : ℤ, (2 : K) ^ (q - 1) ≤ |x| ∧ |x| < (2 : K) ^ q ∧
    Rounds rm x ((2 : K) ^ (max q EMIN - (P : ℤ))) r

/-- What the library does to a value `t` below the normal range: it is rounded to the grid
`2^(EMIN-P)`, except that in the round-to-nearest modes a `t` of at least half of the smallest
positive number (and less than it) is replaced by zero. -/
def RoundsSub (rm : RM) (P : Nat) (t r : K) : Prop :=
  if rm.nearest = true ∧ (2 : K) ^ (EMIN - (P : ℤ)) / 2 ≤ |t| ∧ |t| < (2 : K) ^ (EMIN - (P : ℤ)) then
    r = 0
  else Rounds rm t ((2 : K) ^ (EMIN - (P : ℤ))) r

/-- The result `r` of an operation delivers the exact value `X` rounded to `P` bits in mode `rm`;
`ix` tells whether an operand was marked inexact.

* A number is well-formed, has `P` bits of precision and the sign of `X`; it is marked inexact
  exactly when an operand was, or when it differs from `X`. It is `X` correctly rounded, except
  that in the nearest modes below the normal range it may instead be the value rounded twice:
  first to `P` bits and then to the subnormal grid.
* The only error is exponent overflow, with the sign of `X`, and it occurs only when `X`
  rounded to `P` bits is `2^EMAX` or more in magnitude. -/
def Delivers (rm : RM) (P : Nat) (X : K) (ix : Bool) (r : Except Err Num) : Prop :=
  match r with
  | .ok v =>
    v.WF ∧ 64 * v.m.m.length = P ∧
    (0 < X → v.s = .pos) ∧ (X < 0 → v.s = .neg) ∧
    (v.inexact = true ↔ ix = true ∨ (v.toK : K) ≠ X) ∧
    (RoundsFmt rm P X v.toK ∨
      (rm.nearest = true ∧ |X| < (2 : K) ^ (EMIN - 1) ∧
        ∃ t : K, RoundsPrec rm P X t ∧ |t| < (2 : K) ^ (EMIN - 1) ∧ RoundsSub rm P t v.toK))
  | .error e =>
    ((0 < X ∧ e = .exponentOverflow .pos) ∨ (X < 0 ∧ e = .exponentOverflow .neg)) ∧
    ∃ t : K, RoundsPrec rm P X t ∧ (2 : K) ^ EMAX ≤ |t|

end AF
