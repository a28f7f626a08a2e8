import Verif.Model.Defs
import Mathlib.Algebra.Order.Field.Basic
import Mathlib.Algebra.Field.Rat
import Mathlib.Algebra.Order.Ring.Rat
import Mathlib.Algebra.Ring.Parity
import Mathlib.Algebra.Order.AbsoluteValue.Basic
/-!
# Specifications

What it means for `r` to be `x` rounded on a grid, or to a given number of significant bits.
These definitions do not mention the model's words, mantissas or helper functions. They are stated
over an arbitrary linearly ordered field so that they apply to rational and to real values.
-/

namespace AF

/-- The natural number denoted by a little-endian list of base-`B` words. -/
def val : List Nat → Nat
  | [] => 0
  | x :: xs => x + B * val xs

/-- Every word is below the base. -/
def Wf (m : List Nat) : Prop := ∀ x ∈ m, x < B

variable {K : Type*} [Field K] [LinearOrder K]

/-- `r` is the multiple of `u` obtained by rounding `x` in mode `rm`.

* `toZero` (and `none`, which discards the excess bits): towards zero;
* `fromZero`: away from zero; `up` / `down`: towards plus / minus infinity;
* `toEven` / `toOdd`: nearest multiple, ties going to the even / odd one.

The mode names are those of `RoundingMode` in `defs.rs`. -/
def Rounds (rm : RM) (x u r : K) : Prop :=
  ∃ k : ℤ, r = k * u ∧
    match rm with
    | .none | .toZero => |r| ≤ |x| ∧ |x| < |r| + u ∧ 0 ≤ x * r
    | .fromZero => |x| ≤ |r| ∧ |r| < |x| + u ∧ 0 ≤ x * r
    | .up => x ≤ r ∧ r < x + u
    | .down => r ≤ x ∧ x < r + u
    | .toEven => |x - r| ≤ u / 2 ∧ (|x - r| = u / 2 → Even k)
    | .toOdd => |x - r| ≤ u / 2 ∧ (|x - r| = u / 2 → Odd k)

/-- `r` is `x` rounded to `P` significant bits: `2^(q-1) ≤ |x| < 2^q` and the grid is `2^(q-P)`. -/
def RoundsPrec (rm : RM) (P : Nat) (x r : K) : Prop :=
  (x = 0 ∧ r = 0) ∨
  ∃ q : ℤ, (2 : K) ^ (q - 1) ≤ |x| ∧ |x| < (2 : K) ^ q ∧ Rounds rm x ((2 : K) ^ (q - P)) r

/-- The sign as a number. -/
def Sign.toK (s : Sign) : K := match s with
  | .pos => 1
  | .neg => -1

end AF
