import Verif.Model.Ext
import Verif.SpecNum
import Mathlib.Algebra.Order.Field.Rat
/-!
# Specification at the level of the public type `BigFloat`
-/

namespace AF

/-- The mantissa length, in bits, that a requested precision stands for: the next multiple of the
word size. -/
def precBits (p : Nat) : Nat := 64 * ((p + 63) / 64)

/-- Precisions accepted by the library on a 64-bit target: at least 1, and below
`isize::MAX / 2 + EXPONENT_MIN` after rounding up to words. -/
structure ValidP (p : Nat) : Prop where
  pos : 0 < p
  lt : precBits p < 2 ^ 62 - 2 ^ 31 - 1

/-- Well-formedness of a `BigFloat`: a numeric value satisfies the number invariant. -/
def BF.WF : BF → Prop
  | .num v => v.WF
  | _ => True

/-- The order on non-NaN values by their meaning, infinities included. -/
def BF.Le : BF → BF → Prop
  | .nan _, _ => False
  | _, .nan _ => False
  | .inf .neg, _ => True
  | _, .inf .pos => True
  | .num x, .num y => (x.toK : ℚ) ≤ y.toK
  | _, _ => False

/-- The pairs on which `cmp` is right: the first is zero, or the second is not, or the signs differ,
or the first is not too small compared with the mantissa length of the zero it is compared with. -/
def CmpOk (x y : Num) : Prop :=
  (x.toK : ℚ) = 0 ∨ (y.toK : ℚ) ≠ 0 ∨ x.s ≠ y.s ∨
    (y.e = 0 ∧ (2 : ℚ) ^ (-(64 * y.m.m.length : ℕ) : ℤ) ≤ |(x.toK : ℚ)|)

variable {K : Type*} [Field K] [LinearOrder K]

/-- `r` delivers the exact value `X`, see `Delivers`: it is a number delivering `X`, or the infinity
with the sign of `X` when `X` rounded to `P` bits reaches `2^EMAX`. It is never a NaN. -/
def DeliversBF (rm : RM) (P : Nat) (X : K) (ix : Bool) : BF → Prop
  | .num v => Delivers rm P X ix (.ok v)
  | .inf s => ((0 < X ∧ s = .pos) ∨ (X < 0 ∧ s = .neg)) ∧
      ∃ t : K, RoundsPrec rm P X t ∧ (2 : K) ^ EMAX ≤ |t|
  | .nan _ => False

/-- The exact result `X`, rounded to `P` bits, is in the normal range: it is not smaller than the
smallest normal number and does not reach `2^EMAX`. -/
def NormalRange (rm : RM) (P : Nat) (X : K) : Prop :=
  (2 : K) ^ (EMIN - 1) ≤ |X| ∧ ∀ t : K, RoundsPrec rm P X t → |t| < (2 : K) ^ EMAX

end AF
