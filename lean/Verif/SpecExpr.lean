import Verif.Model.Expr
import Verif.SpecExt
import Mathlib.Analysis.SpecialFunctions.Pow.Real
/-!
# What an expression of `expr!` means
-/

namespace AF

/-- The value of an expression over the real numbers. The arguments are exact. -/
inductive MExpr.Means : MExpr → ℝ → Prop
  | var {v : Num} : Means (.var (.num v)) v.toK
  | lit {v : Num} : Means (.lit (.num v)) v.toK
  | neg {a X} : Means a X → Means (.neg a) (-X)
  | add {a b X Y} : Means a X → Means b Y → Means (.add a b) (X + Y)
  | sub {a b X Y} : Means a X → Means b Y → Means (.sub a b) (X - Y)
  | mul {a b X Y} : Means a X → Means b Y → Means (.mul a b) (X * Y)
  | div {a b X Y} : Means a X → Means b Y → Y ≠ 0 → Means (.div a b) (X / Y)
  | rem {a b X Y R} {q : ℤ} : Means a X → Means b Y → Y ≠ 0 → X = q * Y + R → |R| < |Y| → 0 ≤ X * R → Means (.rem a b) R
  | recip {a X} : Means a X → X ≠ 0 → Means (.recip a) (1 / X)
  | sqrt {a X} : Means a X → 0 ≤ X → Means (.sqrt a) (Real.sqrt X)
  | cbrt {a X Y} : Means a X → Y ^ 3 = X → Means (.cbrt a) Y

/-- Well inside the range of normal numbers. -/
def InRange (S : ℝ) : Prop := (2 : ℝ) ^ (EMIN + 1) ≤ |S| ∧ |S| < 2 ^ (EMAX - 1)

/-- The expressions without `%` with value `X` and `n` operations for which the compensation of errors is proved: arguments of
at most `p + 64` bits in the range of exponents of the context; all values well inside the range of normal numbers, in
particular not zero; additions and subtractions that cancel at most `p + 24` bits. -/
inductive MExpr.Tame (p : Nat) (emin emax : Int) : MExpr → ℝ → Nat → Prop
  | var {v : Num} : v.WF → 64 * v.m.m.length ≤ p + 64 → InRange v.toK → emin ≤ v.e → v.e ≤ emax → Tame p emin emax (.var (.num v)) v.toK 0
  | lit {v : Num} : v.WF → v.inexact = false → InRange v.toK → emin ≤ v.e → v.e ≤ emax → Tame p emin emax (.lit (.num v)) v.toK 0
  | neg {a X n} : Tame p emin emax a X n → Tame p emin emax (.neg a) (-X) n
  | add {a b X Y m n} : Tame p emin emax a X m → Tame p emin emax b Y n → InRange (X + Y) →
      max |X| |Y| ≤ 2 ^ (p + 24) * |X + Y| → Tame p emin emax (.add a b) (X + Y) (m + n + 1)
  | sub {a b X Y m n} : Tame p emin emax a X m → Tame p emin emax b Y n → InRange (X - Y) →
      max |X| |Y| ≤ 2 ^ (p + 24) * |X - Y| → Tame p emin emax (.sub a b) (X - Y) (m + n + 1)
  | mul {a b X Y m n} : Tame p emin emax a X m → Tame p emin emax b Y n → InRange (X * Y) → Tame p emin emax (.mul a b) (X * Y) (m + n + 1)
  | div {a b X Y m n} : Tame p emin emax a X m → Tame p emin emax b Y n → InRange (X / Y) → Tame p emin emax (.div a b) (X / Y) (m + n + 1)
  | recip {a X n} : Tame p emin emax a X n → InRange (1 / X) → Tame p emin emax (.recip a) (1 / X) (n + 1)
  | sqrt {a X n} : Tame p emin emax a X n → 0 < X → InRange (Real.sqrt X) → Tame p emin emax (.sqrt a) (Real.sqrt X) (n + 1)
  | cbrt {a X Y n} : Tame p emin emax a X n → Y ^ 3 = X → InRange Y → Tame p emin emax (.cbrt a) Y (n + 1)

end AF
