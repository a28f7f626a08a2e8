import Verif.SpecRadix
import Verif.Model.Defs
/-!
# Specification of number literals

The syntax of numbers (documentation of `BigFloat::parse` in ext.rs, of `format` in strop.rs, and tests): an optional sign, digits with
an optional point, and an optional exponent introduced by `e` (by `_e` in radix 16), written in the same radix.
Letters may be of either case.
-/

namespace AF

variable {K : Type*} [Field K] [LinearOrder K]

/-- The value of a digit character. -/
def charDigit (c : Char) : Option Nat :=
  if 48 ≤ c.toNat ∧ c.toNat ≤ 57 then some (c.toNat - 48)
  else if 97 ≤ c.toNat ∧ c.toNat ≤ 102 then some (c.toNat - 87)
  else if 65 ≤ c.toNat ∧ c.toNat ≤ 70 then some (c.toNat - 55)
  else none

/-- The number of the radix. -/
def Radix.num : Radix → Nat
  | .bin => 2
  | .oct => 8
  | .dec => 10
  | .hex => 16

/-- A character is a digit in the radix. -/
def IsDig (rdx : Radix) (c : Char) : Prop := ∃ d, charDigit c = some d ∧ d < rdx.num

/-- The digits written by digit characters. -/
def digs (cs : List Char) : List Nat := cs.filterMap charDigit

/-- The parts of a number literal. The exponent has its letter, its sign and its digits. -/
structure Lit where
  sgn : List Char
  int : List Char
  point : Bool
  frac : List Char
  exp : Option (Char × List Char × List Char)

/-- An optional sign. -/
def IsSign (cs : List Char) : Prop := cs = [] ∨ cs = ['+'] ∨ cs = ['-']

/-- The text of a literal. -/
def Lit.text (l : Lit) (rdx : Radix) : List Char :=
  l.sgn ++ l.int ++ (if l.point then ['.'] else []) ++ l.frac ++
    (match l.exp with
    | none => []
    | some (c, sg, ds) => (if rdx = .hex then ['_'] else []) ++ c :: sg ++ ds)

/-- The documented syntax. -/
structure Lit.Valid (l : Lit) (rdx : Radix) : Prop where
  sgn : IsSign l.sgn
  int : ∀ c ∈ l.int, IsDig rdx c
  frac : ∀ c ∈ l.frac, IsDig rdx c
  point : l.point = false → l.frac = []
  some_digit : l.int ++ l.frac ≠ []
  exp : ∀ c sg ds, l.exp = some (c, sg, ds) → (c = 'e' ∨ c = 'E') ∧ IsSign sg ∧ ds ≠ [] ∧ ∀ d ∈ ds, IsDig rdx d

/-- The sign of a literal. -/
def Lit.sign (l : Lit) : Sign := if l.sgn = ['-'] then .neg else .pos

/-- The absolute value of the exponent of a literal. -/
def Lit.expAbs (l : Lit) (rdx : Radix) : Nat :=
  match l.exp with
  | none => 0
  | some (_, _, ds) => digNat rdx.num (digs ds)

/-- The exponent of a literal. -/
def Lit.expVal (l : Lit) (rdx : Radix) : Int :=
  match l.exp with
  | some (_, ['-'], _) => -(l.expAbs rdx : Int)
  | _ => l.expAbs rdx

/-- The number denoted by a literal. -/
def Lit.value (l : Lit) (rdx : Radix) : K :=
  Sign.toK l.sign * (digNat rdx.num (digs (l.int ++ l.frac)) : K) *
    (rdx.num : K) ^ (l.expVal rdx - (l.frac.length : Int))

/-- The number of digits in front of the point, without leading zeros. -/
def Lit.intLen (l : Lit) : Nat := (l.int.dropWhile (fun c => charDigit c = some 0)).length

end AF
