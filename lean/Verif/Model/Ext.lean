import Verif.Model.Mul
/-!
# Model of `BigFloat` (ext.rs): numbers with `Inf` and `NaN`

`&mut self` methods return the updated number. A Rust panic inside a `BigFloatNumber` function shows
up as `nan (some .panic)`, a value which no Rust execution returns.
Division, remainder, roots and powers are in `Verif.Model.ExtDiv` and later files.
-/

namespace AF

/-- `BigFloat` / `Flavor` (ext.rs 47-57). -/
inductive BF
  | num (n : Num)
  | nan (e : Option Err)
  | inf (s : Sign)
  deriving DecidableEq, Repr

/-- `FpCategory` (core::num). -/
inductive FpCategory
  | nan | infinite | zero | subnormal | normal
  deriving DecidableEq, Repr

namespace BF

/-- `NAN` (ext.rs 23-25). -/
def NAN : BF := nan none
/-- `INF_POS` (ext.rs 28-30). -/
def INF_POS : BF := inf .pos
/-- `INF_NEG` (ext.rs 33-35). -/
def INF_NEG : BF := inf .neg

/-- `result_to_ext` (ext.rs 791-821). -/
def resultToExt (r : Except Err Num) (divZero same : Bool) : BF :=
  match r with
  | .ok v => num v
  | .error (.exponentOverflow s) => if s.isPos then INF_POS else INF_NEG
  | .error .divisionByZero => if divZero then NAN else if same then INF_POS else INF_NEG
  | .error .memoryAllocation => nan (some .memoryAllocation)
  | .error .invalidArgument => nan (some .invalidArgument)
  | .error .panic => nan (some .panic)

/-- `new` (ext.rs 62-64). -/
def new (p : Nat) : BF := resultToExt (Num.new p) false true

/-- `from_f64` (ext.rs 69-71), the argument being the bit pattern. -/
def fromF64 (u p : Nat) : BF := resultToExt (Num.fromF64 p u) false true

/-- `is_inf_pos` (ext.rs 88-90). -/
def isInfPos (x : BF) : Bool := match x with | inf .pos => true | _ => false
/-- `is_inf_neg` (ext.rs 93-95). -/
def isInfNeg (x : BF) : Bool := match x with | inf .neg => true | _ => false
/-- `is_inf` (ext.rs 98-100). -/
def isInf (x : BF) : Bool := match x with | inf _ => true | _ => false
/-- `is_nan` (ext.rs 103-105). -/
def isNan (x : BF) : Bool := match x with | nan _ => true | _ => false
/-- `is_int` (ext.rs 108-114). -/
def isInt (x : BF) : Bool := match x with | num v => v.isInt | _ => false
/-- `err` (ext.rs 117-122). -/
def err (x : BF) : Option Err := match x with | nan e => e | _ => none

/-- `add_op` (ext.rs 138-170). -/
def addOp (x y : BF) (p : Nat) (rm : RM) (full : Bool) : BF :=
  match x, y with
  | num v1, num v2 =>
    resultToExt (if full then v1.addFullPrec v2 else v1.add v2 p rm) v1.isZero (v1.s == v2.s)
  | num _, inf s2 => inf s2
  | num _, nan e => nan e
  | inf s1, num _ => inf s1
  | inf s1, inf s2 => if s1 ≠ s2 then NAN else inf s2
  | inf _, nan e => nan e
  | nan e, _ => nan e

/-- `add` (ext.rs 127-129). -/
def add (x y : BF) (p : Nat) (rm : RM) : BF := addOp x y p rm false
/-- `add_full_prec` (ext.rs 134-136). -/
def addFullPrec (x y : BF) : BF := addOp x y 0 .none true

/-- `sub_op` (ext.rs 184-219). -/
def subOp (x y : BF) (p : Nat) (rm : RM) (full : Bool) : BF :=
  match x, y with
  | num v1, num v2 =>
    resultToExt (if full then v1.subFullPrec v2 else v1.sub v2 p rm) v1.isZero (v1.s == v2.s)
  | num _, inf s2 => if s2.isPos then INF_NEG else INF_POS
  | num _, nan e => nan e
  | inf s1, num _ => inf s1
  | inf s1, inf s2 => if s1 = s2 then NAN else inf s1
  | inf _, nan e => nan e
  | nan e, _ => nan e

/-- `sub` (ext.rs 173-175). -/
def sub (x y : BF) (p : Nat) (rm : RM) : BF := subOp x y p rm false
/-- `sub_full_prec` (ext.rs 180-182). -/
def subFullPrec (x y : BF) : BF := subOp x y 0 .none true

/-- `mul_op` (ext.rs 234-281). -/
def mulOp (x y : BF) (p : Nat) (rm : RM) (full : Bool) : BF :=
  match x, y with
  | num v1, num v2 =>
    resultToExt (if full then v1.mulFullPrec v2 else v1.mul v2 p rm) v1.isZero (v1.s == v2.s)
  | num v1, inf s2 => if v1.isZero then NAN else inf (if v1.s = s2 then .pos else .neg)
  | num _, nan e => nan e
  | inf s1, num v2 => if v2.isZero then NAN else inf (if v2.s = s1 then .pos else .neg)
  | inf s1, inf s2 => inf (if s1 = s2 then .pos else .neg)
  | inf _, nan e => nan e
  | nan e, _ => nan e

/-- `mul` (ext.rs 223-225). -/
def mul (x y : BF) (p : Nat) (rm : RM) : BF := mulOp x y p rm false
/-- `mul_full_prec` (ext.rs 230-232). -/
def mulFullPrec (x y : BF) : BF := mulOp x y 0 .none true

/-- `cmp` (ext.rs 328-348). -/
def cmp (x y : BF) : Option Int :=
  match x, y with
  | num v1, num v2 => some (v1.cmp v2)
  | num _, inf s2 => if s2 = .pos then some (-1) else some 1
  | num _, nan _ => none
  | inf s1, num _ => some s1.toInt
  | inf s1, inf s2 => some (s1.toInt - s2.toInt)
  | inf _, nan _ => none
  | nan _, _ => none

/-- `abs_cmp` (ext.rs 352-366). Note that it compares two values with `cmp`. -/
def absCmp (x y : BF) : Option Int :=
  match x, y with
  | num v1, num v2 => some (v1.cmp v2)
  | num _, inf _ => some (-1)
  | num _, nan _ => none
  | inf _, num _ => some 1
  | inf _, inf _ => some 0
  | inf _, nan _ => none
  | nan _, _ => none

/-- `PartialEq::eq` (ext.rs 1522-1534). -/
def eq (x y : BF) : Bool := decide (cmp x y = some 0)

/-- `PartialOrd::partial_cmp` (ext.rs 1538-1572). -/
def partialCmp (x y : BF) : Option Ordering :=
  match cmp x y with
  | some v => if v > 0 then some .gt else if v < 0 then some .lt else some .eq
  | none => none

/-- `inv_sign` (ext.rs 369-375). -/
def invSign (x : BF) : BF :=
  match x with
  | num v => num v.invSign
  | inf s => inf s.invert
  | nan e => nan e

/-- `neg` (ext.rs 875-879, 1505-1520). -/
def neg (x : BF) : BF := invSign x

/-- `is_positive` (ext.rs 508-514). -/
def isPositive (x : BF) : Bool :=
  match x with | num v => v.isPositive | inf s => s == .pos | nan _ => false
/-- `is_negative` (ext.rs 518-524). -/
def isNegative (x : BF) : Bool :=
  match x with | num v => v.isNegative | inf s => s == .neg | nan _ => false
/-- `is_subnormal` (ext.rs 527-532). -/
def isSubnormal (x : BF) : Bool := match x with | num v => v.isSubnormal | _ => false
/-- `is_zero` (ext.rs 535-541). -/
def isZero (x : BF) : Bool := match x with | num v => v.isZero | _ => false

/-- `self.cmp(d).unwrap()`, after the NaN checks. -/
def cmpU (x y : BF) : Int := (cmp x y).getD 0

/-- `clamp` (ext.rs 546-559). -/
def clamp (x mn mx : BF) : BF :=
  if x.isNan || mn.isNan || mx.isNan || decide (cmpU mx mn < 0) then NAN
  else if cmpU x mn < 0 then mn
  else if cmpU x mx > 0 then mx
  else x

/-- `max` (ext.rs 563-572). -/
def max (x y : BF) : BF :=
  if x.isNan || y.isNan then NAN else if cmpU x y < 0 then y else x

/-- `min` (ext.rs 576-585). -/
def min (x y : BF) : BF :=
  if x.isNan || y.isNan then NAN else if cmpU x y > 0 then y else x

/-- `from_u8` … `from_u64` (ext.rs 1452-1462) for an unsigned type of `sz` bits. -/
def fromU (sz u p : Nat) : BF := resultToExt (Num.fromU sz u p) false true
/-- `from_i8` … `from_i64`. -/
def fromI (sz : Nat) (i : Int) (p : Nat) : BF := resultToExt (Num.fromI sz i p) false true
/-- `from_u128`. -/
def fromU128 (u p : Nat) : BF := resultToExt (Num.fromU128 u p) false true
/-- `from_i128`. -/
def fromI128 (i : Int) (p : Nat) : BF := resultToExt (Num.fromI128 i p) false true
/-- `from_word` (ext.rs 869-871). -/
def fromWord (d p : Nat) : BF := resultToExt (Num.fromWord d p) false true

/-- `signum` (ext.rs 589-600). -/
def signum (x : BF) : BF :=
  if x.isNan then NAN
  else if x.isNegative then (fromU 8 1 DEFAULT_P).invSign
  else fromU 8 1 DEFAULT_P

/-- `classify` (ext.rs 737-751). -/
def classify (x : BF) : FpCategory :=
  match x with
  | num v => if v.isSubnormal then .subnormal else if v.isZero then .zero else .normal
  | inf _ => .infinite
  | nan _ => .nan

/-- `exponent` (ext.rs 826-831). -/
def exponent (x : BF) : Option Int := match x with | num v => some v.e | _ => none

/-- `precision` (ext.rs 836-841): the number of significant bits (num.rs `precision` 1215-1217). -/
def precision (x : BF) : Option Nat := match x with | num v => some v.m.n | _ => none

/-- `mantissa_max_bit_len` (ext.rs 974-980). -/
def mantissaMaxBitLen (x : BF) : Option Nat :=
  match x with | num v => some v.m.maxBitLen | _ => none

/-- `max_value` (ext.rs 845-847). -/
def maxValue (p : Nat) : BF := resultToExt (Num.maxValue p) false true
/-- `min_value` (ext.rs 851-853). -/
def minValue (p : Nat) : BF := resultToExt (Num.minValue p) false true
/-- `min_positive` (ext.rs 857-859). -/
def minPositive (p : Nat) : BF := resultToExt (Num.minPositive p) false true
/-- `min_positive_normal` (ext.rs 863-865). -/
def minPositiveNormal (p : Nat) : BF := resultToExt (Num.minPositiveNormal p) false true

/-- `as_raw_parts` (ext.rs 891-897). -/
def asRawParts (x : BF) : Option (List Nat × Nat × Sign × Int × Bool) :=
  match x with | num v => some v.asRawParts | _ => none
/-- `from_raw_parts` (ext.rs 913-919). -/
def fromRawParts (m : List Nat) (n : Nat) (s : Sign) (e : Int) (ix : Bool) : BF :=
  resultToExt (Num.fromRawParts m n s e ix) false true
/-- `from_words` (ext.rs 934-936). -/
def fromWords (m : List Nat) (s : Sign) (e : Int) : BF := resultToExt (Num.fromWords m s e) false true

/-- `sign` (ext.rs 939-945). -/
def sign (x : BF) : Option Sign :=
  match x with | num v => some v.s | inf s => some s | nan _ => none

/-- `set_exponent` (ext.rs 965-969). -/
def setExponent (x : BF) (e : Int) : BF := match x with | num v => num (v.setExponent e) | y => y

/-- `set_precision` (ext.rs 987-993). When the inner call fails the Rust value may already have been
changed; only the error is modelled. -/
def setPrecision (x : BF) (p : Nat) (rm : RM) : Except Err BF :=
  match x with
  | num v => match v.setPrecision p rm with
    | .ok r => .ok (num r)
    | .error e => .error e
  | y => .ok y

/-- `set_sign` (ext.rs 1013-1019). -/
def setSign (x : BF) (s : Sign) : BF :=
  match x with | num v => num (v.setSign s) | inf _ => inf s | nan e => nan e

/-- `mantissa_digits` (ext.rs 1023-1029). -/
def mantissaDigits (x : BF) : Option (List Nat) := match x with | num v => some v.m.m | _ => none

/-- `inexact` (ext.rs 1109-1115). -/
def inexact (x : BF) : Bool := match x with | num v => v.inexact | _ => false

/-- `set_inexact` (ext.rs 1119-1123). -/
def setInexact (x : BF) (b : Bool) : BF := match x with | num v => num { v with inexact := b } | y => y

/-- `try_set_precision` (ext.rs 1142-1151). -/
def trySetPrecision (x : BF) (p : Nat) (rm : RM) (s : Nat) : Bool × BF :=
  match x with
  | num v => match v.trySetPrecision p rm s with
    | .ok r => (r.1, num r.2)
    | .error e => (true, nan (some e))
  | y => (true, y)

/-- The wrapper macros `gen_wrapper_arg*` (ext.rs 1170-1213): apply `f` to a value; `pos` and `neg`
are the results at the infinities. -/
def wrap (x : BF) (f : Num → Except Err Num) (pos neg : BF) : BF :=
  match x with
  | num v => resultToExt (f v) v.isZero true
  | inf s => if s.isPos then pos else neg
  | nan e => nan e

/-- `gen_wrapper_log` (ext.rs 1215-1231): like `wrap`, with `-Inf` at zero. -/
def wrapLog (x : BF) (f : Num → Except Err Num) (pos neg : BF) : BF :=
  match x with
  | num v => if v.isZero then INF_NEG else resultToExt (f v) v.isZero true
  | inf s => if s.isPos then pos else neg
  | nan e => nan e

/-- `abs` (ext.rs 1235-1241). -/
def abs (x : BF) : BF := wrap x (fun v => .ok v.abs) INF_POS INF_POS
/-- `int` (ext.rs 1242-1244). -/
def int (x : BF) : BF := wrap x (fun v => .ok v.int) NAN NAN
/-- `fract` (ext.rs 1245-1251). -/
def fract (x : BF) : BF := wrap x (fun v => .ok v.fract) NAN NAN
/-- `ceil` (ext.rs 1252-1258). -/
def ceil (x : BF) : BF := wrap x Num.ceil INF_POS INF_NEG
/-- `floor` (ext.rs 1259-1265). -/
def floor (x : BF) : BF := wrap x Num.floor INF_POS INF_NEG
/-- `round` (ext.rs 1266-1273). -/
def round (x : BF) (n : Nat) (rm : RM) : BF := wrap x (fun v => v.round n rm) INF_POS INF_NEG

end BF

end AF
