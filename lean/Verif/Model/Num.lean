import Verif.Model.AddSub
/-!
# Model of `BigFloatNumber` (num.rs), without multiplication, division and remainder

`Result<T, Error>` is `Except Err T`. Allocation never fails in the model. `isize` / `i32`
arithmetic is carried out in `Int`; `p_assertion` keeps precisions far below the range of `isize`.
-/

namespace AF

/-- `BigFloatNumber` (num.rs 20-25). -/
structure Num where
  e : Int
  s : Sign
  m : Mantissa
  inexact : Bool
  deriving DecidableEq, Repr

/-- The bound of `p_assertion` (num.rs 29-35): `isize::MAX / 2 + EXPONENT_MIN`. -/
def PMAX : Nat := 4611686016279904255

/-- `isize::MIN / 2`. -/
def IMIN2 : Int := -4611686018427387904

/-- `Mantissa::is_all_zero` (mantissa/mantissa.rs 848-850). -/
def Mantissa.isAllZero (x : Mantissa) : Bool := x.m.all (· = 0)

/-- `Mantissa::set_zero` (mantissa/mantissa.rs 125-128). -/
def Mantissa.setZero (x : Mantissa) : Mantissa := { m := List.replicate x.m.length 0, n := 0 }

/-- `Mantissa::update_bit_len` (mantissa/mantissa.rs 136-139). -/
def Mantissa.updateBitLen (x : Mantissa) : Mantissa := { x with n := findBitLen x.m }

/-- `Mantissa::set_length` (mantissa/mantissa.rs 1115-1133). -/
def Mantissa.setLength (x : Mantissa) (p : Nat) : Mantissa :=
  let sz := wordLen p
  let orig := x.m.length
  if sz < orig then
    let nn := (orig - sz) * 64
    { m := truncTo x.m p, n := if x.n ≥ nn then x.n - nn else 0 }
  else if sz > orig then
    { m := tryExtend x.m p, n := if x.n ≠ 0 then x.n + (sz - orig) * 64 else x.n }
  else x

/-- `Mantissa::oned_mantissa` (mantissa/mantissa.rs 54-62). -/
def Mantissa.oned (p : Nat) : Mantissa :=
  { m := List.replicate (wordLen p) WMAX, n := 64 * wordLen p }

/-- `Mantissa::min` (mantissa/mantissa.rs 65-73). `m[0] = 1` panics on an empty buffer. -/
def Mantissa.minM (p : Nat) : Except Err Mantissa :=
  if wordLen p = 0 then .error .panic
  else .ok { m := (List.replicate (wordLen p) 0).set 0 1, n := 1 }

/-- `Mantissa::from_word` (mantissa/mantissa.rs 76-98). -/
def Mantissa.fromWord (p d : Nat) : Except Err Mantissa :=
  let l := wordLen p
  if l = 0 then .error .invalidArgument
  else
    let d' := if d > 0 then (d <<< lz d) % B else d
    .ok { m := (List.replicate l 0).set (l - 1) d', n := 64 * l }

/-- `Mantissa::from_words` (mantissa/mantissa.rs 101-115). -/
def Mantissa.fromWords (p : Nat) (w : List Nat) : Except Err Mantissa :=
  let l := wordLen p
  if l < w.length then .error .invalidArgument
  else
    let m := List.replicate (l - w.length) 0 ++ w
    .ok { m, n := findBitLen m }

/-- `Mantissa::from_u64` (mantissa/mantissa.rs 710-740), 64-bit words. -/
def Mantissa.fromU64 (p u : Nat) : Except Err (Nat × Mantissa) :=
  let l := wordLen p
  if l < 1 then .error .invalidArgument
  else
    let r := maximize (List.replicate (l - 1) 0 ++ [u])
    .ok (r.2, { m := r.1, n := r.1.length * 64 })

/-- `Mantissa::from_usize` (mantissa/mantissa.rs 742-763). -/
def Mantissa.fromUsize (u : Nat) : Nat × Mantissa :=
  if u = 0 then (0, { m := [0], n := 0 })
  else
    let r := maximize [u]
    (r.2, { m := r.1, n := r.1.length * 64 })

/-- Loop of `mask_bits` over words in visiting order, `keep n` being the mask applied to the word
in which the run of cleared bits ends (mantissa/mantissa.rs 811-833). -/
def maskLoop (mask : Nat → Nat) : Nat → List Nat → List Nat
  | _, [] => []
  | n, v :: vs => if n ≥ 64 then 0 :: maskLoop mask (n - 64) vs else (v &&& mask n) :: vs

/-- `Mantissa::mask_bits` (mantissa/mantissa.rs 809-835). -/
def maskBits (m : List Nat) (n : Nat) (fromLeft : Bool) : List Nat :=
  if fromLeft then (maskLoop (fun n => WMAX >>> n) n m.reverse).reverse
  else maskLoop (fun n => (WMAX <<< n) % B) n m

/-- `Mantissa::most_significant_word` (mantissa/mantissa.rs 1149-1155). -/
def Mantissa.mostSignificantWord (x : Mantissa) : Nat :=
  if x.n > 0 then wd x.m ((x.n - 1) / 64) else 0

/-- `Mantissa::is_odd_int` (mantissa/mantissa.rs 1193-1206). -/
def Mantissa.isOddInt (x : Mantissa) (e : Nat) : Bool :=
  let n := x.maxBitLen - e
  if n = 0 then decide (wd x.m 0 &&& 1 > 0)
  else if (wd x.m (n / 64) >>> (n % 64)) &&& 1 ≠ 0 then (findOneFrom x.m e).isNone
  else false

/-- `Mantissa::add_ulp` (mantissa/mantissa.rs 1209-1218). -/
def addUlp (m : List Nat) : List Nat × Bool := incWords m

namespace Num

/-- `BigFloatNumber::new2` (num.rs 60-68), without the precision check. -/
def zero (p : Nat) (s : Sign) (inexact : Bool) : Num :=
  { e := 0, s, m := Mantissa.new p, inexact }

/-- `BigFloatNumber::new` (num.rs 43-51). -/
def new (p : Nat) : Except Err Num :=
  if p ≥ PMAX then .error .invalidArgument else .ok (zero p .pos false)

/-- `BigFloatNumber::new2` (num.rs 60-68). -/
def new2 (p : Nat) (s : Sign) (inexact : Bool) : Except Err Num :=
  if p ≥ PMAX then .error .invalidArgument else .ok (zero p s inexact)

/-- `BigFloatNumber::max_value` (num.rs 78-86). -/
def maxValue (p : Nat) : Except Err Num :=
  if p ≥ PMAX then .error .invalidArgument
  else .ok { e := EMAX, s := .pos, m := Mantissa.oned p, inexact := false }

/-- `BigFloatNumber::min_value` (num.rs 94-102). -/
def minValue (p : Nat) : Except Err Num :=
  if p ≥ PMAX then .error .invalidArgument
  else .ok { e := EMAX, s := .neg, m := Mantissa.oned p, inexact := false }

/-- `BigFloatNumber::min_positive` (num.rs 113-121). -/
def minPositive (p : Nat) : Except Err Num :=
  if p ≥ PMAX then .error .invalidArgument
  else match Mantissa.minM p with
    | .error e => .error e
    | .ok m => .ok { e := EMIN, s := .pos, m, inexact := false }

/-- `BigFloatNumber::min_positive_normal` (num.rs 132-140). -/
def minPositiveNormal (p : Nat) : Except Err Num :=
  if p ≥ PMAX then .error .invalidArgument
  else match Mantissa.fromWord p MSB with
    | .error e => .error e
    | .ok m => .ok { e := EMIN, s := .pos, m, inexact := false }

/-- `BigFloatNumber::from_word` (num.rs 148-167); on 64-bit targets also `from_u64_internal`
(169-173). -/
def fromWord (d p : Nat) : Except Err Num :=
  if p ≥ PMAX then .error .invalidArgument
  else if d = 0 then new p
  else
    let shift := lz d
    match Mantissa.fromWord p ((d <<< shift) % B) with
    | .error e => .error e
    | .ok m => .ok { e := 64 - (shift : Int), s := .pos, m, inexact := false }

/-- `is_zero` (num.rs 1047-1049). -/
def isZero (x : Num) : Bool := x.m.isZero

/-- `is_subnormal` (num.rs 898-900). -/
def isSubnormal (x : Num) : Bool := x.m.isSubnormal

/-- `is_positive` (num.rs 1028-1030). -/
def isPositive (x : Num) : Bool := x.s == .pos

/-- `is_negative` (num.rs 1034-1036). -/
def isNegative (x : Num) : Bool := x.s == .neg

/-- `neg` (num.rs 216-220). -/
def neg (x : Num) : Num := { x with s := x.s.invert }

/-- `abs` (num.rs 793-797). -/
def abs (x : Num) : Num := { x with s := .pos }

/-- `set_sign` (num.rs 1447-1449). -/
def setSign (x : Num) (s : Sign) : Num := { x with s := s }

/-- `inv_sign` (num.rs 1452-1458). -/
def invSign (x : Num) : Num := if x.isNegative then x.setSign .pos else x.setSign .neg

/-- `set_precision_internal` (num.rs 1380-1432): the returned flag and the updated number.
The `usize` subtraction `n - (max_bit_len - s)` inside `round_mantissa` (mantissa.rs 900) is
checked here; when it underflows the model reports a panic (overflow checks on). -/
def setPrecisionInternal (x : Num) (p : Nat) (rm : RM) (check : Bool) (s : Nat) :
    Except Err (Bool × Num) :=
  if p ≥ PMAX then .error .invalidArgument
  else if x.m.maxBitLen > p ∧ p > 0 then
    if rm ≠ .none ∧ (s > x.m.maxBitLen ∨ x.m.maxBitLen - p < x.m.maxBitLen - s) then .error .panic
    else
      let r := roundMantissa x.m.m (x.m.maxBitLen - p) rm x.isPositive check s x.inexact
      let m1 : Mantissa := { m := r.m, n := x.m.n }
      let ix := x.inexact || r.inexact
      if r.check && ix then .ok (false, { x with m := m1, inexact := ix })
      else if r.ret then
        if x.e = EMAX then .error (.exponentOverflow x.s)
        else .ok (true, { x with e := x.e + 1, m := m1.setLength p, inexact := ix })
      else if m1.isAllZero then
        .ok (true, { x with e := 0, m := ({ m1 with n := 0 } : Mantissa).setLength p, inexact := ix })
      else if m1.isSubnormal then
        .ok (true, { x with m := m1.updateBitLen.setLength p, inexact := ix })
      else .ok (true, { x with m := m1.setLength p, inexact := ix })
  else if p = 0 then
    if x.isZero then
      if check && x.inexact then .ok (false, x)
      else .ok (true, { x with m := x.m.setLength p })
    else .ok (true, { x with m := x.m.setLength p, inexact := true })
  else .ok (true, { x with m := x.m.setLength p })

/-- `set_precision` (num.rs 1359-1362). -/
def setPrecision (x : Num) (p : Nat) (rm : RM) : Except Err Num :=
  match x.setPrecisionInternal p rm false x.m.maxBitLen with
  | .error e => .error e
  | .ok r => .ok r.2

/-- `try_set_precision` (num.rs 1371-1378). -/
def trySetPrecision (x : Num) (p : Nat) (rm : RM) (s : Nat) : Except Err (Bool × Num) :=
  x.setPrecisionInternal p rm x.inexact s

/-- `normalize` (num.rs 550-568). -/
def normalize (x : Num) : Except Err (Int × Mantissa) :=
  if x.isSubnormal then
    let r := x.m.normilize
    if x.e - (r.1 : Int) ≤ IMIN2 then .error (.exponentOverflow x.s)
    else .ok (x.e - (r.1 : Int), r.2)
  else .ok (x.e, x.m)

/-- The condition under which a discarded magnitude is rounded away from zero in the directed
modes (num.rs 733-735, 1247-1249). -/
def directedUp (rm : RM) (pos : Bool) : Bool :=
  rm == .fromZero || (pos && rm == .up) || (!pos && rm == .down)

/-- `subnormalize` (num.rs 699-747). -/
def subnormalize (x : Num) (e : Int) (rm : RM) : Num :=
  if x.isZero then x
  else if (x.m.maxBitLen : Int) + e > EMIN then
    let shift := (EMIN - e).toNat
    let r := roundMantissa x.m.m shift rm x.isPositive false x.m.maxBitLen x.inexact
    let shift' := if r.ret then shift - 1 else shift
    let m1 : Mantissa := { m := r.m, n := x.m.n }
    { x with
      m := if shift' > 0 then { m := shiftRight m1.m shift', n := findBitLen (shiftRight m1.m shift') }
           else m1
      inexact := x.inexact || r.inexact }
  else if directedUp rm x.isPositive then
    { x with m := { m := (List.replicate x.m.m.length 0).set 0 1, n := 1 }, inexact := true }
  else { x with m := x.m.setZero, e := 0, inexact := true }

/-- The closing block shared by `mul_general_case` (335-361), `div` (403-427) and `add_sub`
(675-695): overflow check, subnormal result, or the normal result. -/
def finish (m : Mantissa) (s : Sign) (e : Int) (rm : RM) (inexact : Bool) : Except Err Num :=
  if e > EMAX then .error (.exponentOverflow s)
  else if e < EMIN then .ok (subnormalize { e := EMIN, s, m, inexact } e rm)
  else .ok { e, s, m, inexact }

/-- `abs_cmp` (num.rs 765-786). -/
def absCmp (x y : Num) : Int :=
  if x.isZero then (if y.isZero then 0 else -1)
  else
    let n1 : Int := (x.m.maxBitLen : Int) - x.m.n
    let n2 : Int := (y.m.maxBitLen : Int) - y.m.n
    let e : Int := x.e - n1 - y.e + n2
    if e > 0 then 1 else if e < 0 then -1
    else x.m.absCmp y.m (decide (n1 = n2))

/-- `cmp` (num.rs 751-761). -/
def cmp (x y : Num) : Int :=
  if x.isZero && y.isZero then 0
  else if x.s ≠ y.s then x.s.toInt
  else x.absCmp y * x.s.toInt

/-- `add_sub` (num.rs 576-696); `op = true` is addition. The casts `(e1 - e2) as usize` are
applied to non-negative values. -/
def addSub (x y : Num) (p : Nat) (op : Bool) (rm : RM) (full : Bool) : Except Err Num :=
  let p := roundP p
  if p ≥ PMAX then .error .invalidArgument
  else if x.isZero then (if op then y else y.neg).setPrecision p rm
  else if y.isZero then x.setPrecision p rm
  else match x.normalize with
    | .error e => .error e
    | .ok (e1, m1) => match y.normalize with
      | .error e => .error e
      | .ok (e2, m2) =>
        let ix := x.inexact || y.inexact
        if (decide (x.s ≠ y.s) && op) || (!op && decide (x.s = y.s)) then
          let c := x.absCmp y
          if c > 0 then
            let r := absSub m1.m m2.m p (e1 - e2).toNat rm x.s.isPos full ix
            finish r.2.1 x.s (e1 - r.1) rm r.2.2
          else if c < 0 then
            let s := if op then y.s else y.s.invert
            let r := absSub m2.m m1.m p (e2 - e1).toNat rm s.isPos full ix
            finish r.2.1 s (e2 - r.1) rm r.2.2
          else .ok (zero p .pos ix)
        else if e1 ≥ e2 then
          let r := absAdd m1.m m2.m p (e1 - e2).toNat rm x.s.isPos full ix
          finish r.2.1 x.s (e1 - r.1) rm r.2.2
        else
          let r := absAdd m2.m m1.m p (e2 - e1).toNat rm x.s.isPos full ix
          finish r.2.1 x.s (e2 - r.1) rm r.2.2

/-- `add` (num.rs 231-233). -/
def add (x y : Num) (p : Nat) (rm : RM) : Except Err Num := addSub x y p true rm false

/-- `sub` (num.rs 244-246). -/
def sub (x y : Num) (p : Nat) (rm : RM) : Except Err Num := addSub x y p false rm false

/-- `add_full_prec` (num.rs 257-259). -/
def addFullPrec (x y : Num) : Except Err Num := addSub x y 0 true .none true

/-- `sub_full_prec` (num.rs 270-272). -/
def subFullPrec (x y : Num) : Except Err Num := addSub x y 0 false .none true

/-- The constant `ONE` (common/consts.rs 14): `from_word(1, DEFAULT_P)`. -/
def ONE : Num := { e := 1, s := .pos, m := { m := [0, MSB], n := 128 }, inexact := false }

/-- `from_raw_parts` (num.rs 936-970), 64-bit target. -/
def fromRawParts (m : List Nat) (n : Nat) (s : Sign) (e : Int) (inexact : Bool) : Except Err Num :=
  let p := m.length * 64
  if p ≥ PMAX then .error .invalidArgument
  else if n > p then .error .invalidArgument
  else match Mantissa.fromWords p m with
    | .error er => .error er
    | .ok m' =>
      if m'.n ≠ n then .error .invalidArgument
      else if n > 0 ∧ n < p ∧ e > EMIN then .error .invalidArgument
      else .ok { e := if n = 0 then 0 else e, s, m := m', inexact }

/-- `as_raw_parts` (num.rs 907-910). -/
def asRawParts (x : Num) : List Nat × Nat × Sign × Int × Bool := (x.m.m, x.m.n, x.s, x.e, x.inexact)

/-- `from_words` (num.rs 988-1020), 64-bit target. -/
def fromWords (m : List Nat) (s : Sign) (e : Int) : Except Err Num :=
  let p := m.length * 64
  if p ≥ PMAX then .error .invalidArgument
  else match Mantissa.fromWords p m with
    | .error er => .error er
    | .ok m' =>
      let bl := m'.n
      if m'.isZero then .ok { e := 0, s, m := m', inexact := false }
      else if bl < p then
        let shift0 := p - bl
        let r : Nat × Int := if e < EMIN + (shift0 : Int) then ((e - EMIN).toNat, EMIN)
          else (shift0, e - (shift0 : Int))
        .ok { e := r.2, s, m := { m := shiftLeft m'.m r.1, n := bl + r.1 }, inexact := false }
      else .ok { e, s, m := m', inexact := false }

/-- `fract` (num.rs 1083-1109). -/
def fract (x : Num) : Num :=
  if x.e > 0 then
    if x.e.toNat < x.m.maxBitLen then
      match findOneFrom x.m.m x.e.toNat with
      | some shift =>
        let e := x.e - (shift : Int)
        if e < EMIN then
          let shift1 := (x.e - EMIN).toNat
          { x with e := EMIN, m := { x.m with m := maskBits (shiftLeft x.m.m shift1) (shift - shift1) true } }
        else { x with e := e, m := { x.m with m := shiftLeft x.m.m shift } }
      | none => { x with e := 0, m := x.m.setZero }
    else { x with e := 0, m := x.m.setZero }
  else x

/-- `int` (num.rs 1116-1130). -/
def int (x : Num) : Num :=
  if x.e > 0 then
    if x.e.toNat < x.m.maxBitLen then
      { x with m := { x.m with m := maskBits x.m.m (x.m.maxBitLen - x.e.toNat) false } }
    else x
  else { x with e := 0, m := x.m.setZero }

/-- `floor` (num.rs 1057-1063). -/
def floor (x : Num) : Except Err Num :=
  if x.isNegative && !x.fract.isZero then
    sub x.int ONE x.int.m.maxBitLen .toZero
  else .ok x.int

/-- `ceil` (num.rs 1070-1076). -/
def ceil (x : Num) : Except Err Num :=
  if x.isPositive && !x.fract.isZero then
    add x.int ONE x.int.m.maxBitLen .toZero
  else .ok x.int

/-- `is_odd_int` (num.rs 1133-1143). -/
def isOddInt (x : Num) : Bool :=
  if x.e > 0 then
    if x.e.toNat ≤ x.m.maxBitLen then x.m.isOddInt x.e.toNat else false
  else x.isZero

/-- `is_int` (num.rs 1146-1156). -/
def isInt (x : Num) : Bool :=
  if x.e > 0 then
    if x.e.toNat < x.m.maxBitLen then (findOneFrom x.m.m x.e.toNat).isNone else true
  else x.isZero

/-- `int_as_usize` (num.rs 1159-1172). -/
def intAsUsize (x : Num) : Except Err Nat :=
  if x.e > 0 then
    if x.e.toNat ≤ 64 then .ok (x.m.mostSignificantWord >>> (64 - x.e.toNat))
    else .error .invalidArgument
  else .ok 0

/-- `set_exponent` (num.rs 1177-1204), 64-bit target. `e - n as Exponent` is exact modulo `2^32`,
and its mathematical value is in the range of `Exponent`. -/
def setExponent (x : Num) (e : Int) : Num :=
  if !x.isZero then
    if x.isSubnormal && decide (e > EMIN) then
      let ediff := e - EMIN
      let n := x.m.maxBitLen - x.m.n
      if (n : Int) ≥ ediff then
        { x with m := { m := shiftLeft x.m.m ediff.toNat, n := x.m.n + ediff.toNat } }
      else
        { x with e := e - (n : Int), m := { m := shiftLeft x.m.m n, n := x.m.maxBitLen } }
    else { x with e := e }
  else x

/-- `round` (num.rs 1226-1301). -/
def round (x : Num) (n : Nat) (rm : RM) : Except Err Num :=
  if n ≥ ISIZE_MAX / 2 then .error .invalidArgument
  else
    let e : Int := (x.m.maxBitLen : Int) - x.e
    if e > 0 ∧ e.toNat > n ∧ !x.isZero then
      let m := e.toNat - n
      if m ≥ x.m.maxBitLen then
        let msbSet := decide (x.m.mostSignificantWord &&& MSB ≠ 0)
        let zeroed := x.m.setZero
        if directedUp rm x.isPositive
            || (decide (m = x.m.maxBitLen)
              && ((msbSet && rm == .toOdd)
                || (rm == .toEven && msbSet
                  && decide (countLeadingZeroesSkipFirst x.m.m ≠ x.m.maxBitLen)))) then
          let m' : Mantissa :=
            { m := zeroed.m.set (zeroed.m.length - 1) MSB, n := zeroed.maxBitLen }
          let e' : Int := -((n : Int) - 1)
          if e' < EMIN then
            let r := subnormalize { e := EMIN, s := x.s, m := m', inexact := x.inexact } e' rm
            .ok { r with inexact := true }
          else .ok { e := e', s := x.s, m := m', inexact := true }
        else .ok { e := 0, s := x.s, m := zeroed, inexact := true }
      else
        let r := roundMantissa x.m.m m rm x.isPositive false x.m.maxBitLen x.inexact
        let m1 : Mantissa := { m := r.m, n := x.m.n }
        let ix := x.inexact || r.inexact
        if r.ret then
          if x.e = EMAX then .error (.exponentOverflow x.s)
          else .ok { x with e := x.e + 1, m := m1, inexact := ix }
        else if m1.isAllZero then .ok { x with e := 0, m := { m1 with n := 0 }, inexact := ix }
        else if m1.isSubnormal then .ok { x with m := m1.updateBitLen, inexact := ix }
        else .ok { x with m := m1, inexact := ix }
    else .ok x

/-- `from_usize` (num.rs 1461-1472). -/
def fromUsize (u : Nat) : Num :=
  let r := Mantissa.fromUsize u
  { e := (r.2.maxBitLen : Int) - (r.1 : Int), s := .pos, m := r.2, inexact := false }

/-- The leading-zero loop of `from_u128` (num.rs 1517-1520), cut at 128 rounds. -/
def lz128 : Nat → Nat → Nat
  | 0, _ => 0
  | f + 1, v => if v < 2 ^ 127 then lz128 f (v * 2) + 1 else 0

/-- `from_u128` (num.rs 1505-1536); `v < 2^128`. -/
def fromU128 (v p : Nat) : Except Err Num :=
  if p < 128 then .error .invalidArgument
  else if p ≥ PMAX then .error .invalidArgument
  else if v = 0 then new p
  else
    let shift := lz128 128 v
    let v' := v * 2 ^ shift
    match Mantissa.fromWords p [v' % B, v' / B % B] with
    | .error e => .error e
    | .ok m => .ok { e := 128 - (shift : Int), s := .pos, m, inexact := false }

/-- `from_i128` (num.rs 1491-1496). -/
def fromI128 (i : Int) (p : Nat) : Except Err Num :=
  match fromU128 i.natAbs p with
  | .error e => .error e
  | .ok r => .ok (r.setSign (if i < 0 then .neg else .pos))

/-- `from_u8` … `from_u64` (num.rs 1592-1600) for an unsigned type of `sz` bits. -/
def fromU (sz u p : Nat) : Except Err Num :=
  if p < sz then .error .invalidArgument else fromWord u p

/-- `from_i8` … `from_i64` (num.rs 1578-1583) for a signed type of `sz` bits. -/
def fromI (sz : Nat) (i : Int) (p : Nat) : Except Err Num :=
  match fromU sz i.natAbs p with
  | .error e => .error e
  | .ok r => .ok (r.setSign (if i < 0 then .neg else .pos))

/-- `from_f64` (num.rs 807-852). The argument is the bit pattern of the `f64` (`f.to_bits()`);
comparisons with zero, infinities and NaN are read off the pattern. -/
def fromF64 (p u : Nat) : Except Err Num :=
  if p ≥ PMAX then .error .invalidArgument
  else
    let mag := u % 2 ^ 63
    let neg := decide (u / 2 ^ 63 % 2 = 1)
    if mag = 0 then new 0
    else if mag = 2047 * 2 ^ 52 then .error (.exponentOverflow (if neg then .neg else .pos))
    else if mag > 2047 * 2 ^ 52 then .error .invalidArgument
    else
      let mant0 := (mag <<< 12) % B
      let exp0 : Nat := (mag >>> 52) &&& 2047
      let r : Nat × Nat := if exp0 ≠ 0 then ((mant0 >>> 1) ||| MSB, exp0 + 1) else (mant0, exp0)
      match Mantissa.fromU64 p r.1 with
      | .error e => .error e
      | .ok (shift, m) =>
        .ok { e := (r.2 : Int) - 1023 - (shift : Int), s := if neg then .neg else .pos, m,
              inexact := false }

/-- `div_by_2` (num.rs 1548-1555). -/
def divBy2 (x : Num) (rm : RM) : Num :=
  if x.e = EMIN then x.subnormalize (x.e - 1) rm else x.setExponent (x.e - 1)

end Num

end AF
