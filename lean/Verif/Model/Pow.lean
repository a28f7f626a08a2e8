import Verif.Model.ExtDiv
import Verif.Model.Root
/-!
# Powers, and the elementary functions at special arguments (ops/pow.rs, ext.rs)

`powi` is modelled in full. The general power and the elementary functions are modelled here up to the point
where the series computation starts; that computation is a parameter (`core`, `f`) of the functions below. The
computations themselves, where they are modelled, are in `Exp.lean`, `Hyper.lean`, `Log.lean`, `InvHyper.lean`, `PowGen.lean`.
-/

namespace AF

/-- The search for the most significant bit of the exponent in `powi_internal` (ops/pow.rs 268-279):
returns the number of remaining bits and the exponent shifted left past its leading bit. -/
def powStrip : Nat → Nat → Nat × Nat
  | 0, i => (0, i)
  | b + 1, i => if i &&& MSB ≠ 0 then (b, (i <<< 1) % B) else powStrip b ((i <<< 1) % B)

namespace Num

/-- The square and multiply loop of `powi_internal` (ops/pow.rs 304-315). -/
def powMul (arg : Num) (px : Nat) : Nat → Num → Nat → Except Err Num
  | 0, x, _ => .ok x
  | bp + 1, x, j =>
    match x.mul x px .fromZero with
    | .error e => .error e
    | .ok x1 =>
      if j &&& MSB ≠ 0 then
        match x1.mul arg px .fromZero with
        | .error e => .error e
        | .ok x2 => powMul arg px bp x2 ((j <<< 1) % B)
      else powMul arg px bp x1 ((j <<< 1) % B)

/-- The closure of `powi_internal` (ops/pow.rs 289-318). -/
def powTry (x : Num) (px bp i : Nat) : Except Err Num :=
  let arg : Num := { x with inexact := false }
  match arg.setPrecision px .fromZero with
  | .error e => .error e
  | .ok x1 => powMul arg px bp x1 i

/-- The sign given to an overflow in `powi_internal` (ops/pow.rs 319-329). -/
def powErr (x : Num) (n : Nat) : Err → Err
  | .exponentOverflow _ => .exponentOverflow (if x.isNegative && decide (n &&& 1 = 1) then .neg else .pos)
  | e => e

/-- The loop of `powi_internal` (ops/pow.rs 286-351). The loop ends because `set_precision` refuses a
large `p_x`; the working precision grows by a factor, so `fuel` 400 is never used up (`powLoop_fuel`).
`usize` additions are exact for accepted precisions. -/
def powLoop (x : Num) (n p : Nat) (rm : RM) (upd : Bool) (bp i : Nat) : Nat → Nat → Nat → Except Err Num
  | 0, _, _ => .error .panic
  | fuel + 1, pwrk, pinc =>
    match powTry x (pwrk + bp * 2) bp i with
    | .error e => .error (powErr x n e)
    | .ok r =>
      if r.e = EMIN ∧ r.m.n = 1 then
        let r1 := if upd then { r with inexact := r.inexact || x.inexact } else r
        r1.setPrecision p rm
      else match r.trySetPrecision p rm pwrk with
        | .error e => .error e
        | .ok (true, r2) => .ok (if upd then { r2 with inexact := r2.inexact || x.inexact } else r2)
        | .ok (false, _) => powLoop x n p rm upd bp i fuel (pwrk + pinc) (roundP ((pwrk + pinc) / 5))

/-- `powi_internal` (ops/pow.rs 248-352). -/
def powiInternal (x : Num) (n p : Nat) (rm : RM) (upd : Bool) : Except Err Num :=
  let p := roundP p
  if n = 0 then fromWord 1 p
  else if x.isZero || decide (n = 1) then x.setPrecision p rm
  else
    let bi := powStrip 64 n
    let p := roundP p
    powLoop x n p rm upd bi.1 bi.2 400 (Nat.max p x.m.maxBitLen + 64) 64

/-- `powi` (ops/pow.rs 244-246). -/
def powi (x : Num) (n p : Nat) (rm : RM) : Except Err Num := x.powiInternal n p rm true

/-- `pow` (ops/pow.rs 446-595). `core x n p rm` stands for the computation through `ln` and `exp`
(lines 511-594), which is `powRun` in `Model/PowGen.lean`. -/
def pow (core : Num → Num → Nat → RM → Except Err Num) (x n : Num) (p : Nat) (rm : RM) : Except Err Num :=
  let nint := n.isInt
  let isOne := decide (x.e = 1) && decide (x.absCmp ONE = 0)
  if n.isZero then
    match fromWord 1 p with
    | .error e => .error e
    | .ok r => .ok (if n.inexact then { r with inexact := if isOne then x.inexact else true } else r)
  else if x.isZero then
    if n.isNegative then .error (.exponentOverflow (if n.isOddInt then x.s else .pos))
    else new2 p (if n.isOddInt then x.s else .pos) x.inexact
  else if isOne then
    if n.isOddInt then
      match fromI 8 x.s.toInt p with
      | .error e => .error e
      | .ok r => .ok { r with inexact := x.inexact || n.inexact }
    else if x.isPositive || n.isInt then
      match fromWord 1 p with
      | .error e => .error e
      | .ok r => .ok { r with inexact := x.inexact || n.inexact }
    else .error .invalidArgument
  else if x.isNegative && !nint then .error .invalidArgument
  else if decide (n.e = 1) && decide (n.absCmp ONE = 0) then
    if n.isPositive then
      match x.setPrecision p rm with
      | .error e => .error e
      | .ok r => .ok { r with inexact := r.inexact || n.inexact }
    else
      match ONE.div x p rm with
      | .error e => .error e
      | .ok r => .ok { r with inexact := r.inexact || n.inexact }
  else core x n p rm

/-- `log` (ops/log.rs 353-410); `core` stands for the computation after the argument check. -/
def log (core : Num → Num → Nat → RM → Except Err Num) (x n : Num) (p : Nat) (rm : RM) : Except Err Num :=
  if x.isZero || x.isNegative || n.isZero || n.isNegative then .error .invalidArgument
  else core x n p rm

end Num

namespace BF

/-- `powi` (ext.rs 441-456). -/
def powi (x : BF) (n p : Nat) (rm : RM) : BF :=
  match x with
  | num v => resultToExt (v.powi n p rm) false true
  | inf s => if n = 0 then fromU 8 1 p else if s.isNeg && decide (n &&& 1 = 1) then INF_NEG else INF_POS
  | nan e => nan e

/-- `pow` (ext.rs 381-435). -/
def pow (core : Num → Num → Nat → RM → Except Err Num) (x n : BF) (p : Nat) (rm : RM) : BF :=
  match x, n with
  | num v1, num v2 => resultToExt (v1.pow core v2 p rm) v1.isZero (v1.s == v2.s)
  | num v1, inf s2 =>
    let c := v1.cmp Num.ONE
    if c > 0 then inf s2 else if c < 0 then new p else fromU 8 1 p
  | num _, nan e => nan e
  | inf s1, num v2 =>
    if v2.isZero then fromU 8 1 p
    else if v2.isPositive then if s1.isNeg && v2.isOddInt then INF_NEG else INF_POS
    else new p
  | inf _, inf s2 => if s2.isPos then INF_POS else new p
  | inf _, nan e => nan e
  | nan e, _ => nan e

/-- `log` (ext.rs 462-504): the logarithm of `x` to the base `n`. -/
def log (core : Num → Num → Nat → RM → Except Err Num) (x n : BF) (p : Nat) (rm : RM) : BF :=
  match x, n with
  | num v1, num v2 => if v2.isZero then INF_NEG else resultToExt (v1.log core v2 p rm) false true
  | num _, inf s2 => if s2.isPos then new p else NAN
  | num _, nan e => nan e
  | inf .neg, _ => NAN
  | inf .pos, num v2 => if v2.e ≤ 0 then INF_NEG else INF_POS
  | inf .pos, inf _ => NAN
  | inf .pos, nan e => nan e
  | nan e, _ => nan e

section Elementary
/-! The wrappers of the elementary functions (ext.rs 757-789, 1294-1449). `f v p rm` stands for the
`BigFloatNumber` function of the same name with the constants cache fixed; it is not modelled. -/
variable (f : Num → Nat → RM → Except Err Num) (x : BF) (p : Nat) (rm : RM)

/-- `ln` (ext.rs 1294-1304). -/
def ln : BF := wrapLog x (fun v => f v p rm) INF_POS NAN
/-- `log2` (ext.rs 1305-1315). -/
def log2 : BF := wrapLog x (fun v => f v p rm) INF_POS NAN
/-- `log10` (ext.rs 1316-1326). -/
def log10 : BF := wrapLog x (fun v => f v p rm) INF_POS NAN
/-- `exp` (ext.rs 1327-1337). -/
def exp : BF := wrap x (fun v => f v p rm) INF_POS (new p)
/-- `sin` (ext.rs 1339-1349). -/
def sin : BF := wrap x (fun v => f v p rm) NAN NAN
/-- `cos` (ext.rs 1350-1360). -/
def cos : BF := wrap x (fun v => f v p rm) NAN NAN
/-- `tan` (ext.rs 1361-1371). -/
def tan : BF := wrap x (fun v => f v p rm) NAN NAN
/-- `asin` (ext.rs 1372-1382). -/
def asin : BF := wrap x (fun v => f v p rm) NAN NAN
/-- `acos` (ext.rs 1383-1393). -/
def acos : BF := wrap x (fun v => f v p rm) NAN NAN
/-- `sinh` (ext.rs 1395-1405). -/
def sinh : BF := wrap x (fun v => f v p rm) INF_POS INF_NEG
/-- `cosh` (ext.rs 1406-1416). -/
def cosh : BF := wrap x (fun v => f v p rm) INF_POS INF_POS
/-- `asinh` (ext.rs 1417-1427). -/
def asinh : BF := wrap x (fun v => f v p rm) INF_POS INF_NEG
/-- `acosh` (ext.rs 1428-1438). -/
def acosh : BF := wrap x (fun v => f v p rm) INF_POS NAN
/-- `atanh` (ext.rs 1439-1449). -/
def atanh : BF := wrap x (fun v => f v p rm) NAN NAN

/-- `tanh` (ext.rs 769-775). -/
def tanh : BF :=
  match x with
  | num v => resultToExt (f v p rm) v.isZero true
  | inf s => fromI 8 s.toInt p
  | nan e => nan e

/-- `half_pi` (ext.rs 777-789); `pi p rm` stands for `cc.pi_num(p, rm)`. -/
def halfPi (pi : Nat → RM → Except Err Num) (s : Sign) : Except Err Num :=
  match pi p rm with
  | .error e => .error e
  | .ok v => .ok ((v.setExponent 1).setSign s)

/-- `atan` (ext.rs 757-763). -/
def atan (pi : Nat → RM → Except Err Num) : BF :=
  match x with
  | num v => resultToExt (f v p rm) v.isZero true
  | inf s => resultToExt (halfPi p rm pi s) false true
  | nan e => nan e

end Elementary

end BF
end AF
