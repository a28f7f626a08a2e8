import Verif.Model.Exp
/-!
# Hyperbolic functions (ops/cosh.rs, ops/sinh.rs, ops/tanh.rs)

The cache of constants is the cache of `e`, the only one that these functions use. Running out of fuel is `none`.
-/

namespace AF

/-- What the body of a loop does before `try_set_precision`: it leaves the function or has a value to try. -/
inductive LoopStep
  | ret (r : Except Err Num)
  | tst (v : Num)

/-- The loop that `cosh` (cosh.rs 41-72), `sinh` (sinh.rs 41-90) and `tanh` (tanh.rs 58-93) have in common, on fuel:
`step` is the part of the body before `try_set_precision`, `σ` what it changes, `ix` the mark of the argument. Besides
the result and the state it returns the working precision of the last round. -/
def roundLoop {σ : Type} (step : Nat → σ → Option (LoopStep × σ)) (p : Nat) (rm : RM) (ix : Bool) :
    Nat → Nat → Nat → σ → Option (Except Err Num × σ × Nat)
  | 0, _, _, _ => none
  | f + 1, pInc, pWrk, s =>
    match step pWrk s with
    | none => none
    | some (.ret r, s) => some (r, s, pWrk)
    | some (.tst v, s) => match v.trySetPrecision p rm pWrk with
      | .error e => some (.error e, s, pWrk)
      | .ok (true, r) => some (.ok { r with inexact := r.inexact || ix }, s, pWrk)
      | .ok (false, _) => roundLoop step p rm ix f (roundP ((pWrk + pInc) / 5)) (pWrk + pInc) s

namespace Num

/-- The state of the loops: the argument as extended so far and the cache. -/
abbrev HypState := Num × ConstCache (Num × Num)

/-! ## cosh -/

/-- The sum in the loop of `cosh` (cosh.rs 49-60). -/
def coshSum (x : Num) (px fuel : Nat) (c : ConstCache (Num × Num)) :
    Option (Except Err Num × ConstCache (Num × Num)) :=
  match x.exp px .none fuel c with
  | none => none
  | some (.error e, c, _) => some (.error e, c)
  | some (.ok ex, c, _) =>
    if (x.e - 1) * 2 > (x.m.maxBitLen : Int) + 2 then some (.ok ex, c)
    else match ex.reciprocal px .none with
      | .error e => some (.error e, c)
      | .ok xe => some (ex.add xe px .none, c)

/-- The body of the loop of `cosh` (cosh.rs 42-62). The sign is set in every round. -/
def coshStep (fuel w : Nat) (s : HypState) : Option (LoopStep × HypState) :=
  let px := w + 4
  match s.1.setPrecision px .none with
  | .error e => some (.ret (.error e), s)
  | .ok x =>
    let x := x.setSign .pos
    match x.coshSum px fuel s.2 with
    | none => none
    | some (.error e, c) => some (.ret (.error e), (x, c))
    | some (.ok r, c) => some (.tst (r.divBy2 .none), (x, c))

/-- `cosh` (cosh.rs 22-73). -/
def cosh (x : Num) (p : Nat) (rm : RM) (fuel : Nat) (c : ConstCache (Num × Num)) :
    Option (Except Err Num × ConstCache (Num × Num) × Nat) :=
  let p := roundP p
  if x.isZero then
    match fromWord 1 p with
    | .error e => some (.error e, c, 0)
    | .ok r => some (.ok { r with inexact := x.inexact }, c, 0)
  else
    let pInc := 64
    let pWrk := max p x.m.maxBitLen
    if (pWrk : Int) + 1 < -(x.e * 2 - 1) then some (ONE.smallExp false p rm, c, 0)
    else match roundLoop (coshStep fuel) p rm x.inexact fuel pInc (pWrk + pInc) ({ x with inexact := false }, c) with
      | none => none
      | some (r, s, w) => some (r, s.2, w)

/-! ## sinh -/

/-- The error of an overflow gets the sign of the argument (sinh.rs 57-59, 68-74). -/
def overSign (σ : Sign) : Err → Err
  | .exponentOverflow _ => .exponentOverflow σ
  | e => e

/-- The difference in the loop of `sinh` (sinh.rs 48-74); `σ` is the sign of the argument, `ethres` the threshold. -/
def sinhDiff (x : Num) (σ : Sign) (ethres px fuel : Nat) (c : ConstCache (Num × Num)) :
    Option (Except Err Num × ConstCache (Num × Num)) :=
  match x.exp px .none fuel c with
  | none => none
  | some (.error e, c, _) => some (.error (overSign σ e), c)
  | some (.ok ex, c, _) =>
    if ethres > x.m.maxBitLen + 2 then some (.ok ex, c)
    else match ex.reciprocal px .none with
      | .error e => some (.error e, c)
      | .ok xe => match ex.sub xe px .none with
        | .error e => some (.error (overSign σ e), c)
        | .ok r => some (.ok r, c)

/-- The body of the loop of `sinh` (sinh.rs 42-81). -/
def sinhStep (σ : Sign) (ethres fuel w : Nat) (s : HypState) : Option (LoopStep × HypState) :=
  let px := w + 4
  match s.1.setPrecision px .none with
  | .error e => some (.ret (.error e), s)
  | .ok x =>
    if x.e ≤ 0 then
      match x.sinhSeries px .none with
      | .error e => some (.ret (.error e), (x, s.2))
      | .ok r => some (.tst (r.setSign σ), (x, s.2))
    else match x.sinhDiff σ ethres px fuel s.2 with
      | none => none
      | some (.error e, c) => some (.ret (.error e), (x, c))
      | some (.ok r, c) => some (.tst ((r.divBy2 .none).setSign σ), (x, c))

/-- `sinh` (sinh.rs 21-91). -/
def sinh (x : Num) (p : Nat) (rm : RM) (fuel : Nat) (c : ConstCache (Num × Num)) :
    Option (Except Err Num × ConstCache (Num × Num) × Nat) :=
  let p := roundP p
  if x.isZero then some (new2 p x.s x.inexact, c, 0)
  else
    let pInc := 64
    let pWrk := max p x.m.maxBitLen
    if (pWrk : Int) + 1 < -(x.e * 2 - 2) then some (x.smallExp false p rm, c, 0)
    else
      let ethres := (max x.e.natAbs 1 - 1) * 2
      match roundLoop (sinhStep x.s ethres fuel) p rm x.inexact fuel pInc (pWrk + pInc)
          (({ x with inexact := false } : Num).setSign .pos, c) with
      | none => none
      | some (r, s, w) => some (r, s.2, w)

/-! ## tanh -/

/-- `process_large_exp` (tanh.rs 95-114); the modes of the masks are written out. -/
def tanhLarge (σ : Sign) (p : Nat) (rm : RM) : Except Err Num :=
  let r : Except Err Num :=
    if rm = .toZero ∨ (σ = .pos ∧ rm = .down) ∨ (σ = .neg ∧ rm = .up) then
      match maxValue p with
      | .error e => .error e
      | .ok r => .ok ((r.setSign σ).setExponent 0)
    else fromI 8 σ.toInt p
  match r with
  | .error e => .error e
  | .ok r => .ok { r with inexact := true }

/-- The state of the loop of `tanh`, with the largest working precision of the calls of `exp` so far (not part of the
code). -/
abbrev TanhState := Num × ConstCache (Num × Num) × Nat

/-- The body of the loop of `tanh` (tanh.rs 59-83). -/
def tanhStep (σ : Sign) (p : Nat) (rm : RM) (ap fuel w : Nat) (s : TanhState) : Option (LoopStep × TanhState) :=
  let px := w + ap
  match s.1.setPrecision px .none with
  | .error e => some (.ret (.error e), s)
  | .ok x =>
    match x.exp px .fromZero fuel s.2.1 with
    | none => none
    | some (.error (.exponentOverflow _), c, m) => some (.ret (tanhLarge σ p rm), (x, c, max s.2.2 m))
    | some (.error e, c, m) => some (.ret (.error e), (x, c, max s.2.2 m))
    | some (.ok ex, c, m) =>
      let s' := (x, c, max s.2.2 m)
      if ex.e > (px : Int) then some (.ret (tanhLarge σ p rm), s')
      else match ex.sub ONE px .none with
        | .error e => some (.ret (.error e), s')
        | .ok d1 => match ex.add ONE px .none with
          | .error e => some (.ret (.error e), s')
          | .ok d2 => match d1.div d2 px .none with
            | .error e => some (.ret (.error e), s')
            | .ok r => some (.tst (r.setSign σ), s')

/-- `tanh` (tanh.rs 24-93). The precision returned is the largest of the loop and of the calls of `exp`. -/
def tanh (x : Num) (p : Nat) (rm : RM) (fuel : Nat) (c : ConstCache (Num × Num)) :
    Option (Except Err Num × ConstCache (Num × Num) × Nat) :=
  let p := roundP p
  if x.isZero then some (new2 p x.s x.inexact, c, 0)
  else if x.e = EMAX then
    match fromI 8 x.s.toInt p with
    | .error e => some (.error e, c, 0)
    | .ok r => match r.addCorrection true with
      | .error e => some (.error e, c, 0)
      | .ok r => some (r.setPrecision p rm, c, 0)
  else
    let pInc := 64
    let pWrk := max p x.m.maxBitLen
    if (pWrk : Int) + 1 < -(x.e * 2 - 1) then some (x.smallExp true p rm, c, 0)
    else
      let ap := if x.e < 0 then 4 + x.e.natAbs else 4
      let y := (({ x with inexact := false } : Num).setSign .pos).setExponent (x.e + 1)
      match roundLoop (tanhStep x.s p rm ap fuel) p rm x.inexact fuel pInc (pWrk + pInc) (y, c, 0) with
      | none => none
      | some (r, s, w) => some (r, s.2.1, max w s.2.2)

end Num

namespace BF

/-- A function of `BigFloat` made by `gen_wrapper_arg_rm_cc!` (ext.rs 1200-1214) from the function `f` of
`BigFloatNumber`; `pinf` and `ninf` are the results for the infinities. -/
def wrapC (f : Num → Nat → RM → Nat → ConstCache (Num × Num) → Option (Except Err Num × ConstCache (Num × Num) × Nat))
    (pinf ninf : BF) (x : BF) (p : Nat) (rm : RM) (fuel : Nat) (c : ConstCache (Num × Num)) :
    Option (BF × ConstCache (Num × Num) × Nat) :=
  match x with
  | .num v => match f v p rm fuel c with
    | none => none
    | some (r, c, w) => some (resultToExt r v.isZero true, c, w)
  | .inf s => some (if s.isPos then pinf else ninf, c, 0)
  | .nan e => some (.nan e, c, 0)

/-- `cosh` of a `BigFloat` (ext.rs 1406-1416). -/
def coshC := wrapC Num.cosh INF_POS INF_POS

/-- `sinh` of a `BigFloat` (ext.rs 1395-1405). -/
def sinhC := wrapC Num.sinh INF_POS INF_NEG

/-- `tanh` of a `BigFloat` (ext.rs 769-775). -/
def tanhC (x : BF) (p : Nat) (rm : RM) (fuel : Nat) (c : ConstCache (Num × Num)) :
    Option (BF × ConstCache (Num × Num) × Nat) :=
  match x with
  | .num v => match v.tanh p rm fuel c with
    | none => none
    | some (r, c, w) => some (resultToExt r v.isZero true, c, w)
  | .inf s => some (fromI 8 s.toInt p, c, 0)
  | .nan e => some (.nan e, c, 0)

end BF

end AF
