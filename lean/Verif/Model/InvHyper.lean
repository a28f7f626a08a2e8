import Verif.Model.Log
/-!
# Inverse hyperbolic functions (ops/acosh.rs, ops/asinh.rs, ops/atanh.rs)

The cache of constants is the cache of `ln 2`, the only one that these functions use. Running out of fuel is `none`.
-/

namespace AF

namespace Num

/-! ## acosh and asinh -/

/-- `ln(2 * x)` for large arguments (acosh.rs 45-64, asinh.rs 48-68; `ln_2_num` in ops/consts/mod.rs 80-83). -/
def lnTwice (x : Num) (px fuel : Nat) (c : Ln2Cache) : Option (LoopStep × Ln2Cache) :=
  if x.e = EMAX then
    let px := px + 2
    match x.ln px .none fuel c with
    | none => none
    | some (.error er, c, _) => some (.ret (.error er), c)
    | some (.ok lnx, c, _) => match ln2ForPrec (roundP px) .none c with
      | none => none
      | some (.error er, c) => some (.ret (.error er), c)
      | some (.ok ln2, c) => match ln2.add lnx px .none with
        | .error er => some (.ret (.error er), c)
        | .ok r => some (.tst r, c)
  else match (x.setExponent (x.e + 1)).ln px .none fuel c with
    | none => none
    | some (.error er, c, _) => some (.ret (.error er), c)
    | some (.ok r, c, _) => some (.tst r, c)

/-- `ln(x + sqrt(x * x + 1))` (asinh.rs 72-81; `add` is true) and `ln(x + sqrt(x * x - 1))` (acosh.rs 74-82; `add` is
false). -/
def lnRoot (x : Num) (add : Bool) (px fuel : Nat) (c : Ln2Cache) : Option (LoopStep × Ln2Cache) :=
  match x.mul x px .none with
  | .error er => some (.ret (.error er), c)
  | .ok xx => match (if add then xx.add ONE px .none else xx.sub ONE px .none) with
    | .error er => some (.ret (.error er), c)
    | .ok d1 => match d1.sqrt px .none with
      | .error er => some (.ret (.error er), c)
      | .ok d2 => match d2.add x px .fromZero with
        | .error er => some (.ret (.error er), c)
        | .ok d3 => match d3.ln px .none fuel c with
          | none => none
          | some (.error er, c, _) => some (.ret (.error er), c)
          | some (.ok r, c, _) => some (.tst r, c)

/-- The body of the loops of `acosh` (acosh.rs 42-83) and `asinh` (asinh.rs 45-82); `ap` is what the other branch adds
to the precision. The division of `isize` is towards zero. -/
def invStep (x : Num) (add : Bool) (ap fuel w : Nat) (c : Ln2Cache) : Option (LoopStep × Ln2Cache) :=
  if (x.e - 1).tdiv 2 > (w : Int) + 2 then x.lnTwice w fuel c
  else x.lnRoot add (w + ap) fuel c

/-- `acosh` (acosh.rs 24-93). Besides the result and the cache it returns the precision
`p_wrk` of the last round. -/
def acosh (x : Num) (p : Nat) (rm : RM) (fuel : Nat) (c : Ln2Cache) : Option (Except Err Num × Ln2Cache × Nat) :=
  let p := roundP p
  let o := x.cmp ONE
  if o = 0 then some (new2 p .pos x.inexact, c, 0)
  else if o < 0 then some (.error .invalidArgument, c, 0)
  else
    let ap := 6 + if x.e = 1 then countLeadingZeroesSkipFirst x.m.m else 0
    roundLoop (invStep { x with inexact := false } false ap fuel) p rm x.inexact fuel 64 (max p x.m.maxBitLen + 64) c

/-- `asinh` (asinh.rs 24-95). -/
def asinh (x : Num) (p : Nat) (rm : RM) (fuel : Nat) (c : Ln2Cache) : Option (Except Err Num × Ln2Cache × Nat) :=
  let p := roundP p
  if x.isZero then some (new2 p x.s x.inexact, c, 0)
  else
    let pMax := max p x.m.maxBitLen
    if (pMax : Int) + 1 < -(x.e * 2 - 2) then some (x.smallExp true p rm, c, 0)
    else
      let rm := if x.isNegative then invertRm rm else rm
      let ap := x.e.natAbs + 5
      match roundLoop (invStep (({ x with inexact := false } : Num).setSign .pos) true ap fuel) p rm x.inexact fuel 64
          (pMax + 64) c with
      | none => none
      | some (.error e, c, w) => some (.error e, c, w)
      | some (.ok r, c, w) => some (.ok (r.setSign x.s), c, w)

/-! ## atanh -/

/-- The state of the loop of `atanh`: the argument as extended so far and the cache. -/
abbrev AtanhState := Num × Ln2Cache

/-- The body of the loop of `atanh` (atanh.rs 64-75). -/
def atanhStep (ap fuel w : Nat) (s : AtanhState) : Option (LoopStep × AtanhState) :=
  let px := w + ap
  match s.1.setPrecision px .none with
  | .error e => some (.ret (.error e), s)
  | .ok x => match ONE.add x px .none with
    | .error e => some (.ret (.error e), (x, s.2))
    | .ok d1 => match ONE.sub x px .none with
      | .error e => some (.ret (.error e), (x, s.2))
      | .ok d2 => match d1.div d2 px .none with
        | .error e => some (.ret (.error e), (x, s.2))
        | .ok d3 => match d3.ln px .none fuel s.2 with
          | none => none
          | some (.error e, c, _) => some (.ret (.error e), (x, c))
          | some (.ok r, c, _) => some (.tst (r.divBy2 .none), (x, c))

/-- `atanh` (atanh.rs 23-86). -/
def atanh (x : Num) (p : Nat) (rm : RM) (fuel : Nat) (c : Ln2Cache) : Option (Except Err Num × Ln2Cache × Nat) :=
  let p := roundP p
  if x.isZero then some (x.setPrecision p .none, c, 0)
  else if x.e = 1 then
    if x.absCmp ONE = 0 then some (.error (.exponentOverflow x.s), c, 0)
    else some (.error .invalidArgument, c, 0)
  else if x.e > 1 then some (.error .invalidArgument, c, 0)
  else
    let pWrk := max p x.m.maxBitLen
    if (pWrk : Int) + 1 < -(x.e * 2 - 1) then some (x.smallExp false p rm, c, 0)
    else
      let ap := 4 + if x.e < 0 then x.e.natAbs else countLeadingOnes x.m.m
      match roundLoop (atanhStep ap fuel) p rm x.inexact fuel 64 (pWrk + 64) ({ x with inexact := false }, c) with
      | none => none
      | some (r, s, w) => some (r, s.2, w + ap)

end Num

namespace BF

/-- A function of `BigFloat` made by `gen_wrapper_arg_rm_cc!` (ext.rs 1200-1214) from the function `f` of
`BigFloatNumber` that uses the cache of `ln 2`; `pinf` and `ninf` are the results for the infinities. -/
def wrapInv (f : Num → Nat → RM → Nat → Num.Ln2Cache → Option (Except Err Num × Num.Ln2Cache × Nat))
    (pinf ninf : BF) (x : BF) (p : Nat) (rm : RM) (fuel : Nat) (c : Num.Ln2Cache) : Option (BF × Num.Ln2Cache × Nat) :=
  match x with
  | .num v => match f v p rm fuel c with
    | none => none
    | some (r, c, w) => some (resultToExt r v.isZero true, c, w)
  | .inf s => some (if s.isPos then pinf else ninf, c, 0)
  | .nan e => some (.nan e, c, 0)

/-- `asinh` of a `BigFloat` (ext.rs 1417-1427). -/
def asinhC := wrapInv Num.asinh INF_POS INF_NEG

/-- `acosh` of a `BigFloat` (ext.rs 1428-1438). -/
def acoshC := wrapInv Num.acosh INF_POS NAN

/-- `atanh` of a `BigFloat` (ext.rs 1439-1449). -/
def atanhC := wrapInv Num.atanh NAN NAN

end BF

end AF
