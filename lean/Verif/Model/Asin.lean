import Verif.Model.Atan
/-!
# Model of `ops/asin.rs` and `ops/acos.rs`

The cache of constants is the cache of pi, the only one that the functions use. Running out of fuel is `none`. Besides what
the Rust functions keep, the states count the largest working precision of the calls of `atan`, which the theorems refer to.
-/

namespace AF

namespace Num

/-! ## asin -/

/-- The state of the loop of `asin`: the argument as extended so far, the cache, and the largest working precision of the
calls of `atan` so far (not in the Rust code). -/
abbrev AsinState := Num × PiCache × Nat

/-- The body of the loop of `asin` (asin.rs 63-72). -/
def asinStep (rm : RM) (ap fuel w : Nat) (s : AsinState) : Option (LoopStep × AsinState) :=
  let px := w + ap
  match s.1.setPrecision px .none with
  | .error e => some (.ret (.error e), s)
  | .ok x => match x.mul x px .none with
    | .error e => some (.ret (.error e), (x, s.2))
    | .ok xx => match ONE.sub xx px .none with
      | .error e => some (.ret (.error e), (x, s.2))
      | .ok t => match t.sqrt px .none with
        | .error e => some (.ret (.error e), (x, s.2))
        | .ok q => match x.div q px .none with
          | .error e => some (.ret (.error e), (x, s.2))
          | .ok d => match d.atan px rm fuel s.2.1 with
            | none => none
            | some (.error e, c, v) => some (.ret (.error e), (x, c, max s.2.2 v))
            | some (.ok r, c, v) => some (.tst r, (x, c, max s.2.2 v))

/-- `asin` (asin.rs 23-83). Besides the result and the cache it returns the largest working precision, that of the calls
of `atan` included. -/
def asin (x : Num) (p : Nat) (rm : RM) (fuel : Nat) (c : PiCache) : Option (Except Err Num × PiCache × Nat) :=
  let p := roundP p
  if x.isZero then some (new2 p x.s x.inexact, c, 0)
  else
    let o := x.absCmp ONE
    if o > 0 then some (.error .invalidArgument, c, 0)
    else if o = 0 then
      let rm := if x.isNegative then invertRm rm else rm
      match piForPrec p rm c with
      | none => none
      | some (.error e, c) => some (.error e, c, 0)
      | some (.ok pi, c) => some (.ok ((pi.setExponent (pi.e - 1)).setSign x.s), c, 0)
    else
      let pWrk := max p x.m.maxBitLen
      if (pWrk : Int) + 1 < -(x.e * 2 - 2) then some (x.smallExp false p rm, c, 0)
      else
        let ap := 8 + if x.e = 0 then countLeadingOnes x.m.m else 0
        match roundLoop (asinStep rm ap fuel) p rm x.inexact fuel 64 (pWrk + 64) ({ x with inexact := false }, c, 0) with
        | none => none
        | some (r, s, w) => some (r, s.2.1, max (w + ap) s.2.2)

/-! ## acos -/

/-- The state of the loop of `acos`: the argument as extended so far, `add_p`, the cache, and the largest working precision
of the calls of `asin` so far (not in the Rust code). -/
abbrev AcosState := Num × Nat × PiCache × Nat

/-- The body of the loop of `acos` (acos.rs 43-62), repeated on fuel with the same `p_wrk` as long as `add_p` grows. -/
def acosStep (fuel : Nat) : Nat → Nat → AcosState → Option (LoopStep × AcosState)
  | 0, _, _ => none
  | f + 1, w, (x, ap, c, g) =>
    let px := w + ap
    match x.setPrecision px .none with
    | .error e => some (.ret (.error e), (x, ap, c, g))
    | .ok x => match x.asin px .none fuel c with
      | none => none
      | some (.error e, c, v) => some (.ret (.error e), (x, ap, c, max g v))
      | some (.ok r, c, v) => match piForPrec (roundP px) .none c with
        | none => none
        | some (.error e, c) => some (.ret (.error e), (x, ap, c, max g v))
        | some (.ok pi, c) =>
          let pi := pi.setExponent (pi.e - 1)
          match pi.add r px .none with
          | .error e => some (.ret (.error e), (x, ap, c, max g v))
          | .ok r2 => match pi.sub r px .none with
            | .error e => some (.ret (.error e), (x, ap, c, max g v))
            | .ok r =>
              let t := max r.e.natAbs r2.e.natAbs + 1
              if ap < t then acosStep fuel f w (x, t, c, max g v) else some (.tst r, (x, ap, c, max g v))

/-- `acos` (acos.rs 24-74). Besides the result and the cache it returns the largest working precision, that of the inner
calls included. -/
def acos (x : Num) (p : Nat) (rm : RM) (fuel : Nat) (c : PiCache) : Option (Except Err Num × PiCache × Nat) :=
  let p := roundP p
  let o := x.absCmp ONE
  if o = 0 ∧ x.isPositive then some (new2 p .pos x.inexact, c, 0)
  else if o > 0 then some (.error .invalidArgument, c, 0)
  else
    match roundLoop (acosStep fuel fuel) p rm x.inexact fuel 64 (max p x.m.maxBitLen + 64) ({ x with inexact := false }, 33, c, 0) with
    | none => none
    | some (r, s, w) => some (r, s.2.2.1, max (w + s.2.1) s.2.2.2)

end Num

namespace BF

/-- A function of `BigFloat` made by `gen_wrapper_arg_rm_cc!` (ext.rs 1200-1214) from the function `f` of
`BigFloatNumber` that uses the cache of pi and is not defined at the infinities. -/
def wrapPi (f : Num → Nat → RM → Nat → Num.PiCache → Option (Except Err Num × Num.PiCache × Nat))
    (x : BF) (p : Nat) (rm : RM) (fuel : Nat) (c : Num.PiCache) : Option (BF × Num.PiCache × Nat) :=
  match x with
  | .num v => match f v p rm fuel c with
    | none => none
    | some (r, c, w) => some (resultToExt r v.isZero true, c, w)
  | .inf _ => some (NAN, c, 0)
  | .nan e => some (.nan e, c, 0)

/-- `asin` of a `BigFloat` (ext.rs 1372-1381). -/
def asinC := wrapPi Num.asin

/-- `acos` of a `BigFloat` (ext.rs 1383-1392). -/
def acosC := wrapPi Num.acos

end BF

end AF
