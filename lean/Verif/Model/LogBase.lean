import Verif.Model.PowGen
import Verif.Model.Dec
/-!
# Logarithms to base 10 and to any base (ops/log.rs, `log10` and `log`)

The caches of constants that the functions use are passed and returned as values. Running out of fuel is `none`.
-/

namespace AF

namespace Num

/-! ## The logarithm to base 10 -/

/-- The state of the loop of `log10`: the argument as extended so far, the cache of `ln 2` (used by `ln`) and the cache of
`ln 10`. -/
abbrev Log10State := Num × Ln2Cache × Ln2Cache

/-- The test for a power of ten (log.rs 328-337): true if `r` is an integer whose power of ten, cut off at `px` bits, is
`x`. -/
def log10Test (x r : Num) (px : Nat) : Except Err Bool :=
  if r.isInt then
    match r.intAsUsize with
    | .error e => .error e
    | .ok n => match TEN.powi n px .none with
      | .error e => .error e
      | .ok tp => .ok (decide (tp.cmp x = 0))
  else .ok false

/-- The body of the loop of `log10` (log.rs 317-337; `ln_10_num` in ops/consts/mod.rs 92-99). -/
def log10Step (p : Nat) (rm : RM) (fuel w : Nat) (s : Log10State) : Option (LoopStep × Log10State) :=
  let px := w + 5
  match s.1.setPrecision px .none with
  | .error e => some (.ret (.error e), s)
  | .ok x => match x.ln px .none fuel s.2.1 with
    | none => none
    | some (.error e, c, _) => some (.ret (.error e), (x, c, s.2.2))
    | some (.ok p1, c, _) => match ln10ForPrec (roundP px) .none s.2.2 with
      | none => none
      | some (.error e, d) => some (.ret (.error e), (x, c, d))
      | some (.ok p2, d) => match p1.div p2 px .none with
        | .error e => some (.ret (.error e), (x, c, d))
        | .ok r => match log10Test x r px with
          | .error e => some (.ret (.error e), (x, c, d))
          | .ok true => some (.ret (r.setPrecision p rm), (x, c, d))
          | .ok false => some (.tst r, (x, c, d))

/-- `log10` (log.rs 304-347). Besides the result and the caches it returns the working precision of the last round. -/
def log10 (x : Num) (p : Nat) (rm : RM) (fuel : Nat) (c : Ln2Cache × Ln2Cache) :
    Option (Except Err Num × (Ln2Cache × Ln2Cache) × Nat) :=
  let p := roundP p
  match roundLoop (log10Step p rm fuel) p rm x.inexact fuel 64 (max p x.m.maxBitLen + 64) ({ x with inexact := false }, c) with
  | none => none
  | some (r, s, w) => some (r, s.2, w)

/-! ## The logarithm to any base -/

/-- The loop of `log` (log.rs 386-427); `x0` and `n` are the arguments, `x` and `y` the arguments as extended so far. -/
def logLoop (x0 n : Num) (p : Nat) (rm : RM) (pfuel : Nat) :
    Nat → Nat → Nat → Num → Num → PowCaches → Option (Except Err Num × PowCaches × Nat)
  | 0, _, _, _, _, _ => none
  | f + 1, pInc, w, x, y, c =>
    let px := w + 5
    match x.setPrecision px .none with
    | .error e => some (.error e, c, w)
    | .ok x => match y.setPrecision px .none with
      | .error e => some (.error e, c, w)
      | .ok y => match x.ln px .none pfuel c.2 with
        | none => none
        | some (.error e, d, _) => some (.error e, (c.1, d), w)
        | some (.ok p1, d, _) => match y.ln px .none pfuel d with
          | none => none
          | some (.error e, d, _) => some (.error e, (c.1, d), w)
          | some (.ok p2, d, _) => match p1.div p2 px .none with
            | .error e => some (.error e, (c.1, d), w)
            | .ok r2 => match r2.trySetPrecision p rm w with
              | .error e => some (.error e, (c.1, d), w)
              | .ok (true, r) => some (.ok { r with inexact := r.inexact || x0.inexact || n.inexact }, (c.1, d), w)
              | .ok (false, _) => match y.powC r2 (max px x0.m.maxBitLen) .none pfuel (c.1, d) with
                | none => none
                | some (.error e, c, _) => some (.error e, c, w)
                | some (.ok pw, c, _) =>
                  if pw.cmp x0 = 0 then
                    some (({ r2 with inexact := r2.inexact || x0.inexact || n.inexact } : Num).setPrecision p rm, c, w)
                  else logLoop x0 n p rm pfuel f (roundP ((w + pInc) / 5)) (w + pInc) x y c

/-- `log` (log.rs 360-429) with the caches. -/
def logC (x n : Num) (p : Nat) (rm : RM) (fuel : Nat) (c : PowCaches) : Option (Except Err Num × PowCaches × Nat) :=
  let p := roundP p
  if x.isZero || x.isNegative || n.isZero || n.isNegative then some (.error .invalidArgument, c, 0)
  else logLoop x n p rm fuel fuel 64 (max p (max x.m.maxBitLen n.m.maxBitLen) + 64) { x with inexact := false }
    { n with inexact := false } c

end Num

namespace BF

/-- `log10` of a `BigFloat` (ext.rs 1316-1326, made by `gen_wrapper_log!` in 1216-1232). -/
def log10C (x : BF) (p : Nat) (rm : RM) (fuel : Nat) (c : Num.Ln2Cache × Num.Ln2Cache) :
    Option (BF × (Num.Ln2Cache × Num.Ln2Cache) × Nat) :=
  match x with
  | .num v =>
    if v.isZero then some (INF_NEG, c, 0)
    else match v.log10 p rm fuel c with
      | none => none
      | some (r, c, w) => some (resultToExt r v.isZero true, c, w)
  | .inf s => some (if s.isPos then INF_POS else NAN, c, 0)
  | .nan e => some (.nan e, c, 0)

/-- `log` of a `BigFloat` (ext.rs 462-504) with the caches; `n` is the base. For numbers by `Num.logC`, otherwise as in
`BF.log`, which does not use its parameter then. -/
def logC (x n : BF) (p : Nat) (rm : RM) (fuel : Nat) (c : PowCaches) : Option (BF × PowCaches × Nat) :=
  match x, n with
  | .num v1, .num v2 =>
    if v2.isZero then some (INF_NEG, c, 0)
    else match v1.logC v2 p rm fuel c with
      | none => none
      | some (r, c, w) => some (resultToExt r false true, c, w)
  | x, n => some (BF.log (fun _ _ _ _ => .error .panic) x n p rm, c, 0)

end BF

end AF
