import Verif.Model.Log
import Verif.Model.Pow
/-!
# The general power (ops/pow.rs, `pow`)

The caches of constants that the function uses are those of `e` (by `exp`) and of `ln 2` (by `ln`); they are passed and
returned as values. Running out of fuel is `none`.
-/

namespace AF

/-- The caches of `e` and of `ln 2`, two fields of `Consts` (ops/consts/mod.rs 21-28). -/
abbrev PowCaches := ConstCache (Num × Num) × Num.Ln2Cache

namespace Num

/-- The state of the loop of `pow`: the base as extended so far and the caches. -/
abbrev PowState := Num × PowCaches

/-- The condition under which `pow` does not return early (ops/pow.rs 454-503). -/
def powMain (x n : Num) : Bool :=
  !n.isZero && !x.isZero && !(decide (x.e = 1) && decide (x.absCmp ONE = 0)) && !(x.isNegative && !n.isInt) &&
    !(decide (n.e = 1) && decide (n.absCmp ONE = 0))

/-- The end of a round of the loop: the value from the product `m` (ops/pow.rs 551-571, after the small exponents). -/
def powValue (m : Num) (xix : Bool) (p px fuel : Nat) (c : ConstCache (Num × Num)) :
    Option (LoopStep × ConstCache (Num × Num)) :=
  if m.isNegative then
    match (m.setSign .pos).exp px .none fuel c with
    | none => none
    | some (.error (.exponentOverflow s), c, _) => some (.ret (new2 p s xix), c)
    | some (.error e, c, _) => some (.ret (.error e), c)
    | some (.ok u, c, _) => match ONE.div u px .fromZero with
      | .error e => some (.ret (.error e), c)
      | .ok r => some (.tst r, c)
  else match m.exp px .none fuel c with
    | none => none
    | some (.error e, c, _) => some (.ret (.error e), c)
    | some (.ok r, c, _) => some (.tst r, c)

/-- The body of the loop of `pow` (ops/pow.rs 519-571). `y` is the exponent, `xix` and `nix` are the marks of the
arguments. -/
def powStep (y : Num) (xix nix : Bool) (p : Nat) (erm : RM) (fuel w : Nat) (s : PowState) : Option (LoopStep × PowState) :=
  let px := w + 2
  match s.1.setPrecision px .none with
  | .error e => some (.ret (.error e), s)
  | .ok x => match x.ln px .none fuel s.2.2 with
    | none => none
    | some (.error e, c, _) => some (.ret (.error e), (x, s.2.1, c))
    | some (.ok l, c, _) => match y.mul l px .none with
      | .error (.exponentOverflow .neg) => some (.ret (new2 p .pos (nix || l.inexact)), (x, s.2.1, c))
      | .error e => some (.ret (.error e), (x, s.2.1, c))
      | .ok m =>
        if (px : Int) + 1 < -m.e then some (.ret (ONE.smallExp m.isNegative p erm), (x, s.2.1, c))
        else match powValue m xix p px fuel s.2.1 with
          | none => none
          | some (r, ec) => some (r, (x, ec, c))

/-- The sign of a power of a base other than zero (ops/pow.rs 513). -/
def powSign (x n : Num) : Sign := if n.isInt && n.isOddInt then x.s else .pos

/-- The computation of `pow` through `ln` and `exp` (ops/pow.rs 505-594). -/
def powRun (x n : Num) (p : Nat) (rm : RM) (fuel : Nat) (c : PowCaches) : Option (Except Err Num × PowCaches × Nat) :=
  let p := roundP p
  let y : Num := { n with inexact := false }
  let erm := if (powSign x n).isNeg then invertRm rm else rm
  match roundLoop (powStep y x.inexact n.inexact p erm fuel) p erm (x.inexact || n.inexact) fuel 64
      (max p (max x.m.maxBitLen n.m.maxBitLen) + 64) ({ x with inexact := false, s := .pos }, c) with
  | none => none
  | some (.error (.exponentOverflow _), s, w) => some (.error (.exponentOverflow (powSign x n)), s.2, w)
  | some (.error e, s, w) => some (.error e, s.2, w)
  | some (.ok v, s, w) => some (.ok (v.setSign (powSign x n)), s.2, w)

/-- `pow` (ops/pow.rs 446-595) with the caches: the early results are those of `Num.pow`, which does not use its
parameter then. -/
def powC (x n : Num) (p : Nat) (rm : RM) (fuel : Nat) (c : PowCaches) : Option (Except Err Num × PowCaches × Nat) :=
  if powMain x n then x.powRun n p rm fuel c
  else some (x.pow (fun _ _ _ _ => .error .panic) n p rm, c, 0)

end Num

/-- `pow` of a `BigFloat` (ext.rs 381-435) with the caches: for numbers by `Num.powC`, otherwise as in `BF.pow`. -/
def BF.powC (x n : BF) (p : Nat) (rm : RM) (fuel : Nat) (c : PowCaches) : Option (BF × PowCaches × Nat) :=
  match x, n with
  | .num v1, .num v2 => match v1.powC v2 p rm fuel c with
    | none => none
    | some (r, c, w) => some (BF.resultToExt r v1.isZero (v1.s == v2.s), c, w)
  | x, n => some (BF.pow (fun _ _ _ _ => .error .panic) x n p rm, c, 0)

end AF
