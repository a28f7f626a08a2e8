import Verif.Model.Log
import Verif.Model.Pi
/-!
# The arctangent (ops/atan.rs)

The cache of constants is the cache of pi, the only one that the function uses. Running out of fuel is `none` in the loop
of `atan` and a panic in the loops of the series; `C74_endless` shows that the latter can be a run that does not end.
-/

namespace AF

/-! ## Polynomial coefficients -/

/-- `AtanPolycoeffGen` (atan.rs 22-25). -/
structure AtanGen where
  f : Num
  cost : Nat

/-- `AtanPolycoeffGen::new` (atan.rs 28-34). -/
def atanGenNew : Except Err AtanGen :=
  match Num.fromWord 1 1 with
  | .error e => .error e
  | .ok f => .ok { f, cost := calcAddCost f.m.maxBitLen }

/-- `AtanPolycoeffGen::next` (atan.rs 38-49) in rounding mode `None`. -/
def atanNext (g : AtanGen) : Except Err (Num × AtanGen) :=
  let p := g.f.m.maxBitLen
  match (if g.f.isPositive then g.f.add Num.TWO p .none else g.f.sub Num.TWO p .none) with
  | .error e => .error e
  | .ok f => .ok (f.invSign, { g with f := f.invSign })

/-- `AtanArgReductionEstimator::reduction_cost` (atan.rs 66-71). -/
def atanRedCost (n p : Nat) : Nat :=
  let cm := calcMulCost p
  let ca := calcAddCost p
  n * (2 * (cm + ca) + calcSqrtCost p cm ca)

/-- `AtanArgReductionEstimator::reduction_effect` (atan.rs 75-78). The sum is not negative where it is used. -/
def atanRedEff (m : Int) (n : Nat) : Nat := ((n : Int) + m).toNat

namespace Num

/-- `atan_arg_reduce` (atan.rs 176-190) after the copy; `p` is the precision of the number. -/
def atanArgReduce (p : Nat) : Nat → Num → Except Err Num
  | 0, x => .ok x
  | n + 1, x => match x.mul x p .none with
    | .error e => .error e
    | .ok xx => match xx.add ONE p .none with
      | .error e => .error e
      | .ok n0 => match n0.sqrt p .none with
        | .error e => .error e
        | .ok n1 => match n1.add ONE p .none with
          | .error e => .error e
          | .ok n2 => match x.div n2 p .fromZero with
            | .error e => .error e
            | .ok x => atanArgReduce p n x

/-- `atan_series` once the argument has been reduced (atan.rs 162-172); `n` is the number of reductions. -/
def atanSeriesArg (arg : Num) (p : Nat) (g : AtanGen) (n niter : Nat) : Except Err Num :=
  match arg.mul arg p .none with
  | .error e => .error e
  | .ok xs => match arg.mul xs p .none with
    | .error e => .error e
    | .ok xf => match seriesRun atanNext true arg xf xs niter g with
      | .error e => .error e
      | .ok r => .ok (if n > 0 then r.setExponent (r.e + (n : Int)) else r)

/-- `atan_series` (atan.rs 136-173) in rounding mode `None`. -/
def atanSeries (x : Num) : Except Err Num :=
  let p := x.m.maxBitLen
  match atanGenNew with
  | .error e => .error e
  | .ok g => match seriesCostOptimize atanRedCost (atanRedEff (-x.e)) p g.cost (-x.e) 2 with
    | .error e => .error e
    | .ok (n, niter, eeff) =>
      let n := if eeff < 3 then n + (3 - eeff) else n
      let addPrec : Int := (n : Int) * 8 + 2 - (eeff : Int)
      let pArg := p + if addPrec > 0 then addPrec.toNat else 0
      match x.setPrecision pArg .none with
      | .error e => .error e
      | .ok x => match (if n > 0 then atanArgReduce x.m.maxBitLen n x else .ok x) with
        | .error e => .error e
        | .ok arg => arg.atanSeriesArg pArg g n niter

/-- The cache of pi. -/
abbrev PiCache := ConstCache (Num × Num × Num × Nat)

/-- The body of the loop of `atan` (atan.rs 105-123; `pi_num` in ops/consts/mod.rs 56-59). -/
def atanStep (x : Num) (w : Nat) (c : PiCache) : Option (LoopStep × PiCache) :=
  let px := w + 5
  match x.setPrecision px .none with
  | .error e => some (.ret (.error e), c)
  | .ok y =>
    if y.e > 0 then
      match y.reciprocal px .none with
      | .error e => some (.ret (.error e), c)
      | .ok y => match y.atanSeries with
        | .error e => some (.ret (.error e), c)
        | .ok r => match piForPrec (roundP px) .none c with
          | none => none
          | some (.error e, c) => some (.ret (.error e), c)
          | some (.ok pi, c) => match ((pi.setExponent 1).setSign x.s).sub r px .none with
            | .error e => some (.ret (.error e), c)
            | .ok r => some (.tst r, c)
    else match y.atanSeries with
      | .error e => some (.ret (.error e), c)
      | .ok r => some (.tst r, c)

/-- `atan` (atan.rs 90-133). Besides the result and the cache it returns the precision `p_wrk` of the last round. -/
def atan (x : Num) (p : Nat) (rm : RM) (fuel : Nat) (c : PiCache) : Option (Except Err Num × PiCache × Nat) :=
  let p := roundP p
  if x.isZero then some (new2 p x.s x.inexact, c, 0)
  else
    let pWrk := max p x.m.maxBitLen
    if (pWrk : Int) + 1 < -(x.e * 2 - 1) then some (x.smallExp true p rm, c, 0)
    else roundLoop x.atanStep p rm x.inexact fuel 64 (pWrk + 64) c

end Num

namespace BF

/-- `half_pi` (ext.rs 777-790). -/
def halfPiC (s : Sign) (p : Nat) (rm : RM) (c : Num.PiCache) : Option (Except Err Num × Num.PiCache) :=
  (piForPrec (roundP p) rm c).map fun r => (r.1.map fun v => (v.setExponent 1).setSign s, r.2)

/-- `atan` of a `BigFloat` (ext.rs 757-763). -/
def atanC (x : BF) (p : Nat) (rm : RM) (fuel : Nat) (c : Num.PiCache) : Option (BF × Num.PiCache × Nat) :=
  match x with
  | .num v => match v.atan p rm fuel c with
    | none => none
    | some (r, c, w) => some (resultToExt r v.isZero true, c, w)
  | .inf s => (halfPiC s p rm c).map fun r => (resultToExt r.1 false true, r.2, 0)
  | .nan e => some (.nan e, c, 0)

end BF

end AF
