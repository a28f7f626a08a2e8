import Verif.Model.Trig
/-!
# Tangent (ops/tan.rs)

The argument is prepared by the functions of ops/util.rs shared with the sine and the cosine (Model/Trig.lean). The
generator of coefficients of the tangent only estimates costs (tan.rs 21-44), so its state is its `iter_cost`.
-/

namespace AF

/-! ## The number of argument reductions -/

/-- `TanPolycoeffGen::new` (tan.rs 26-33): the field `iter_cost`. -/
def tanIterCost (p : Nat) : Nat := 9 * calcMulCost p + 2 * (calcAddCost p + calcAddCost 64)

/-- `TanArgReductionEstimator::reduction_cost` (tan.rs 50-54). -/
def tanRedCost (n p : Nat) : Nat := n * (2 * calcMulCost p + calcAddCost p)

/-- `TanArgReductionEstimator::reduction_effect` (tan.rs 58-60). The sum is not negative where it is used. -/
def tanRedEff (m : Int) (n : Nat) : Nat := ((n : Int) + m).toNat

/-- The loop of `series_cost_optimize` (series.rs 68-83) with `ext = true` and `pwr_step = 1`, on fuel. `cost1 = none`
stands for `u64::MAX`. -/
def tanCostLoop (m : Int) (p step : Nat) : Nat → Nat → Option Nat → Except Err (Nat × Nat × Nat)
  | 0, _, _ => .error .panic
  | f + 1, n, cost1 =>
    let meff := tanRedEff m n
    match seriesNiter p meff with
    | .error e => .error e
    | .ok niter =>
      let cost2 := tanIterCost p * niter + tanRedCost n p
      let less := match cost1 with
        | none => true
        | some c => decide (cost2 < c)
      if less then tanCostLoop m p step f (n + step) (some cost2)
      else .ok (n - step, niter, meff)

/-- `series_cost_optimize` (series.rs 51-84) as `tan_series` calls it (tan.rs 117-123): `(reduction_times, niter, m_eff)`.
The loop ends because the cost of the reduction grows; `6 * p + 2` rounds are more than enough (`tanCostLoop_spec`). -/
def tanCostOptimize (p : Nat) (m : Int) : Except Err (Nat × Nat × Nat) :=
  let step := log2Floor p / 2
  let n := if (step : Int) > m then ((step : Int) - m).toNat else 0
  tanCostLoop m p step (6 * p + 2) n none

/-! ## The series -/

/-- The variables of the loop of `tan_series_run` (tan.rs 154-160). -/
structure TanSt where
  xa : Num
  fct : Num
  inc : Num
  q1 : Num
  p1 : Num
  q2 : Num
  p2 : Num

/-- Half of a round of the loop of `tan_series_run`: the next numerator and denominator of the cosine (tan.rs 167-171) or
of the sine (tan.rs 181-185). -/
def tanHalf (p : Nat) (xa fct a q : Num) : Except Err (Num × Num) :=
  match a.mul fct p .none with
  | .error e => .error e
  | .ok a => match xa.mul q p .none with
    | .error e => .error e
    | .ok n1 => match a.add n1 p .none with
      | .error e => .error e
      | .ok a => match q.mul fct p .none with
        | .error e => .error e
        | .ok q => .ok (a, q)

/-- The next `inc` and `fct` (tan.rs 173-178 and 187-192). -/
def tanFct (p : Nat) (fct inc : Num) : Except Err (Num × Num) :=
  match inc.add Num.ONE inc.m.maxBitLen .none with
  | .error e => .error e
  | .ok inc => match (if fct.m.maxBitLen < p then fct.mulFullPrec inc else fct.mul inc p .none) with
    | .error e => .error e
    | .ok fct => .ok (fct, inc)

/-- The body of the loop of `tan_series_run` (tan.rs 163-192). -/
def tanRound (p : Nat) (xx : Num) (s : TanSt) : Except Err TanSt :=
  match s.xa.mul xx p .none with
  | .error e => .error e
  | .ok xa => match tanHalf p xa s.fct s.p1 s.q1 with
    | .error e => .error e
    | .ok (p1, q1) => match tanFct p s.fct s.inc with
      | .error e => .error e
      | .ok (fct, inc) => match tanHalf p xa fct s.p2 s.q2 with
        | .error e => .error e
        | .ok (p2, q2) => match tanFct p fct inc with
          | .error e => .error e
          | .ok (fct, inc) => .ok ⟨xa, fct, inc, q1, p1, q2, p2⟩

/-- The loop of `tan_series_run` (tan.rs 162-193), on fuel; running out of fuel is an error that no call reaches with
the fuel given by `tanSeriesRun` where `tanSeriesRun_spec` applies. -/
def tanLoop (p : Nat) (xx : Num) : Nat → TanSt → Except Err TanSt
  | 0, _ => .error .panic
  | f + 1, s =>
    if s.fct.e - s.xa.e ≤ (p : Int) then
      match tanRound p xx s with
      | .error e => .error e
      | .ok s => tanLoop p xx f s
    else .ok s

/-- `tan_series_run` (tan.rs 147-203) in rounding mode `None`. -/
def tanSeriesRun (x : Num) : Except Err Num :=
  let p := x.m.maxBitLen
  match x.mul x p .none with
  | .error e => .error e
  | .ok xx => match Num.fromWord 1 1 with
    | .error e => .error e
    | .ok one => match Num.fromWord 2 1 with
      | .error e => .error e
      | .ok two => match tanLoop p xx.invSign (p + 2) ⟨one, two, two, one, one, one, one⟩ with
        | .error e => .error e
        | .ok s => match s.p2.mul s.q1 p .none with
          | .error e => .error e
          | .ok n0 => match n0.mul x p .none with
            | .error e => .error e
            | .ok n1 => match s.p1.mul s.q2 p .none with
              | .error e => .error e
              | .ok n2 => match n1.div n2 p .none with
                | .error e => .error e
                | .ok r => .ok { r with inexact := true }

namespace Num

/-- The loop of `tan_arg_restore` (tan.rs 228-233). -/
def tanRestoreLoop (p : Nat) : Nat → Num → Except Err Num
  | 0, v => .ok v
  | n + 1, v =>
    match v.mul v p .none with
    | .error e => .error e
    | .ok sq => match ONE.sub sq p .none with
      | .error e => .error e
      | .ok q => match (v.setExponent (v.e + 1)).div q p .none with
        | .error e => .error e
        | .ok v => tanRestoreLoop p n v

/-- The computation of `tan_series` once the number of reductions is known (tan.rs 125-143). `tan_arg_reduce`
(tan.rs 206-219) is the same code as `cos_arg_reduce`. -/
def tanSeriesBody (x : Num) (p n eeff : Nat) : Except Err Num :=
  let addPrec : Int := (n : Int) * 4 + 9 - eeff
  let pArg := p + addPrec.toNat
  match x.setPrecision pArg .none with
  | .error e => .error e
  | .ok x => match (if n > 0 then x.cosArgReduce n else .ok x) with
    | .error e => .error e
    | .ok arg => match tanSeriesRun arg with
      | .error e => .error e
      | .ok ret => if n > 0 then tanRestoreLoop ret.m.maxBitLen n ret else .ok ret

/-- `tan_series` (tan.rs 113-144) in rounding mode `None`. -/
def tanSeries (x : Num) : Except Err Num :=
  let p := x.m.maxBitLen
  match tanCostOptimize p (-x.e) with
  | .error e => .error e
  | .ok (n, _, eeff) => x.tanSeriesBody p n eeff

/-- The body of the loop of `tan` (tan.rs 89-100), repeated on fuel with the same `p_wrk` as long as `add_p` grows. -/
def tanStep (x : Num) : Nat → Nat → TrigState → Option (LoopStep × TrigState)
  | 0, _, _ => none
  | f + 1, w, (ap, c) =>
    match x.setPrecision (w + ap) .none with
    | .error e => some (.ret (.error e), (ap, c))
    | .ok y => match y.reduceTrigArg c with
      | none => none
      | some (.error e, c) => some (.ret (.error e), (ap, c))
      | some (.ok y, c) => match y.trigArgPiProximity c with
        | none => none
        | some (.error e, c) => some (.ret (.error e), (ap, c))
        | some (.ok (t, _), c) =>
          if ap < t then tanStep x f w (t, c)
          else match y.tanSeries with
            | .error e => some (.ret (.error e), (ap, c))
            | .ok r => some (.tst r, (ap, c))

/-- `tan` (tan.rs 72-111). Besides the result and the cache it returns the precision `p_wrk + add_p` of the last round. -/
def tan (x : Num) (p : Nat) (rm : RM) (fuel : Nat) (c : PiCache) : Option (Except Err Num × PiCache × Nat) :=
  let p := roundP p
  if x.isZero then some (new2 p x.s x.inexact, c, 0)
  else
    let pWrk := max p x.m.maxBitLen
    if (pWrk : Int) + 1 < -(x.e * 2 - 1) then some (x.smallExp false p rm, c, 0)
    else match roundLoop (tanStep x fuel) p rm x.inexact fuel 64 (pWrk + 64) (67, c) with
      | none => none
      | some (r, s, w) => some (r, s.2, w + s.1)

end Num

namespace BF

/-- `tan` of a `BigFloat` (ext.rs 1361-1370). -/
def tanC := wrapPi Num.tan

end BF

end AF
