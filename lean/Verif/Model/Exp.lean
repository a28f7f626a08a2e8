import Verif.Model.Pow
import Verif.Model.Fft
import Verif.Model.Consts
/-!
# Power series and the exponential function (ops/series.rs, ops/pow.rs, ops/util.rs)

The series functions are defined over the type `G` of the generator of coefficients, given by `next` (`PolycoeffGen::next`
with rounding mode `None`, as in every call) and `isDiv` (`PolycoeffGen::is_div`).

The costs (`u64` and `usize` in the code) are computed on natural numbers. They decide only how often the argument is
reduced; for the precisions in the theorems they stay below `2^64`.
-/

namespace AF

/-! ## Costs (common/util.rs) -/

/-- `calc_mul_cost` (common/util.rs 91-103). -/
def calcMulCost (p : Nat) : Nat :=
  if p < 70 then p * p
  else if p < 1625 then sqrtInt (p * p * p % 2 ^ 32)
  else
    let q := sqrtInt (p % 2 ^ 32)
    q * q * q

/-- `calc_add_cost` (common/util.rs 107-109). -/
def calcAddCost (p : Nat) : Nat := p

/-! ## Series (ops/series.rs) -/

/-- `MAX_CACHE` (series.rs 15). -/
def MAX_CACHE : Nat := 128

/-- `RECT_ITER_THRESHOLD` (series.rs 16). -/
def RECT_ITER : Nat := MAX_CACHE / 10 * 9

/-- `series_niter` (series.rs 115-119). A divisor that is not positive is a panic. -/
def seriesNiter (p m : Nat) : Except Err Nat :=
  let ln := log2Floor p
  let lln := log2Floor ln
  if ln - lln + m ≤ 2 then .error .panic else .ok (p / (ln - lln + m - 2))

/-- `series_cost` (series.rs 125-139); `ic` is `polycoeff_gen.iter_cost()`. -/
def seriesCost (niter p ic : Nat) : Nat :=
  let cm := calcMulCost p
  let ca := calcAddCost p
  let cost := niter * (cm + ca + ic)
  if niter ≥ RECT_ITER then cost + sqrtInt (niter % 2 ^ 32) * cm + niter / 10 * (2 * cm + ca + ic) else cost

/-- The loop of `series_cost_optimize` (series.rs 68-83) with `ext = false`, on fuel; `redCost` and `redEff` are the
functions of the `ArgReductionEstimator`. `cost1 = none` stands for `u64::MAX`. -/
def costLoop (redCost : Nat → Nat → Nat) (redEff : Nat → Nat) (p ic pwr step : Nat) :
    Nat → Nat → Option Nat → Except Err (Nat × Nat × Nat)
  | 0, _, _ => .error .panic
  | f + 1, n, cost1 =>
    let meff := redEff n
    match seriesNiter p meff with
    | .error e => .error e
    | .ok ni =>
      let niter := ni / pwr
      let cost2 := seriesCost niter p ic + redCost n p
      let less := match cost1 with
        | none => true
        | some c => decide (cost2 < c)
      if less then costLoop redCost redEff p ic pwr step f (n + step) (some cost2)
      else .ok (n - step, niter, meff)

/-- `series_cost_optimize` (series.rs 51-84): `(reduction_times, niter, m_eff)`. The loop ends because the cost of the
reduction grows; `6 * p + 2` rounds are more than enough (`costLoop_spec`). -/
def seriesCostOptimize (redCost : Nat → Nat → Nat) (redEff : Nat → Nat) (p ic : Nat) (m : Int) (pwr : Nat) :
    Except Err (Nat × Nat × Nat) :=
  let step := log2Floor p / 2
  let n := if (step : Int) > m then ((step : Int) - m).toNat else 0
  costLoop redCost redEff p ic pwr step (6 * p + 2) n none

section Series
variable {G : Type} (next : G → Except Err (Num × G)) (isDiv : Bool)

/-- `x_pow.div(coeff)` or `x_pow.mul(coeff)` (series.rs 158-162, 255-259, 293-297). -/
def seriesTerm (x c : Num) (p : Nat) : Except Err Num := if isDiv then x.div c p .none else x.mul c p .none

/-- `series_compute_fast` (series.rs 142-166). -/
def seriesFast (acc xf : Num) (g : G) : Except Err Num :=
  if xf.isZero then .ok acc
  else
    let p := max acc.m.maxBitLen xf.m.maxBitLen
    match next g with
    | .error e => .error e
    | .ok (c, _) => match seriesTerm isDiv xf c p with
      | .error e => .error e
      | .ok part => acc.add part p .none

/-- The loop of `series_linear` (series.rs 253-269) on fuel. -/
def linearLoop (p : Nat) (xs : Num) : Nat → Num → Num → G → Except Err Num
  | 0, _, _, _ => .error .panic
  | f + 1, acc, xp, g =>
    match next g with
    | .error e => .error e
    | .ok (c, g) => match seriesTerm isDiv xp c p with
      | .error e => .error e
      | .ok part => match acc.add part p .none with
        | .error e => .error e
        | .ok acc =>
          if part.e ≤ acc.e - (acc.m.maxBitLen : Int) then .ok acc
          else match xp.mul xs p .none with
            | .error e => .error e
            | .ok xp => linearLoop p xs f acc xp g

/-- `series_linear` (series.rs 239-272). -/
def seriesLinear (acc xf xs : Num) (g : G) : Except Err Num :=
  let p := max (max acc.m.maxBitLen xf.m.maxBitLen) xs.m.maxBitLen
  linearLoop next isDiv p xs (2 * p + 64) acc xf g

/-- The loop of `compute_row` over the cached powers (series.rs 291-299). -/
def rowLoop (p : Nat) : List Num → Num → G → Except Err (Num × G)
  | [], acc, g => .ok (acc, g)
  | x :: xs, acc, g =>
    match next g with
    | .error e => .error e
    | .ok (c, g) => match seriesTerm isDiv x c p with
      | .error e => .error e
      | .ok t => match acc.add t p .none with
        | .error e => .error e
        | .ok acc => rowLoop p xs acc g

/-- `compute_row` (series.rs 275-302). -/
def computeRow (p : Nat) (cache : List Num) (g : G) : Except Err (Num × G) :=
  match Num.new p with
  | .error e => .error e
  | .ok acc => match next g with
    | .error e => .error e
    | .ok (c, g) => match (if isDiv then c.reciprocal p .none else .ok c) with
      | .error e => .error e
      | .ok r => match acc.add r p .none with
        | .error e => .error e
        | .ok acc => rowLoop next isDiv p cache acc g

/-- The loop of `series_horner` that collects the coefficients (series.rs 326-331) on fuel; the cache is returned with
the newest coefficient first. -/
def hornerCollect (lim xe : Int) : Nat → Int → Int → G → List Num → Except Err (List Num × G)
  | 0, _, _, _, _ => .error .panic
  | f + 1, xp, cp, g, cache =>
    if xp + cp < lim then
      match next g with
      | .error e => .error e
      | .ok (c, g) => hornerCollect lim xe f (xp - xe) (-c.e) g (c :: cache)
    else .ok (cache, g)

/-- The evaluation loop of `series_horner` (series.rs 336-339) over the cache, newest coefficient first. -/
def hornerEval (p : Nat) (xs : Num) : List Num → Num → Except Err Num
  | [], acc => .ok acc
  | c :: cs, acc =>
    match acc.mul xs p .none with
    | .error e => .error e
    | .ok t => match t.add c p .none with
      | .error e => .error e
      | .ok acc => hornerEval p xs cs acc

/-- `series_horner` (series.rs 306-344). The exponents of the coefficients fall, so that the fuel suffices
(`seriesHorner_spec`). -/
def seriesHorner (add xf xs : Num) (g : G) : Except Err Num :=
  let p := max (max add.m.maxBitLen xf.m.maxBitLen) xs.m.maxBitLen
  let lim := (p : Int) - add.e
  match hornerCollect next lim xs.e (lim.toNat + 3) (-xf.e - xs.e) 0 g [] with
  | .error e => .error e
  | .ok (cache, g) => match next g with
    | .error e => .error e
    | .ok (last, _) => match hornerEval p xs cache last with
      | .error e => .error e
      | .ok acc => match acc.mul xf p .none with
        | .error e => .error e
        | .ok acc => add.add acc p .none

/-- The loop that builds the cache of powers (series.rs 199-202): the powers in order, and the next one. -/
def powCache (p : Nat) (xs : Num) : Nat → Num → Except Err (List Num × Num)
  | 0, x => .ok ([], x)
  | n + 1, x =>
    match x.mul xs p .none with
    | .error e => .error e
    | .ok y => match powCache p xs n y with
      | .error e => .error e
      | .ok (l, z) => .ok (x :: l, z)

/-- The loop of `series_rectangular` (series.rs 210-220) on fuel; a negative `niter` is a panic. -/
def rectLoop (p : Nat) (cache : List Num) (xpow : Num) (csz : Nat) :
    Nat → Num → Num → Nat → G → Except Err (Num × Num × Nat × G)
  | 0, _, _, _, _ => .error .panic
  | f + 1, acc, tp, niter, g =>
    match computeRow next isDiv p cache g with
    | .error e => .error e
    | .ok (v, g) => match v.mul tp p .none with
      | .error e => .error e
      | .ok part => match acc.add part p .none with
        | .error e => .error e
        | .ok acc => match tp.mul xpow p .none with
          | .error e => .error e
          | .ok tp =>
            if niter < csz then .error .panic
            else if niter - csz < csz then .ok (acc, tp, niter - csz, g)
            else rectLoop p cache xpow csz f acc tp (niter - csz) g

/-- `series_rectangular` (series.rs 176-235). -/
def seriesRect (niter : Nat) (add xf xs : Num) (g : G) : Except Err Num :=
  let p := max (max add.m.maxBitLen xf.m.maxBitLen) xs.m.maxBitLen
  match Num.new p with
  | .error e => .error e
  | .ok acc =>
    let csz := min MAX_CACHE (sqrtInt (niter % 2 ^ 32))
    match powCache p xs csz xs with
    | .error e => .error e
    | .ok (cache, xpow) => match computeRow next isDiv p cache g with
      | .error e => .error e
      | .ok (v, g) => match acc.add v p .none with
        | .error e => .error e
        | .ok acc =>
          if niter < csz then .error .panic
          else match rectLoop next isDiv p cache xpow csz (niter + 1) acc xpow (niter - csz) g with
          | .error e => .error e
          | .ok (acc, tp, niter, g) => match acc.mul xf p .none with
            | .error e => .error e
            | .ok acc => match tp.mul xf p .none with
              | .error e => .error e
              | .ok tp => match acc.add add p .none with
                | .error e => .error e
                | .ok acc =>
                  if niter < MAX_CACHE * 10 ∧ isDiv = false then seriesHorner next acc tp xs g
                  else seriesLinear next isDiv acc tp xs g

/-- `series_run` (series.rs 86-106). -/
def seriesRun (acc xf xs : Num) (niter : Nat) (g : G) : Except Err Num :=
  let r :=
    if xf.isZero || xs.isZero then seriesFast next isDiv acc xf g
    else if niter ≥ RECT_ITER then seriesRect next isDiv niter acc xf xs g
    else if isDiv then seriesLinear next isDiv acc xf xs g
    else seriesHorner next acc xf xs g
  match r with
  | .error e => .error e
  | .ok v => .ok { v with inexact := true }

end Series

/-! ## Hyperbolic sine by series (ops/pow.rs) -/

/-- `SinhPolycoeffGen` (pow.rs 18-23). -/
structure SinhGen where
  one : Num
  inc : Num
  fct : Num
  cost : Nat

/-- `SinhPolycoeffGen::new` (pow.rs 26-40). -/
def sinhGenNew (p : Nat) : Except Err SinhGen :=
  match Num.fromWord 1 1 with
  | .error e => .error e
  | .ok inc => match Num.fromWord 1 p with
    | .error e => .error e
    | .ok one => .ok ⟨one, inc, one, (calcMulCost p + calcAddCost p + calcAddCost inc.m.maxBitLen) * 2⟩

/-- One half of `SinhPolycoeffGen::next` (pow.rs 48-50 and 52-54). -/
def sinhHalf (g : SinhGen) : Except Err SinhGen :=
  match g.inc.add Num.ONE g.inc.m.maxBitLen .none with
  | .error e => .error e
  | .ok inc => match g.one.div inc g.one.m.maxBitLen .none with
    | .error e => .error e
    | .ok inv => match g.fct.mul inv g.one.m.maxBitLen .none with
      | .error e => .error e
      | .ok fct => .ok { g with inc, fct }

/-- `SinhPolycoeffGen::next` (pow.rs 44-57). -/
def sinhNext (g : SinhGen) : Except Err (Num × SinhGen) :=
  match sinhHalf g with
  | .error e => .error e
  | .ok g => match sinhHalf g with
    | .error e => .error e
    | .ok g => .ok (g.fct, g)

/-- `SinhArgReductionEstimator::reduction_cost` (pow.rs 69-75); `THREE` has 128 bits. -/
def sinhRedCost (n p : Nat) : Nat := n * (2 * calcMulCost p + 3 * calcAddCost p + calcMulCost 128)

/-- `SinhArgReductionEstimator::reduction_effect` (pow.rs 79-82). -/
def sinhRedEff (m : Int) (n : Nat) : Nat := ((n : Int) * 1000 / 631 + m).toNat

namespace Num

/-- The constant `FOUR` (common/consts.rs 20). -/
def FOUR : Num := { e := 3, s := .pos, m := { m := [0, MSB], n := 128 }, inexact := false }

/-- The loop of `sinh_arg_reduce` (pow.rs 412-415): `THREE` to the power `n + 1`. -/
def threePow : Nat → Except Err Num
  | 0 => .ok THREE
  | n + 1 => match threePow n with
    | .error e => .error e
    | .ok d => d.mulFullPrec THREE

/-- `sinh_arg_reduce` (pow.rs 410-417). -/
def sinhArgReduce (x : Num) (n : Nat) (rm : RM) : Except Err Num :=
  match threePow (n - 1) with
  | .error e => .error e
  | .ok d => x.div d x.m.maxBitLen rm

/-- The loop of `sinh_arg_restore` (pow.rs 426-432). -/
def sinhRestoreLoop (p : Nat) (rm : RM) : Nat → Num → Except Err Num
  | 0, s => .ok s
  | n + 1, s =>
    match s.mul s p rm with
    | .error e => .error e
    | .ok c => match c.mul s p rm with
      | .error e => .error e
      | .ok c => match s.mul THREE p rm with
        | .error e => .error e
        | .ok p1 => match c.mul FOUR p rm with
          | .error e => .error e
          | .ok p2 => match p1.add p2 p rm with
            | .error e => .error e
            | .ok s => sinhRestoreLoop p rm n s

/-- `sinh_arg_restore` (pow.rs 421-435). -/
def sinhArgRestore (x : Num) (n : Nat) (rm : RM) : Except Err Num := sinhRestoreLoop x.m.maxBitLen rm n x

/-- The computation of `sinh_series` once the number of reductions is known (pow.rs 385-405). -/
def sinhSeriesBody (x : Num) (p : Nat) (rm : RM) (g : SinhGen) (n niter eeff : Nat) : Except Err Num :=
  let addPrec : Int := (n : Int) * 5 + 8 - eeff
  let pArg := p + addPrec.toNat
  match x.setPrecision pArg rm with
  | .error e => .error e
  | .ok x => match (if n > 0 then x.sinhArgReduce n rm else .ok x) with
    | .error e => .error e
    | .ok arg => match arg.mul arg pArg rm with
      | .error e => .error e
      | .ok xs => match arg.mul xs pArg rm with
        | .error e => .error e
        | .ok xf => match seriesRun sinhNext false arg xf xs niter g with
          | .error e => .error e
          | .ok ret => if n > 0 then ret.sinhArgRestore n rm else .ok ret

/-- `sinh_series` (pow.rs 370-406). -/
def sinhSeries (x : Num) (p : Nat) (rm : RM) : Except Err Num :=
  match sinhGenNew p with
  | .error e => .error e
  | .ok g => match seriesCostOptimize sinhRedCost (sinhRedEff (-x.e)) p g.cost (-x.e) 2 with
    | .error e => .error e
    | .ok (n, niter, eeff) => x.sinhSeriesBody p rm g n niter eeff

/-! ## The exponential function -/

/-- `expf` (pow.rs 355-367). -/
def expf (x : Num) : Except Err Num :=
  let p := x.m.maxBitLen
  match x.sinhSeries p .none with
  | .error e => .error e
  | .ok sh => match sh.mul sh p .none with
    | .error e => .error e
    | .ok sq => match sq.add ONE p .none with
      | .error e => .error e
      | .ok sq2 => match sq2.sqrt p .none with
        | .error e => .error e
        | .ok sq3 => sq3.add sh p .fromZero

/-- The integer part of `exp_positive_arg` (pow.rs 160-173; `e_num` in ops/consts/mod.rs 68-71); `c` is the cache of the constant `e`. -/
def expInt (x : Num) (p : Nat) (c : ConstCache (Num × Num)) : Option (Except Err Num × ConstCache (Num × Num)) :=
  match x.intAsUsize with
  | .error .invalidArgument => some (.error (.exponentOverflow .pos), c)
  | .error e => some (.error e, c)
  | .ok int =>
    if int > 0 then
      match eForPrec (roundP p) .none c with
      | none => none
      | some (.error e, c) => some (.error e, c)
      | some (.ok ec, c) => some (ec.powi int p .none, c)
    else some (.ok ONE, c)

/-- The fractional part of `exp_positive_arg` (pow.rs 175-183). -/
def expFract (x : Num) (p : Nat) : Except Err Num :=
  let fract := x.fract
  if !fract.isZero then
    match ({ fract with inexact := false } : Num).setPrecision p .none with
    | .error e => .error e
    | .ok f => (f.setSign .pos).expf
  else .ok ONE

/-- `exp_positive_arg` (pow.rs 150-186). `none` stands for a run of the constant `e` that does not end on its fuel. -/
def expPositive (x : Num) (p : Nat) (c : ConstCache (Num × Num)) :
    Option (Except Err Num × ConstCache (Num × Num)) :=
  if x.e > 64 then some (.error (.exponentOverflow x.s), c)
  else
    let pWork := p + 4
    match x.expInt pWork c with
    | none => none
    | some (.error e, c) => some (.error e, c)
    | some (.ok ei, c) => match x.expFract pWork with
      | .error e => some (.error e, c)
      | .ok ef => some (ei.mul ef p .fromZero, c)

/-- `add_correction` (num.rs 1539-1545). -/
def addCorrection (x : Num) (inv : Bool) : Except Err Num :=
  let p := x.m.maxBitLen + 1
  match minPositive p with
  | .error e => .error e
  | .ok corr =>
    let corr := (corr.setExponent x.e).setSign (if inv then x.s.invert else x.s)
    x.add corr p .none

/-- The body of `compute_small_exp!` (ops/util.rs 57-65). -/
def smallExp (arg : Num) (inv : Bool) (p : Nat) (rm : RM) : Except Err Num :=
  match (if p > arg.m.maxBitLen then arg.setPrecision p .none else .ok arg) with
  | .error e => .error e
  | .ok x => match x.addCorrection inv with
    | .error e => .error e
    | .ok r => r.setPrecision p rm

/-- The loop of `exp` (pow.rs 118-146) on fuel. Besides the result and the cache it returns the working precision of
the last round. -/
def expLoop (x : Num) (p : Nat) (rm : RM) :
    Nat → Nat → Nat → ConstCache (Num × Num) → Option (Except Err Num × ConstCache (Num × Num) × Nat)
  | 0, _, _, _ => none
  | f + 1, pInc, pWrk, c =>
    let px := pWrk + 2
    match x.expPositive px c with
    | none => none
    | some (.error e, c) =>
      match e with
      | .exponentOverflow s => some (if x.isNegative then new2 p s x.inexact else .error e, c, pWrk)
      | e => some (.error e, c, pWrk)
    | some (.ok v, c) =>
      match (if x.isNegative then ONE.div v px .fromZero else .ok v) with
      | .error e => some (.error e, c, pWrk)
      | .ok r => match r.trySetPrecision p rm pWrk with
        | .error e => some (.error e, c, pWrk)
        | .ok (true, r) => some (.ok { r with inexact := r.inexact || x.inexact }, c, pWrk)
        | .ok (false, _) => expLoop x p rm f (roundP ((pWrk + pInc) / 5)) (pWrk + pInc) c

/-- `exp` (pow.rs 95-147). -/
def exp (x : Num) (p : Nat) (rm : RM) (fuel : Nat) (c : ConstCache (Num × Num)) :
    Option (Except Err Num × ConstCache (Num × Num) × Nat) :=
  let p := roundP p
  if x.isZero then
    match fromWord 1 p with
    | .error e => some (.error e, c, 0)
    | .ok r => some (.ok { r with inexact := x.inexact }, c, 0)
  else
    let pInc := 64
    let pWrk := max p x.m.maxBitLen
    if (pWrk : Int) + 1 < -x.e then some (ONE.smallExp x.isNegative p rm, c, 0)
    else expLoop x p rm fuel pInc (pWrk + pInc) c

end Num

/-- `exp` of a `BigFloat` (ext.rs 1327-1337, 1200-1214) with the cache of the constant `e` as a value. It returns the
result, the cache left behind and the last working precision (0 if the loop is not reached); `none` stands for a run
that does not end on its fuel. -/
def BF.expC (x : BF) (p : Nat) (rm : RM) (fuel : Nat) (c : ConstCache (Num × Num)) :
    Option (BF × ConstCache (Num × Num) × Nat) :=
  match x with
  | .num v => match v.exp p rm fuel c with
    | none => none
    | some (r, c, w) => some (BF.resultToExt r v.isZero true, c, w)
  | .inf s => some (if s.isPos then BF.INF_POS else BF.new p, c, 0)
  | .nan e => some (.nan e, c, 0)

end AF
