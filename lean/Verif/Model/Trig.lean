import Verif.Model.Asin
import Verif.Model.Div
/-!
# Sine and cosine (ops/sin.rs, ops/cos.rs, ops/util.rs)

The cache of constants is the cache of pi, the only one that the functions use. The generators of coefficients take their
half steps from the generator of the hyperbolic sine, whose code is the same (pow.rs 48-50, sin.rs 57-59, cos.rs 58-60).
-/

namespace AF

/-! ## Polynomial coefficients -/

/-- `SinPolycoeffGen` (sin.rs 23-29) and `CosPolycoeffGen` (cos.rs 24-30); `pos` is `sign > 0`. -/
structure TrigGen where
  g : SinhGen
  pos : Bool

/-- `SinPolycoeffGen::new` (sin.rs 32-49). -/
def sinGenNew (p : Nat) : Except Err TrigGen :=
  match Num.fromWord 1 1 with
  | .error e => .error e
  | .ok inc => match Num.fromWord 1 p with
    | .error e => .error e
    | .ok one => .ok ⟨⟨one, inc, one, (calcMulCost p + calcAddCost p + calcAddCost inc.m.maxBitLen) * 2⟩, true⟩

/-- `CosPolycoeffGen::new` (cos.rs 33-50). -/
def cosGenNew (p : Nat) : Except Err TrigGen :=
  match Num.new 1 with
  | .error e => .error e
  | .ok inc => match Num.fromWord 1 p with
    | .error e => .error e
    | .ok one => .ok ⟨⟨one, inc, one, (calcMulCost p + calcAddCost p + calcAddCost inc.m.maxBitLen) * 2⟩, true⟩

/-- `SinPolycoeffGen::next` (sin.rs 53-73) and `CosPolycoeffGen::next` (cos.rs 54-74) in rounding mode `None`. -/
def trigNext (g : TrigGen) : Except Err (Num × TrigGen) :=
  match sinhHalf g.g with
  | .error e => .error e
  | .ok h => match sinhHalf h with
    | .error e => .error e
    | .ok h =>
      let pos := !g.pos
      let fct := h.fct.setSign (if pos then .pos else .neg)
      .ok (fct, ⟨{ h with fct }, pos⟩)

/-- `SinArgReductionEstimator::reduction_cost` (sin.rs 85-91); `THREE` has 128 bits. -/
def sinRedCost (n p : Nat) : Nat := n * (2 * calcMulCost p + 3 * calcAddCost p + calcMulCost 128)

/-- `SinArgReductionEstimator::reduction_effect` (sin.rs 95-98). The sum is not negative where it is used. -/
def sinRedEff (m : Int) (n : Nat) : Nat := ((n : Int) * 1000 / 631 + m).toNat

/-- `CosArgReductionEstimator::reduction_cost` (cos.rs 86-91). -/
def cosRedCost (n p : Nat) : Nat := n * (calcMulCost p + calcAddCost p)

/-- `CosArgReductionEstimator::reduction_effect` (cos.rs 95-98). The sum is not negative where it is used. -/
def cosRedEff (m : Int) (n : Nat) : Nat := ((n : Int) + m).toNat

namespace Num

/-! ## The sine by series -/

/-- `sin_arg_reduce` (sin.rs 194-201). -/
def sinArgReduce (x : Num) (n : Nat) : Except Err Num :=
  match threePow (n - 1) with
  | .error e => .error e
  | .ok d => x.div d x.m.maxBitLen .none

/-- The loop of `sin_arg_restore` (sin.rs 210-216). -/
def sinRestoreLoop (p : Nat) : Nat → Num → Except Err Num
  | 0, s => .ok s
  | n + 1, s =>
    match s.mul s p .none with
    | .error e => .error e
    | .ok c => match c.mul s p .none with
      | .error e => .error e
      | .ok c => match s.mul THREE p .none with
        | .error e => .error e
        | .ok p1 => match c.mul FOUR p .none with
          | .error e => .error e
          | .ok p2 => match p1.sub p2 p .none with
            | .error e => .error e
            | .ok s => sinRestoreLoop p n s

/-- The computation of `sin_series` once the number of reductions is known (sin.rs 169-190). -/
def sinSeriesBody (x : Num) (p : Nat) (g : TrigGen) (n niter eeff : Nat) : Except Err Num :=
  let addPrec : Int := (n : Int) * 6 + 9 - eeff
  let pArg := p + addPrec.toNat
  match x.setPrecision pArg .none with
  | .error e => .error e
  | .ok x => match (if n > 0 then x.sinArgReduce n else .ok x) with
    | .error e => .error e
    | .ok arg => match arg.mul arg pArg .none with
      | .error e => .error e
      | .ok xs => match arg.mul xs pArg .none with
        | .error e => .error e
        | .ok xf => match seriesRun trigNext false arg xf xs niter g with
          | .error e => .error e
          | .ok ret => if n > 0 then sinRestoreLoop ret.m.maxBitLen n ret else .ok ret

/-- `sin_series` (sin.rs 151-190) in rounding mode `None`. -/
def sinSeries (x : Num) : Except Err Num :=
  let p := x.m.maxBitLen
  match sinGenNew p with
  | .error e => .error e
  | .ok g => match seriesCostOptimize sinRedCost (sinRedEff (-x.e)) p g.g.cost (-x.e) 2 with
    | .error e => .error e
    | .ok (n, niter, eeff) => x.sinSeriesBody p g n niter eeff

/-! ## The cosine by series -/

/-- `cos_arg_reduce` (cos.rs 190-203). The first branch is not reached: `cos` computes small arguments directly; it is
modelled as a panic. -/
def cosArgReduce (x : Num) (n : Nat) : Except Err Num :=
  if x.e < EMIN + (n : Int) then .error .panic else .ok (x.setExponent (x.e - (n : Int)))

/-- The loop of `cos_arg_restore` (cos.rs 212-216). -/
def cosRestoreLoop (p : Nat) : Nat → Num → Except Err Num
  | 0, c => .ok c
  | n + 1, c =>
    match c.mul c p .none with
    | .error e => .error e
    | .ok c2 => match (c2.setExponent (c2.e + 1)).sub ONE p .none with
      | .error e => .error e
      | .ok c => cosRestoreLoop p n c

/-- The computation of `cos_series` once the number of reductions is known (cos.rs 169-187). -/
def cosSeriesBody (x : Num) (p : Nat) (g : TrigGen) (n niter eeff : Nat) : Except Err Num :=
  let addPrec : Int := (n : Int) * 6 + 6 - eeff
  let pArg := p + addPrec.toNat
  match x.setPrecision pArg .none with
  | .error e => .error e
  | .ok x => match (if n > 0 then x.cosArgReduce n else .ok x) with
    | .error e => .error e
    | .ok arg => match fromWord 1 pArg with
      | .error e => .error e
      | .ok acc => match arg.mul arg pArg .none with
        | .error e => .error e
        | .ok xs => match seriesRun trigNext false acc xs xs niter g with
          | .error e => .error e
          | .ok ret => if n > 0 then cosRestoreLoop ret.m.maxBitLen n ret else .ok ret

/-- `cos_series` (cos.rs 152-187) in rounding mode `None`. -/
def cosSeries (x : Num) : Except Err Num :=
  let p := x.m.maxBitLen
  match cosGenNew p with
  | .error e => .error e
  | .ok g => match seriesCostOptimize cosRedCost (cosRedEff (-x.e)) p g.g.cost (-x.e) 2 with
    | .error e => .error e
    | .ok (n, niter, eeff) => x.cosSeriesBody p g n niter eeff

/-! ## The argument -/

/-- `reduce_trig_arg` (ops/util.rs 7-17) in rounding mode `None`. -/
def reduceTrigArg (x : Num) (c : PiCache) : Option (Except Err Num × PiCache) :=
  if x.e > 2 then
    match piForPrec (roundP (x.m.maxBitLen + x.e.toNat)) .none c with
    | none => none
    | some (.error e, c) => some (.error e, c)
    | some (.ok pi, c) => some (x.rem (pi.setExponent (pi.e + 1)), c)
  else some (.ok x, c)

/-- `trig_arg_pi_proximity` (ops/util.rs 20-51) in rounding mode `None`. The precision of the constant, an exponent, is
not negative. -/
def trigArgPiProximity (x : Num) (c : PiCache) : Option (Except Err (Nat × Nat) × PiCache) :=
  if x.e > 0 then
    match piForPrec (roundP (x.m.maxBitLen + x.e.toNat)) .none c with
    | none => none
    | some (.error e, c) => some (.error e, c)
    | some (.ok pi, c) =>
      let pi := pi.setSign x.s
      let pi := if x.e < 2 then pi.setExponent 1 else pi
      match x.sub pi x.m.maxBitLen .none with
      | .error e => some (.error e, c)
      | .ok r =>
        let q := pi.e.toNat
        if r.e > 0 ∧ x.s = r.s then
          let pi := if r.e < 2 then pi.setExponent 1 else pi
          match r.sub pi x.m.maxBitLen .none with
          | .error e => some (.error e, c)
          | .ok r => some (.ok (r.e.natAbs, q + pi.e.toNat), c)
        else some (.ok (r.e.natAbs, q), c)
  else some (.ok (x.e.natAbs, 0), c)

/-! ## Sine and cosine -/

/-- The state of the loops: `add_p` and the cache. -/
abbrev TrigState := Nat × PiCache

/-- The body of the loops of `sin` (sin.rs 126-138) and `cos` (cos.rs 128-140), repeated on fuel with the same `p_wrk` as
long as `add_p` grows; `par` is the parity of the multiples of pi/2 where the function is zero, `ser` the series. -/
def trigStep (par : Nat) (ser : Num → Except Err Num) (x : Num) : Nat → Nat → TrigState → Option (LoopStep × TrigState)
  | 0, _, _ => none
  | f + 1, w, (ap, c) =>
    match x.setPrecision (w + ap) .none with
    | .error e => some (.ret (.error e), (ap, c))
    | .ok y => match y.reduceTrigArg c with
      | none => none
      | some (.error e, c) => some (.ret (.error e), (ap, c))
      | some (.ok y, c) => match y.trigArgPiProximity c with
        | none => none
        | some (.error e, c) => some (.ret (.error e), (ap, c))
        | some (.ok (t, q), c) =>
          if q % 2 = par ∧ ap < t then trigStep par ser x f w (t, c)
          else match ser y with
            | .error e => some (.ret (.error e), (ap, c))
            | .ok r => some (.tst r, (ap, c))

/-- `sin` (sin.rs 110-147). Besides the result and the cache it returns the precision `p_wrk + add_p` of the last round. -/
def sin (x : Num) (p : Nat) (rm : RM) (fuel : Nat) (c : PiCache) : Option (Except Err Num × PiCache × Nat) :=
  let p := roundP p
  if x.isZero then some (new2 p x.s x.inexact, c, 0)
  else
    let pWrk := max p x.m.maxBitLen
    if (pWrk : Int) + 1 < -(x.e * 2 - 2) then some (x.smallExp true p rm, c, 0)
    else match roundLoop (trigStep 0 sinSeries x fuel) p rm x.inexact fuel 64 (pWrk + 64) (67, c) with
      | none => none
      | some (r, s, w) => some (r, s.2, w + s.1)

/-- `cos` (cos.rs 110-149). Besides the result and the cache it returns the precision `p_wrk + add_p` of the last round. -/
def cos (x : Num) (p : Nat) (rm : RM) (fuel : Nat) (c : PiCache) : Option (Except Err Num × PiCache × Nat) :=
  let p := roundP p
  if x.isZero then
    match fromWord 1 p with
    | .error e => some (.error e, c, 0)
    | .ok r => some (.ok { r with inexact := x.inexact }, c, 0)
  else
    let pWrk := max p x.m.maxBitLen
    if (pWrk : Int) + 1 < -(x.e * 2 - 1) then some (ONE.smallExp true p rm, c, 0)
    else match roundLoop (trigStep 1 cosSeries x fuel) p rm x.inexact fuel 64 (pWrk + 64) (65, c) with
      | none => none
      | some (r, s, w) => some (r, s.2, w + s.1)

end Num

namespace BF

/-- `sin` of a `BigFloat` (ext.rs 1339-1348). -/
def sinC := wrapPi Num.sin

/-- `cos` of a `BigFloat` (ext.rs 1350-1359). -/
def cosC := wrapPi Num.cos

end BF

end AF
