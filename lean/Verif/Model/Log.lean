import Verif.Model.Hyper
/-!
# Logarithms (ops/log.rs)

The cache of constants is the cache of `ln 2`, the only one that `ln` and `log2` use. Running out of fuel is `none`.
-/

namespace AF

/-- The loop of `count_leading_ones` (common/util.rs 311-324) over the words, most significant first. The inner loop
over a word that is not all ones counts the zeros of the complement. -/
def cloLoop : List Nat → Nat → Nat
  | [], ret => ret
  | v :: vs, ret => if v = WMAX then cloLoop vs (ret + 64) else ret + lz (WMAX - v)

/-- `count_leading_ones` (common/util.rs 308-327). -/
def countLeadingOnes (m : List Nat) : Nat := cloLoop m.reverse 0

/-- `calc_sqrt_cost` (common/util.rs 113-116). -/
def calcSqrtCost (p cm ca : Nat) : Nat := log2Floor p * 41349 / 2 ^ 16 * (5 * cm + 2 * ca) / 2

/-! ## The series of the inverse hyperbolic tangent -/

/-- `AtanhPolycoeffGen` (log.rs 25-30). -/
structure AtanhGen where
  acc : Num
  one : Num
  cost : Nat

/-- `AtanhPolycoeffGen::new` (log.rs 33-46). -/
def atanhGenNew (p : Nat) : Except Err AtanhGen :=
  match Num.fromWord 1 1 with
  | .error e => .error e
  | .ok acc => match Num.fromWord 1 p with
    | .error e => .error e
    | .ok one => .ok ⟨acc, one, calcAddCost p + calcAddCost acc.m.maxBitLen⟩

/-- The constant `TWO` (common/consts.rs 17). -/
def Num.TWO : Num := { e := 2, s := .pos, m := { m := [0, MSB], n := 128 }, inexact := false }

/-- `AtanhPolycoeffGen::next` (log.rs 50-57) in rounding mode `None`. -/
def atanhNext (g : AtanhGen) : Except Err (Num × AtanhGen) :=
  match g.acc.add Num.TWO g.acc.m.maxBitLen .none with
  | .error e => .error e
  | .ok acc => match g.one.div acc g.one.m.maxBitLen .none with
    | .error e => .error e
    | .ok val => .ok (val, { g with acc })

/-- `LnArgReductionEstimator::reduction_cost` (log.rs 68-75). -/
def lnRedCost (n p : Nat) : Nat := n * calcSqrtCost p (calcMulCost p) (calcAddCost p)

/-- `LnArgReductionEstimator::reduction_effect` (log.rs 79-81) with `m = 0`. -/
def lnRedEff (n : Nat) : Nat := n

namespace Num

/-- `ln_arg_reduce` (log.rs 199-205). -/
def lnArgReduce : Nat → Num → Except Err Num
  | 0, x => .ok x
  | n + 1, x => match x.sqrt x.m.maxBitLen .up with
    | .error e => .error e
    | .ok x => lnArgReduce n x

/-- `ln_series` once the argument has been reduced (log.rs 185-195, `ln_arg_restore` in 208-212); `n` is the number of reductions. -/
def lnSeriesArg (arg : Num) (p : Nat) (g : AtanhGen) (n niter : Nat) : Except Err Num :=
  match arg.sub ONE p .none with
  | .error e => .error e
  | .ok x1 => match arg.add ONE p .none with
    | .error e => .error e
    | .ok x2 => match x1.div x2 p .none with
      | .error e => .error e
      | .ok z => match z.mul z p .none with
        | .error e => .error e
        | .ok xs => match z.mul xs p .none with
          | .error e => .error e
          | .ok xf => match seriesRun atanhNext false z xf xs niter g with
            | .error e => .error e
            | .ok r => .ok (r.setExponent (r.e + ((n + 1 : Nat) : Int)))

/-- `ln_series` (log.rs 161-196) in rounding mode `None`. -/
def lnSeries (x : Num) : Except Err Num :=
  let p := x.m.maxBitLen
  match atanhGenNew p with
  | .error e => .error e
  | .ok g => match seriesCostOptimize lnRedCost lnRedEff p g.cost 0 2 with
    | .error e => .error e
    | .ok (n, niter, eeff) =>
      let n := if eeff < 3 then n + (3 - eeff) else n
      let addPrec : Int := 7 - (eeff : Int)
      let pArg := p + if addPrec > 0 then addPrec.toNat else 5
      match x.setPrecision pArg .none with
      | .error e => .error e
      | .ok x => match (if n > 0 then lnArgReduce n x else .ok x) with
        | .error e => .error e
        | .ok arg => arg.lnSeriesArg p g n niter

/-! ## The natural logarithm -/

/-- The mantissa of the argument as a number in `[1/2, 1)` (log.rs 106-110, `normalize2` in num.rs 571-573, `normilize2`
in mantissa.rs 803-806), and the exponent that goes with it. -/
def lnSplit (x : Num) : Num × Int :=
  let r := maximize x.m.m
  (({ x with m := { m := r.1, n := x.m.maxBitLen } } : Num).setExponent 0, x.e - (r.2 : Int))

/-- The bits lost to cancellation near 1 (log.rs 113-119), plus 5. -/
def lnAddPrec (m : Num) (e : Int) : Nat :=
  (if e = 0 then countLeadingOnes m.m.m
  else if e = 1 then countLeadingZeroesSkipFirst m.m.m
  else 0) + 5

/-- The cache of `ln 2`. -/
abbrev Ln2Cache := ConstCache (Num × Num × Num)

/-- The exponent as a number (log.rs 144-147). -/
def lnExpNum (e : Int) : Num :=
  let n := fromUsize e.natAbs
  if e < 0 then n.setSign .neg else n

/-- The body of the loop of `ln` (log.rs 130-151; `ln_2_num` in ops/consts/mod.rs 80-83); `ap` is `additional_prec`. -/
def lnStep (m : Num) (e : Int) (ap w : Nat) (c : Ln2Cache) : Option (LoopStep × Ln2Cache) :=
  match m.setPrecision (w + ap) .none with
  | .error er => some (.ret (.error er), c)
  | .ok x => match x.lnSeries with
    | .error er => some (.ret (.error er), c)
    | .ok p1 =>
      if e = 0 then some (.tst p1, c)
      else match ln2ForPrec (roundP p1.m.maxBitLen) .none c with
        | none => none
        | some (.error er, c) => some (.ret (.error er), c)
        | some (.ok p2, c) => match p2.mul (lnExpNum e) p1.m.maxBitLen .none with
          | .error er => some (.ret (.error er), c)
          | .ok p2n => match p1.add p2n p1.m.maxBitLen .none with
            | .error er => some (.ret (.error er), c)
            | .ok r => some (.tst r, c)

/-- `ln` (log.rs 94-159). Besides the result and the cache it returns the precision `p_wrk + additional_prec` of the
last round. -/
def ln (x : Num) (p : Nat) (rm : RM) (fuel : Nat) (c : Ln2Cache) : Option (Except Err Num × Ln2Cache × Nat) :=
  let p := roundP p
  if x.isZero || x.isNegative then some (.error .invalidArgument, c, 0)
  else
    let (m, e) := x.lnSplit
    let ap := m.lnAddPrec e
    if e = 1 ∧ ap = m.m.maxBitLen + 5 then some (new2 p .pos x.inexact, c, 0)
    else match roundLoop (lnStep m e ap) p rm x.inexact fuel 64 (max p x.m.maxBitLen + 64) c with
      | none => none
      | some (r, c, w) => some (r, c, w + ap)

/-! ## The logarithm to base 2 -/

/-- The body of the loop of `log2` (log.rs 264-283). -/
def log2Step (m : Num) (e : Int) (ap w : Nat) (c : Ln2Cache) : Option (LoopStep × Ln2Cache) :=
  let px := w + ap
  match ({ m with inexact := false } : Num).setPrecision px .none with
  | .error er => some (.ret (.error er), c)
  | .ok x => match x.lnSeries with
    | .error er => some (.ret (.error er), c)
    | .ok p1 => match ln2ForPrec (roundP px) .none c with
      | none => none
      | some (.error er, c) => some (.ret (.error er), c)
      | some (.ok p2, c) => match p1.div p2 px .none with
        | .error er => some (.ret (.error er), c)
        | .ok p3 => match p3.add (lnExpNum e) px .none with
          | .error er => some (.ret (.error er), c)
          | .ok r => some (.tst r, c)

/-- `log2` (log.rs 222-293). -/
def log2 (x : Num) (p : Nat) (rm : RM) (fuel : Nat) (c : Ln2Cache) : Option (Except Err Num × Ln2Cache × Nat) :=
  let p := roundP p
  if x.isZero || x.isNegative then some (.error .invalidArgument, c, 0)
  else
    let (m, e) := x.lnSplit
    if countLeadingZeroesSkipFirst m.m.m = m.m.maxBitLen then
      let r := fromUsize (e - 1).natAbs
      let r := if e < 1 then r.setSign .neg else r
      match r.setPrecision p rm with
      | .error er => some (.error er, c, 0)
      | .ok r => some (.ok { r with inexact := m.inexact }, c, 0)
    else
      let ap := m.lnAddPrec e
      match roundLoop (log2Step m e ap) p rm x.inexact fuel 64 (max p x.m.maxBitLen + 64) c with
      | none => none
      | some (r, c, w) => some (r, c, w + ap)

end Num

namespace BF

/-- A function of `BigFloat` made by `gen_wrapper_log!` (ext.rs 1216-1232) from the function `f` of `BigFloatNumber`,
with the results for the infinities of `ln` and `log2`. -/
def wrapLogC (f : Num → Nat → RM → Nat → Num.Ln2Cache → Option (Except Err Num × Num.Ln2Cache × Nat))
    (x : BF) (p : Nat) (rm : RM) (fuel : Nat) (c : Num.Ln2Cache) : Option (BF × Num.Ln2Cache × Nat) :=
  match x with
  | .num v =>
    if v.isZero then some (INF_NEG, c, 0)
    else match f v p rm fuel c with
      | none => none
      | some (r, c, w) => some (resultToExt r v.isZero true, c, w)
  | .inf s => some (if s.isPos then INF_POS else NAN, c, 0)
  | .nan e => some (.nan e, c, 0)

/-- `ln` of a `BigFloat` (ext.rs 1294-1304). -/
def lnC := wrapLogC Num.ln

/-- `log2` of a `BigFloat` (ext.rs 1305-1315). -/
def log2C := wrapLogC Num.log2

end BF

end AF
