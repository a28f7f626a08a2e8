import Verif.Model.Mul
import Verif.Model.Div
import Verif.Model.Ext
/-!
# The constants `e`, `ln 2` and `ln 10` (ops/consts/e.rs, ln2.rs, ln10.rs, mod.rs)

The three files have the same shape: a series is summed by binary splitting into exact integers, the state for the
first `b` terms is kept in a cache, and `for_prec` doubles `b` until the rounded value is accepted. The common
parts are defined once, over the type `T` of the integers kept (`(p, q)` for `e`, `(p, q, r)` for the logarithms),
the function `leaf` for one term and the function `merge` for two adjacent ranges.

Arithmetic on `usize` (`2 * b + 1` and the like) is arithmetic on natural numbers; `b` stays below `2^28`.
-/

namespace AF

/-- The loop of `log2_floor` (common/util.rs 30-37). -/
def log2FloorLoop : Nat → Nat → Nat
  | 0, _ => 0
  | f + 1, n => if n > 1 then log2FloorLoop f (n / 2) + 1 else 0

/-- `log2_floor` (common/util.rs 30-37); 64 rounds are enough for a `usize`. -/
def log2Floor (n : Nat) : Nat := log2FloorLoop 64 n

/-- The recursion of `pq` (e.rs 9-27) and of `pqr` (ln2.rs 11-33, ln10.rs 9-31) on the terms `a+1 .. b`. -/
def splitSeries {T : Type} (leaf : Nat → Except Err T) (merge : T → T → Except Err T) :
    Nat → Nat → Nat → Except Err T
  | 0, _, _ => .error .panic
  | f + 1, a, b =>
    if a + 1 = b then leaf b
    else
      let m := (a + b) / 2
      match splitSeries leaf merge f a m with
      | .error e => .error e
      | .ok ta => match splitSeries leaf merge f m b with
        | .error e => .error e
        | .ok tb => merge ta tb

/-- `pqr_inc` (e.rs 29-43, ln2.rs 35-53, ln10.rs 33-51): from `m` to `2 * m` terms. -/
def incSeries {T : Type} (leaf : Nat → Except Err T) (merge : T → T → Except Err T) (ta : T) (m : Nat) :
    Except Err (T × Nat) :=
  let b := m * 2
  match splitSeries leaf merge 64 m b with
  | .error e => .error e
  | .ok tb => match merge ta tb with
    | .error e => .error e
    | .ok t => .ok (t, b)

/-- `while bb <= kext { .. }` (e.rs 119-121, ln2.rs 111-113, ln10.rs 115-117) on fuel. -/
def growSeries {T : Type} (leaf : Nat → Except Err T) (merge : T → T → Except Err T) (kext : Nat) :
    Nat → T → Nat → Except Err (T × Nat)
  | 0, _, _ => .error .panic
  | f + 1, t, bb =>
    if bb ≤ kext then
      match incSeries leaf merge t bb with
      | .error e => .error e
      | .ok (t, bb) => growSeries leaf merge kext f t bb
    else .ok (t, bb)

/-- `ECache` (e.rs 47-52), `Ln2Cache` (ln2.rs 57-63), `Ln10Cache` (ln10.rs 55-61). -/
structure ConstCache (T : Type) where
  b : Nat
  t : T
  val : Num

/-- The loop of `for_prec` (e.rs 99-130, ln2.rs 90-129, ln10.rs 94-126) on fuel; `kext` gives the number of terms
for the working precision, `value` the value. The result is `none` when the fuel is used up; otherwise the returned
value with the cache left behind. -/
def constLoop {T : Type} (leaf : Nat → Except Err T) (merge : T → T → Except Err T) (value : T → Except Err Num)
    (kext : Nat → Nat) (k : Nat) (rm : RM) :
    Nat → Nat → Nat → ConstCache T → Option (Except Err Num × ConstCache T)
  | 0, _, _, _ => none
  | f + 1, pInc, pWrk, c =>
    let kx := kext pWrk
    let grow (pInc pWrk : Nat) : Option (Except Err Num × ConstCache T) :=
      match incSeries leaf merge c.t c.b with
      | .error e => some (.error e, c)
      | .ok (t, bb) => match growSeries leaf merge kx 64 t bb with
        | .error e => some (.error e, c)
        | .ok (t, bb) => match value t with
          | .error e => some (.error e, c)
          | .ok v => constLoop leaf merge value kext k rm f pInc pWrk { b := bb, t, val := v }
    if c.b > kx then
      match c.val.trySetPrecision k rm pWrk with
      | .error e => some (.error e, c)
      | .ok (true, v) => some (.ok v, c)
      | .ok (false, _) => grow (roundP ((pWrk + pInc) / 5)) (pWrk + pInc)
    else grow pInc pWrk

/-- `for_prec` with the initial `p_inc` and `p_wrk` (e.rs 96-97, ln2.rs 87-88, ln10.rs 91-92). -/
def constForPrec {T : Type} (leaf : Nat → Except Err T) (merge : T → T → Except Err T) (value : T → Except Err Num)
    (kext : Nat → Nat) (k : Nat) (rm : RM) (c : ConstCache T) : Option (Except Err Num × ConstCache T) :=
  constLoop leaf merge value kext k rm 64 64 (roundP k + 64) c

/-! ## e -/

/-- One term of the series (e.rs 10-14). -/
def eLeaf (b : Nat) : Except Err (Num × Num) :=
  match Num.fromWord 1 1 with
  | .error e => .error e
  | .ok p => .ok (p, Num.fromUsize b)

/-- Two adjacent ranges (e.rs 21-25 and 38-40). -/
def eMerge (a b : Num × Num) : Except Err (Num × Num) :=
  match a.2.mulFullPrec b.2 with
  | .error e => .error e
  | .ok q => match a.1.mulFullPrec b.2 with
    | .error e => .error e
    | .ok n0 => match n0.addFullPrec b.1 with
      | .error e => .error e
      | .ok p => .ok (p, q)

/-- `calc_e` (e.rs 55-60): `1 + p / q`. -/
def eCalc (t : Num × Num) : Except Err Num :=
  let prec := max t.1.m.maxBitLen t.2.m.maxBitLen
  match t.1.div t.2 prec .none with
  | .error e => .error e
  | .ok f0 => f0.add Num.ONE prec .none

/-- `b_factor` (e.rs 76-92). -/
def bFactor (x : Nat) : Nat :=
  let ln := log2Floor x
  let lln := log2Floor ln
  x / (ln - lln - 3)

/-- `ECache::new` (e.rs 62-74). -/
def eNew : Except Err (ConstCache (Num × Num)) :=
  match splitSeries eLeaf eMerge 64 0 64 with
  | .error e => .error e
  | .ok t => match eCalc t with
    | .error e => .error e
    | .ok v => .ok { b := 64, t, val := v }

/-- `ECache::for_prec` (e.rs 95-131). -/
def eForPrec (k : Nat) (rm : RM) (c : ConstCache (Num × Num)) :
    Option (Except Err Num × ConstCache (Num × Num)) :=
  constForPrec eLeaf eMerge eCalc bFactor k rm c

/-! ## ln 2 and ln 10 -/

/-- Two adjacent ranges (ln2.rs 24-29 and 46-51, ln10.rs 22-27 and 44-49). -/
def lnMerge (a b : Num × Num × Num) : Except Err (Num × Num × Num) :=
  match a.1.mulFullPrec b.2.1 with
  | .error e => .error e
  | .ok pq => match b.1.mulFullPrec a.2.2 with
    | .error e => .error e
    | .ok pr => match pq.addFullPrec pr with
      | .error e => .error e
      | .ok p => match a.2.1.mulFullPrec b.2.1 with
        | .error e => .error e
        | .ok q => match a.2.2.mulFullPrec b.2.2 with
          | .error e => .error e
          | .ok r => .ok (p, q, r)

/-- One term of the series for `ln 2` (ln2.rs 12-17). -/
def ln2Leaf (b : Nat) : Except Err (Num × Num × Num) :=
  match Num.fromWord 1 1 with
  | .error e => .error e
  | .ok p => .ok (p, Num.fromUsize ((2 * b + 1) * 9), Num.fromUsize (2 * b + 1))

/-- The constant `THREE` (common/consts.rs 32): `from_word(3, DEFAULT_P)`. -/
def Num.THREE : Num := { e := 2, s := .pos, m := { m := [0, 13835058055282163712], n := 128 }, inexact := false }

/-- `2 * (1 + p / q) / 3` (ln2.rs 69-74 and 115-120). -/
def ln2Calc (t : Num × Num × Num) : Except Err Num :=
  let prec := max t.1.m.maxBitLen t.2.1.m.maxBitLen
  match t.1.div t.2.1 prec .none with
  | .error e => .error e
  | .ok v => match v.add Num.ONE prec .none with
    | .error e => .error e
    | .ok v => match v.div Num.THREE prec .none with
      | .error e => .error e
      | .ok v => .ok (v.setExponent (v.e + 1))

/-- The cache after `new` (ln2.rs 66-83, ln10.rs 64-76). -/
def lnNew (leaf : Nat → Except Err (Num × Num × Num)) (value : Num × Num × Num → Except Err Num) :
    Except Err (ConstCache (Num × Num × Num)) :=
  match splitSeries leaf lnMerge 64 0 1 with
  | .error e => .error e
  | .ok t => match value t with
    | .error e => .error e
    | .ok v => .ok { b := 1, t, val := v }

/-- `Ln2Cache::new` (ln2.rs 66-83). -/
def ln2New : Except Err (ConstCache (Num × Num × Num)) := lnNew ln2Leaf ln2Calc

/-- `Ln2Cache::for_prec` (ln2.rs 86-130). -/
def ln2ForPrec (k : Nat) (rm : RM) (c : ConstCache (Num × Num × Num)) :
    Option (Except Err Num × ConstCache (Num × Num × Num)) :=
  constForPrec ln2Leaf lnMerge ln2Calc (fun _ => k / 2 + 4) k rm c

/-- One term of the series for `ln 10` (ln10.rs 10-15). -/
def ln10Leaf (b : Nat) : Except Err (Num × Num × Num) :=
  match Num.fromWord 81 1 with
  | .error e => .error e
  | .ok p => .ok (p, Num.fromUsize ((2 * b + 1) * 121), Num.fromUsize ((2 * b + 1) * 81))

/-- `calc_ln10` (ln10.rs 78-87): `18 * (1 + p / q) / 11`. -/
def ln10Calc (t : Num × Num × Num) : Except Err Num :=
  let prec := max t.1.m.maxBitLen t.2.1.m.maxBitLen
  match t.1.div t.2.1 prec .none with
  | .error e => .error e
  | .ok v => match v.add Num.ONE prec .none with
    | .error e => .error e
    | .ok v => match Num.fromWord 18 1 with
      | .error e => .error e
      | .ok f0 => match Num.fromWord 11 1 with
        | .error e => .error e
        | .ok f1 => match v.mul f0 prec .none with
          | .error e => .error e
          | .ok v => v.div f1 prec .none

/-- `Ln10Cache::new` (ln10.rs 64-76). -/
def ln10New : Except Err (ConstCache (Num × Num × Num)) := lnNew ln10Leaf ln10Calc

/-- `Ln10Cache::for_prec` (ln10.rs 90-127). -/
def ln10ForPrec (k : Nat) (rm : RM) (c : ConstCache (Num × Num × Num)) :
    Option (Except Err Num × ConstCache (Num × Num × Num)) :=
  constForPrec ln10Leaf lnMerge ln10Calc (fun _ => k * 1728 / 1000 + 4) k rm c

/-! ## The public functions -/

/-- The result of `Consts::e` and the others (ops/consts/mod.rs 112-135). -/
def constToBF : Except Err Num → BF
  | .ok v => .num v
  | .error e => .nan (some e)

/-- `Consts::e` (ops/consts/mod.rs 68-71 and 112-117). -/
def constE (p : Nat) (rm : RM) (c : ConstCache (Num × Num)) : Option (BF × ConstCache (Num × Num)) :=
  (eForPrec (roundP p) rm c).map fun r => (constToBF r.1, r.2)

/-- `Consts::ln_2` (ops/consts/mod.rs 80-83 and 121-126). -/
def constLn2 (p : Nat) (rm : RM) (c : ConstCache (Num × Num × Num)) :
    Option (BF × ConstCache (Num × Num × Num)) :=
  (ln2ForPrec (roundP p) rm c).map fun r => (constToBF r.1, r.2)

/-- `Consts::ln_10` (ops/consts/mod.rs 92-99 and 130-135). -/
def constLn10 (p : Nat) (rm : RM) (c : ConstCache (Num × Num × Num)) :
    Option (BF × ConstCache (Num × Num × Num)) :=
  (ln10ForPrec (roundP p) rm c).map fun r => (constToBF r.1, r.2)

end AF
