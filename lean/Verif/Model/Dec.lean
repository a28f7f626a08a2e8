import Verif.Model.Radix
import Verif.Model.Pow
/-!
# Decimal conversion (mantissa/conv.rs, conv.rs) and the power-of-ten cache (ops/consts/mod.rs)
-/

namespace AF

/-- An entry of the cache of powers of ten: the power shifted so that its top bit is set, the power
itself, and the shift (ops/consts/mod.rs 77, mantissa/conv.rs 104, 121). -/
abbrev TenPow := List Nat × List Nat × Nat

/-- The loop of `compute_tenpowers` (mantissa/conv.rs 108-123), `k` rounds. -/
def tenLoop : Nat → List TenPow → List TenPow
  | 0, tp => tp
  | k + 1, tp =>
    let last := (tp.getD (tp.length - 1) ([], [], 0)).2.1
    let wb2 := truncLeadingZeroes (mulWords last last (last.length * 2))
    let mx := maximize wb2
    tenLoop k (tp ++ [(mx.1, wb2, mx.2)])

/-- `compute_tenpowers` (mantissa/conv.rs 92-127). -/
def computeTenpowers (tp : List TenPow) (p : Nat) : List TenPow :=
  let tp1 : List TenPow := if tp.isEmpty then [((maximize [10]).1, [10], (maximize [10]).2)] else tp
  tenLoop (p - tp1.length) tp1

/-- `Consts::tenpowers` (ops/consts/mod.rs 138-144): the cache after the call. -/
def tenpowers (tp : List TenPow) (p : Nat) : List TenPow :=
  if p ≥ tp.length then computeTenpowers tp p else tp

/-- `Mantissa::shift_left_resize` (mantissa/mantissa.rs 1136-1147). -/
def Mantissa.shiftLeftResize (x : Mantissa) (k : Nat) : Mantissa :=
  { m := if x.maxBitLen ≥ x.n + k then truncLeadingZeroes (shiftLeft x.m k) else tryExtend3 x.m (x.n + k) k
    n := x.n + k }

/-- The decimal digits of a word, least significant first: `while v != 0 { push(v % 10); v /= 10 }`
(mantissa/conv.rs 44-47); a word has at most 20 digits. -/
def wordDec : Nat → Nat → List Nat
  | 0, _ => []
  | f + 1, v => if v ≠ 0 then v % 10 :: wordDec f (v / 10) else []

/-- The last `l` decimal digits, least significant first (mantissa/conv.rs 54-57). -/
def wordDecN : Nat → Nat → List Nat
  | 0, _ => []
  | l + 1, v => v % 10 :: wordDecN l (v / 10)

/-- The two base cases of `conv_to_dec` (mantissa/conv.rs 30-60), for a mantissa of at most 64 bits. -/
def decBase (x : Mantissa) (l : Nat) (ms : Bool) : List Nat :=
  if x.isZero then (if ms then [] else List.replicate l 0)
  else if ms then (wordDec 20 (wd x.m 0)).reverse else (wordDecN l (wd x.m 0)).reverse

/-- `Mantissa::conv_to_dec` (mantissa/conv.rs 23-89). `p - 1` underflows at `p = 0`, and an index past the
end of the cache panics; both are reported as panics. -/
def mantToDec (tp : List TenPow) : Nat → Mantissa → Nat → Bool → Except Err (List Nat)
  | p, x, l, ms =>
    if x.isZero ∨ x.n ≤ 64 then .ok (decBase x l ms)
    else
      match p with
      | 0 => .error .panic
      | p' + 1 =>
        match tp[p' + 1]? with
        | none => .error .panic
        | some t =>
          let y := x.shiftLeftResize t.2.2
          let qr := divWords y.m t.1
          let r := shiftRight qr.2 t.2.2
          let q : Mantissa := ⟨qr.1, findBitLen qr.1⟩
          let r : Mantissa := ⟨r, findBitLen r⟩
          if q.isZero then mantToDec tp p' r (l / 2) ms
          else
            match mantToDec tp p' r (l / 2) false with
            | .error e => .error e
            | .ok part1 =>
              match mantToDec tp p' q (l / 2) ms with
              | .error e => .error e
              | .ok part2 => .ok (part2 ++ part1)

/-- The first loop of `conv_from_dec` (mantissa/conv.rs 140-166): chunks of 16 digits from the end. The
list holds the digits from the last one. -/
def decChunks : List Nat → Nat → Nat → Nat → Except Err (List (List Nat))
  | [], word, i, _ => .ok (if i > 0 then [[word]] else [])
  | v :: vs, word, i, t =>
    if v > 9 then .error .invalidArgument
    else
      let word' := word + v * t
      if i + 1 = 16 then
        match decChunks vs 0 0 1 with
        | .error e => .error e
        | .ok cs => .ok ([word'] :: cs)
      else decChunks vs word' (i + 1) (t * 10)

/-- The body of `for pair in chunks.chunks(2)` (mantissa/conv.rs 179-203). -/
def decPairs (tpw : List Nat) : List (List Nat) → List (List Nat)
  | a :: b :: cs =>
    let wb1 := mulWords b tpw (b.length + tpw.length)
    truncLeadingZeroes (SS.addAssign ⟨false, wb1 ++ [0]⟩ ⟨false, a⟩).m :: decPairs tpw cs
  | [a] => [a]
  | [] => []

/-- The second loop of `conv_from_dec` (mantissa/conv.rs 168-207); `fuel` bounds the rounds (the number of
chunks is halved in each). An empty list of chunks does not occur. -/
def decCombine (tp : List TenPow) : Nat → Nat → List (List Nat) → Except Err (List Nat)
  | _, _, [] => .error .panic
  | _, _, [c] => .ok c
  | 0, _, _ => .error .panic
  | f + 1, p, cs =>
    match tp[p]? with
    | none => .error .panic
    | some t => decCombine tp f (p + 1) (decPairs t.2.1 cs)

/-- `Mantissa::conv_from_dec` (mantissa/conv.rs 130-210). -/
def mantFromDec (input : List Nat) (tp : List TenPow) : Except Err Mantissa :=
  match decChunks input.reverse 0 0 1 with
  | .error e => .error e
  | .ok cs =>
    match decCombine tp (cs.length + 1) 4 cs with
    | .error e => .error e
    | .ok m => .ok ⟨m, findBitLen m⟩

/-- `TEN_PWR_MAX_TO_DEC` (conv.rs 25). -/
def TEN_PWR_MAX_TO_DEC : Nat := 2147483647 / 4

/-- `TEN_PWR_MAX_FROM_DEC` (conv.rs 26). -/
def TEN_PWR_MAX_FROM_DEC : Nat := 2147483647 * 301029995 / 1000000000

/-- The carry loop of `round_dec` (conv.rs 647-654), digits from the last kept one. -/
def incDec : List Nat → List Nat × Bool
  | [] => ([], true)
  | v :: vs => if v < 9 then ((v + 1) :: vs, false) else let r := incDec vs; (0 :: r.1, r.2)

/-- The decision of `round_dec` (conv.rs 580-640): `none` when the check fails, otherwise whether one has to
be added. -/
def roundDecC (ds : List Nat) (n : Nat) (rm : RM) (pos check : Bool) : Option Bool :=
  if rm = .toEven ∨ rm = .toOdd then
    let even := decide (ds.getD (n - 1) 0 % 2 = 0)
    let dn := ds.getD n 0
    let rem0 := (ds.drop (n + 1)).all (· = 0)
    let rem9 := (ds.drop (n + 1)).all (· = 9)
    if check && (rem0 || rem9) then none
    else if dn = 5 then some ((if rm = .toEven then !even else even) || !rem0)
    else some (decide (dn > 5))
  else
    let rem0 := (ds.drop n).all (· = 0)
    let rem9 := (ds.drop n).all (· = 9)
    if check && (rem0 || rem9) then none
    else some (match rm with
      | .fromZero => !rem0
      | .up => !rem0 && pos
      | .down => !rem0 && !pos
      | _ => false)

/-- `round_dec` (conv.rs 549-664): the digits, the returned flag and the final value of
`check_roundable`. -/
def roundDec (ds : List Nat) (n : Nat) (rm : RM) (pos check : Bool) : List Nat × Bool × Bool :=
  if rm = .none then (ds, false, false)
  else if n > 0 ∧ n < ds.length then
    match roundDecC ds n rm pos check with
    | none => (ds, false, check)
    | some c =>
      let zeros := List.replicate (ds.length - n) 0
      if c then
        let r := incDec (ds.take n).reverse
        if r.2 then ((1 :: r.1.reverse.tail) ++ zeros, true, false)
        else (r.1.reverse ++ zeros, false, false)
      else (ds.take n ++ zeros, false, false)
  else (ds, false, check)

/-- `try_round_dec` (conv.rs 518-545): `none` if rounding is not possible, otherwise the digits and the
exponent. -/
def tryRoundDec (ds : List Nat) (n : Nat) (rm : RM) (s : Sign) (e : Int) (inexact : Bool) :
    Except Err (Option (List Nat × Int)) :=
  if n > 0 then
    let r := roundDec ds n rm s.isPos inexact
    if r.2.2 then .ok none
    else if r.2.1 then
      if e = EMAX then .error (.exponentOverflow s) else .ok (some (r.1, e + 1))
    else .ok (some (r.1, e))
  else .ok (some (ds, e))

namespace Num

/-- The constant `TEN` (common/consts.rs 38): `from_word(10, DEFAULT_P)`. -/
def TEN : Num := { e := 4, s := .pos, m := { m := [0, 11529215046068469760], n := 128 }, inexact := false }

/-- Repeated multiplication or division by a power of ten (conv.rs 343-349, 419-427). -/
def scaleLoop (t : Num) (p : Nat) (neg : Bool) : Nat → Num → Except Err Num
  | 0, f => .ok f
  | k + 1, f =>
    match (if neg then f.div t p .none else f.mul t p .none) with
    | .error e => .error e
    | .ok f' => scaleLoop t p neg k f'

/-- The body of the loop of `conv_from_dec` (conv.rs 334-360), before the rounding attempt. -/
def fromDecStep (x : Num) (n : Int) (npowmax tenpowrem pf : Nat) : Except Err Num :=
  match (if npowmax ≠ 0 then
      match TEN.powi TEN_PWR_MAX_FROM_DEC pf .none with
      | .error e => .error e
      | .ok t => scaleLoop t pf (decide (n < 0)) npowmax x
    else .ok x : Except Err Num) with
  | .error e => .error e
  | .ok f =>
    if tenpowrem ≠ 0 then
      match TEN.powi tenpowrem pf .none with
      | .error e => .error e
      | .ok t => scaleLoop t pf (decide (n < 0)) 1 f
    else .ok f

/-- The loop of `conv_from_dec` (conv.rs 333-371). The working precision grows by a factor and the
operations refuse large precisions, so `fuel` is not used up. -/
def fromDecLoop (x : Num) (s : Sign) (n : Int) (npowmax tenpowrem err p : Nat) (rm : RM) :
    Nat → Nat → Nat → Except Err Num
  | 0, _, _ => .error .panic
  | fuel + 1, pwrk, pinc =>
    match fromDecStep x n npowmax tenpowrem (pwrk + err) with
    | .error e => .error e
    | .ok f =>
      match (f.setSign s).trySetPrecision p rm pwrk with
      | .error e => .error e
      | .ok (true, r) => .ok r
      | .ok (false, _) =>
        fromDecLoop x s n npowmax tenpowrem err p rm fuel (pwrk + pinc) (roundP ((pwrk + pinc) / 5))

/-- `conv_from_dec` (conv.rs 274-371) with the cache it is given and the cache it leaves. -/
def convFromDec (s : Sign) (digits : List Nat) (e : Int) (p : Nat) (rm : RM) (tp : List TenPow) :
    Except Err Num × List TenPow :=
  let lead := (digits.takeWhile (· = 0)).length
  if digits.length - lead = 0 then (new (if p < USIZE_MAX then p else DEFAULT_P), tp)
  else
    let tp1 := tenpowers tp (log2Ceil (digits.length - lead))
    match mantFromDec (digits.drop lead) tp1 with
    | .error er => (.error er, tp1)
    | .ok m =>
      if (m.n : Int) > EMAX then (.error (.exponentOverflow s), tp1)
      else
        let x := Num.mk m.n s ⟨(maximize m.m).1, m.maxBitLen⟩ false
        let n : Int := e - digits.length
        let pa := roundP (digits.length * 3321928095 / 1000000000 + 1)
        if ¬ p < USIZE_MAX ∧ pa ≥ PMAX then (.error .invalidArgument, tp1)
        else
          let p := if p < USIZE_MAX then p else pa
          let npowmax := n.natAbs / TEN_PWR_MAX_FROM_DEC
          let tenpowrem := n.natAbs % TEN_PWR_MAX_FROM_DEC
          let err := (if npowmax ≠ 0 then 3 * npowmax else 0) + (if tenpowrem ≠ 0 then 3 else 0)
          (fromDecLoop x s n npowmax tenpowrem err p rm 400 (p + 64) 64, tp1)

/-- `convert_from_radix` (conv.rs 42-71). -/
def convertFromRadix (s : Sign) (digits : List Nat) (e : Int) (rdx : Radix) (p : Nat) (rm : RM)
    (tp : List TenPow) : Except Err Num × List TenPow :=
  let p1 := if p < USIZE_MAX then roundP p else p
  if p < USIZE_MAX ∧ p1 ≥ PMAX then (.error .invalidArgument, tp)
  else if p < USIZE_MAX ∧ p1 = 0 then (new 0, tp)
  else match rdx with
    | .bin => (convFromBinary s digits e p1 rm, tp)
    | .oct => (convFromCommensurable s digits e 3 p1 rm, tp)
    | .dec => convFromDec s digits e p1 rm tp
    | .hex => (convFromCommensurable s digits e 4 p1 rm, tp)

/-- Scaling by a power of ten in the loop of `conv_to_dec` (conv.rs 410-443): the scaled number and
`err_acc`. `while pwr > TEN_PWR_MAX_TO_DEC` makes `(pwr - 1) / TEN_PWR_MAX_TO_DEC` rounds. -/
def toDecScale (x : Num) (nwrk : Int) (pwrk : Nat) : Except Err (Num × Nat) :=
  let pwr := nwrk.natAbs
  let k := if pwr > TEN_PWR_MAX_TO_DEC then (pwr - 1) / TEN_PWR_MAX_TO_DEC else 0
  match (if pwr > TEN_PWR_MAX_TO_DEC then
      match TEN.powi TEN_PWR_MAX_TO_DEC pwrk .none with
      | .error e => .error e
      | .ok t => match scaleLoop t pwrk (decide (nwrk < 0)) k x with
        | .error e => .error e
        | .ok y => .ok (y, 1 + 2 * k)
    else .ok (x, 0) : Except Err (Num × Nat)) with
  | .error e => .error e
  | .ok r =>
    let pwr' := pwr - k * TEN_PWR_MAX_TO_DEC
    if pwr' ≠ 0 then
      match TEN.powi pwr' pwrk .none with
      | .error e => .error e
      | .ok t => match scaleLoop t pwrk (decide (nwrk < 0)) 1 r.1 with
        | .error e => .error e
        | .ok y => .ok (y, r.2 + 3)
    else .ok r

/-- The end of `conv_to_dec` after a successful rounding (conv.rs 484-506): subnormal exponent and
trailing zeros. -/
def toDecFinish (s : Sign) (ds : List Nat) (n : Nat) (e : Int) (esubn : Nat) : Digits :=
  let esubn' := if esubn > 0 ∧ e > EMIN then esubn - 1 else esubn
  let e' := if esubn > 0 ∧ e > EMIN then EMIN else e
  let ds1 := ds.take n
  let ds2 := if esubn > 0 then List.replicate esubn' 0 ++ ds1 else ds1
  (s, ds2.take (ds2.length - (ds2.reverse.takeWhile (· = 0)).length), e')

/-- What a round of the loop of `conv_to_dec` ends with: a result, more precision for the accumulated
error, or more precision. -/
inductive ToDecOut where
  | done (r : Except Err Digits)
  | moreErr (acc : Nat)
  | more

/-- The part of the loop of `conv_to_dec` after the conversion to digits (conv.rs 462-506). -/
def toDecTail (s : Sign) (rm : RM) (n : Nat) (nwrk : Int) (shift acc : Nat) (inexact : Bool) (ds : List Nat) :
    ToDecOut :=
  let eo : Int := ds.length - nwrk
  let esubn := (EMIN - eo).toNat
  let eo := max eo EMIN
  let valid : Int := (ds.length : Int) - ((shift + acc) * 301029996 / 1000000000 : Nat) - 1
  if ds.length > n ∧ valid > n then
    match tryRoundDec (ds.take valid.toNat) n rm s eo inexact with
    | .error e => .done (.error e)
    | .ok (some (ds', e')) => .done (.ok (toDecFinish s ds' n e' esubn))
    | .ok none => .more
  else .more

/-- The depth of the table of powers of ten for a number of `n` bits (conv.rs 456-457). -/
def decDepth (n : Nat) : Nat := log2Ceil (n * 301029996 / 1000000000 + 1)

/-- The conversion to digits in the loop of `conv_to_dec` (conv.rs 456-506). -/
def toDecConv (s : Sign) (rm : RM) (n : Nat) (nwrk : Int) (shift acc : Nat) (inexact : Bool) (m : Mantissa)
    (k : Nat) (tp : List TenPow) : ToDecOut × List TenPow :=
  let tp1 := tenpowers tp k
  match mantToDec tp1 (k - 1) m (1 <<< k) true with
  | .error e => (.done (.error e), tp1)
  | .ok ds => (toDecTail s rm n nwrk shift acc inexact ds, tp1)

/-- The loop of `conv_to_dec` after the scaling (conv.rs 445-506). -/
def toDecDigits (s : Sign) (rm : RM) (n err pwrk : Nat) (nwrk : Int) (y : Num) (acc : Nat) (tp : List TenPow) :
    ToDecOut × List TenPow :=
  if acc > err then (.moreErr (acc + (acc / TEN_PWR_MAX_TO_DEC + 3)), tp)
  else if y.e < pwrk then (.done (.error .panic), tp)
  else
    let shift := (y.e - pwrk).toNat
    let m := if shift > 0 then y.m.shiftLeftResize shift else y.m
    toDecConv s rm n nwrk shift acc y.inexact m (decDepth m.n) tp

/-- The body of the loop of `conv_to_dec` (conv.rs 404-512). -/
def toDecBody (x : Num) (rm : RM) (n subn err pwrk : Nat) (tp : List TenPow) : ToDecOut × List TenPow :=
  let nwrk : Int := Int.tdiv (((pwrk : Int) - x.e + subn) * 301029996) 1000000000 + 1
  match toDecScale { x with inexact := false } nwrk pwrk with
  | .error e => (.done (.error e), tp)
  | .ok (y, acc) => toDecDigits x.s rm n err pwrk nwrk y acc tp

/-- The loop of `conv_to_dec` (conv.rs 404-512). -/
def toDecLoop (x : Num) (rm : RM) (n subn : Nat) :
    Nat → Nat → Nat → Nat → List TenPow → Except Err Digits × List TenPow
  | 0, _, _, _, tp => (.error .panic, tp)
  | fuel + 1, err, pwrk, pinc, tp =>
    match toDecBody x rm n subn err pwrk tp with
    | (.done r, tp1) => (r, tp1)
    | (.moreErr acc, tp1) => toDecLoop x rm n subn fuel acc (pwrk + roundP (acc - err)) pinc tp1
    | (.more, tp1) => toDecLoop x rm n subn fuel err (pwrk + pinc) (roundP ((pwrk + pinc) / 5)) tp1

/-- `conv_to_dec` (conv.rs 388-513). -/
def convToDec (x : Num) (rm : RM) (tp : List TenPow) : Except Err Digits × List TenPow :=
  if x.m.n = 0 then (.ok (x.s, [], 0), tp)
  else
    let p := x.m.maxBitLen
    let n := p * 301029996 / 1000000000 + 1
    toDecLoop x rm n (p - x.m.n) 400 64 (roundP (n * 3321928095 / 1000000000 + 1 + 64)) 64 tp

/-- `convert_to_radix` (conv.rs 374-386). -/
def convertToRadix (x : Num) (rdx : Radix) (rm : RM) (tp : List TenPow) : Except Err Digits × List TenPow :=
  match rdx with
  | .bin => (.ok x.convToBinary, tp)
  | .oct => (x.convToCommensurable 3, tp)
  | .dec => x.convToDec rm tp
  | .hex => (x.convToCommensurable 4, tp)

end Num

namespace BF

/-- `convert_from_radix` (ext.rs 1066-1080). -/
def convertFromRadix (s : Sign) (digits : List Nat) (e : Int) (rdx : Radix) (p : Nat) (rm : RM)
    (tp : List TenPow) : BF × List TenPow :=
  let r := Num.convertFromRadix s digits e rdx p rm tp
  (resultToExt r.1 false true, r.2)

/-- `convert_to_radix` (ext.rs 1106-1121). -/
def convertToRadix (x : BF) (rdx : Radix) (rm : RM) (tp : List TenPow) : Except Err Digits × List TenPow :=
  match x with
  | num v => v.convertToRadix rdx rm tp
  | _ => (.error .invalidArgument, tp)

end BF

end AF
