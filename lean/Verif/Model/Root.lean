import Verif.Model.ExtDiv
/-!
# Square and cube root (model)

`mantissa/sqrt.rs`, `mantissa/cbrt.rs`, `Mantissa::sqrt`, `Mantissa::cbrt`, `ops/sqrt.rs`,
`ops/cbrt.rs` and the wrappers of `ext.rs`. The Newton loops run on fuel: every round replaces the
approximation by a smaller one, so a bound of the first approximation bounds the number of rounds.
-/

namespace AF

/-- `root_estimate` (mantissa/util.rs 259-271): an upper bound of the `n`-th root. `log2_floor` of the
top word (common/util.rs 30-37, 0 for 0) is `Nat.log2`. -/
def rootEstimate (m : List Nat) (n : Nat) : List Nat :=
  List.replicate (m.length / n) 0 ++ [2 ^ (Nat.log2 (wd m (m.length - 1)) / n + 1)]

/-- One Newton step of `sqrt_rem_basic` (mantissa/sqrt.rs 38-47): `(m / s + s) / 2` on
`m.length + 1` words or more. -/
def sqrtStep (m s : List Nat) : List Nat :=
  let q := tryExtend2 (divBasic m s).1 ((m.length + 1) * 64)
  shiftRight (SS.addAssign ⟨false, q⟩ ⟨false, s⟩).m 1

/-- The loop of `sqrt_rem_basic` (mantissa/sqrt.rs 37-64). -/
def sqrtLoop (m : List Nat) : Nat → List Nat → List Nat × List Nat
  | 0, s => (s, m)
  | f + 1, s =>
    let q := sqrtStep m s
    if ssAbsCmp q s ≥ 0 then
      let sq := mulBasic s s (s.length * 2)
      (s, (SS.subAssign ⟨false, m⟩ ⟨false, sq⟩).m)
    else sqrtLoop m f (truncLeadingZeroes q)

/-- `sqrt_rem_basic` (mantissa/sqrt.rs 17-65). -/
def sqrtRemBasic (m : List Nat) : List Nat × List Nat :=
  let m := truncLeadingZeroes m
  if m.length = 0 then ([0], [0])
  else sqrtLoop m (B ^ (m.length / 2 + 1)) (rootEstimate m 2)

/-- One level of `sqrt_rem` (mantissa/sqrt.rs 68-157), `rec` being the recursive call and `m` the
words with the leading zero words already cut off. `l` is computed from the length before the cut
(line 69); `split_at` (159-168) panics in the code if `m` is shorter than `2 l` words, which a
non-zero top word excludes. -/
def sqrtLevel (rec : List Nat → List Nat × List Nat) (m : List Nat) (l : Nat) :
    List Nat × List Nat :=
  let m0 := m.take l
  let m1 := (m.take (2 * l)).drop l
  let m2 := m.drop (2 * l)
  let sr := rec m2
  let s := sr.1
  let r := (SS.addAssign ⟨false, tryExtend sr.2 ((sr.2.length + l) * 64)⟩ ⟨false, m1⟩).m
  let s2 := s ++ [0]
  let pos := (findOneFrom s2 0).getD 0
  let s2 := shiftLeft s2 pos
  let scale := pos - 1
  let r := shiftLeft (tryExtend2 r ((r.length + 1) * 64)) scale
  let qu := divWords r s2
  let u := shiftRight qu.2 scale
  let qs := mulWords qu.1 qu.1 (qu.1.length * 2)
  let s := tryExtend s ((s.length + l) * 64)
  let s := tryExtend2 s ((s.length + 1) * 64)
  let u := tryExtend u ((u.length + l) * 64)
  let s := SS.addAssign ⟨false, s⟩ ⟨false, qu.1⟩
  let r := SS.addAssign ⟨false, u⟩ ⟨false, m0⟩
  let r := SS.subAssign r ⟨false, qs⟩
  if r.neg && r.m.any (· ≠ 0) then
    let r := SS.addAssign r s
    let r := SS.addAssign r s
    let r := SS.subAssign r ⟨false, [1]⟩
    let s := SS.subAssign s ⟨false, [1]⟩
    (s.m.take (s.m.length - 1), r.m)
  else (s.m.take (s.m.length - 1), r.m)

/-- `sqrt_rem` (mantissa/sqrt.rs 68-157) on fuel; the recursion is on the upper half of the words. -/
def sqrtRemFuel : Nat → List Nat → List Nat × List Nat
  | 0, m => sqrtRemBasic m
  | f + 1, m =>
    let l := (m.length - 1) / 4
    let m := truncLeadingZeroes m
    if m.length = 0 then ([0], [0])
    else if l = 0 then sqrtRemBasic m
    else sqrtLevel (sqrtRemFuel f) m l

/-- `sqrt_rem` (mantissa/sqrt.rs 68-157). -/
def sqrtRem (m : List Nat) : List Nat × List Nat := sqrtRemFuel (m.length + 1) m

/-- `crbt_normalize_div` (mantissa/cbrt.rs 17-35): `(m1, m2, shift)`. -/
def cbrtNormalizeDiv (m1 m2 : List Nat) (mShift : Nat) : List Nat × List Nat × Nat :=
  match findOneFrom m2 0 with
  | some shift =>
    (if mShift > shift then shiftRight m1 (mShift - shift)
      else if mShift < shift then shiftLeft m1 (shift - mShift) else m1,
      shiftLeft m2 shift, shift)
  | none => (m1, m2, mShift)

/-- The loop of `cbrt_rem` (mantissa/cbrt.rs 47-91) with `cbrt_remainder` (95-112); `w` is the length
of the buffer `wb`. -/
def cbrtLoop (w : Nat) : Nat → List Nat → Nat → List Nat → List Nat × List Nat
  | 0, m, _, s => (s, m)
  | f + 1, m, mShift, s =>
    let sq := mulWords s s (s.length * 2)
    let n := cbrtNormalizeDiv m sq mShift
    let q := (divWords n.1 n.2.1).1
    let wb := RSS.take w (RSS.new s 63 0 1)
    let q := tryExtend2 q ((max q.length wb.length + 1) * 64)
    let q := divByWord (SS.addAssign ⟨false, q⟩ ⟨false, wb⟩).m 3
    if ssAbsCmp q s ≥ 0 then
      let r := (shiftRight n.1 n.2.2).take (n.1.length - 2)
      let sq := mulWords s s (s.length * 2)
      let sc := mulWords sq s (s.length * 3)
      (s, (SS.subAssign ⟨false, r⟩ ⟨false, sc⟩).m)
    else cbrtLoop w f n.1 n.2.2 (truncLeadingZeroes q)

/-- `cbrt_rem` (mantissa/cbrt.rs 38-92). -/
def cbrtRem (m : List Nat) : List Nat × List Nat :=
  let s := rootEstimate m 3
  cbrtLoop (s.length + 1) (B ^ s.length) (tryExtend2 m ((m.length + 2) * 64)) 0 s

/-- `Mantissa::sqrt` (mantissa/mantissa.rs 1221-1287): `(e_shift, mantissa, inexact)`. The shift made
by `maximize` is dropped, as in the code. -/
def mantSqrt (m : List Nat) (p : Nat) (rm : RM) (isPos inexact oddExp : Bool) :
    Int × Mantissa × Bool :=
  let p := wordLen p
  let k := (max p m.length + 1) * 2
  let m1 := List.replicate (k - m.length) 0 ++ m
  let m1 := if oddExp then shiftRight m1 1 else m1
  let qr := sqrtRem m1
  let t := stickyRound qr.1 qr.2 p rm isPos inexact
  (t.1 + t.2.2.1, t.2.2.2.1, t.2.2.2.2)

/-- `Mantissa::cbrt` (mantissa/mantissa.rs 1290-1357): `(e_shift, mantissa, inexact)`. -/
def mantCbrt (m : List Nat) (p : Nat) (rm : RM) (isPos inexact : Bool) (addExp : Nat) :
    Int × Mantissa × Bool :=
  let p := wordLen p
  let k := max p m.length + 1
  let m1 := shiftRight (List.replicate (k * 3 - m.length) 0 ++ m) addExp
  let qr := cbrtRem m1
  let t := stickyRound qr.1 qr.2 p rm isPos inexact
  (-((k * 64 : Nat) : Int) + t.1 + ((qr.1.length * 64 : Nat) : Int) - (t.2.1 : Int) + t.2.2.1,
    t.2.2.2.1, t.2.2.2.2)

namespace Num

/-- The end of `sqrt` and `cbrt` (ops/sqrt.rs 39-52, ops/cbrt.rs 42-56): there is no overflow test. -/
def finishRoot (m : Mantissa) (s : Sign) (e : Int) (rm : RM) (inexact : Bool) : Num :=
  if e < EMIN then subnormalize { m, s, e := EMIN, inexact } e rm
  else { m, s, e, inexact }

/-- `sqrt` (ops/sqrt.rs 19-53). `e1 & 1` is the parity of a two's complement number. -/
def sqrt (x : Num) (p : Nat) (rm : RM) : Except Err Num :=
  let p := roundP p
  if p ≥ PMAX then .error .invalidArgument
  else if x.isZero then .ok (zero p x.s x.inexact)
  else if x.s = .neg then .error .invalidArgument
  else match x.normalize with
    | .error e => .error e
    | .ok (e1, m1) =>
      let r := mantSqrt m1.m p rm true x.inexact (e1 % 2 == 1)
      .ok (finishRoot r.2.1 .pos ((e1 + e1 % 2) / 2 + r.1) rm r.2.2)

/-- `cbrt` (ops/cbrt.rs 18-57). The code's `%` and `/` truncate; they are applied to non-negative
numbers and to a multiple of 3. -/
def cbrt (x : Num) (p : Nat) (rm : RM) : Except Err Num :=
  let p := roundP p
  if p ≥ PMAX then .error .invalidArgument
  else if x.isZero then .ok (zero p x.s x.inexact)
  else match x.normalize with
    | .error e => .error e
    | .ok (e1, m1) =>
      let expAdd : Int := if e1 < 0 then (-e1) % 3 else if e1 > 0 then 3 - e1 % 3 else 0
      let r := mantCbrt m1.m p rm x.s.isPos x.inexact expAdd.toNat
      .ok (finishRoot r.2.1 x.s ((e1 + expAdd) / 3 + r.1) rm r.2.2)

end Num

namespace BF

/-- `sqrt` (ext.rs 1274-1283), through `gen_wrapper_arg_rm!` (1185-1201). -/
def sqrt (x : BF) (p : Nat) (rm : RM) : BF := x.wrap (fun v => v.sqrt p rm) INF_POS NAN
/-- `cbrt` (ext.rs 1284-1293). -/
def cbrt (x : BF) (p : Nat) (rm : RM) : BF := x.wrap (fun v => v.cbrt p rm) INF_POS INF_NEG

end BF

end AF
