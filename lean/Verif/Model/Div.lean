import Verif.Model.Mul
/-!
# Mantissa division (mantissa/div.rs) and `BigFloatNumber` division and remainder

Quotient and remainder are returned as word lists. Slice accesses which would panic in the code
(copying between slices of different lengths) are written with `take`, `drop` and `fit`; the length
lemmas in `Verif.Lemmas.Div` show that the lengths agree.
-/

namespace AF

/-- `Mantissa::mul_by_word` (mantissa/mantissa.rs 572-579): `m` is the double word carried over. -/
def mulByWord (d : Nat) : Nat → List Nat → List Nat
  | m, [] => [m / B % B]
  | m, x :: xs => ((x * d + m / B) % B) :: mulByWord d (x * d + m / B) xs

/-- Division of words by one word, from the top word down (mantissa/div.rs 36-69 and 158-183). The
code treats a top word below `d` separately, which is a step with quotient digit 0. Returns the
quotient and the remainder. -/
def divSingle (m : List Nat) (d : Nat) : List Nat × Nat :=
  let r := divWordLoop d 0 m.reverse
  (r.1.reverse, r.2)

/-- Multiply and subtract (mantissa/div.rs 114-126): `b - a * qh` word by word. `k` is the last
product with its carry, `c` the borrow. Returns the words and the borrow. -/
def mulSubLoop (qh : Nat) : Nat → Nat → List Nat → List Nat → List Nat × Nat
  | k, c, a :: as, b :: bs =>
    let k' := a * qh + k / B
    let v := k' % B + c
    if b < v then
      let t := mulSubLoop qh k' 1 as bs
      ((b + (B - v)) :: t.1, t.2)
    else
      let t := mulSubLoop qh k' 0 as bs
      ((b - v) :: t.1, t.2)
  | _, c, _, _ => ([], c)

/-- The estimate of a quotient digit (mantissa/div.rs 97-110) from the three top words of the
window and the two top words of the divisor. -/
def qhat (v1 v2 b12 b11 b10 : Nat) : Nat :=
  let q := (b12 * B + b11) / v1
  let r := (b12 * B + b11) % v1
  if q ≥ B ∨ q * v2 > B * r + b10 then
    let q := q - 1
    let r := r + v1
    if r < B ∧ (q ≥ B ∨ q * v2 > B * r + b10) then q - 1 else q
  else q

/-- One round of the main loop (mantissa/div.rs 93-137) on the window `buf1[j..j+n+2]`. Returns the
digit and the new window. -/
def divStep (n : Nat) (b2 w : List Nat) : Nat × List Nat :=
  let qh := qhat (wd b2 n) (wd b2 (n - 1)) (wd w (n + 1)) (wd w n) (wd w (n - 1))
  let r := mulSubLoop qh 0 0 b2 w
  if r.2 > 0 then (qh - 1, (addLoop 0 b2 r.1).1) else (qh, r.1)

/-- The main loop (mantissa/div.rs 93-152). `low` holds the words of the dividend below the window,
most significant first, `hi` the `n+1` words above them. The top word of a window is not read again.
Returns the digits, most significant first, and the last `hi`. -/
def divLoop (n : Nat) (b2 : List Nat) : List Nat → List Nat → List Nat × List Nat
  | [], hi => ([], hi)
  | x :: low, hi =>
    let r := divStep n b2 (x :: hi)
    let t := divLoop n b2 low (r.2.take (n + 1))
    ((r.1 % B) :: t.1, t.2)

/-- `div_basic` (mantissa/div.rs 17-191). The code requires `m1.len() >= m2.len() > 0`. -/
def divBasic (m1 m2 : List Nat) : List Nat × List Nat :=
  let l1 := m1.length
  let n := m2.length - 1
  if n = 0 then
    let r := divSingle m1 (wd m2 0)
    (r.1, [r.2])
  else
    let d := B / (wd m2 n + 1)
    let buf1 := if d = 1 then m1 ++ [0] else mulByWord d 0 m1
    let buf2 := if d = 1 then m2 ++ [0] else mulByWord d 0 m2
    let r := divLoop n buf2 (buf1.take (l1 - n)).reverse (buf1.drop (l1 - n))
    (r.1.reverse, if d > 1 then (divSingle r.2 d).1 else r.2)

/-- `div_correction` (mantissa/div.rs 194-200) on fuel. The loop ends before `q` reaches zero, so the
value of `q` bounds the number of rounds. -/
def divCorrection : Nat → SS → List Nat → SS → SS × List Nat
  | 0, a, q, _ => (a, q)
  | f + 1, a, q, step =>
    if a.neg && a.m.any (· ≠ 0) then divCorrection f (a.addAssign step) (decrementAbs q) step
    else (a, q)

/-- The rounds of `divCorrection` are bounded by the quotient. -/
def divFix (a : SS) (q : List Nat) (step : SS) : SS × List Nat :=
  if a.neg then divCorrection (fftMul.val q) a q step else (a, q)

/-- A division routine. -/
abbrev DivFn := List Nat → List Nat → List Nat × List Nat

/-- `div_recursive` (mantissa/div.rs 203-307), the recursive calls going to `rec`. -/
def divRecWith (rec : DivFn) (m1 m2 : List Nat) : List Nat × List Nat :=
  if m1.length < m2.length then ([0], m1)
  else
    let m := m1.length - m2.length
    if m < 70 then divBasic m1 m2
    else
      let k := m / 2
      let l1 := m1.length
      let b1 := m2.drop k
      let b0 := m2.take k
      let r1 := rec (m1.drop (2 * k)) b1
      -- a3 = a0 + r1*2^(2*k) - q1*b0*2^k
      let rembuf := fit l1 (m1.take (2 * k) ++ r1.2)
      let tmp := List.replicate k 0 ++ mulWords r1.1 b0 (l1 - k)
      let a3 := SS.subAssign ⟨false, rembuf⟩ ⟨false, tmp.take (r1.1.length + b0.length + k)⟩
      let f1 := divFix a3 r1.1 ⟨false, fit l1 (List.replicate k 0 ++ m2)⟩
      let a3 := f1.1.m
      let ub := (truncLeadingZeroes a3).length
      let q1 := tryExtend f1.2 ((m + 1) * 64)
      if ub > k then
        let r0 := rec ((a3.take ub).drop k) b1
        -- a4 = r0*2^k + (a3 mod 2^k) - q0*b0
        let rembuf := fit l1 (a3.take k ++ r0.2)
        let tmp := mulWords r0.1 b0 l1
        let a4 := SS.subAssign ⟨false, rembuf⟩ ⟨false, tmp.take (r0.1.length + b0.length)⟩
        let f0 := divFix a4 r0.1 ⟨false, m2⟩
        let q0 := f0.2
        if q0.length > k then
          (q0.take k ++ (SS.addAssign ⟨false, q1.drop k⟩ ⟨false, q0.drop k⟩).m, f0.1.m)
        else (q0 ++ q1.drop q0.length, f0.1.m)
      else (q1, a3)

/-- The recursion of `div_recursive` on fuel; the dividend gets shorter in every recursive call. -/
def divRecFuel : Nat → DivFn
  | 0 => fun m1 _ => ([0], m1)
  | f + 1 => divRecWith (divRecFuel f)

/-- `div_recursive` (mantissa/div.rs 203-307). -/
def divRec (m1 m2 : List Nat) : List Nat × List Nat := divRecFuel (m1.length + 1) m1 m2

/-- `div_basic_prefer` (mantissa/div.rs 310-316). -/
def divBasicPrefer (n m : Nat) : Bool :=
  decide (n < 160) || (decide (log2Ceil m ≥ 13) && decide (n < 50 * (log2Ceil m - 13) + 200))

/-- The block loop of `div_unbalanced` (mantissa/div.rs 339-367). `buf` is `buf3[..ub]`, `q` is
`buf1[m..]`, the part of the quotient found so far. -/
def divBlocks (m2 : List Nat) : Nat → Nat → List Nat → List Nat → List Nat × List Nat
  | 0, _, buf, q => (q, buf)
  | f + 1, m, buf, q =>
    let n := m2.length
    if m > n then
      let mn := m - n
      let r := divRec (buf.drop mn) m2
      let q' := r.1.take n ++ (SS.addAssign ⟨false, q⟩ ⟨false, r.1.drop n⟩).m
      divBlocks m2 f mn (buf.take mn ++ r.2.take n) q'
    else
      let r := divRec buf m2
      (r.1.take m ++ (SS.addAssign ⟨false, q⟩ ⟨false, r.1.drop m⟩).m, r.2)

/-- `div_unbalanced` (mantissa/div.rs 318-370). -/
def divWords (m1 m2 : List Nat) : List Nat × List Nat :=
  if m1.length < m2.length then ([0], m1)
  else
    let m := m1.length - m2.length
    let n := m2.length
    if m ≤ n then divRec m1 m2
    else if divBasicPrefer n m then divBasic m1 m2
    else divBlocks m2 (m + 1) m m1 [0]

/-- The rounding block shared, word for word, by `Mantissa::div` (mantissa/mantissa.rs 533-568),
`Mantissa::sqrt` (1245-1284) and `Mantissa::cbrt` (1317-1356): `q` is the truncated result and `r` the
remainder. Returned: the exponent correction for a carry of `add_ulp`, the shift made by `maximize`,
the rounded mantissa with the exponent correction of `round_mantissa`, and the inexact flag. -/
def stickyRound (q r : List Nat) (p : Nat) (rm : RM) (isPos inexact : Bool) :
    Int × Nat × Int × Mantissa × Bool :=
  let sticky := r.any (· ≠ 0)
  let ix := inexact || sticky
  let t : Int × List Nat :=
    if sticky then
      if rm == .toEven || rm == .toOdd then (0, q.set 0 (wd q 0 ||| 1))
      else if Num.directedUp rm isPos then
        let u := addUlp q
        if u.2 then (1, u.1.set (u.1.length - 1) MSB) else (0, u.1)
      else (0, q)
    else (0, q)
  let mx := maximize t.2
  let rd := roundMantissa mx.1 ((mx.1.length - p) * 64) rm isPos false (mx.1.length * 64) ix
  let m3 := truncTo rd.m (p * 64)
  (t.1, mx.2, if rd.ret then 1 else 0, { m := m3, n := m3.length * 64 }, rd.inexact)

/-- `Mantissa::div` (mantissa/mantissa.rs 503-569): `(shift, mantissa, inexact)`. -/
def mantDiv (m1 m2 : List Nat) (p : Nat) (rm : RM) (isPos inexact : Bool) : Int × Mantissa × Bool :=
  let p := wordLen p
  let k := max (p + m2.length) m1.length + 1
  let qr := divWords (List.replicate (k - m1.length) 0 ++ m1) m2
  let sh0 : Int := ((m2.length : Int) - (k : Int)) * 64 + (qr.1.length : Int) * 64
  let t := stickyRound qr.1 qr.2 p rm isPos inexact
  (sh0 + t.1 - (t.2.1 : Int) + t.2.2.1, t.2.2.2.1, t.2.2.2.2)

/-- `Mantissa::mul_mod` (mantissa/mantissa.rs 630-645). -/
def mantMulMod (m1 m2 n : List Nat) : Mantissa :=
  let r := divWords (truncLeadingZeroes (mulWords m1 m2 (m1.length + m2.length))) n
  { m := r.2, n := findBitLen r.2 }

/-- `Mantissa::rem` (mantissa/mantissa.rs 686-690). -/
def mantRem (m n : List Nat) : Mantissa :=
  let r := divWords m n
  { m := r.2, n := findBitLen r.2 }

/-- The square-and-multiply loop of `pow_mod` (mantissa/mantissa.rs 598-608), the bits of the
exponent given most significant first. -/
def powModLoop (a n : List Nat) : List Nat → List Bool → List Nat
  | x, [] => x
  | x, b :: bs =>
    let y := (mantMulMod x x n).m
    powModLoop a n (if b then (mantMulMod y a n).m else y) bs

/-- The bits of a number below its top bit, most significant first: what the shifting loops of
`pow_mod` (mantissa/mantissa.rs 584-594) read. -/
def lowBits (i : Nat) : List Bool :=
  ((List.range (Nat.log2 i)).map (fun j => i.testBit j)).reverse

/-- `Mantissa::pow_mod` (mantissa/mantissa.rs 582-611), for `0 < i < 2^63`. -/
def powMod (a : List Nat) (i : Nat) (n : List Nat) : List Nat := powModLoop a n a (lowBits i)

/-- `Mantissa::pow2` (mantissa/mantissa.rs 614-622). -/
def Mantissa.pow2 (x : Mantissa) (i : Nat) : Mantissa :=
  let m := if x.n + i > x.maxBitLen then tryExtend2 x.m (x.n + i) else x.m
  { x with m := shiftLeft m i }

namespace Num

/-- `div` (num.rs 373-428). -/
def div (x y : Num) (p : Nat) (rm : RM) : Except Err Num :=
  if y.isZero then (if x.isZero then .error .invalidArgument else .error .divisionByZero)
  else
    let p := roundP p
    if p ≥ PMAX then .error .invalidArgument
    else
      let s : Sign := if x.s = y.s then .pos else .neg
      if x.isZero then .ok ((zero p .pos false).setSign s)
      else match x.normalize with
        | .error e => .error e
        | .ok (e1, m1) => match y.normalize with
          | .error e => .error e
          | .ok (e2, m2) =>
            let r := mantDiv m1.m m2.m p rm s.isPos (x.inexact || y.inexact)
            finish r.2.1 s (e1 - e2 + r.1) rm r.2.2

/-- `reciprocal` (num.rs 1442-1444). -/
def reciprocal (x : Num) (p : Nat) (rm : RM) : Except Err Num := div ONE x p rm

/-- The closure `finalize` of `rem` (num.rs 455-492). `usize::MAX as isize` is `-1`, so whenever the
exponent is below `EXPONENT_MIN` the mantissa is cleared. -/
def remFinalize (x y : Num) (m3 : Mantissa) (e : Int) : Except Err Num :=
  if m3.n > 0 then
    if e > EMAX then .error (.exponentOverflow x.s)
    else if e < EMIN then
      if EMIN - e > -1 then
        .ok { m := m3.setZero, s := x.s, e := 0, inexact := x.inexact || y.inexact }
      else .error .panic
    else .ok { m := m3.normilize.2, s := x.s, e, inexact := x.inexact || y.inexact }
  else .ok { m := m3, s := x.s, e := 0, inexact := x.inexact || y.inexact }

/-- `rem` (num.rs 437-547). -/
def rem (x y : Num) : Except Err Num :=
  if y.isZero then .error .invalidArgument
  else if x.isZero then .ok x
  else
    let e1eff : Int := x.e - (x.m.maxBitLen : Int)
    match y.normalize with
    | .error e => .error e
    | .ok (e, m2) =>
      let e2eff : Int := e - (m2.maxBitLen : Int)
      if e1eff > e2eff then
        let i := (e1eff - e2eff).toNat
        let two : Mantissa := { m := [2], n := 2 }
        let powm := if i ≥ m2.maxBitLen then powMod two.m i m2.m else (two.pow2 (i - 1)).m
        let m3 := mantMulMod (mantRem x.m.m m2.m).m powm m2.m
        remFinalize x y m3 (e2eff + (m3.n : Int))
      else if (x.m.n : Int) + x.e < (m2.n : Int) + e then .ok x
      else
        let ediff := (e2eff - e1eff).toNat
        let m2l := m2.maxBitLen + ediff
        let m2x := m2.setLength m2l
        let m3 := if m2x.maxBitLen > m2l then
            mantRem (x.m.pow2 (m2x.maxBitLen - m2l)).m m2x.m
          else mantRem x.m.m m2x.m
        remFinalize x y m3 (e1eff + (m3.n : Int) - (m2x.maxBitLen : Int) + (m2l : Int))

end Num

end AF
