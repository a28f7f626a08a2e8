import Verif.Model.Int
import Verif.Model.Num
import Verif.Model.Fft
/-!
# Mantissa multiplication (mantissa/mul.rs, toom2.rs, toom3.rs, fft.rs) and `BigFloatNumber` multiplication

Every multiplication routine overwrites its whole destination `m3`, so the model returns the words of
the destination, given its length. The code requires `m3.len() >= m1.len() + m2.len()`.
-/

namespace AF

/-- One row of the schoolbook product (mantissa/mul.rs 21-28): `m3 += d * m2`, words from position
`i` on. The carry is added to the word after the row. (Beyond the end of `m3` the code panics; this
is not reached when `m3` is long enough.) -/
def mulRow (d : Nat) : Nat → List Nat → List Nat → List Nat
  | k, b :: bs, x :: xs =>
    let t := d * b + x + k
    (t % B) :: mulRow d (t / B) bs xs
  | k, [], x :: xs => ((x + k) % B) :: xs
  | _, _, [] => []

/-- The outer loop of `mul_basic` (mantissa/mul.rs 15-29). Word `i` of `m3` is not touched by the rows
after row `i`. -/
def mulBasicLoop : List Nat → List Nat → List Nat → List Nat
  | [], _, m3 => m3
  | d :: ds, m2, m3 =>
    match (if d = 0 then m3 else mulRow d 0 m2 m3) with
    | [] => []
    | x :: xs => x :: mulBasicLoop ds m2 xs

/-- `mul_basic` (mantissa/mul.rs 12-30). -/
def mulBasic (m1 m2 : List Nat) (len : Nat) : List Nat :=
  mulBasicLoop m1 m2 (List.replicate len 0)

/-- The words of a number, least significant first. -/
def toWords : Nat → Nat → List Nat
  | 0, _ => []
  | n + 1, v => (v % B) :: toWords n (v / B)

/-- The contract of `fft_mul` (mantissa/fft.rs 404-492): the product. It stands for the code only when
`fft_params` asks for 64 parts, which takes operands of at least `2^26` words together and a number of bits
just above a multiple of `2^32` (`C57_no_contract`); there the code does not always meet its contract
(`C57_refuted`). -/
def fftMul (m1 m2 : List Nat) (len : Nat) : List Nat := toWords len (val m1 * val m2)
where
  /-- value of a word list -/
  val : List Nat → Nat
  | [] => 0
  | x :: xs => x + B * val xs

/-- `add_slices` (mantissa/toom2.rs 13-32): the sum with a final carry word. -/
def addSlices (s1 s2 : List Nat) : List Nat :=
  let r := addWords 0 s1 s2
  r.1 ++ [r.2]

/-- One step of `paired_sub` (mantissa/toom2.rs 46-57): `v - s` with a borrow of up to 2. -/
def pairedStep (v s : Nat) : Nat × Nat :=
  if v ≥ s then (v - s, 0)
  else if v + B ≥ s then (v + B - s, 1)
  else (v + B * 2 - s, 2)

/-- `paired_sub` (mantissa/toom2.rs 34-93): `x - a - b` word by word. Walks the destination; when an
operand is exhausted it contributes 0. Once both are exhausted the code stops when the borrow is
zero, which is the same as going on. -/
def pairedSub : Nat → List Nat → List Nat → List Nat → List Nat
  | _, _, _, [] => []
  | c, a :: as, b :: bs, x :: xs =>
    let r := pairedStep x (a + b + c)
    r.1 :: pairedSub r.2 as bs xs
  | c, a :: as, [], x :: xs =>
    let r := pairedStep x (a + c)
    r.1 :: pairedSub r.2 as [] xs
  | c, [], b :: bs, x :: xs =>
    let r := pairedStep x (b + c)
    r.1 :: pairedSub r.2 [] bs xs
  | c, [], [], x :: xs =>
    let r := pairedStep x c
    r.1 :: pairedSub r.2 [] [] xs

/-- `toom2` (mantissa/toom2.rs 110-147); `mul` is the recursive `mul_unbalanced`.
`add_assign_slices` (95-108) is `ssAddAssign` with the operands in this order. -/
def toom2 (mul : MulFn) (m1 m2 : List Nat) (len : Nat) : List Nat :=
  let n := (min m1.length m2.length + 1) / 2
  let m11 := m1.take n
  let m12 := m1.drop n
  let m21 := m2.take n
  let m22 := m2.drop n
  let x1 := addSlices m11 m12
  let x2 := addSlices m21 m22
  let z2 := mul x1 x2 (x1.length + x2.length)
  let m31 := mul m11 m21 (2 * n)
  let m32 := mul m12 m22 (len - 2 * n)
  let z2' := pairedSub 0 m31 m32 z2
  let m3 := m31 ++ m32
  m3.take n ++ ssAddAssign 0 (m3.drop n) z2'

/-- `toom3_get_splits` (mantissa/toom3.rs 11-25). -/
def toom3Splits (m : List Nat) (l : Nat) : SS × SS × SS :=
  (⟨false, m.take l⟩, ⟨false, (m.drop l).take l⟩, ⟨false, ((m.drop l).drop l).take l⟩)

/-- `toom3_factors` (mantissa/toom3.rs 27-55): the values at 1, -1 and -2. -/
def toom3Factors (l : Nat) (m : SS × SS × SS) : SS × SS × SS :=
  let x1 := m.1.add m.2.2 (l + 1)
  let p1 := x1.add m.2.1 (l + 1)
  let p2 := x1.sub m.2.1 (l + 1)
  let p3 := ((p2.add m.2.2 (l + 1)).shl 1).subAssign m.1
  (p1, p2, p3)

/-- `a.add_assign(w)` at position `start` of `d3` (mantissa/toom3.rs 163-168). -/
def addAt (d3 : List Nat) (start : Nat) (w : SS) : List Nat :=
  if start < d3.length then
    d3.take start ++ (SS.addAssign ⟨false, d3.drop start⟩ w).m
  else d3

/-- The interpolation of `toom3` (mantissa/toom3.rs 118-134): the coefficients `w1`, `w2`, `w3` from the
products `s0..s4`. -/
def toom3Interp (l : Nat) (s0 s1 s2 s3 s4 : SS) : SS × SS × SS :=
  let k := (l + 1) * 2
  let w3a := s3.sub s1 k
  let w3b : SS := { w3a with m := divByWord w3a.m 3 }
  let w1a := (s1.sub s2 k).shr 1
  let w2a := s2.sub s0 k
  let w3c := w3b.subAssign w2a
  let w3d : SS := { w3c with neg := !w3c.neg }
  let x3 : SS := ⟨false, shiftLeftCopy s4.m k 2⟩
  let w3 := (w3d.addAssign x3).shr 1
  let w2 := (w2a.addAssign w1a).subAssign s4
  let w1 := w1a.subAssign w3
  (w1, w2, w3)

/-- `toom3` (mantissa/toom3.rs 60-171); `mul` is the recursive `mul_unbalanced`. -/
def toom3 (mul : MulFn) (d1 d2 : List Nat) (len : Nat) : List Nat :=
  let l := (max d1.length d2.length + 2) / 3
  let k := (l + 1) * 2
  let a := toom3Splits d1 l
  let b := toom3Splits d2 l
  let p := toom3Factors l a
  let q := toom3Factors l b
  let s0 : SS := ⟨false, mul a.1.m b.1.m (a.1.m.length + b.1.m.length)⟩
  let s1 : SS := ⟨p.1.neg != q.1.neg, mul p.1.m q.1.m k⟩
  let s2 : SS := ⟨p.2.1.neg != q.2.1.neg, mul p.2.1.m q.2.1.m k⟩
  let s3 : SS := ⟨p.2.2.neg != q.2.2.neg, mul p.2.2.m q.2.2.m k⟩
  let s4 : SS := ⟨false, mul a.2.2.m b.2.2.m (a.2.2.m.length + b.2.2.m.length)⟩
  let w := toom3Interp l s0 s1 s2 s3 s4
  let w1 := w.1
  let w2 := w.2.1
  let w3 := w.2.2
  let l4 := 4 * l
  let d3 :=
    if l4 < len then
      s0.m ++ List.replicate (l4 - s0.m.length) 0 ++ fit (len - l4) s4.m
    else s0.m ++ List.replicate (len - s0.m.length) 0
  -- both `w1s` and `w2s` are `w1.sign()` in the code (151-152)
  let parts : (Nat × SS) × (Nat × SS) × (Nat × SS) := ((l, w1), (l * 2, w2), (l * 3, w3))
  let parts := if w1.neg then (parts.2.2, parts.2.1, parts.1) else parts
  let parts := if w1.neg then (parts.1, parts.2.2, parts.2.1) else parts
  addAt (addAt (addAt d3 parts.1.1 parts.1.2) parts.2.1.1 parts.2.1.2) parts.2.2.1 parts.2.2.2

/-- `mul_slices` (mantissa/mul.rs 32-45). Simplification: with 64 parts `fft_mul` is replaced by its contract
`fftMul`. -/
def mulSlices (mul : MulFn) (m1 m2 : List Nat) (len : Nat) : List Nat :=
  if m1.length ≤ 32 ∨ m2.length ≤ 32 then mulBasic m1 m2 len
  else if m1.length ≤ 220 ∨ m2.length ≤ 220 then toom2 mul m1 m2 len
  else if m1.length ≤ 5400 ∧ m2.length ≤ 5400 then toom3 mul m1 m2 len
  else if 7 ≤ (fftParams ((m1.length + m2.length) * 64)).k then fftMulWith mul m1 m2 len
  else fftMul m1 m2 len

/-- The even pass of `mul_unbalanced` (mantissa/mul.rs 59-80): the products of the chunks at
`0, 2s, 4s, ..`, which are written one after another. -/
def evenPass (mul : MulFn) (sm : List Nat) : Nat → List Nat → List Nat
  | 0, _ => []
  | f + 1, lg =>
    if lg.length = 0 then []
    else
      let chunk := lg.take sm.length
      (mulSlices mul chunk sm (2 * sm.length)).take (chunk.length + sm.length) ++
        evenPass mul sm f (lg.drop (sm.length * 2))

/-- The odd pass of `mul_unbalanced`: the products of the chunks at `s, 3s, ..` are added in place;
`lg` and `m3` are the parts from the current position on. -/
def oddPass (mul : MulFn) (sm : List Nat) : Nat → List Nat → List Nat → List Nat
  | 0, _, m3 => m3
  | f + 1, lg, m3 =>
    if lg.length = 0 then m3
    else
      let chunk := lg.take sm.length
      let prod := (mulSlices mul chunk sm (2 * sm.length)).take (chunk.length + sm.length)
      let m3' := ssAddAssign 0 m3 prod
      m3'.take (sm.length * 2) ++ oddPass mul sm f (lg.drop (sm.length * 2)) (m3'.drop (sm.length * 2))

/-- `mul_unbalanced` (mantissa/mul.rs 48-91), the recursive calls going to `mul`. -/
def mulUnbalancedWith (mul : MulFn) (m1 m2 : List Nat) (len : Nat) : List Nat :=
  let p := if m1.length < m2.length then (m1, m2) else (m2, m1)
  let sm := p.1
  let lg := p.2
  if lg.length / 2 ≥ sm.length ∧ sm.length > 70 then
    let m3 := fit len (evenPass mul sm lg.length lg)
    m3.take sm.length ++ oddPass mul sm lg.length (lg.drop sm.length) (m3.drop sm.length)
  else mulSlices mul sm lg len

/-- The recursion of `mul_unbalanced` on fuel; the operands get shorter in every recursive call. -/
def mulFuel : Nat → MulFn
  | 0 => fun _ _ _ => []
  | f + 1 => mulUnbalancedWith (mulFuel f)

/-- `mul_unbalanced` (mantissa/mul.rs 48-91). -/
def mulWords (m1 m2 : List Nat) (len : Nat) : List Nat :=
  mulFuel (m1.length + m2.length + 1) m1 m2 len

/-- `Mantissa::mul` (mantissa/mantissa.rs 453-500): `(shift, mantissa, inexact)`. -/
def mantMul (m1 m2 : List Nat) (p : Nat) (rm : RM) (isPos fullPrec inexact : Bool) :
    Int × Mantissa × Bool :=
  let m3 := mulWords m1 m2 (m1.length + m2.length)
  let mx := maximize m3
  let a := adjustPrec mx.1 (wordLen p) rm isPos fullPrec inexact
  ((mx.2 : Int) - (if a.2.1 then 1 else 0), { m := a.1, n := a.1.length * 64 }, a.2.2)

namespace Num

/-- `mul_general_case` (num.rs 300-362). -/
def mulGeneral (x y : Num) (p : Nat) (rm : RM) (full : Bool) : Except Err Num :=
  let p := roundP p
  if p ≥ PMAX then .error .invalidArgument
  else
    let s : Sign := if x.s = y.s then .pos else .neg
    if x.isZero || y.isZero then .ok ((zero p .pos false).setSign s)
    else match x.normalize with
      | .error e => .error e
      | .ok (e1, m1) => match y.normalize with
        | .error e => .error e
        | .ok (e2, m2) =>
          let r := mantMul m1.m m2.m p rm s.isPos full (x.inexact || y.inexact)
          finish r.2.1 s (e1 + e2 - r.1) rm r.2.2

/-- `mul` (num.rs 280-289). -/
def mul (x y : Num) (p : Nat) (rm : RM) : Except Err Num := mulGeneral x y p rm false

/-- `mul_full_prec` (num.rs 296-298). -/
def mulFullPrec (x y : Num) : Except Err Num := mulGeneral x y 0 .none true

end Num

end AF
