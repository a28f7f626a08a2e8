import Verif.Model.Int
import Verif.Model.Round
/-!
# Multiplication with FFT (mantissa/fft.rs)

A part is a signed slice of `part_len = n1 / 64 + 1` words. The forward transform works in place on every
`s`-th part; the model hands it the list of these parts. The work buffers are overwritten before they are
read and do not appear. `last` is `n1 / 64`, the index of the top word, and `md` the modulus `2^n1 + 1`.
-/

namespace AF

/-- A multiplication routine: operands and length of the destination. -/
abbrev MulFn := List Nat → List Nat → Nat → List Nat

/-- The loop of `sqrt_int` (common/util.rs 43-48). -/
def sqrtIntLoop (a : Nat) : Nat → Nat → Nat
  | 0, x => x
  | f + 1, x => if x = 0 then x else sqrtIntLoop a f ((a / x + x) >>> 1)

/-- `sqrt_int` (common/util.rs 40-50). -/
def sqrtInt (a : Nat) : Nat := sqrtIntLoop a 20 a

/-- The parameters of the transform: `k1 = 2^k` parts of `m` bits, computed modulo `2^n1 + 1`. -/
structure FftParams where
  k1 : Nat
  k : Nat
  m : Nat
  n1 : Nat
  t : Nat
  deriving DecidableEq, Repr

/-- `fft_params` (mantissa/fft.rs 183-196); the number of bits is cut to 32 bits for the root. -/
def fftParams (n : Nat) : FftParams :=
  let r := sqrtInt (n % 2 ^ 32)
  let r := if n / 64 < 50000 then r / 2 else r
  let k := max (log2Ceil r) 6
  let k1 := 1 <<< k
  let m := (n + k1 - 1) / k1
  let n := m * k1
  let n1 := (2 * n + k1 - 1) / k1 + k
  let n1 := ((n1 + k1 - 1) / k1) * k1
  { k1, k, m, n1, t := n1 / k1 }

/-- `fft_w_shift` (mantissa/fft.rs 21-34): the low `k` bits of `j` in reverse order. -/
def fftWShift (j k : Nat) : Nat :=
  let j := ((j >>> 1) &&& 0x5555555555555555) ||| ((j &&& 0x5555555555555555) <<< 1)
  let j := ((j >>> 2) &&& 0x3333333333333333) ||| ((j &&& 0x3333333333333333) <<< 2)
  let j := ((j >>> 4) &&& 0x0F0F0F0F0F0F0F0F) ||| ((j &&& 0x0F0F0F0F0F0F0F0F) <<< 4)
  let j := ((j >>> 8) &&& 0x00FF00FF00FF00FF) ||| ((j &&& 0x00FF00FF00FF00FF) <<< 8)
  let j := ((j >>> 16) &&& 0x0000FFFF0000FFFF) ||| ((j &&& 0x0000FFFF0000FFFF) <<< 16)
  let j := (j >>> 32) ||| ((j <<< 32) % B)
  j >>> (64 - k)

/-- `num[0] -= 1; num[last] -= 1` (mantissa/fft.rs 288-289, 300-301). -/
def fftDec (m : List Nat) (last : Nat) : List Nat :=
  let m := m.set 0 (wd m 0 - 1)
  m.set last (wd m last - 1)

/-- The loop for a negative number in `fft_normalize` (mantissa/fft.rs 283-293). -/
def fftNormNeg (last : Nat) (md : SS) : Nat → SS → SS
  | 0, x => x
  | f + 1, x =>
    if x.neg then
      if wd x.m last > 0 ∧ wd x.m 0 > 0 then fftNormNeg last md f { x with m := fftDec x.m last }
      else fftNormNeg last md f (x.addAssign md)
    else x

/-- The loop for a non-negative number in `fft_normalize` (mantissa/fft.rs 295-305). -/
def fftNormPos (last : Nat) (md : SS) : Nat → SS → SS
  | 0, x => x
  | f + 1, x =>
    if wd x.m last > 0 then
      if wd x.m 0 > 0 then fftNormPos last md f { x with m := fftDec x.m last }
      else fftNormPos last md f (x.subAssign md)
    else x

/-- `fft_normalize` (mantissa/fft.rs 281-312). Every round takes the modulus off, so the number of rounds is
bounded by the top word. -/
def fftNormalize (last : Nat) (md x : SS) : SS :=
  if x.neg ∧ x.m.any (· ≠ 0) then fftNormNeg last md (wd x.m last + 3) x
  else
    let y := fftNormPos last md (wd x.m last + 2) x
    if y.neg ∧ y.m.any (· ≠ 0) then y.addAssign md else y

/-- `fft_butterfly` (mantissa/fft.rs 37-78). -/
def fftButterfly (last : Nat) (md a b : SS) : SS × SS :=
  let gt := cmpRev a.m.reverse b.m.reverse < 0
  let d := if gt then ssSubAssign1 0 b.m a.m else ssSubAssign1 0 a.m b.m
  (fftNormalize last md { a with m := ssAddAssign 0 a.m b.m },
   fftNormalize last md { neg := if gt then !b.neg else b.neg, m := d })

/-- The chunks after the first one in `fft_compute_chunks` (mantissa/fft.rs 263-270). -/
def fftChunks (last : Nat) : Nat → List Nat → SS → Bool → SS
  | 0, _, acc, _ => acc
  | f + 1, m, acc, neg =>
    if m.length = 0 then acc
    else fftChunks last f (m.drop last) (acc.addAssign ⟨neg, m.take last⟩) (!neg)

/-- `fft_compute_chunks` (mantissa/fft.rs 248-278): the alternating sum of the chunks of `last` words, in a
buffer of `len` words. -/
def fftComputeChunks (last : Nat) (m : List Nat) (len : Nat) (neg : Bool) : SS :=
  if m.length = 0 then ⟨false, List.replicate len 0⟩
  else fftChunks last m.length (m.drop last) ⟨neg, fit len (m.take last)⟩ (!neg)

/-- `fft_mul_mod` (mantissa/fft.rs 314-348): `num * 2^j` modulo `2^n + 1`. `copy_from` (common/int.rs 169-179)
keeps the sign of its destination. The buffer for the shifted number has two parts. -/
def fftMulMod (last : Nat) (md x : SS) (j : Nat) : SS :=
  let len := x.m.length
  let acc :=
    if j = 0 then fftComputeChunks last x.m len false
    else
      let n := 64 * last
      let acc := fftComputeChunks last (shiftLeftCopy x.m (2 * (last + 1)) (j % n)) len false
      if (j / n) &&& 1 ≠ 0 then { acc with neg := !acc.neg } else acc
  { x with m := (fftNormalize last md acc).m }

/-- `fft_div_mod` (mantissa/fft.rs 350-380): `num / 2^j` modulo `2^n + 1`. -/
def fftDivMod (last : Nat) (md x : SS) (j : Nat) : SS :=
  let n := 64 * last
  let n2 := n * 2
  let sh := ((j + n2 - 1) / n2) * n2 - j
  let shift := if sh ≥ n then sh - n else sh
  let acc := fftComputeChunks last (shiftLeftCopy x.m (2 * (last + 1)) shift) x.m.length (decide (sh ≥ n))
  { x with m := (fftNormalize last md acc).m }

/-- The elements at even positions. -/
def evens : List SS → List SS
  | a :: _ :: l => a :: evens l
  | l => l

/-- The elements at odd positions. -/
def odds : List SS → List SS
  | _ :: b :: l => b :: odds l
  | _ => []

/-- The loop of `fft_forward` (mantissa/fft.rs 131-145) from `j` on. -/
def fftFwdStep (last : Nat) (md : SS) (w kk : Nat) : Nat → List SS → List SS → List SS
  | j, a :: as, b :: bs =>
    let r := fftButterfly last md a (fftMulMod last md b (fftWShift j kk * w))
    r.1 :: r.2 :: fftFwdStep last md w kk (j + 1) as bs
  | _, _, _ => []

/-- `fft_forward` (mantissa/fft.rs 109-147) on the `2^k` parts at the distance `s`. -/
def fftForward (last : Nat) (md : SS) : Nat → Nat → List SS → List SS
  | 0, _, l => l
  | 1, _, l =>
    match l with
    | [a, b] => let r := fftButterfly last md a b; [r.1, r.2]
    | l => l
  | k + 2, w, l =>
    fftFwdStep last md w (k + 1) 0 (fftForward last md (k + 1) (w * 2) (evens l))
      (fftForward last md (k + 1) (w * 2) (odds l))

/-- The loop of `fft_reverse` (mantissa/fft.rs 166-179) from the pair `j` on; the first pair is not
multiplied. -/
def fftRevStep (last : Nat) (md : SS) (w k1 : Nat) : Nat → List SS → List SS → List (SS × SS)
  | j, a :: as, b :: bs =>
    fftButterfly last md a (if j = 0 then b else fftMulMod last md b (w * (k1 - (j - 1) - 1))) ::
      fftRevStep last md w k1 (j + 1) as bs
  | _, _, _ => []

/-- `fft_reverse` (mantissa/fft.rs 149-181) on `2^k` parts. -/
def fftReverse (last : Nat) (md : SS) : Nat → Nat → List SS → List SS
  | 0, _, l => l
  | 1, _, l =>
    match l with
    | [a, b] => let r := fftButterfly last md a b; [r.1, r.2]
    | l => l
  | k + 2, w, l =>
    let k2 := 2 ^ (k + 1)
    let r := fftRevStep last md w (2 ^ (k + 2)) 0 (fftReverse last md (k + 1) (w * 2) (l.take k2))
      (fftReverse last md (k + 1) (w * 2) (l.drop k2))
    r.map (·.1) ++ r.map (·.2)

/-- `fft_decompose` for parts of whole words (mantissa/fft.rs 204-208). -/
def fftChunkParts (plen mw : Nat) : Nat → List Nat → List SS
  | 0, _ => []
  | f + 1, d => ⟨false, fit plen (d.take mw)⟩ :: fftChunkParts plen mw f (d.drop mw)

/-- The loop of `fft_decompose` for parts that do not end at word boundaries (mantissa/fft.rs 209-241), from
the bit `s` on; the rest is filled with zeros (243-245). -/
def fftBitParts (plen m : Nat) (d : List Nat) : Nat → Nat → List SS
  | 0, _ => []
  | f + 1, s =>
    let csz := (m + 63) / 64 + 1
    let idx := s / 64
    let shift := s % 64
    if idx + csz > d.length then
      if idx < d.length then
        ⟨false, shiftRight (fit plen (d.drop idx)) shift⟩ ::
          List.replicate f ⟨false, List.replicate plen 0⟩
      else List.replicate (f + 1) ⟨false, List.replicate plen 0⟩
    else
      let p := shiftRight (fit plen ((d.drop idx).take csz)) shift
      let p := p.set (csz - 1) 0
      let p := p.set (csz - 2) (wd p (csz - 2) &&& (WMAX >>> (64 - m % 64)))
      ⟨false, p⟩ :: fftBitParts plen m d f (s + m)

/-- `fft_decompose` (mantissa/fft.rs 198-246) into `k1` parts of `m` bits, each in `plen` words. -/
def fftDecompose (d : List Nat) (m k1 plen : Nat) : List SS :=
  if m % 64 = 0 then fftChunkParts plen (m / 64) k1 d
  else fftBitParts plen m d k1 0

/-- The products of the transformed parts (mantissa/fft.rs 443-452). -/
def fftPointwise (mul : MulFn) (last : Nat) (md : SS) : List SS → List SS → List SS
  | a :: as, b :: bs =>
    let neg := a.neg != b.neg
    let t0 := fftMulMod last md ⟨neg, mul a.m b.m (2 * (last + 1))⟩ 0
    ⟨neg, t0.m.take (last + 1)⟩ :: fftPointwise mul last md as bs
  | _, _ => []

/-- `while part3.sign() < 0 && !part3.is_zero() { part3.add_assign(&modulus) }` (mantissa/fft.rs 461-463). -/
def fftFixSign (md : SS) : Nat → SS → SS
  | 0, x => x
  | f + 1, x => if x.neg ∧ x.m.any (· ≠ 0) then fftFixSign md f (x.addAssign md) else x

/-- The last loop of `fft_mul` (mantissa/fft.rs 458-489), from the part `j` on. -/
def fftCompose (last : Nat) (md : SS) (p : FftParams) : Nat → List SS → List Nat → List Nat
  | _, [], d3 => d3
  | j, x :: xs, d3 =>
    let y := fftDivMod last md x (p.k + p.t * j)
    let y := fftFixSign md (wd y.m last + 2) y
    let jm := j * p.m
    let idx := jm / 64
    let shift := jm % 64
    if idx ≥ d3.length then d3
    else
      let len := if d3.length > idx + (last + 1) + 2 then last + 1 + 2 else d3.length - idx
      let out := SS.addAssign ⟨false, (d3.drop idx).take len⟩ (y.shl shift)
      fftCompose last md p (j + 1) xs (d3.take idx ++ out.m ++ d3.drop (idx + len))

/-- The weighting of the parts (mantissa/fft.rs 435-438), from the part `j` on. -/
def fftWeight (last : Nat) (md : SS) (t : Nat) : Nat → List SS → List SS
  | _, [] => []
  | j, x :: xs => fftMulMod last md x (t * j) :: fftWeight last md t (j + 1) xs

/-- The modulus `2^n1 + 1` (mantissa/fft.rs 428-431). -/
def fftModulus (last : Nat) : SS := ⟨false, (List.replicate (last + 1) 0).set 0 1 |>.set last 1⟩

/-- `fft_mul` (mantissa/fft.rs 404-492) with the products of parts computed by `mul` (`mul_unbalanced`). -/
def fftMulWith (mul : MulFn) (d1 d2 : List Nat) (len : Nat) : List Nat :=
  let p := fftParams ((d1.length + d2.length) * 64)
  let w := p.t * 2
  let last := p.n1 / 64
  let md := fftModulus last
  let parts1 := fftWeight last md p.t 0 (fftDecompose d1 p.m p.k1 (last + 1))
  let parts2 := fftWeight last md p.t 0 (fftDecompose d2 p.m p.k1 (last + 1))
  let parts1 := fftForward last md p.k w parts1
  let parts2 := fftForward last md p.k w parts2
  let parts3 := fftPointwise mul last md parts1 parts2
  let parts3 := fftReverse last md p.k w parts3
  fftCompose last md p 0 parts3 (List.replicate len 0)

end AF
