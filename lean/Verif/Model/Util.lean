import Verif.Model.Defs
/-!
# Word-level helpers (model of `common/util.rs`, `common/buf.rs`, parts of `mantissa/util.rs`)

A word is a `Nat` below `B`; a mantissa buffer is the little-endian list of its words.
`&mut` slices become returned lists.
-/

namespace AF

/-- `add_carry` (common/util.rs 119-146), the portable branch; returns `(sum word, carry)`. -/
def addCarry (a b c : Nat) : Nat × Nat :=
  let s := c + a + b
  if s ≥ B then (s - B, 1) else (s, 0)

/-- `sub_borrow` (common/util.rs 150-179), the portable branch; returns `(difference, borrow)`. -/
def subBorrow (a b c : Nat) : Nat × Nat :=
  if a < b + c then (a + B - (b + c), 1) else (a - (b + c), 0)

/-- The loop `for (d, a, b) in izip!(..) { c = add_carry(a, b, c, d) }`
(mantissa/mantissa.rs 363-365, 414-416). Stops at the shorter operand. -/
def addLoop : Nat → List Nat → List Nat → List Nat × Nat
  | c, a :: as, b :: bs =>
    let r := addCarry a b c
    let t := addLoop r.2 as bs
    (r.1 :: t.1, t.2)
  | c, _, _ => ([], c)

/-- The loop `for (d, a, b) in izip!(..) { c = sub_borrow(a, b, c, d) }`
(mantissa/mantissa.rs 298-300). -/
def subLoop : Nat → List Nat → List Nat → List Nat × Nat
  | c, a :: as, b :: bs =>
    let r := subBorrow a b c
    let t := subLoop r.2 as bs
    (r.1 :: t.1, t.2)
  | c, _, _ => ([], c)

/-- `while d & WORD_SIGNIFICANT_BIT == 0 { d <<= 1; n += 1 }`: the number of iterations, the
loop being cut at 64 rounds (it runs at most 63 rounds for a non-zero word). -/
def lzLoop : Nat → Nat → Nat
  | 0, _ => 0
  | f + 1, d => if MSB &&& d = 0 then lzLoop f ((d <<< 1) % B) + 1 else 0

/-- Leading zeros of a non-zero word, as computed by the loop above. -/
def lz (d : Nat) : Nat := lzLoop 64 d

/-- Inner loop of `shift_slice_left` (common/util.rs 193-204): every destination word is
`(src << shift) | (src_below >> (64 - shift))`. The code walks from the top word down, so in-place
writes never overwrite a word that is still to be read; here the list is rebuilt from the bottom,
`prev` being the source word below. -/
def shlBits (shift : Nat) : Nat → List Nat → List Nat
  | _, [] => []
  | prev, x :: xs => (((x <<< shift) % B) ||| (prev >>> (64 - shift))) :: shlBits shift x xs

/-- `shift_slice_left` (common/util.rs 182-212). -/
def shiftLeft (m : List Nat) (n : Nat) : List Nat :=
  let idx := n / 64
  let shift := n % 64
  if idx ≥ m.length then List.replicate m.length 0
  else if shift > 0 then
    List.replicate idx 0 ++ shlBits shift 0 (m.take (m.length - idx))
  else if idx > 0 then
    List.replicate idx 0 ++ m.take (m.length - idx)
  else m

/-- Inner loop of `shift_slice_right` (common/util.rs 259-270). -/
def shrBits (shift : Nat) : List Nat → List Nat
  | [] => []
  | [x] => [x >>> shift]
  | x :: y :: ys => ((x >>> shift) ||| ((y <<< (64 - shift)) % B)) :: shrBits shift (y :: ys)

/-- `shift_slice_right` (common/util.rs 248-278). -/
def shiftRight (m : List Nat) (n : Nat) : List Nat :=
  let idx := n / 64
  let shift := n % 64
  if idx ≥ m.length then List.replicate m.length 0
  else if shift > 0 then shrBits shift (m.drop idx) ++ List.replicate idx 0
  else if idx > 0 then m.drop idx ++ List.replicate idx 0
  else m

/-- Scan from the most significant word for a non-zero word; returns that word (0 if none) and
64 times the number of zero words skipped. Argument: the words, most significant first
(mantissa/mantissa.rs 157-165, the first loop of `maximize`). -/
def topScan : List Nat → Nat × Nat
  | [] => (0, 0)
  | v :: vs =>
    if v ≠ 0 then (v, 0)
    else
      let r := topScan vs
      (r.1, r.2 + 64)

/-- `Mantissa::maximize` (mantissa/mantissa.rs 153-178): returns the shifted words and the shift. -/
def maximize (m : List Nat) : List Nat × Nat :=
  let r := topScan m.reverse
  if r.1 ≠ 0 then
    let shift := r.2 + lz r.1
    (shiftLeft m shift, shift)
  else (m, 0)

/-- `Mantissa::find_bit_len` (mantissa/mantissa.rs 692-708). -/
def findBitLen (m : List Nat) : Nat :=
  let r := topScan m.reverse
  if r.1 ≠ 0 then m.length * 64 - (r.2 + lz r.1) else m.length * 64 - r.2

/-- Tail loop of `find_one_from` (common/util.rs 371-384), words most significant first. -/
def findOneLoop : Nat → List Nat → Option Nat
  | _, [] => none
  | shift, v :: vs => if v ≠ 0 then some (shift + lz v) else findOneLoop (shift + 64) vs

/-- `find_one_from` (common/util.rs 345-389). -/
def findOneFrom (m : List Nat) (startPos : Nat) : Option Nat :=
  let startIdx := startPos / 64
  if startIdx ≥ m.length then none
  else
    match m.reverse.drop startIdx with
    | [] => none
    | v :: vs =>
      let startBit := startPos % 64
      let d := (v <<< startBit) % B
      if d ≠ 0 then some (startPos + lz d)
      else findOneLoop (startPos + (64 - startBit)) vs

/-- `round_p` (common/util.rs 330-332), with the saturating addition. -/
def roundP (p : Nat) : Nat := (min (p + 63) USIZE_MAX / 64) * 64

/-- `invert_rm_for_sign` (common/util.rs 335-343). -/
def invertRm : RM → RM
  | .up => .down
  | .down => .up
  | rm => rm

/-- Second loop of `count_leading_zeroes_skip_first` (common/util.rs 287-294): `w` is the current
word, the list holds the remaining words, most significant first. -/
def clzLoop : Nat → List Nat → Nat → Nat × Nat
  | w, [], ret => if w = 0 then (w, ret + 64) else (w, ret)
  | w, v :: vs, ret => if w = 0 then clzLoop v vs (ret + 64) else (w, ret)

/-- `count_leading_zeroes_skip_first` (common/util.rs 280-306). -/
def countLeadingZeroesSkipFirst (m : List Nat) : Nat :=
  match m.reverse with
  | [] => 0
  | v :: vs =>
    let r := clzLoop (v &&& (WMAX >>> 1)) vs 0
    if r.1 ≠ 0 then r.2 + lz r.1 else r.2

/-- `WordBuf::trunc_to` (common/buf.rs 47-52); `l` in bits, at most the current size. -/
def truncTo (m : List Nat) (l : Nat) : List Nat :=
  let n := (l + 63) / 64
  (shiftRight m ((m.length - n) * 64)).take n

/-- `WordBuf::try_extend` (common/buf.rs 61-71). The new words are uninitialised in the code
before the left shift by whole words overwrites them. -/
def tryExtend (m : List Nat) (p : Nat) : List Nat :=
  let n := (p + 63) / 64
  shiftLeft (m ++ List.replicate (n - m.length) 0) ((n - m.length) * 64)

/-- `WordBuf::try_extend_2` (common/buf.rs 74-83). -/
def tryExtend2 (m : List Nat) (p : Nat) : List Nat :=
  let n := (p + 63) / 64
  if n > m.length then m ++ List.replicate (n - m.length) 0 else m

/-- `WordBuf::try_extend_3` (common/buf.rs 86-97). The code zeroes only the first new word
(`inner[l] = 0`); further new words, if any, are uninitialised and modelled as zeros. -/
def tryExtend3 (m : List Nat) (p d : Nat) : List Nat :=
  let n := (p + 63) / 64
  shiftLeft (m ++ List.replicate (n - m.length) 0) d

/-- `WordBuf::trunc_trailing_zeroes` (common/buf.rs 100-116): the leading run of zeros of the
little-endian list is shifted out and cut off. -/
def truncTrailingZeroes (m : List Nat) : List Nat :=
  let n := (m.takeWhile (· = 0)).length
  if n > 0 then (shiftRight m (n * 64)).take (m.length - n) else m

/-- `WordBuf::trunc_leading_zeroes` (common/buf.rs 119-134). -/
def truncLeadingZeroes (m : List Nat) : List Nat :=
  let n := (m.reverse.takeWhile (· = 0)).length
  if n > 0 then m.take (m.length - n) else m

/-- State of the iterator `RightShiftedSlice` (mantissa/util.rs 46-52). -/
structure RSS where
  s : List Nat
  bits : Nat
  prev : Option Nat
  default : Nat
  ext : Nat

/-- `RightShiftedSlice::new` (mantissa/util.rs 58-87). -/
def RSS.new (s : List Nat) (shift default ext : Nat) : RSS :=
  let idx := shift / 64
  let bits := shift % 64
  let idx' := if ext > idx then 0 else idx - ext
  let ext' := if ext > idx then ext - idx else 0
  match s.drop idx' with
  | [] => { s := [], bits, prev := none, default, ext := ext' }
  | x :: xs => { s := xs, bits, prev := some x, default, ext := ext' }

/-- `RightShiftedSlice::next` (mantissa/util.rs 100-124); the iterator never ends. -/
def RSS.next (r : RSS) : Nat × RSS :=
  if r.ext > 0 then
    let r' := { r with ext := r.ext - 1 }
    if r.ext - 1 = 0 ∧ r.bits > 0 then
      match r.prev with
      | some hi => ((hi <<< (64 - r.bits)) % B, r')
      | none => (r.default, r')
    else (r.default, r')
  else
    match r.prev with
    | some lo =>
      match r.s with
      | [] =>
        let r' := { r with prev := none }
        if r.bits = 0 then (lo, r') else (lo >>> r.bits, r')
      | hi :: t =>
        let r' := { r with prev := some hi, s := t }
        if r.bits = 0 then (lo, r')
        else (((hi <<< (64 - r.bits)) % B) ||| (lo >>> r.bits), r')
    | none => (r.default, r)

/-- The first `n` items of the iterator. -/
def RSS.take : Nat → RSS → List Nat
  | 0, _ => []
  | n + 1, r => r.next.1 :: RSS.take n r.next.2

/-- `ExtendedSlice` with default 0 (mantissa/util.rs 10-43), as the list of its items. -/
def extendedSlice (m : List Nat) (extra : Nat) : List Nat := List.replicate extra 0 ++ m

/-- `log2_ceil` (common/util.rs 16-27). -/
def log2Ceil (n : Nat) : Nat := if n ≤ 1 then 0 else Nat.log2 (n - 1) + 1

end AF
