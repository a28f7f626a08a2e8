import Verif.Model.Round
/-!
# Mantissa structure, comparison, addition and subtraction (mantissa/mantissa.rs)
-/

namespace AF

/-- `Mantissa` (mantissa/mantissa.rs 26-30): words and the bit length `n`. -/
structure Mantissa where
  m : List Nat
  n : Nat
  deriving DecidableEq, Repr

/-- `Mantissa::len` (854-856). -/
def Mantissa.len (x : Mantissa) : Nat := x.m.length

/-- `Mantissa::max_bit_len` (860-862). -/
def Mantissa.maxBitLen (x : Mantissa) : Nat := x.m.length * 64

/-- `Mantissa::bit_len_to_word_len` (35-37). -/
def wordLen (p : Nat) : Nat := (p + 63) / 64

/-- `Mantissa::new` (45-51). -/
def Mantissa.new (p : Nat) : Mantissa := { m := List.replicate (wordLen p) 0, n := 0 }

/-- `Mantissa::is_zero` (119-121). -/
def Mantissa.isZero (x : Mantissa) : Bool := x.n == 0

/-- `Mantissa::is_subnormal` (787-789). -/
def Mantissa.isSubnormal (x : Mantissa) : Bool := decide (x.n < x.maxBitLen)

/-- `Mantissa::normilize` (792-800): the shift and the shifted copy. -/
def Mantissa.normilize (x : Mantissa) : Nat × Mantissa :=
  let shift := x.maxBitLen - x.n
  if shift > 0 then (shift, { m := shiftLeft x.m shift, n := x.maxBitLen }) else (shift, x)

/-- The common closing block of `abs_sub` (310-328), `abs_add` (427-445) and `mul` (475-493):
adjust the exact words to `p` words. Returns the words, whether the rounding overflowed
(`shift -= 1`) and the `inexact` flag. -/
def adjustPrec (m : List Nat) (p : Nat) (rm : RM) (isPos fullPrec inexact : Bool) :
    List Nat × Bool × Bool :=
  if fullPrec then (truncTrailingZeroes m, false, inexact)
  else if m.length < p then
    -- `try_extend` followed by `m3.m[..p - n].fill(0)`
    (List.replicate (p - m.length) 0 ++ (tryExtend m (p * 64)).drop (p - m.length), false, inexact)
  else if m.length > p then
    let r := roundMantissa m ((m.length - p) * 64) rm isPos false (m.length * 64) inexact
    (truncTo r.m (p * 64), r.ret, r.inexact)
  else (m, false, inexact)

/-- The loop `subtract 1` of `abs_sub` (262-277). -/
def decLoop : Nat → List Nat → List Nat
  | _, [] => []
  | c, a :: as =>
    if c > 0 then
      if a = 0 then WMAX :: decLoop c as else (a - c) :: decLoop 0 as
    else a :: decLoop c as

/-- `Mantissa::abs_sub` (mantissa/mantissa.rs 234-332): `(shift, mantissa, inexact)`. Both
mantissas are normalised and `m1 >= m2 >> m2_shift`, as `add_sub` guarantees. -/
def absSub (m1 m2 : List Nat) (p m2Shift : Nat) (rm : RM) (isPos fullPrec inexact : Bool) :
    Int × Mantissa × Bool :=
  let pw := wordLen p
  let l2 := (m2Shift + 62) / 64
  let far := decide (l2 > pw) && decide (l2 > m1.length) && !fullPrec
  let m3 :=
    if far then
      let m3l := max m1.length pw + 1
      decLoop 1 (extendedSlice m1 (m3l - m1.length))
    else
      let l := max m1.length ((m2Shift + 63) / 64 + m2.length)
      (subLoop 0 (extendedSlice m1 (l - m1.length))
        (RSS.take l (RSS.new m2 m2Shift 0 (l - m2.length)))).1
  let ix := inexact || far
  let mx := maximize m3
  let a := adjustPrec mx.1 pw rm isPos fullPrec ix
  ((mx.2 : Int) - (if a.2.1 then 1 else 0), { m := a.1, n := a.1.length * 64 }, a.2.2)

/-- `Mantissa::abs_add` (mantissa/mantissa.rs 337-449): `(shift, mantissa, inexact)`. -/
def absAdd (m1 m2 : List Nat) (p m2Shift : Nat) (rm : RM) (isPos fullPrec inexact : Bool) :
    Int × Mantissa × Bool :=
  let pw := wordLen p
  let l2 := (m2Shift + 62) / 64
  let far := decide (m2Shift ≠ 0) && decide (l2 > pw) && decide (l2 > m1.length) && !fullPrec
  let mc : List Nat × Nat :=
    if m2Shift = 0 then
      let l := max m1.length m2.length + 1
      ((addLoop 0 (RSS.take l (RSS.new m1 1 0 (l - m1.length)))
        (RSS.take l (RSS.new m2 1 0 (l - m2.length)))).1, 1)
    else if far then
      let l3 := pw + 1
      let m3 := if l3 ≥ m1.length then List.replicate (l3 - m1.length) 0 ++ m1
        else m1.drop (m1.length - l3)
      (m3.set 0 (wd m3 0 ||| 1), 0)
    else
      let l := max m1.length ((m2Shift + 63) / 64 + m2.length) + 1
      let r := addLoop 0 (extendedSlice m1 (l - m1.length))
        (RSS.take l (RSS.new m2 m2Shift 0 (l - m2.length)))
      if r.2 > 0 then
        let s := shiftRight r.1 1
        (s.set (s.length - 1) (wd s (s.length - 1) ||| MSB), r.2)
      else (r.1, r.2)
  let ix := inexact || far
  let a := adjustPrec mc.1 pw rm isPos fullPrec ix
  (-(mc.2 : Int) - (if a.2.1 then 1 else 0), { m := a.1, n := a.1.length * 64 }, a.2.2)

/-- Items of `NormalizedView` over words given most significant first
(mantissa/util.rs 128-198): the first non-zero word onward, shifted left so that its top bit is
set. `normViewLoop shift prev rest` are the items from state `prev`. -/
def normViewLoop (shift : Nat) : Nat → List Nat → List Nat
  | prev, [] => [if shift = 0 then prev else (prev <<< shift) % B]
  | prev, v :: vs =>
    (if shift = 0 then prev else ((prev <<< shift) % B) ||| (v >>> (64 - shift))) ::
      normViewLoop shift v vs

/-- `NormalizedView::new` followed by iteration (mantissa/util.rs 142-197). -/
def normView : List Nat → List Nat
  | [] => []
  | v :: vs => if v ≠ 0 then normViewLoop (lz v) v vs else normView vs

/-- `Mantissa::cmp_iters` (mantissa/mantissa.rs 205-229) on the item lists of both iterators.
`zip(..).take(n)` pulls one further pair only if an item count exceeds `n`; with `take(n)` the zip
is not advanced past `n`, so the leftover loops see the remaining items. (`zip` evaluates its
first iterator before the second; if the first has an extra item when the second is exhausted,
that item is consumed and lost. The model reproduces this.) -/
def cmpIters : Nat → List Nat → List Nat → Int
  | 0, as, bs =>
    if as.any (· ≠ 0) then 1 else if bs.any (· ≠ 0) then -1 else 0
  | _ + 1, [], bs => if bs.any (· ≠ 0) then -1 else 0
  | _ + 1, _ :: as, [] => if as.any (· ≠ 0) then 1 else 0
  | n + 1, a :: as, b :: bs =>
    let diff : Int := (a : Int) - (b : Int)
    if diff ≠ 0 then diff else cmpIters n as bs

/-- `Mantissa::abs_cmp` (mantissa/mantissa.rs 186-203). -/
def Mantissa.absCmp (x y : Mantissa) (normalized : Bool) : Int :=
  let n := min x.len y.len
  if normalized then cmpIters n x.m.reverse y.m.reverse
  else cmpIters n (normView x.m.reverse) (normView y.m.reverse)

end AF
