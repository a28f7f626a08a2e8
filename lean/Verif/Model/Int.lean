import Verif.Model.Util
/-!
# Signed word slices (model of `SliceWithSign`, common/int.rs)

A slice with sign is a sign flag and its words. `dst` arguments become the length of the destination,
which the code always overwrites completely.
-/

namespace AF

/-- `SliceWithSign` (common/int.rs 20-24); `neg` stands for `sign = -1`. -/
structure SS where
  neg : Bool
  m : List Nat
  deriving DecidableEq, Repr

/-- The words `m` written to the start of a destination of `len` words, the rest filled with
zeros. -/
def fit (len : Nat) (m : List Nat) : List Nat := m.take len ++ List.replicate (len - m.length) 0

/-- Word-wise addition of slices of possibly different lengths: the two loops of `abs_add`
(common/int.rs 190-200) and of `add_slices` (mantissa/toom2.rs 24-30). Returns the words and the
carry. -/
def addWords : Nat → List Nat → List Nat → List Nat × Nat
  | c, [], [] => ([], c)
  | c, a :: as, [] =>
    let r := addCarry a 0 c
    let t := addWords r.2 as []
    (r.1 :: t.1, t.2)
  | c, [], b :: bs =>
    let r := addCarry 0 b c
    let t := addWords r.2 [] bs
    (r.1 :: t.1, t.2)
  | c, a :: as, b :: bs =>
    let r := addCarry a b c
    let t := addWords r.2 as bs
    (r.1 :: t.1, t.2)

/-- `abs_add` (common/int.rs 181-207). A carry that does not fit `dst` makes the code panic
(`unwrap` at 203); the callers provide room for it. -/
def ssAbsAdd (s1 s2 : List Nat) (len : Nat) : List Nat :=
  let r := addWords 0 s1 s2
  fit len (r.1 ++ [r.2])

/-- `abs_add_assign` (common/int.rs 209-221). -/
def ssAddAssign : Nat → List Nat → List Nat → List Nat
  | _, [], _ => []
  | c, a :: as, [] => (addCarry a 0 c).1 :: ssAddAssign (addCarry a 0 c).2 as []
  | c, a :: as, b :: bs => (addCarry a b c).1 :: ssAddAssign (addCarry a b c).2 as bs

/-- `abs_sub_assign_1` (common/int.rs 224-238) and the loops of `abs_sub` (255-270). -/
def ssSubAssign1 : Nat → List Nat → List Nat → List Nat
  | _, [], _ => []
  | c, a :: as, [] => (subBorrow a 0 c).1 :: ssSubAssign1 (subBorrow a 0 c).2 as []
  | c, a :: as, b :: bs => (subBorrow a b c).1 :: ssSubAssign1 (subBorrow a b c).2 as bs

/-- `abs_sub_assign_2` (common/int.rs 241-249): `s1 := s2 - s1` over the common length. -/
def ssSubAssign2 : Nat → List Nat → List Nat → List Nat
  | _, [], _ => []
  | _, b :: bs, [] => b :: bs
  | c, b :: bs, a :: as => (subBorrow a b c).1 :: ssSubAssign2 (subBorrow a b c).2 bs as

/-- `abs_sub` (common/int.rs 251-275). -/
def ssAbsSub (s1 s2 : List Nat) (len : Nat) : List Nat := fit len (ssSubAssign1 0 s1 s2)

/-- The comparison loop of `abs_cmp` (common/int.rs 316-321), words most significant first. -/
def cmpRev : List Nat → List Nat → Int
  | a :: as, b :: bs =>
    let diff : Int := (a : Int) - (b : Int)
    if diff ≠ 0 then diff else cmpRev as bs
  | _, _ => 0

/-- `abs_cmp` (common/int.rs 299-324). -/
def ssAbsCmp (s1 s2 : List Nat) : Int :=
  let len := min s1.length s2.length
  if (s1.drop len).any (· ≠ 0) then 1
  else if (s2.drop len).any (· ≠ 0) then -1
  else cmpRev (s1.take len).reverse (s2.take len).reverse

namespace SS

/-- `add_sub` (common/int.rs 60-78); `op = true` is addition, `dst` the previous sign and length
of the destination (its sign is kept when the result is zero by cancellation). -/
def addSub (s1 s2 : SS) (dneg : Bool) (dlen : Nat) (op : Bool) : SS :=
  if (s1.neg != s2.neg && op) || (!op && s1.neg == s2.neg) then
    let c := ssAbsCmp s1.m s2.m
    if c > 0 then { neg := s1.neg, m := ssAbsSub s1.m s2.m dlen }
    else if c < 0 then { neg := if op then s2.neg else !s2.neg, m := ssAbsSub s2.m s1.m dlen }
    else { neg := dneg, m := List.replicate dlen 0 }
  else { neg := s1.neg, m := ssAbsAdd s1.m s2.m dlen }

/-- `add_sub_assign` (common/int.rs 80-95). -/
def addSubAssign (s1 s2 : SS) (op : Bool) : SS :=
  if (s1.neg != s2.neg && op) || (!op && s1.neg == s2.neg) then
    let c := ssAbsCmp s1.m s2.m
    if c > 0 then { s1 with m := ssSubAssign1 0 s1.m s2.m }
    else if c < 0 then
      { neg := if op then s2.neg else !s2.neg, m := ssSubAssign2 0 s1.m s2.m }
    else { s1 with m := List.replicate s1.m.length 0 }
  else { s1 with m := ssAddAssign 0 s1.m s2.m }

/-- `add` (common/int.rs 40-42) into a fresh destination of `len` words. -/
def add (s1 s2 : SS) (len : Nat) : SS := s1.addSub s2 false len true

/-- `sub` (common/int.rs 45-47) into a fresh destination of `len` words. -/
def sub (s1 s2 : SS) (len : Nat) : SS := s1.addSub s2 false len false

/-- `add_assign` (common/int.rs 50-52). -/
def addAssign (s1 s2 : SS) : SS := s1.addSubAssign s2 true

/-- `sub_assign` (common/int.rs 55-57). -/
def subAssign (s1 s2 : SS) : SS := s1.addSubAssign s2 false

/-- `shift_left` (common/int.rs 120-122). -/
def shl (s : SS) (n : Nat) : SS := { s with m := shiftLeft s.m n }

/-- `shift_right` (common/int.rs 125-127). -/
def shr (s : SS) (n : Nat) : SS := { s with m := shiftRight s.m n }

end SS

/-- The division loop of `div_by_word` (common/int.rs 153-166), words most significant first. -/
def divWordLoop (d : Nat) : Nat → List Nat → List Nat × Nat
  | rh, [] => ([], rh)
  | rh, v :: vs =>
    let qh := rh * B + v
    let t := divWordLoop d (qh % d) vs
    ((qh / d) % B :: t.1, t.2)

/-- `div_by_word` (common/int.rs 129-167), on the words. -/
def divByWord (m : List Nat) (d : Nat) : List Nat :=
  match m.reverse with
  | [] => []
  | v :: vs =>
    if v < d then (0 :: (divWordLoop d v vs).1).reverse
    else (divWordLoop d 0 (v :: vs)).1.reverse

/-- `decrement_abs` (common/int.rs 278-288); decrementing zero panics in the code. -/
def decrementAbs : List Nat → List Nat
  | [] => []
  | v :: vs => if v = 0 then WMAX :: decrementAbs vs else (v - 1) :: vs

/-- `shift_slice_left_copy` (common/util.rs 215-245). -/
def shiftLeftCopy (m : List Nat) (len n : Nat) : List Nat :=
  let idx := n / 64
  let shift := n % 64
  if idx ≥ len then List.replicate len 0
  else if shift > 0 then
    fit len (List.replicate idx 0 ++ shlBits shift 0 (m ++ [0]))
  else fit len (List.replicate idx 0 ++ m)

end AF
