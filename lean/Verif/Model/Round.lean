import Verif.Model.Util
/-!
# Model of `Mantissa::round_mantissa` (mantissa/mantissa.rs 868-1112)
-/

namespace AF

/-- Result of `round_mantissa`: the words, the returned flag ("exponent is to be incremented"),
and the final values of the `&mut` arguments `check_roundable` and `inexact`. -/
structure RoundRes where
  m : List Nat
  ret : Bool
  check : Bool
  inexact : Bool
  deriving DecidableEq, Repr

/-- Word `i` of a buffer. Every index used below is in range on the executions considered
(`n < max_bit_len`), so the default is never taken. -/
def wd (m : List Nat) (i : Nat) : Nat := m.getD i 0

/-- Loop state of the scans over discarded words. -/
structure ScanSt where
  check : Bool
  cc : Nat
  remZero : Bool
  deriving DecidableEq, Repr

/-- One pass of the loop body at 947-957 / 1035-1045 over the discarded words (which the loop
also sets to zero): tracks `check_roundable`, `cc` and `rem_zero`. -/
def scanWords (td : Nat) : List Nat → ScanSt → ScanSt
  | [], st => st
  | v :: vs, st =>
    let st1 : ScanSt :=
      if st.check && decide (st.cc > 0) then
        if v ≠ td then { st with check := false } else { st with cc := st.cc - 1 }
      else st
    let st2 : ScanSt := if v ≠ 0 then { st1 with remZero := false } else st1
    scanWords td vs st2

/-- Carry propagation loop (1094-1105): add one to the words, `true` if it runs off the end. -/
def incWords : List Nat → List Nat × Bool
  | [] => ([], true)
  | v :: vs =>
    if v < WMAX then ((v + 1) :: vs, false)
    else
      let r := incWords vs
      (0 :: r.1, r.2)

/-- The final part (1083-1109): add one at bit `t` of word `i` when `c`, otherwise clear the low
bits of word `i`. -/
def roundTail (m : List Nat) (c : Bool) (i t : Nat) : List Nat × Bool :=
  if c then
    if i < m.length ∧ (wd m i >>> t) + 1 < (B >>> t) then
      (m.set i ((((wd m i >>> t) + 1) <<< t) % B), false)
    else
      let m' := m.set i 0
      let r := incWords (m'.drop (i + 1))
      let m'' := m'.take (i + 1) ++ r.1
      if r.2 then (m''.set (m.length - 1) MSB, true) else (m'', false)
  else
    (m.set i (if t ≥ 64 then 0 else ((wd m i >>> t) <<< t) % B), false)

/-- The part of both branches before the word loops: information from the bits below position
`t` of word `i` (916-930 / 1005-1020) or from the word below (931-942 / 1021-1032).
Returns `(st, td, z)`. -/
def roundPrep (m : List Nat) (i t cc : Nat) (check : Bool) : ScanSt × Nat × Nat :=
  if t > 0 then
    let rb := (wd m i <<< (64 - t)) % B
    if rb ≠ 0 then
      if check then
        let msk := rb &&& ((WMAX <<< (64 - t)) % B)
        if msk = rb then (⟨check, cc, false⟩, WMAX, i)
        else if msk ≠ 0 then (⟨false, cc, false⟩, 0, i)
        else (⟨check, cc, false⟩, 0, i)
      else (⟨check, cc, false⟩, 0, i)
    else (⟨check, cc, true⟩, 0, i)
  else if check && decide (cc > 0) && decide (i > 0) then
    let z := i - 1
    if wd m z = WMAX then (⟨check, cc - 1, false⟩, WMAX, z)
    else if wd m z ≠ 0 then (⟨false, cc - 1, false⟩, 0, z)
    else (⟨check, cc - 1, true⟩, 0, z)
  else (⟨check, cc, true⟩, 0, i)

/-- The decision to add one for `ToEven` / `ToOdd` (971-986). -/
def nearestAdd (rm : RM) (gt1 eq1 : Bool) (nump1 : Nat) : Bool :=
  match rm with
  | .toEven => gt1 || (eq1 && decide (nump1 ≠ 0))
  | _ => gt1 || (eq1 && decide (nump1 = 0))

/-- The decision to add one for the directed modes (1055-1078). -/
def directedAdd (rm : RM) (isPos remZero : Bool) : Bool :=
  match rm with
  | .fromZero => !remZero
  | .up => !remZero && isPos
  | .down => !remZero && !isPos
  | _ => false

/-- Branch for `ToEven` / `ToOdd` (902-997); `n` is the original argument. -/
def roundNearest (m : List Nat) (n : Nat) (rm : RM) (check : Bool) (cc : Nat) (inexact : Bool) :
    RoundRes :=
  let n' := n - 1
  let i := n' / 64
  let t := n' % 64
  let ip1 := (n' + 1) / 64
  let tp1 := (n' + 1) % 64
  let num := (wd m i >>> t) &&& 1
  let pr := roundPrep m i t cc check
  let nump1 := if ip1 < m.length then (wd m ip1 >>> tp1) &&& 1 else 0
  let st := scanWords pr.2.1 (m.take i) pr.1
  let m1 := List.replicate i 0 ++ m.drop i
  if st.check then { m := m1, ret := false, check := true, inexact }
  else
    let inexact' := inexact || !st.remZero || decide (num = 1)
    let eq1 := decide (num = 1) && st.remZero
    let gt1 := decide (num = 1) && !st.remZero
    let c := nearestAdd rm gt1 eq1 nump1
    let r :=
      if c then roundTail (if ip1 > i then m1.set i 0 else m1) true ip1 tp1
      else roundTail m1 false i (t + 1)
    { m := r.1, ret := r.2, check := false, inexact := inexact' }

/-- Branch for the directed modes (998-1079). -/
def roundDirected (m : List Nat) (n : Nat) (rm : RM) (isPos check : Bool) (cc : Nat)
    (inexact : Bool) : RoundRes :=
  let i := n / 64
  let t := n % 64
  let pr := roundPrep m i t cc check
  let z := pr.2.2
  let st := scanWords pr.2.1 (m.take z).reverse pr.1
  let m1 := List.replicate z 0 ++ m.drop z
  if st.check then { m := m1, ret := false, check := true, inexact }
  else
    let c := directedAdd rm isPos st.remZero
    let r := roundTail m1 c i t
    { m := r.1, ret := r.2, check := false, inexact := inexact || !st.remZero }

/-- `Mantissa::round_mantissa` (mantissa/mantissa.rs 868-1112). The subtraction
`n - (max_bit_len - s)` at 900 is a `usize` subtraction; callers in the model that can make it
underflow (`try_set_precision`) report a panic before calling. -/
def roundMantissa (m : List Nat) (n : Nat) (rm : RM) (isPos check : Bool) (s : Nat)
    (inexact : Bool) : RoundRes :=
  let maxBits := m.length * 64
  if rm = .none then
    let ix := if !inexact && decide (n > 0) && decide (n < maxBits) then
        (findOneFrom m (maxBits - n)).isSome
      else inexact
    { m, ret := false, check := false, inexact := ix }
  else if n > 0 ∧ n < maxBits then
    let cc := (n - (maxBits - s)) / 64
    if rm = .toEven ∨ rm = .toOdd then roundNearest m n rm check cc inexact
    else roundDirected m n rm isPos check cc inexact
  else { m, ret := false, check, inexact }

end AF
