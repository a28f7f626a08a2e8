import Verif.Model.Num
/-!
# Conversion from and to digits in radix 2, 8 and 16 (conv.rs)

Digits are `u8` values, most significant first.
-/

namespace AF

/-- `BigFloatNumber` digit output: sign, digits, exponent. -/
abbrev Digits := Sign × List Nat × Int

/-- The loop `for v in digits.iter().rev()` of `conv_from_binary` (conv.rs 95-111), followed by the
write of an unfinished word (113-115). The list holds the digits from the last one; the result is the
list of words in the order in which they are written. -/
def binLoop : List Nat → Nat → Nat → Except Err (List Nat)
  | [], shift, d => .ok (if shift > 0 then [d] else [])
  | v :: vs, shift, d =>
    if v > 1 then .error .invalidArgument
    else
      let d' := d ||| ((v <<< shift) % B)
      if shift + 1 = 64 then
        match binLoop vs 0 0 with
        | .error e => .error e
        | .ok ws => .ok (d' :: ws)
      else binLoop vs (shift + 1) d'

/-- Writes through `dst.next().unwrap()` into a buffer of `l` zeroed words: a panic when there are
too many, otherwise the remaining words stay zero. -/
def fillUp (ws : List Nat) (l : Nat) : Except Err (List Nat) :=
  if ws.length > l then .error .panic else .ok (ws ++ List.replicate (l - ws.length) 0)

/-- The number of iterations of `while v & significant_bit == 0 { v <<= 1 }` (conv.rs 171-175) for a
non-zero digit below the base; `f` bounds the iterations (at most 3 happen). -/
def firstShift (sig : Nat) : Nat → Nat → Nat
  | 0, _ => 0
  | f + 1, v => if v &&& sig = 0 then firstShift sig f (v <<< 1) + 1 else 0

/-- The first loop of `conv_from_commensurable` (conv.rs 160-178): number of leading zero digits and
number of leading zero bits in the first non-zero digit. `e_shift` is minus their total. -/
def comScan (shift : Nat) : List Nat → Except Err (Nat × Nat)
  | [] => .ok (0, 0)
  | v :: vs =>
    if v = 0 then
      match comScan shift vs with
      | .error e => .error e
      | .ok r => .ok (r.1 + 1, r.2)
    else if v ≥ 1 <<< shift then .error .invalidArgument
    else .ok (0, firstShift (1 <<< (shift - 1)) 8 v)

/-- The loop filling the mantissa from the top (conv.rs 205-224) and the write of the last word
(226-230); `k` words are left in the buffer, `filled` and `d` are the variables of the loop. The words
are returned in the order in which they are written. -/
def comFill (shift : Nat) : List Nat → Nat → Nat → Nat → Except Err (List Nat)
  | [], k, _, d => .ok (if d > 0 ∧ k > 0 then [d] else [])
  | v :: vs, k, filled, d =>
    if v ≥ 1 <<< shift then .error .invalidArgument
    else if filled ≤ 64 then comFill shift vs k (filled + shift) (d ||| ((v <<< (64 - filled)) % B))
    else
      match k with
      | 0 => .ok []
      | k + 1 =>
        let f := filled - 64
        match comFill shift vs k (f + shift) (if f > 0 then (v <<< (64 - f)) % B else 0) with
        | .error e => .error e
        | .ok ws => .ok ((d ||| (v >>> f)) :: ws)

/-- The number of trailing zero digits, as counted by `cnt` in `conv_to_commensurable` and
`conv_to_binary` (conv.rs 697-701, 737-741). -/
def trailCnt : List Nat → Nat → Nat
  | [], c => c
  | d :: ds, c => trailCnt ds (if d = 0 then c + 1 else 0)

/-- `ret.resize(ret.len() - cnt, 0)` (conv.rs 724, 747). -/
def cutTrail (ds : List Nat) : List Nat := ds.take (ds.length - trailCnt ds 0)

/-- The bits of a word from the top (conv.rs 735-743). -/
def wordBits (v : Nat) : Nat → List Nat
  | 0 => []
  | i + 1 => ((v >>> i) &&& 1) :: wordBits v i

/-- The loop of `conv_to_commensurable` (conv.rs 693-715): the digits pushed and the final values of `d`
and `done`. `fuel` bounds the iterations; every iteration consumes `shift` bits. -/
def toComLoop (shift : Nat) : Nat → List Nat → Nat → Nat → List Nat × Nat × Nat
  | 0, _, d, done => ([], d, done)
  | f + 1, it, d, done =>
    let digit := (d >>> done) &&& (WMAX >>> (64 - shift))
    if done < shift then
      let d' := (d <<< 64) % 2 ^ 128
      match it with
      | [] => ([digit], d', done)
      | v :: vs =>
        let r := toComLoop shift f vs (d' ||| v) (done + 64 - shift)
        (digit :: r.1, r.2)
    else
      let r := toComLoop shift f it d (done - shift)
      (digit :: r.1, r.2)

namespace Num

/-- `conv_from_binary` (conv.rs 73-142). -/
def convFromBinary (s : Sign) (digits : List Nat) (e : Int) (p : Nat) (rm : RM) : Except Err Num :=
  if digits.isEmpty then new (if p < USIZE_MAX then p else DEFAULT_P)
  else if roundP digits.length ≥ PMAX then .error .invalidArgument
  else
    let r := digits.length % 64
    match binLoop digits.reverse (if r ≠ 0 then 64 - r else r) 0 with
    | .error er => .error er
    | .ok ws => match fillUp ws (wordLen digits.length) with
      | .error er => .error er
      | .ok ms =>
        let m : Mantissa := (⟨ms, 0⟩ : Mantissa).updateBitLen
        if p < USIZE_MAX then (Num.mk e s m false).setPrecision p rm
        else
          let shift := m.maxBitLen - m.n
          if shift > 0 ∧ e > EMIN then
            let es := (e - EMIN).toNat
            if es ≥ shift then
              .ok (Num.mk (e - (shift : Int)) s ⟨(maximize m.m).1, m.maxBitLen⟩ false)
            else .ok (Num.mk EMIN s ⟨shiftLeft m.m es, m.n + es⟩ false)
          else .ok (Num.mk e s m false)

/-- The subnormal case of `conv_from_commensurable` with a given precision (conv.rs 235-248). -/
def comSubnormal (m : Mantissa) (s : Sign) (e : Int) (p : Nat) : Except Err Num :=
  let num := Num.mk EMIN s m false
  match (if p + 64 > num.m.maxBitLen then num.setPrecision (p + 64) .none else .ok num) with
  | .error er => .error er
  | .ok num =>
    let num := num.subnormalize e .none
    .ok (if num.inexact then { num with m := { num.m with m := num.m.m.set 0 (wd num.m.m 0 ||| 1) } } else num)

/-- The subnormal case of `conv_from_commensurable` without a precision (conv.rs 250-260);
`extend_subnormal` is `try_extend_2` (mantissa/mantissa.rs 625-627). The bit length is not updated. -/
def comSubnormalAuto (m : Mantissa) (s : Sign) (e : Int) : Except Err Num :=
  let es := (EMIN - e).toNat
  let newbitlen := min (m.n + es) USIZE_MAX
  if roundP newbitlen ≥ PMAX then .error .invalidArgument
  else
    let m1 := tryExtend2 m.m (m.n + es)
    .ok (Num.mk EMIN s ⟨shiftLeft m1 (64 * m1.length - newbitlen), m.n⟩ false)

/-- `conv_from_commensurable` (conv.rs 145-272). -/
def convFromCommensurable (s : Sign) (digits : List Nat) (e : Int) (shift p : Nat) (rm : RM) : Except Err Num :=
  match comScan shift digits with
  | .error er => .error er
  | .ok (zeroes, first) =>
    if zeroes = digits.length then
      .ok (Num.mk 0 s (Mantissa.new (if p < USIZE_MAX then p else DEFAULT_P)) false)
    else
      let msz := roundP ((digits.length - zeroes) * shift + 64)
      if msz ≥ PMAX then .error .invalidArgument
      else
        let e1 : Int := e * shift - ((shift * zeroes + first : Nat) : Int)
        if e1 > EMAX then .error (.exponentOverflow s)
        else
          match comFill shift (digits.drop zeroes) (wordLen msz) (shift - first) 0 with
          | .error er => .error er
          | .ok ws =>
            let l := wordLen msz
            let m : Mantissa := ⟨(ws ++ List.replicate (l - ws.length) 0).reverse, 64 * l⟩
            match (if e1 < EMIN then
                if p < USIZE_MAX then comSubnormal m s e1 p else comSubnormalAuto m s e1
              else .ok (Num.mk e1 s m false)) with
            | .error er => .error er
            | .ok r => if p < USIZE_MAX then r.setPrecision p rm else .ok r

/-- `conv_to_binary` (conv.rs 729-750). -/
def convToBinary (x : Num) : Digits :=
  (x.s, cutTrail (x.m.m.reverse.flatMap (fun v => wordBits v 64)), x.e)

/-- `conv_to_commensurable` (conv.rs 667-727). An empty mantissa makes `iter.next().unwrap()` panic. -/
def convToCommensurable (x : Num) (shift : Nat) : Except Err Digits :=
  let r := x.e.natAbs % shift
  let es := if r ≠ 0 ∧ x.e > 0 then shift - r else r
  let e := Int.tdiv x.e shift + (if r ≠ 0 ∧ x.e > 0 then 1 else 0)
  match x.m.m.reverse with
  | [] => .error .panic
  | d :: it =>
    let t := toComLoop shift (64 * x.m.m.length + 1) it d (64 - shift + es)
    let done := t.2.2
    let extra : List Nat :=
      if done > 0 then
        let done := if done < shift then done + (64 - shift) else done
        let digit := (t.2.1 >>> done) &&& (WMAX >>> (64 - shift))
        if digit > 0 then [digit] else []
      else []
    .ok (x.s, cutTrail (t.1 ++ extra), e)

end Num

end AF
