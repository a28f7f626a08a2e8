import Verif.Model.Dec
/-!
# Parser (parser.rs) and formatting (strop.rs), with their entry points in ext.rs

A `&str` is its list of characters. The parser looks at one character at a time, lower-cased by
`next_char`; the model lower-cases the whole input first and keeps the current character at the head
of the remaining list (the iterator stays at its end once it is exhausted, as `List.tail` does).
-/

namespace AF

/-- `rdx as u32` (defs.rs 165-177). -/
def Radix.base : Radix → Nat
  | .bin => 2 | .oct => 8 | .dec => 10 | .hex => 16

/-- `char::to_ascii_lowercase` (parser.rs 42). -/
def lowerAscii (c : Char) : Char := if 65 ≤ c.toNat ∧ c.toNat ≤ 90 then Char.ofNat (c.toNat + 32) else c

/-- `is_radix_digit` (parser.rs 208-224). -/
def isRadixDigit (c : Char) (rdx : Radix) : Bool :=
  match rdx with
  | .bin => c = '0' || c = '1'
  | .oct => decide (48 ≤ c.toNat ∧ c.toNat ≤ 55)
  | .dec => decide (48 ≤ c.toNat ∧ c.toNat ≤ 57)
  | .hex => decide (48 ≤ c.toNat ∧ c.toNat ≤ 57) || decide (97 ≤ c.toNat ∧ c.toNat ≤ 102)

/-- `c.to_digit(rdx).unwrap()` for a lower-case digit of the radix. -/
def toDigit (c : Char) : Nat := if c.toNat ≤ 57 then c.toNat - 48 else c.toNat - 87

/-- `ParserState` (parser.rs 14-23); `cs` is the current character and what follows. -/
structure PState where
  cs : List Char
  sign : Sign
  mant : List Nat
  e : Int
  inf : Bool
  nan : Bool
  deriving DecidableEq, Repr

/-- `isize::saturating_add` / `saturating_mul`: the exact result clamped to 64 bits. -/
def satI (x : Int) : Int := max (-9223372036854775808) (min x 9223372036854775807)

/-- The loop skipping leading zeroes (parser.rs 170-181): how many, and the rest. -/
def skipZeroes (rdx : Radix) : List Char → Nat × List Char
  | [] => (0, [])
  | c :: cs =>
    if isRadixDigit c rdx && toDigit c = 0 then let r := skipZeroes rdx cs; (r.1 + 1, r.2) else (0, c :: cs)

/-- The loop collecting digits (parser.rs 189-199). -/
def takeDigits (rdx : Radix) : List Char → List Nat × List Char
  | [] => ([], [])
  | c :: cs =>
    if isRadixDigit c rdx then let r := takeDigits rdx cs; (toDigit c :: r.1, r.2) else ([], c :: cs)

/-- `parse_digits` (parser.rs 158-206): the state, `len` and `skip_cnt`. -/
def parseDigits (st : PState) (skip int : Bool) (rdx : Radix) : PState × Nat × Nat :=
  let z := if skip then skipZeroes rdx st.cs else (0, st.cs)
  let d := takeDigits rdx z.2
  let len := (if int then 0 else z.1) + d.1.length
  let len := if !int && z.1 = len then 0 else len
  ({ st with cs := d.2, mant := st.mant ++ d.1 }, len, z.1)

/-- The digit loop of `parse_exp` (parser.rs 244-257), `e_thres` being `2^31`. -/
def expLoop (rdx : Radix) : List Char → Int → Int
  | [], e => e
  | c :: cs, e =>
    if isRadixDigit c rdx then
      if e > 2147483648 then e
      else expLoop rdx cs (satI (satI (e * rdx.base) + toDigit c))
    else e

/-- `parse_exp` (parser.rs 226-261). The characters left over are not used by the callers. -/
def parseExp (st : PState) (rdx : Radix) : PState :=
  match st.cs with
  | '+' :: cs => { st with e := expLoop rdx cs st.e }
  | '-' :: cs => { st with e := -expLoop rdx cs st.e }
  | cs => { st with e := expLoop rdx cs st.e }

/-- The exponent part in `parse_num` (parser.rs 125-136). -/
def parseExpPart (st : PState) (rdx : Radix) : PState :=
  if rdx = .hex then
    match st.cs with
    | '_' :: 'e' :: cs => parseExp { st with cs := cs } rdx
    | _ => st
  else
    match st.cs with
    | 'e' :: cs => parseExp { st with cs := cs } rdx
    | _ => st

/-- Skipping the point in `parse_num` (parser.rs 119-121). -/
def dropPoint : List Char → List Char
  | '.' :: cs => cs
  | cs => cs

/-- `parse_num` (parser.rs 117-156). -/
def parseNum (st : PState) (rdx : Radix) : PState :=
  let a := parseDigits st true true rdx
  let st1 := { a.1 with cs := dropPoint a.1.cs }
  let b := parseDigits st1 false false rdx
  if b.2.1 > 0 ∨ a.2.1 > 0 then
    let st2 := parseExpPart { b.1 with nan := false } rdx
    let st3 := if a.2.1 ≠ 0 then { st2 with e := satI (st2.e + a.2.1) } else st2
    if st3.e < EMIN then { st3 with mant := [0], e := 0 }
    else if st3.e > EMAX then { st3 with inf := true }
    else st3
  else if a.2.2 > 0 then { b.1 with nan := false }
  else b.1

/-- The sign (parser.rs 70-83), and the initial state (`ParserState::new`, 26-37). -/
def takeSign : List Char → PState
  | '+' :: cs => ⟨cs, .pos, [], 0, false, true⟩
  | '-' :: cs => ⟨cs, .neg, [], 0, false, true⟩
  | cs => ⟨cs, .pos, [], 0, false, true⟩

/-- What follows the sign (parser.rs 85-95), with `parse_inf` (98-105) and `parse_nan` (107-113; the flag it sets
is already set). -/
def parseBody (st : PState) (rdx : Radix) : PState :=
  match st.cs with
  | [] => st
  | c :: cs =>
    if c = 'i' then
      match cs with
      | 'n' :: 'f' :: _ => { st with inf := true, nan := false }
      | _ => st
    else if c = 'n' then st
    else if c = '.' || isRadixDigit c rdx then parseNum st rdx
    else st

/-- `parse` (parser.rs 69-96). -/
def parseText (s : List Char) (rdx : Radix) : PState := parseBody (takeSign (s.map lowerAscii)) rdx

/-- `DIGIT_CHARS` (strop.rs 17-18). -/
def digitChar (d : Nat) : Char := if d < 10 then Char.ofNat (48 + d) else Char.ofNat (55 + d)

/-- The text of a number written by `write!` with `{:b}`, `{:o}`, `{}` or `{:x}` (strop.rs 104-116), digits
in front of `acc`. -/
def natChars (b : Nat) : Nat → Nat → List Char → List Char
  | 0, _, acc => acc
  | f + 1, v, acc =>
    let c := if v % b < 10 then Char.ofNat (48 + v % b) else Char.ofNat (87 + v % b)
    if v / b = 0 then c :: acc else natChars b f (v / b) (c :: acc)

namespace Num

/-- The text made from the digits (strop.rs 73-120). -/
def digitsText (x : Num) (rdx : Radix) (d : Digits) : List Char :=
  (if d.1 = .neg then ['-'] else []) ++
  (match d.2.1 with
  | [] => ['0', '.', '0']
  | d0 :: ds =>
    (if x.isSubnormal then '0' :: '.' :: digitChar d0 :: ds.map digitChar
     else digitChar d0 :: '.' :: ds.map digitChar)
    ++ (if rdx = .hex then ['_'] else [])
    ++ (if d.2.2 < 1 then
          'e' :: '-' :: natChars rdx.base 64 (if x.isSubnormal then d.2.2.natAbs else (d.2.2 - 1).natAbs) []
        else 'e' :: '+' :: natChars rdx.base 64 (d.2.2 - 1).toNat []))

/-- `format` (strop.rs 58-121). -/
def format (x : Num) (rdx : Radix) (rm : RM) (tp : List TenPow) : Except Err (List Char) × List TenPow :=
  match x.convertToRadix rdx rm tp with
  | (.error e, tp) => (.error e, tp)
  | (.ok d, tp) => (.ok (x.digitsText rdx d), tp)

end Num

namespace BF

/-- `parse` (ext.rs 626-648). -/
def parse (s : List Char) (rdx : Radix) (p : Nat) (rm : RM) (tp : List TenPow) : BF × List TenPow :=
  let ps := parseText s rdx
  if ps.inf then (if ps.sign = .pos then INF_POS else INF_NEG, tp)
  else if ps.nan then (NAN, tp)
  else convertFromRadix ps.sign ps.mant ps.e rdx p rm tp

/-- `format` (ext.rs 687-718). A panic is kept apart from the text `Err`. -/
def format (x : BF) (rdx : Radix) (rm : RM) (tp : List TenPow) : Except Err (List Char) × List TenPow :=
  match x with
  | num v =>
    match v.format rdx rm tp with
    | (.ok s, tp) => (.ok s, tp)
    | (.error .panic, tp) => (.error .panic, tp)
    | (.error (.exponentOverflow s), tp) =>
      (.ok (if s.isPos then ['I', 'n', 'f'] else ['-', 'I', 'n', 'f']), tp)
    | (.error _, tp) => (.ok ['E', 'r', 'r'], tp)
  | inf s => (.ok (if s = .neg then ['-', 'I', 'n', 'f'] else ['I', 'n', 'f']), tp)
  | nan _ => (.ok ['N', 'a', 'N'], tp)

/-- `from_str` (ext.rs 1581-1598). -/
def fromStr (s : List Char) (tp : List TenPow) : Except Err BF × List TenPow :=
  let r := parse s .dec USIZE_MAX .toEven tp
  match r.1 with
  | nan (some e) => (.error e, r.2)
  | v => (.ok v, r.2)

end BF

end AF
