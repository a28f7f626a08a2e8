import Verif.Model.Text
/-!
# Model of `From`, `FromExt` and of the `serde` glue

`From<T>` for the primitive number types and `FromExt` (ext.rs 1602-1674), `Serialize` and `Deserialize`
(for_3rd/ser.rs, for_3rd/de.rs).
-/

namespace AF

/-- `f as f64` for an `f32`, on bit patterns: the conversion of IEEE 754, exact for all finite values. The bits of the
payload of a NaN are not modelled faithfully (nothing looks at them). -/
def f32ToF64 (u : Nat) : Nat :=
  let sign := u / 2 ^ 31 * 2 ^ 63
  let e := u / 2 ^ 23 % 2 ^ 8
  let f := u % 2 ^ 23
  if e = 255 then sign + 2047 * 2 ^ 52 + f * 2 ^ 29
  else if e ≠ 0 then sign + (e + 896) * 2 ^ 52 + f * 2 ^ 29
  else if f = 0 then sign
  else sign + (f.log2 + 874) * 2 ^ 52 + (f - 2 ^ f.log2) * 2 ^ (52 - f.log2)

/-- A value of one of the primitive types with `impl From` (ext.rs 1612-1623); floating point values as bit patterns,
`uint sz` stands for `u8` … `u64` and `int sz` for `i8` … `i64`. -/
inductive Prim
  | f32 (u : Nat)
  | f64 (u : Nat)
  | uint (sz u : Nat)
  | int (sz : Nat) (i : Int)
  | u128 (u : Nat)
  | i128 (i : Int)
  deriving DecidableEq, Repr

namespace BF

/-- `from_f32` (ext.rs 83-85), the argument being the bit pattern. -/
def fromF32 (u p : Nat) : BF := resultToExt (Num.fromF64 p (f32ToF64 u)) false true

/-- `From<T>::from` (ext.rs 1602-1623). -/
def fromPrim : Prim → BF
  | .f32 u => fromF32 u DEFAULT_P
  | .f64 u => fromF64 u DEFAULT_P
  | .uint sz u => fromU sz u DEFAULT_P
  | .int sz i => fromI sz i DEFAULT_P
  | .u128 u => fromU128 u DEFAULT_P
  | .i128 i => fromI128 i DEFAULT_P

/-- `from_ext` (ext.rs 1656-1668) after `BigFloat::from(v)`, the argument `x` being the result of the latter. -/
def fromExt (x : BF) (p : Nat) (rm : RM) : BF :=
  match x.setPrecision p rm with
  | .error e => nan (some e)
  | .ok v => v

/-- `from_ext` for `&str` (ext.rs 1670-1674). -/
def fromExtStr (s : List Char) (p : Nat) (rm : RM) (tp : List TenPow) : BF × List TenPow := parse s .dec p rm tp

end BF

/-- What a data format hands to `BigFloatVisitor`, in the data model of serde. Smaller integer types and characters are
passed on by serde to the methods for `u64`, `i64` and `str`; `other` is everything else (booleans, maps, …). -/
inductive Token
  | u64 (v : Nat)
  | i64 (i : Int)
  | f32 (u : Nat)
  | f64 (u : Nat)
  | str (s : List Char)
  | other
  deriving DecidableEq, Repr

/-- Result of a visitor method: `E::custom` with the `Error`, or the error that serde makes for a type the visitor has
no method for (`invalid_type`). -/
inductive DeError
  | custom (e : Err)
  | invalidType
  deriving DecidableEq, Repr

namespace BF

/-- `map_err` of the visitor methods (for_3rd/de.rs 29-32). -/
def deResult : Except Err Num → Except DeError BF
  | .ok v => .ok (num v)
  | .error e => .error (.custom e)

/-- `deserialize` (for_3rd/de.rs 15-66); `visit_i64` is not implemented, its default is an error. -/
def deserialize (t : Token) (tp : List TenPow) : Except DeError BF × List TenPow :=
  match t with
  | .u64 v => (.ok (num (Num.fromUsize v)), tp)
  | .f32 u => (deResult (Num.fromF64 64 (f32ToF64 u)), tp)
  | .f64 u => (deResult (Num.fromF64 64 u), tp)
  | .str s =>
    match fromStr s tp with
    | (.ok v, tp) => (.ok v, tp)
    | (.error e, tp) => (.error (.custom e), tp)
  | .i64 _ => (.error .invalidType, tp)
  | .other => (.error .invalidType, tp)

/-- `serialize` (for_3rd/ser.rs 7-11): the text of `Display` (ext.rs 1626-1646; `write_str`, ext.rs 651-678, writes the
text that `format` returns). -/
def serialize (x : BF) (tp : List TenPow) : Except Err Token × List TenPow :=
  match x.format .dec .toEven tp with
  | (.ok s, tp) => (.ok (.str s), tp)
  | (.error e, tp) => (.error e, tp)

end BF

end AF
