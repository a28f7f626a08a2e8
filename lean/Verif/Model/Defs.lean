/-!
# Basic definitions (model of `astro-float-num/src/defs.rs`)

All line numbers in this development refer to files under `/repo/astro-float-num/src`.
The modelled configuration is the one selected for 64-bit non-x86 targets.
-/

namespace AF

/-- `WORD_BASE` = 2^64 (defs.rs 58). -/
def B : Nat := 18446744073709551616

/-- `WORD_BIT_SIZE` (defs.rs 61). -/
def W : Nat := 64

/-- `WORD_MAX` (defs.rs 55). -/
def WMAX : Nat := 18446744073709551615

/-- `WORD_SIGNIFICANT_BIT` = 2^63 (defs.rs 64). -/
def MSB : Nat := 9223372036854775808

/-- `EXPONENT_MAX = i32::MAX` (defs.rs 40). -/
def EMAX : Int := 2147483647

/-- `EXPONENT_MIN = i32::MIN` (defs.rs 48). -/
def EMIN : Int := -2147483648

/-- `DEFAULT_P` (defs.rs 67). -/
def DEFAULT_P : Nat := 128

/-- `usize::MAX` on a 64-bit target. -/
def USIZE_MAX : Nat := 18446744073709551615

/-- `isize::MAX` on a 64-bit target. -/
def ISIZE_MAX : Nat := 9223372036854775807

/-- `Sign` (defs.rs 74-80). -/
inductive Sign
  | neg | pos
  deriving DecidableEq, Repr

/-- `Sign::invert` (defs.rs 84-89). -/
def Sign.invert : Sign → Sign
  | .pos => .neg
  | .neg => .pos

/-- `Sign as SignedWord` (defs.rs 76, 79). -/
def Sign.toInt : Sign → Int
  | .pos => 1
  | .neg => -1

/-- `Sign::is_positive` (defs.rs 92-94). -/
def Sign.isPos (s : Sign) : Bool := s == .pos

/-- `Sign::is_negative` (defs.rs 97-99). -/
def Sign.isNeg (s : Sign) : Bool := s == .neg

/-- `Error` (defs.rs 109-121). `MemoryAllocation` exists but is never produced by the model.
`panic` is not a Rust error value: it marks executions in which the Rust code would panic
(failed `unwrap`, index out of range, arithmetic overflow check). -/
inductive Err
  | exponentOverflow (s : Sign)
  | divisionByZero
  | invalidArgument
  | memoryAllocation
  | panic
  deriving DecidableEq, Repr

/-- `RoundingMode` (defs.rs 181-202). -/
inductive RM
  | none | up | down | toZero | fromZero | toEven | toOdd
  deriving DecidableEq, Repr

/-- `Radix` (defs.rs 165-177). -/
inductive Radix
  | bin | oct | dec | hex
  deriving DecidableEq, Repr

deriving instance DecidableEq for Except

end AF
