import Verif.SpecRadix
/-!
# Specification of decimal rounding
-/

namespace AF

/-- `r` is `x` rounded to `n` decimal digits: `10^(q-1) ≤ |x| < 10^q` and the grid is `10^(q-n)`. -/
def RoundsDec (rm : RM) (n : Nat) (x r : ℚ) : Prop :=
  ∃ q : ℤ, (10 : ℚ) ^ (q - 1) ≤ |x| ∧ |x| < (10 : ℚ) ^ q ∧ Rounds rm x ((10 : ℚ) ^ (q - n)) r

/-- The number of decimal digits given to a number of `P` bits. -/
def decDigits (P : Nat) : Nat := P * 301029996 / 1000000000 + 1

/-- The precision the conversion of a number with `n` digits starts with. -/
def decStart (n : Nat) : Nat := 64 * ((n * 3321928095 / 1000000000 + 65 + 63) / 64)

/-- `r` agrees with `x` up to one unit of its `n`-th decimal digit and a small fraction of it. -/
def CloseDec (n : ℕ) (x r : ℚ) : Prop :=
  ∃ q : ℤ, 10 ^ (q - 1) ≤ |r| ∧ |r| < 10 ^ q ∧ |x - r| ≤ 10 ^ (q - n) * (1 + 1 / 10 ^ 13)

end AF
