import Verif.Lemmas.DecText
import Verif.Lemmas.DecAll
import Verif.Lemmas.Samples
import Verif.Model.Text
import Verif.SpecText
/-!
# C54: decimal text is close to the number

Refuted: the integer `10^50 + 10^5` with 512 bits is formatted as `1.0000000000001e+18`. The cause is the loss of
digits in `Mantissa::conv_to_dec` (C33): a block of 64 digits of the scaled number has 32 leading zeros and these
are not written.

The partial theorems: without such blocks in the scaled number (`GapFree`), the digits of a number of `P` bits are the
number correctly rounded to `decDigits P` decimal digits in every rounding mode but `None`. `C54_far_partial` needs
that the number is not close to a decimal with one digit more, `C54_short_partial` that it is not equal to one.
`C54_exact_partial` has no such condition; it needs that the number has few significant bits compared to the working
precision reached, since then the scaled number is exact. `C54_word_partial` is the case of 64 bits, where gaps do not
occur. In all of them the text is a literal with the value of the digits. In the mode `None` the error is at most one unit of the last digit and a small fraction of it. `C54_big_partial` and
`C54_big_none_partial` are about large numbers, which are divided by a power of ten. What is missing: exponents above
`1.5·10^9` and below `-6·10^8`, subnormal numbers. `C54_large_far_partial` and `C54_large_exact_partial` follow the
loop over several rounds until the working precision exceeds the exponent.
-/

namespace AF

/-- `10^50 + 10^5` with 512 bits. -/
def exFmt : Num :=
  Num.mk 167 .pos ⟨[0, 0, 0, 0, 0, 3355443200000, 11927795063396681728, 9860761315262647567], 512⟩ false

/-- The literal `1.0000000000001e+18`. -/
def exFmtLit : Lit :=
  ⟨[], ['1'], true, "0000000000001".toList, some ('e', ['+'], ['1', '8'])⟩

theorem exFmtLit_text : exFmtLit.text .dec = "1.0000000000001e+18".toList := by decide

theorem isDig_dec {c : Char} (h : 48 ≤ c.toNat ∧ c.toNat ≤ 57) : IsDig .dec c :=
  ⟨c.toNat - 48, by simp [charDigit, h], by simp [Radix.num]; omega⟩

theorem exFmtLit_valid : exFmtLit.Valid .dec := by
  refine ⟨Or.inl rfl, ?_, ?_, by simp [exFmtLit], by simp [exFmtLit], ?_⟩
  · intro c hc
    simp only [exFmtLit, List.mem_singleton] at hc
    subst hc
    exact isDig_dec (by decide)
  · intro c hc
    exact isDig_dec ((show ∀ c ∈ exFmtLit.frac, 48 ≤ c.toNat ∧ c.toNat ≤ 57 by decide) c hc)
  · intro c sg ds h
    simp only [exFmtLit, Option.some.injEq, Prod.mk.injEq] at h
    obtain ⟨rfl, rfl, rfl⟩ := h
    refine ⟨Or.inl rfl, Or.inr (Or.inl rfl), by simp, ?_⟩
    intro d hd
    exact isDig_dec ((show ∀ c ∈ ['1', '8'], 48 ≤ c.toNat ∧ c.toNat ≤ 57 by decide) d hd)

/-- The number is `10^50 + 10^5`, the text is a literal of less than a `10^31`-th of it. -/
theorem C54_refuted :
    exFmt.WF ∧ (exFmt.toK : ℚ) = 10 ^ 50 + 10 ^ 5 ∧ exFmtLit.Valid .dec ∧
    ((BF.num exFmt).format .dec .toEven []).1 = .ok (exFmtLit.text .dec) ∧
    (exFmtLit.value .dec : ℚ) * 10 ^ 31 < exFmt.toK := by
  have hv : (exFmt.toK : ℚ) = 10 ^ 50 + 10 ^ 5 := by
    have h1 : val exFmt.m.m = (10 ^ 50 + 10 ^ 5) * 2 ^ 345 := by decide +kernel
    have h2 : ((2 : ℚ) ^ 345) * (2 ^ 345)⁻¹ = 1 := mul_inv_cancel₀ (pow_ne_zero _ two_ne_zero)
    unfold Num.toK
    rw [h1, show exFmt.e - ((64 * exFmt.m.m.length : ℕ) : ℤ) = -((345 : ℕ) : ℤ) from by decide, zpow_neg, zpow_natCast,
      show exFmt.s = .pos from rfl]
    push_cast
    generalize (2 : ℚ) ^ 345 = t at *
    simp only [Sign.toK]
    linear_combination (10 ^ 50 + 10 ^ 5) * h2
  refine ⟨Num.WF_of_check (by decide +kernel), hv, exFmtLit_valid, ?_, ?_⟩
  · rw [exFmtLit_text]; decide +kernel
  · rw [hv]
    have h1 : digNat Radix.dec.num (digs (exFmtLit.int ++ exFmtLit.frac)) = 10000000000001 := by decide
    have h2 : exFmtLit.expVal .dec = 18 := by decide
    have h3 : exFmtLit.frac.length = 13 := by decide
    have h4 : exFmtLit.sign = .pos := by decide
    unfold Lit.value
    rw [h1, h2, h3, h4]
    norm_num [Sign.toK, Radix.num]

/-- Correct rounding to decimal digits when the number is at a distance from the decimals with one digit more.
`f` bounds the number of additional rounds of the loop. -/
theorem C54_far_partial (x : Num) (hx : x.WF) (hx0 : (x.toK : ℚ) ≠ 0) (he1 : -600000000 ≤ x.e)
    (he2 : x.e ≤ (64 * x.m.m.length : ℕ)) (hl : 64 * x.m.m.length ≤ 2 ^ 28) (rm : RM) (hrm : rm ≠ .none)
    (tp : List TenPow) (htp : TenHist tp) (f : Nat) (hf : f < 400) :
    let n := decDigits (64 * x.m.m.length)
    let p := decStart n
    p * 3 ^ f < 2 ^ 30 * 2 ^ f →
    (∀ k v : ℕ, v < 2 ^ (p * 3 ^ f / 2 ^ f + 11) → |(|x.toK| * 10 ^ k : ℚ) - v| ≤ 2 ^ 13 → GapFree v) →
    (∀ (z : ℕ) (q : ℤ), 10 ^ (q - 1) ≤ 2 * |(x.toK : ℚ)| → |(x.toK : ℚ)| < 2 * 10 ^ q →
      40000 * 10 ^ q / 2 ^ (p + 64 * f) ≤ |(|x.toK| : ℚ) - z * 10 ^ (q - n - 1)|) →
    ∃ (d : Digits) (l : Lit), ((BF.num x).convertToRadix .dec rm tp).1 = .ok d ∧ d.1 = x.s ∧ d.2.1.length ≤ n ∧
      (∀ v ∈ d.2.1, v ≤ 9) ∧ RoundsDec rm n x.toK (radixVal 10 d) ∧
      ((BF.num x).format .dec rm tp).1 = .ok (l.text .dec) ∧ l.Valid .dec ∧ (l.value .dec : ℚ) = radixVal 10 d := by
  intro n p h1 h2 h3
  exact format_of_conv hx hx0 (by unfold EMIN; omega) (convToDec_stop hx hx0 he1 hl hrm htp rfl rfl (decStart_ge he2) hf h1 h2 (Or.inl h3))

/-- Correct rounding to decimal digits of a number that is not a decimal with one digit more. -/
theorem C54_short_partial (x : Num) (hx : x.WF) (hx0 : (x.toK : ℚ) ≠ 0)
    (he2 : x.e ≤ (64 * x.m.m.length : ℕ)) (hl : 64 * x.m.m.length ≤ 2 ^ 28) (rm : RM) (hrm : rm ≠ .none)
    (tp : List TenPow) (htp : TenHist tp) (f : Nat) (hf : f < 400)
    (hef : ((64 * x.m.m.length : ℕ) : ℤ) - x.e ≤ 40 + 64 * f) :
    let n := decDigits (64 * x.m.m.length)
    let p := decStart n
    p * 3 ^ f < 2 ^ 30 * 2 ^ f →
    (∀ k v : ℕ, v < 2 ^ (p * 3 ^ f / 2 ^ f + 11) → |(|x.toK| * 10 ^ k : ℚ) - v| ≤ 2 ^ 13 → GapFree v) →
    (∀ (z : ℕ) (q : ℤ), 10 ^ (q - 1) ≤ 2 * |(x.toK : ℚ)| → |(x.toK : ℚ)| < 2 * 10 ^ q →
      |(x.toK : ℚ)| ≠ z * 10 ^ (q - n - 1)) →
    ∃ (d : Digits) (l : Lit), ((BF.num x).convertToRadix .dec rm tp).1 = .ok d ∧ d.1 = x.s ∧ d.2.1.length ≤ n ∧
      (∀ v ∈ d.2.1, v ≤ 9) ∧ RoundsDec rm n x.toK (radixVal 10 d) ∧
      ((BF.num x).format .dec rm tp).1 = .ok (l.text .dec) ∧ l.Valid .dec ∧ (l.value .dec : ℚ) = radixVal 10 d := by
  intro n p h1 h2 h3
  exact C54_far_partial x hx hx0 (by omega) he2 hl rm hrm tp htp f hf h1 h2
    (fun z q z1 z2 => far_of_not_short hx he2 hl rfl rfl hef z1 (h3 z q z1 z2))

/-- Numbers below `10^64` have no gaps. -/
theorem gapFree_small {v : Nat} (h : v < 10 ^ 64) : GapFree v := by
  intro i hi j hj
  exfalso
  have h1 : 2 ^ 6 ≤ 2 ^ (i + 1) := Nat.pow_le_pow_right (by norm_num) (by omega)
  have h2 : 2 ^ (i + 1) * 1 ≤ 2 ^ (i + 1) * (j + 1) := Nat.mul_le_mul_left _ (by omega)
  have h3 : 10 ^ 64 ≤ 10 ^ (2 ^ (i + 1) * (j + 1)) := Nat.pow_le_pow_right (by norm_num) (by omega)
  omega

/-- Correct rounding to decimal digits of a number with `b` significant bits, `b` being below about a third of the
working precision (more for large exponents): the scaled number is exact then. With `f = 0` this holds in the first
round. -/
theorem C54_exact_partial (x : Num) (hx : x.WF) (hx0 : (x.toK : ℚ) ≠ 0) (he1 : -600000000 ≤ x.e)
    (hl : 64 * x.m.m.length ≤ 2 ^ 28) (rm : RM) (hrm : rm ≠ .none)
    (tp : List TenPow) (htp : TenHist tp) (f : Nat) (hf : f < 400) (b : Nat) (m a : ℤ) (hm : (x.toK : ℚ) = m * 2 ^ a)
    (hb : |m| < 2 ^ b) :
    let n := decDigits (64 * x.m.m.length)
    let p := decStart n
    x.e + 64 ≤ p → p * 3 ^ f < 2 ^ 30 * 2 ^ f →
    (∀ k v : ℕ, v < 2 ^ (p * 3 ^ f / 2 ^ f + 11) → |(|x.toK| * 10 ^ k : ℚ) - v| ≤ 2 ^ 13 → GapFree v) →
    40 ≤ ((p + 64 * f : ℕ) : ℤ) + 10 * x.e → 1000 * (b : ℤ) + 7000 ≤ 297 * (p + 64 * f : ℕ) + 702 * x.e →
    ∃ (d : Digits) (l : Lit), ((BF.num x).convertToRadix .dec rm tp).1 = .ok d ∧ d.1 = x.s ∧ d.2.1.length ≤ n ∧
      (∀ v ∈ d.2.1, v ≤ 9) ∧ RoundsDec rm n x.toK (radixVal 10 d) ∧
      ((BF.num x).format .dec rm tp).1 = .ok (l.text .dec) ∧ l.Valid .dec ∧ (l.value .dec : ℚ) = radixVal 10 d := by
  intro n p he2 h1 h2 h3 h4
  exact format_of_conv hx hx0 (by unfold EMIN; omega) (convToDec_stop hx hx0 he1 hl hrm htp rfl rfl he2 hf h1 h2 (Or.inr (short_exact hm hb h3 h4)))

/-- Numbers of 64 bits: no hypothesis about gaps. Numbers with `b` significant bits and an exponent from `-15` to `128`
such that `1000·b ≤ 50024 + 702·e` are formatted as themselves correctly rounded to 20 digits; so all numbers of 64 bits
from `2^19` to `2^128`, and all with 50 significant bits from `1/2` to `2^128`. -/
theorem C54_word_partial (x : Num) (hx : x.WF) (hx0 : (x.toK : ℚ) ≠ 0) (hl : x.m.m.length = 1) (he1 : -15 ≤ x.e)
    (he2 : x.e ≤ 128) (rm : RM) (hrm : rm ≠ .none) (tp : List TenPow) (htp : TenHist tp) (b : Nat) (m a : ℤ)
    (hm : (x.toK : ℚ) = m * 2 ^ a) (hb : |m| < 2 ^ b) (hbe : 1000 * (b : ℤ) ≤ 50024 + 702 * x.e) :
    ∃ (d : Digits) (l : Lit), ((BF.num x).convertToRadix .dec rm tp).1 = .ok d ∧ d.1 = x.s ∧ d.2.1.length ≤ 20 ∧
      (∀ v ∈ d.2.1, v ≤ 9) ∧ RoundsDec rm 20 x.toK (radixVal 10 d) ∧
      ((BF.num x).format .dec rm tp).1 = .ok (l.text .dec) ∧ l.Valid .dec ∧ (l.value .dec : ℚ) = radixVal 10 d := by
  have key := C54_exact_partial x hx hx0 (by omega) (by rw [hl]; norm_num) rm hrm tp htp 0 (by norm_num)
    b m a hm hb
  have hd : decDigits (64 * 1) = 20 := by decide +kernel
  have hp : decStart 20 = 192 := by decide +kernel
  dsimp only at key
  rw [hl, hd, hp] at key
  exact key (by push_cast; omega) (by norm_num) (fun k v hv _ => gapFree_small (lt_trans hv (by norm_num))) (by push_cast; omega)
    (by push_cast; omega)

/-- In the mode `None` the digits are those of the number up to one unit, without any condition but the gaps. -/
theorem C54_none_partial (x : Num) (hx : x.WF) (hx0 : (x.toK : ℚ) ≠ 0) (he1 : -600000000 ≤ x.e)
    (hl : 64 * x.m.m.length ≤ 2 ^ 28) (tp : List TenPow) (htp : TenHist tp) :
    let n := decDigits (64 * x.m.m.length)
    let p := decStart n
    x.e + 64 ≤ p →
    (∀ k v : ℕ, v < 2 ^ (p + 10) → |(|x.toK| * 10 ^ k : ℚ) - v| ≤ 2 ^ 13 → GapFree v) →
    ∃ (d : Digits) (l : Lit), ((BF.num x).convertToRadix .dec .none tp).1 = .ok d ∧ d.1 = x.s ∧ d.2.1.length ≤ n ∧
      (∀ v ∈ d.2.1, v ≤ 9) ∧ CloseDec n x.toK (radixVal 10 d) ∧
      ((BF.num x).format .dec .none tp).1 = .ok (l.text .dec) ∧ l.Valid .dec ∧ (l.value .dec : ℚ) = radixVal 10 d := by
  intro n p h1 h2
  exact format_of_conv hx hx0 (by unfold EMIN; omega) (convToDec_none hx hx0 he1 hl htp rfl rfl h1 h2)

/-- Correct rounding to decimal digits of a large number, one whose exponent is about the working precision or above it
and that is divided by a power of ten, when it is at a distance from the decimals with one digit more. -/
theorem C54_big_partial (x : Num) (hx : x.WF) (hx0 : (x.toK : ℚ) ≠ 0) (he2 : x.e ≤ 1500000000)
    (hl : 64 * x.m.m.length ≤ 2 ^ 28) (rm : RM) (hrm : rm ≠ .none) (tp : List TenPow) (htp : TenHist tp) :
    let n := decDigits (64 * x.m.m.length)
    let p := decStart n
    p ≤ x.e + 64 →
    (∀ (k : ℤ) (v : ℕ), (v < 2 ^ (p + 10) ∨ (p + 4 ≤ x.e ∧ x.e ≤ p + 6) ∧ v < 2 ^ (p + 74)) →
      |(|x.toK| * 10 ^ k : ℚ) - v| ≤ 2 ^ 13 → GapFree v) →
    (∀ j : ℕ, j ≤ 6 → GapFree (val x.m.m * 2 ^ j)) →
    (∀ (z : ℕ) (q : ℤ), 10 ^ (q - 1) ≤ 2 * |(x.toK : ℚ)| → |(x.toK : ℚ)| < 2 * 10 ^ q →
      40000 * 10 ^ q / 2 ^ p ≤ |(|x.toK| : ℚ) - z * 10 ^ (q - n - 1)|) →
    ∃ (d : Digits) (l : Lit), ((BF.num x).convertToRadix .dec rm tp).1 = .ok d ∧ d.1 = x.s ∧ d.2.1.length ≤ n ∧
      (∀ v ∈ d.2.1, v ≤ 9) ∧ RoundsDec rm n x.toK (radixVal 10 d) ∧
      ((BF.num x).format .dec rm tp).1 = .ok (l.text .dec) ∧ l.Valid .dec ∧ (l.value .dec : ℚ) = radixVal 10 d := by
  intro n p h1 h2 h3 h4
  have key := convToDec_big hx hx0 he2 hl rm htp rfl rfl h1 h2 h3 (fun _ => h4)
  simp only [if_neg hrm] at key
  exact format_of_conv hx hx0 (by unfold EMIN; omega) key

/-- Correct rounding to decimal digits with further rounds of the loop, at the end of which the working precision is above
the exponent. -/
theorem C54_large_far_partial (x : Num) (hx : x.WF) (hx0 : (x.toK : ℚ) ≠ 0) (he1 : -600000000 ≤ x.e) (he2 : x.e ≤ 1500000000)
    (hl : 64 * x.m.m.length ≤ 2 ^ 28) (rm : RM) (hrm : rm ≠ .none)
    (tp : List TenPow) (htp : TenHist tp) (f : Nat) (hf : f < 400) :
    let n := decDigits (64 * x.m.m.length)
    let p := decStart n
    x.e + 64 ≤ (p + 64 * f : ℕ) → p * 3 ^ f < 2 ^ 30 * 2 ^ f →
    (∀ (k : ℤ) (v : ℕ), v < 2 ^ (p * 3 ^ f / 2 ^ f + 11) → |(|x.toK| * 10 ^ k : ℚ) - v| ≤ 2 ^ 13 → GapFree v) →
    (∀ j : ℕ, j ≤ 6 → GapFree (val x.m.m * 2 ^ j)) →
    (∀ (z : ℕ) (q : ℤ), 10 ^ (q - 1) ≤ 2 * |(x.toK : ℚ)| → |(x.toK : ℚ)| < 2 * 10 ^ q →
      40000 * 10 ^ q / 2 ^ (p + 64 * f) ≤ |(|x.toK| : ℚ) - z * 10 ^ (q - n - 1)|) →
    ∃ (d : Digits) (l : Lit), ((BF.num x).convertToRadix .dec rm tp).1 = .ok d ∧ d.1 = x.s ∧ d.2.1.length ≤ n ∧
      (∀ v ∈ d.2.1, v ≤ 9) ∧ RoundsDec rm n x.toK (radixVal 10 d) ∧
      ((BF.num x).format .dec rm tp).1 = .ok (l.text .dec) ∧ l.Valid .dec ∧ (l.value .dec : ℚ) = radixVal 10 d := by
  intro n p h1 h2 h3 h4 h5
  exact format_of_conv hx hx0 (by unfold EMIN; omega) (convToDec_all hx hx0 he1 he2 hl hrm htp rfl rfl h1 hf h2 h3 h4 (Or.inl h5))

/-- The same for a number with `b` significant bits, without a condition on its distance from decimals. -/
theorem C54_large_exact_partial (x : Num) (hx : x.WF) (hx0 : (x.toK : ℚ) ≠ 0) (he1 : -600000000 ≤ x.e) (he2 : x.e ≤ 1500000000)
    (hl : 64 * x.m.m.length ≤ 2 ^ 28) (rm : RM) (hrm : rm ≠ .none)
    (tp : List TenPow) (htp : TenHist tp) (f : Nat) (hf : f < 400) (b : Nat) (m a : ℤ) (hm : (x.toK : ℚ) = m * 2 ^ a)
    (hb : |m| < 2 ^ b) :
    let n := decDigits (64 * x.m.m.length)
    let p := decStart n
    x.e + 64 ≤ (p + 64 * f : ℕ) → p * 3 ^ f < 2 ^ 30 * 2 ^ f →
    (∀ (k : ℤ) (v : ℕ), v < 2 ^ (p * 3 ^ f / 2 ^ f + 11) → |(|x.toK| * 10 ^ k : ℚ) - v| ≤ 2 ^ 13 → GapFree v) →
    (∀ j : ℕ, j ≤ 6 → GapFree (val x.m.m * 2 ^ j)) →
    40 ≤ ((p + 64 * f : ℕ) : ℤ) + 10 * x.e → 1000 * (b : ℤ) + 7000 ≤ 297 * (p + 64 * f : ℕ) + 702 * x.e →
    ∃ (d : Digits) (l : Lit), ((BF.num x).convertToRadix .dec rm tp).1 = .ok d ∧ d.1 = x.s ∧ d.2.1.length ≤ n ∧
      (∀ v ∈ d.2.1, v ≤ 9) ∧ RoundsDec rm n x.toK (radixVal 10 d) ∧
      ((BF.num x).format .dec rm tp).1 = .ok (l.text .dec) ∧ l.Valid .dec ∧ (l.value .dec : ℚ) = radixVal 10 d := by
  intro n p h1 h2 h3 h4 h5 h6
  exact format_of_conv hx hx0 (by unfold EMIN; omega)
    (convToDec_all hx hx0 he1 he2 hl hrm htp rfl rfl h1 hf h2 h3 h4 (Or.inr (short_exact hm hb h5 h6)))

/-- Large numbers in the mode `None`. -/
theorem C54_big_none_partial (x : Num) (hx : x.WF) (hx0 : (x.toK : ℚ) ≠ 0) (he2 : x.e ≤ 1500000000)
    (hl : 64 * x.m.m.length ≤ 2 ^ 28) (tp : List TenPow) (htp : TenHist tp) :
    let n := decDigits (64 * x.m.m.length)
    let p := decStart n
    p ≤ x.e + 64 →
    (∀ (k : ℤ) (v : ℕ), (v < 2 ^ (p + 10) ∨ (p + 4 ≤ x.e ∧ x.e ≤ p + 6) ∧ v < 2 ^ (p + 74)) →
      |(|x.toK| * 10 ^ k : ℚ) - v| ≤ 2 ^ 13 → GapFree v) →
    (∀ j : ℕ, j ≤ 6 → GapFree (val x.m.m * 2 ^ j)) →
    ∃ (d : Digits) (l : Lit), ((BF.num x).convertToRadix .dec .none tp).1 = .ok d ∧ d.1 = x.s ∧ d.2.1.length ≤ n ∧
      (∀ v ∈ d.2.1, v ≤ 9) ∧ CloseDec n x.toK (radixVal 10 d) ∧
      ((BF.num x).format .dec .none tp).1 = .ok (l.text .dec) ∧ l.Valid .dec ∧ (l.value .dec : ℚ) = radixVal 10 d := by
  intro n p h1 h2 h3
  have key := convToDec_big hx hx0 he2 hl .none htp rfl rfl h1 h2 h3 (fun h => absurd rfl h)
  simp only [if_true] at key
  exact format_of_conv hx hx0 (by unfold EMIN; omega) key

/-- The second condition on gaps of large numbers holds for 64 bits. -/
theorem gapFree_word {x : Num} (hx : x.WF) (hl : x.m.m.length = 1) (j : ℕ) (hj : j ≤ 6) : GapFree (val x.m.m * 2 ^ j) := by
  refine gapFree_small ?_
  have h1 : val x.m.m < 2 ^ 64 := by
    have h := val_lt hx.wf
    rwa [B_pow, hl] at h
  calc val x.m.m * 2 ^ j ≤ 2 ^ 64 * 2 ^ 6 := Nat.mul_le_mul h1.le (Nat.pow_le_pow_right (by norm_num) hj)
    _ < 10 ^ 64 := by norm_num

/-- Numbers of 64 bits in the mode `None`, from `2^-600000000` to `2^1500000000`. With the three exponents left out a
second round is needed, with a scaled number above `10^64`. -/
theorem C54_word_none_partial (x : Num) (hx : x.WF) (hx0 : (x.toK : ℚ) ≠ 0) (hl : x.m.m.length = 1)
    (he1 : -600000000 ≤ x.e) (he2 : x.e ≤ 1500000000) (he3 : x.e < 196 ∨ 198 < x.e) (tp : List TenPow) (htp : TenHist tp) :
    ∃ (d : Digits) (l : Lit), ((BF.num x).convertToRadix .dec .none tp).1 = .ok d ∧ d.1 = x.s ∧ d.2.1.length ≤ 20 ∧
      (∀ v ∈ d.2.1, v ≤ 9) ∧ CloseDec 20 x.toK (radixVal 10 d) ∧
      ((BF.num x).format .dec .none tp).1 = .ok (l.text .dec) ∧ l.Valid .dec ∧ (l.value .dec : ℚ) = radixVal 10 d := by
  have hd : decDigits (64 * 1) = 20 := by decide +kernel
  have hp : decStart 20 = 192 := by decide +kernel
  rcases le_total x.e 128 with h | h
  · have key := C54_none_partial x hx hx0 he1 (by rw [hl]; norm_num) tp htp
    dsimp only at key
    rw [hl, hd, hp] at key
    exact key (by push_cast; omega) (fun k v hv _ => gapFree_small (lt_trans hv (by norm_num)))
  · have key := C54_big_none_partial x hx hx0 he2 (by rw [hl]; norm_num) tp htp
    dsimp only at key
    rw [hl, hd, hp] at key
    refine key (by push_cast; omega) (fun k v hv _ => ?_) (gapFree_word hx hl)
    rcases hv with hv | ⟨⟨h1, h2⟩, _⟩
    · exact gapFree_small (lt_trans hv (by norm_num))
    · push_cast at h1 h2
      omega

/-- Numbers of 64 bits above `2^128` that are at a distance from the decimals of 21 digits. -/
theorem C54_word_big_partial (x : Num) (hx : x.WF) (hx0 : (x.toK : ℚ) ≠ 0) (hl : x.m.m.length = 1)
    (he1 : 128 ≤ x.e) (he2 : x.e ≤ 1500000000) (he3 : x.e < 196 ∨ 198 < x.e) (rm : RM) (hrm : rm ≠ .none) (tp : List TenPow)
    (htp : TenHist tp)
    (hfar : ∀ (z : ℕ) (q : ℤ), 10 ^ (q - 1) ≤ 2 * |(x.toK : ℚ)| → |(x.toK : ℚ)| < 2 * 10 ^ q →
      40000 * 10 ^ q / 2 ^ 192 ≤ |(|x.toK| : ℚ) - z * 10 ^ (q - 21)|) :
    ∃ (d : Digits) (l : Lit), ((BF.num x).convertToRadix .dec rm tp).1 = .ok d ∧ d.1 = x.s ∧ d.2.1.length ≤ 20 ∧
      (∀ v ∈ d.2.1, v ≤ 9) ∧ RoundsDec rm 20 x.toK (radixVal 10 d) ∧
      ((BF.num x).format .dec rm tp).1 = .ok (l.text .dec) ∧ l.Valid .dec ∧ (l.value .dec : ℚ) = radixVal 10 d := by
  have hd : decDigits (64 * 1) = 20 := by decide +kernel
  have hp : decStart 20 = 192 := by decide +kernel
  have key := C54_big_partial x hx hx0 he2 (by rw [hl]; norm_num) rm hrm tp htp
  dsimp only at key
  rw [hl, hd, hp] at key
  refine key (by push_cast; omega) (fun k v hv _ => ?_) (gapFree_word hx hl) (fun z q z1 z2 => ?_)
  · rcases hv with hv | ⟨⟨h1, h2⟩, _⟩
    · exact gapFree_small (lt_trans hv (by norm_num))
    · push_cast at h1 h2
      omega
  · have := hfar z q z1 z2
    rwa [show q - ((20 : ℕ) : ℤ) - 1 = q - 21 by push_cast; ring]

/-- One half with 64 bits. -/
def exDecHalf : Num := Num.mk 0 .neg ⟨[9223372036854775808], 64⟩ false

/-- Short decimals, where the test of the loop for digits that cannot be rounded would go on forever, are written out. -/
example (rm : RM) (hrm : rm ≠ .none) : ∃ d : Digits, ((BF.num exDecHalf).convertToRadix .dec rm []).1 = .ok d ∧
    d.2.1.length ≤ 20 ∧ RoundsDec rm 20 exDecHalf.toK (radixVal 10 d) := by
  have hv : (exDecHalf.toK : ℚ) = ((-1 : ℤ) : ℚ) * 2 ^ (-1 : ℤ) := by
    unfold exDecHalf Num.toK
    norm_num [val, Sign.toK]
  obtain ⟨d, _, d1, _, d3, _, d5, _⟩ := C54_word_partial exDecHalf (Num.WF_of_check (by decide +kernel)) (by rw [hv]; norm_num)
    rfl (by decide) (by decide) rm hrm [] TenHist.new 1 (-1) (-1) hv (by norm_num) (by decide)
  exact ⟨d, d1, d3, d5⟩

/-- One third with 64 bits. -/
def exDec64 : Num := Num.mk (-1) .pos ⟨[12297829382473034411], 64⟩ false

theorem exDec64_abs : |(exDec64.toK : ℚ)| = 12297829382473034411 / 2 ^ 65 := by
  rw [Num.abs_val]
  unfold exDec64
  norm_num [val]

theorem exDec64_q {v : ℚ} (hv : v = 12297829382473034411 / 2 ^ 65) {q : ℤ} (h1 : 10 ^ (q - 1) ≤ 2 * v)
    (h2 : v < 2 * 10 ^ q) : q = 0 := by
  have v1 : 2 * v < 1 := by rw [hv]; norm_num
  have v2 : 2 / 10 < v := by rw [hv]; norm_num
  rcases lt_trichotomy q 0 with h | h | h
  · exfalso
    have h3 : (10 : ℚ) ^ q ≤ 10 ^ (-1 : ℤ) := zpow_le_zpow_right₀ (by norm_num) (by omega)
    norm_num at h3
    linarith
  · exact h
  · exfalso
    have h3 : (1 : ℚ) ≤ 10 ^ (q - 1) := one_le_zpow₀ (by norm_num) (by omega)
    linarith

theorem exDec64_int (z : ℤ) : 1 ≤ |12297829382473034411000000000000000000000 - z * 36893488147419103232| :=
  Int.one_le_abs (by omega)

theorem exDec64_sub {v : ℚ} (hv : v = 12297829382473034411 / 2 ^ 65) (t : ℚ) :
    v - t * 10 ^ ((0 : ℤ) - (20 : ℕ) - 1) = (12297829382473034411000000000000000000000 - t * 36893488147419103232) / (2 ^ 65 * 10 ^ 21) := by
  rw [hv, show (0 : ℤ) - (20 : ℕ) - 1 = -((21 : ℕ) : ℤ) by norm_num, zpow_neg, zpow_natCast]
  field_simp
  norm_num
  ring

theorem exDec64_far (z : ℕ) (q : ℤ) (h1 : 10 ^ (q - 1) ≤ 2 * |(exDec64.toK : ℚ)|) (h2 : |(exDec64.toK : ℚ)| < 2 * 10 ^ q) :
    40000 * 10 ^ q / 2 ^ 192 ≤ |(|exDec64.toK| : ℚ) - z * 10 ^ (q - (20 : ℕ) - 1)| := by
  have hv := exDec64_abs
  generalize |(exDec64.toK : ℚ)| = v at *
  have hq := exDec64_q hv h1 h2
  subst hq
  have h3 : ((1 : ℤ) : ℚ) ≤ ((|12297829382473034411000000000000000000000 - z * 36893488147419103232| : ℤ) : ℚ) := Int.cast_le.2 (exDec64_int z)
  push_cast at h3
  rw [exDec64_sub hv, abs_div, abs_of_pos (show (0 : ℚ) < 2 ^ 65 * 10 ^ 21 by norm_num), le_div_iff₀ (by norm_num)]
  refine le_trans ?_ h3
  norm_num

/-- It meets the hypotheses, so its 20 digits are correctly rounded in every mode. -/
example (rm : RM) (hrm : rm ≠ .none) : ∃ d : Digits, ((BF.num exDec64).convertToRadix .dec rm []).1 = .ok d ∧
    d.2.1.length ≤ 20 ∧ RoundsDec rm 20 exDec64.toK (radixVal 10 d) := by
  have hx0 : (exDec64.toK : ℚ) ≠ 0 := abs_pos.1 (by rw [exDec64_abs]; norm_num)
  have key := C54_far_partial exDec64 (Num.WF_of_check (by decide +kernel)) hx0 (by decide +kernel) (by decide +kernel)
    (by decide +kernel) rm hrm [] TenHist.new 0 (by norm_num)
  have hd : decDigits (64 * exDec64.m.m.length) = 20 := by decide +kernel
  have hp : decStart 20 = 192 := by decide +kernel
  dsimp only at key
  rw [hd, hp] at key
  obtain ⟨d, _, d1, _, d3, _, d5, _⟩ := key (by norm_num) (fun k v hv _ => gapFree_small (lt_trans hv (by norm_num)))
    (fun z q h1 h2 => exDec64_far z q h1 h2)
  exact ⟨d, d1, d3, d5⟩

example : ∃ d : Digits, ((BF.num exDec64).convertToRadix .dec .none []).1 = .ok d ∧ d.2.1.length ≤ 20 ∧
    CloseDec 20 exDec64.toK (radixVal 10 d) := by
  have hx0 : (exDec64.toK : ℚ) ≠ 0 := abs_pos.1 (by rw [exDec64_abs]; norm_num)
  obtain ⟨d, _, d1, _, d3, _, d5, _⟩ := C54_word_none_partial exDec64 (Num.WF_of_check (by decide +kernel)) hx0 rfl
    (by decide) (by decide) (by decide) [] TenHist.new
  exact ⟨d, d1, d3, d5⟩

/-- `12297829382473034411 / 2^40` with 64 bits, about `1.1·10^7`. -/
def exDec24 : Num := Num.mk 24 .neg ⟨[12297829382473034411], 64⟩ false

theorem exDec24_abs : |(exDec24.toK : ℚ)| = 12297829382473034411 / 2 ^ 40 := by
  rw [Num.abs_val]
  unfold exDec24
  norm_num [val]

theorem exDec24_q {v : ℚ} (hv : v = 12297829382473034411 / 2 ^ 40) {q : ℤ} (h1 : 10 ^ (q - 1) ≤ 2 * v)
    (h2 : v < 2 * 10 ^ q) : q = 7 ∨ q = 8 := by
  have v1 : 2 * v < 10 ^ 8 := by rw [hv]; norm_num
  have v2 : 2 * 10 ^ 6 < v := by rw [hv]; norm_num
  by_contra hc
  rcases lt_or_ge q 7 with h | h
  · have h3 : (10 : ℚ) ^ q ≤ 10 ^ (6 : ℤ) := zpow_le_zpow_right₀ (by norm_num) (by omega)
    norm_num at h3 v2
    linarith
  · have h3 : (10 : ℚ) ^ (8 : ℤ) ≤ 10 ^ (q - 1) := zpow_le_zpow_right₀ (by norm_num) (by omega)
    norm_num at h3 v1
    linarith

theorem exDec24_ne {v : ℚ} (hv : v = 12297829382473034411 / 2 ^ 40) (z : ℕ) {q : ℤ} (hq : q = 7 ∨ q = 8) :
    v ≠ z * 10 ^ (q - (20 : ℕ) - 1) := by
  intro h
  have h1 : v * 2 ^ 40 = 12297829382473034411 := by rw [hv]; norm_num
  have h2 : (z : ℚ) * 2 ^ 40 = 12297829382473034411 * 10 ^ 14 ∨ (z : ℚ) * 2 ^ 40 = 12297829382473034411 * 10 ^ 13 := by
    rcases hq with rfl | rfl
    · left
      rw [← h1, h, show (7 : ℤ) - (20 : ℕ) - 1 = -((14 : ℕ) : ℤ) by norm_num, zpow_neg, zpow_natCast]
      field_simp
    · right
      rw [← h1, h, show (8 : ℤ) - (20 : ℕ) - 1 = -((13 : ℕ) : ℤ) by norm_num, zpow_neg, zpow_natCast]
      field_simp
  rcases h2 with h2 | h2
  · have h3 : z * 2 ^ 40 = 12297829382473034411 * 10 ^ 14 := by exact_mod_cast h2
    norm_num at h3
    omega
  · have h3 : z * 2 ^ 40 = 12297829382473034411 * 10 ^ 13 := by exact_mod_cast h2
    norm_num at h3
    omega

/-- It meets the hypotheses of the second theorem. -/
example (rm : RM) (hrm : rm ≠ .none) : ∃ d : Digits, ((BF.num exDec24).convertToRadix .dec rm []).1 = .ok d ∧
    d.2.1.length ≤ 20 ∧ RoundsDec rm 20 exDec24.toK (radixVal 10 d) := by
  have hx0 : (exDec24.toK : ℚ) ≠ 0 := abs_pos.1 (by rw [exDec24_abs]; norm_num)
  have key := C54_short_partial exDec24 (Num.WF_of_check (by decide +kernel)) hx0 (by decide +kernel)
    (by decide +kernel) rm hrm [] TenHist.new 0 (by norm_num) (by decide +kernel)
  have hd : decDigits (64 * exDec24.m.m.length) = 20 := by decide +kernel
  have hp : decStart 20 = 192 := by decide +kernel
  dsimp only at key
  rw [hd, hp] at key
  obtain ⟨d, _, d1, _, d3, _, d5, _⟩ := key (by norm_num) (fun k v hv _ => gapFree_small (lt_trans hv (by norm_num)))
    (fun z q h1 h2 => exDec24_ne exDec24_abs z (exDec24_q exDec24_abs h1 h2))
  exact ⟨d, d1, d3, d5⟩

/-- `2^300` with 64 bits. -/
def exDecBig : Num := Num.mk 301 .pos ⟨[9223372036854775808], 64⟩ false

theorem exDecBig_abs : |(exDecBig.toK : ℚ)| = 2037035976334486086268445688409378161051468393665936250636140449354381299763336706183397376 := by
  rw [Num.abs_val]
  unfold exDecBig
  norm_num [val]

theorem exDecBig_q {v : ℚ} (hv : v = 2037035976334486086268445688409378161051468393665936250636140449354381299763336706183397376) {q : ℤ} (h1 : 10 ^ (q - 1) ≤ 2 * v) (h2 : v < 2 * 10 ^ q) : q = 91 := by
  have v1 : 2 * v < 10 ^ 91 := by rw [hv]; norm_num
  have v2 : 2 * 10 ^ 90 < v := by rw [hv]; norm_num
  by_contra hc
  rcases lt_or_gt_of_ne hc with h | h
  · have h3 : (10 : ℚ) ^ q ≤ 10 ^ (90 : ℤ) := zpow_le_zpow_right₀ (by norm_num) (by omega)
    norm_num at h3 v2
    linarith
  · have h3 : (10 : ℚ) ^ (91 : ℤ) ≤ 10 ^ (q - 1) := zpow_le_zpow_right₀ (by norm_num) (by omega)
    norm_num at h3 v1
    linarith

theorem exDecBig_int (z : ℤ) : 63723676445298091081155215910708472224 ≤ |2037035976334486086268445688409378161051468393665936250636140449354381299763336706183397376 - z * 10000000000000000000000000000000000000000000000000000000000000000000000| := by
  rcases abs_cases (2037035976334486086268445688409378161051468393665936250636140449354381299763336706183397376 - z * 10000000000000000000000000000000000000000000000000000000000000000000000) with ⟨h, _⟩ | ⟨h, _⟩ <;> rw [h] <;> omega

theorem exDecBig_far {v : ℚ} (hv : v = 2037035976334486086268445688409378161051468393665936250636140449354381299763336706183397376) (z : ℕ) {q : ℤ} (hq : q = 91) :
    40000 * 10 ^ q / 2 ^ 192 ≤ |v - z * 10 ^ (q - 21)| := by
  subst hq
  have h3 : ((63723676445298091081155215910708472224 : ℤ) : ℚ) ≤ ((|2037035976334486086268445688409378161051468393665936250636140449354381299763336706183397376 - (z : ℤ) * 10000000000000000000000000000000000000000000000000000000000000000000000| : ℤ) : ℚ) := Int.cast_le.2 (exDecBig_int z)
  push_cast at h3
  rw [show (10 : ℚ) ^ ((91 : ℤ) - 21) = 10000000000000000000000000000000000000000000000000000000000000000000000 by norm_num, hv]
  refine le_trans ?_ h3
  norm_num

/-- A large number: it is divided by a power of ten and its 20 digits are correctly rounded in every mode. -/
example (rm : RM) (hrm : rm ≠ .none) : ∃ d : Digits, ((BF.num exDecBig).convertToRadix .dec rm []).1 = .ok d ∧
    d.2.1.length ≤ 20 ∧ RoundsDec rm 20 exDecBig.toK (radixVal 10 d) := by
  have hx0 : (exDecBig.toK : ℚ) ≠ 0 := abs_pos.1 (by rw [exDecBig_abs]; norm_num)
  obtain ⟨d, _, d1, _, d3, _, d5, _⟩ := C54_word_big_partial exDecBig (Num.WF_of_check (by decide +kernel)) hx0 rfl
    (by decide) (by decide) (by decide) rm hrm [] TenHist.new
    (fun z q h1 h2 => exDecBig_far exDecBig_abs z (exDecBig_q exDecBig_abs h1 h2))
  exact ⟨d, d1, d3, d5⟩

example : ∃ d : Digits, ((BF.num exDecBig).convertToRadix .dec .none []).1 = .ok d ∧ d.2.1.length ≤ 20 ∧
    CloseDec 20 exDecBig.toK (radixVal 10 d) := by
  have hx0 : (exDecBig.toK : ℚ) ≠ 0 := abs_pos.1 (by rw [exDecBig_abs]; norm_num)
  obtain ⟨d, _, d1, _, d3, _, d5, _⟩ := C54_word_none_partial exDecBig (Num.WF_of_check (by decide +kernel)) hx0 rfl
    (by decide) (by decide) (by decide) [] TenHist.new
  exact ⟨d, d1, d3, d5⟩

/-- `2^150` with 64 bits. -/
def exDecMid : Num := Num.mk 151 .neg ⟨[9223372036854775808], 64⟩ false

theorem exDecMid_val : (exDecMid.toK : ℚ) = ((-1 : ℤ) : ℚ) * 2 ^ (150 : ℤ) := by
  unfold exDecMid Num.toK
  norm_num [val, Sign.toK]

theorem gapFree_block {v : Nat} (h1 : v < 10 ^ 128) (h2 : 10 ^ 64 ≤ v → 10 ^ 32 ≤ v % 10 ^ 64) : GapFree v := by
  intro i hi j hj
  by_cases h : i = 5 ∧ j = 0
  · obtain ⟨rfl, rfl⟩ := h
    right
    simpa using h2 (by simpa using hj)
  · exfalso
    have h3 : 128 ≤ 2 ^ (i + 1) * (j + 1) := by
      rcases Nat.lt_or_ge 5 i with h5 | h5
      · have h4 : 2 ^ 7 ≤ 2 ^ (i + 1) := Nat.pow_le_pow_right (by norm_num) (by omega)
        have h6 : 2 ^ (i + 1) * 1 ≤ 2 ^ (i + 1) * (j + 1) := Nat.mul_le_mul_left _ (by omega)
        omega
      · obtain rfl : i = 5 := by omega
        norm_num
        omega
    have h4 : 10 ^ 128 ≤ 10 ^ (2 ^ (i + 1) * (j + 1)) := Nat.pow_le_pow_right (by norm_num) h3
    omega

theorem exDecMid_block {k v : Nat} (h1 : v < 2 ^ 299) (h2 : 10 ^ 64 ≤ v) (h3 : 1427247692705959881058285969449495136382746624 * 10 ^ k ≤ v + 8192)
    (h4 : v ≤ 1427247692705959881058285969449495136382746624 * 10 ^ k + 8192) : 10 ^ 32 ≤ v % 10 ^ 64 := by
  have k1 : 19 ≤ k := by
    by_contra hc
    have : 10 ^ k ≤ 10 ^ 18 := Nat.pow_le_pow_right (by norm_num) (by omega)
    norm_num at this h2
    omega
  have k2 : k ≤ 44 := by
    by_contra hc
    have : 10 ^ 45 ≤ 10 ^ k := Nat.pow_le_pow_right (by norm_num) (by omega)
    norm_num at this h1
    omega
  norm_num at h1 h2 ⊢
  interval_cases k <;> norm_num at h3 h4 <;> omega

set_option exponentiation.threshold 500 in
theorem exDecMid_gap {y : ℚ} (hy : y = 1427247692705959881058285969449495136382746624) (k : ℤ) (v : ℕ) (h1 : v < 2 ^ 299) (h2 : |y * 10 ^ k - v| ≤ 2 ^ 13) : GapFree v := by
  obtain ⟨a1, a2⟩ := abs_le.1 h2
  norm_num at a1 a2
  refine gapFree_block (lt_trans h1 (by norm_num)) (fun h3 => ?_)
  rcases le_total 0 k with h | h
  · obtain ⟨k', rfl⟩ := Int.eq_ofNat_of_zero_le h
    rw [hy] at a1 a2
    have b1 : ((1427247692705959881058285969449495136382746624 * 10 ^ k' : ℕ) : ℚ) ≤ ((v + 8192 : ℕ) : ℚ) := by
      push_cast
      rw [← zpow_natCast]
      linarith
    have b2 : ((v : ℕ) : ℚ) ≤ ((1427247692705959881058285969449495136382746624 * 10 ^ k' + 8192 : ℕ) : ℚ) := by
      push_cast
      rw [← zpow_natCast]
      linarith
    exact exDecMid_block h1 h3 (by exact_mod_cast b1) (by exact_mod_cast b2)
  · exfalso
    have c1 : (10 : ℚ) ^ k ≤ 10 ^ (0 : ℤ) := zpow_le_zpow_right₀ (by norm_num) h
    have c2 : (10 : ℚ) ^ 64 ≤ v := by exact_mod_cast h3
    rw [zpow_zero] at c1
    rw [hy] at a1 a2
    norm_num at c2
    have c3 : (10000000000000000000000000000000000000000000000000000000000000000 : ℚ) ≤ v := by exact_mod_cast c2
    linarith

set_option exponentiation.threshold 500 in
/-- It is formatted in the first or the second round, and the digits are correctly rounded. -/
example (rm : RM) (hrm : rm ≠ .none) : ∃ d : Digits, ((BF.num exDecMid).convertToRadix .dec rm []).1 = .ok d ∧
    d.2.1.length ≤ 20 ∧ RoundsDec rm 20 exDecMid.toK (radixVal 10 d) := by
  have ha : |(exDecMid.toK : ℚ)| = 1427247692705959881058285969449495136382746624 := by rw [exDecMid_val]; norm_num
  have hx0 : (exDecMid.toK : ℚ) ≠ 0 := abs_pos.1 (by rw [ha]; norm_num)
  have hw : exDecMid.WF := Num.WF_of_check (by decide +kernel)
  have key := C54_large_exact_partial exDecMid hw hx0 (by decide +kernel) (by decide +kernel)
    (by decide +kernel) rm hrm [] TenHist.new 1 (by norm_num) 1 (-1) 150 exDecMid_val (by norm_num)
  have hd : decDigits (64 * exDecMid.m.m.length) = 20 := by decide +kernel
  have hp : decStart 20 = 192 := by decide +kernel
  dsimp only at key
  rw [hd, hp] at key
  obtain ⟨d, _, d1, _, d3, _, d5, _⟩ := key (by decide) (by norm_num) (fun k v hv h => exDecMid_gap ha k v (by simpa using hv) h)
    (gapFree_word hw rfl) (by decide) (by decide)
  exact ⟨d, d1, d3, d5⟩

theorem exDecMid_q {v : ℚ} (hv : v = 1427247692705959881058285969449495136382746624) {q : ℤ} (h1 : 10 ^ (q - 1) ≤ 2 * v) (h2 : v < 2 * 10 ^ q) : q = 45 ∨ q = 46 := by
  have v1 : 2 * v < 10 ^ 46 := by rw [hv]; norm_num
  have v2 : 2 * 10 ^ 44 < v := by rw [hv]; norm_num
  by_contra hc
  rcases lt_or_ge q 45 with h | h
  · have h3 : (10 : ℚ) ^ q ≤ 10 ^ (44 : ℤ) := zpow_le_zpow_right₀ (by norm_num) (by omega)
    norm_num at h3 v2
    linarith
  · have h3 : (10 : ℚ) ^ (46 : ℤ) ≤ 10 ^ (q - 1) := zpow_le_zpow_right₀ (by norm_num) (by omega)
    norm_num at h3 v1
    linarith

theorem exDecMid_far {v : ℚ} (hv : v = 1427247692705959881058285969449495136382746624) (z : ℕ) {q : ℤ} (hq : q = 45 ∨ q = 46) :
    40000 * 10 ^ q / 2 ^ 256 ≤ |v - z * 10 ^ (q - (20 : ℕ) - 1)| := by
  have key : ∀ t : ℤ, 1 ≤ |1427247692705959881058285969449495136382746624 - t * 10 ^ 24| := fun t => Int.one_le_abs (by norm_num; omega)
  have h1 : (1 : ℚ) ≤ |v - z * 10 ^ (q - (20 : ℕ) - 1)| := by
    rcases hq with rfl | rfl
    · have h3 : ((1 : ℤ) : ℚ) ≤ ((|1427247692705959881058285969449495136382746624 - (z : ℤ) * 10 ^ 24| : ℤ) : ℚ) := Int.cast_le.2 (key z)
      push_cast at h3
      rw [show (10 : ℚ) ^ ((45 : ℤ) - (20 : ℕ) - 1) = 10 ^ 24 by norm_num, hv]
      exact h3
    · have h3 : ((1 : ℤ) : ℚ) ≤ ((|1427247692705959881058285969449495136382746624 - (z * 10 : ℤ) * 10 ^ 24| : ℤ) : ℚ) := Int.cast_le.2 (key _)
      push_cast at h3
      rw [show (10 : ℚ) ^ ((46 : ℤ) - (20 : ℕ) - 1) = 10 * 10 ^ 24 by norm_num, hv, ← mul_assoc]
      exact h3
  refine le_trans ?_ h1
  rcases hq with rfl | rfl <;> norm_num

set_option exponentiation.threshold 500 in
example (rm : RM) (hrm : rm ≠ .none) : ∃ d : Digits, ((BF.num exDecMid).convertToRadix .dec rm []).1 = .ok d ∧
    d.2.1.length ≤ 20 ∧ RoundsDec rm 20 exDecMid.toK (radixVal 10 d) := by
  have ha : |(exDecMid.toK : ℚ)| = 1427247692705959881058285969449495136382746624 := by rw [exDecMid_val]; norm_num
  have hx0 : (exDecMid.toK : ℚ) ≠ 0 := abs_pos.1 (by rw [ha]; norm_num)
  have hw : exDecMid.WF := Num.WF_of_check (by decide +kernel)
  have key := C54_large_far_partial exDecMid hw hx0 (by decide +kernel) (by decide +kernel)
    (by decide +kernel) rm hrm [] TenHist.new 1 (by norm_num)
  have hd : decDigits (64 * exDecMid.m.m.length) = 20 := by decide +kernel
  have hp : decStart 20 = 192 := by decide +kernel
  dsimp only at key
  rw [hd, hp] at key
  obtain ⟨d, _, d1, _, d3, _, d5, _⟩ := key (by decide) (by norm_num) (fun k v hv h => exDecMid_gap ha k v (by simpa using hv) h)
    (gapFree_word hw rfl) (fun z q h1 h2 => exDecMid_far ha z (exDecMid_q ha h1 h2))
  exact ⟨d, d1, d3, d5⟩

end AF
