import Verif.Lemmas.RadixTrip
import Verif.Props.C44
/-!
# C32: `convert_from_radix` in radix 2, 8 and 16 rounds correctly

The value `± 0.d₁d₂… · b^e` is delivered correctly rounded, for every digit string whose binary length fits
the library's limit, with these exceptions, each with a witness:

* binary digits with a leading zero and an exponent above the smallest one: the number is not normalised
  before rounding, so precision is lost and the result breaks the invariant (`C32_bin_leading_zero_refuted`,
  `C32_bin_lost_bit_refuted`);
* octal and hexadecimal digits denoting a value more than one word below the smallest subnormal number, when
  the mode rounds it away from zero: the result is `2^-p'` instead of a subnormal number
  (`C32_com_underflow_refuted`);
* a digit out of range is reported as `InvalidArgument` in binary always, in octal and hexadecimal only when
  the exponent does not overflow first (`C32_com_bad_digit_refuted`);
* with `p = usize::MAX` binary digits are read exactly whether or not they start with zeros, but a string of
  zeros becomes a number that is not recognised as zero (`C32_bin_auto_zero_refuted`).
-/

namespace AF

/-- The mode rounds a non-zero value of sign `s` away from zero, however small it is. -/
def RoundsAway (rm : RM) (s : Sign) : Prop := rm = .fromZero ∨ (rm = .up ∧ s = .pos) ∨ (rm = .down ∧ s = .neg)

theorem not_away {rm : RM} {s : Sign} (h : ¬ RoundsAway rm s) : Num.directedUp rm s.isPos = false := by
  unfold RoundsAway at h
  cases rm <;> cases s <;> simp [Num.directedUp, Sign.isPos] at h ⊢

theorem limit_roundP {n : Nat} (h : precBits n < 2 ^ 62 - 2 ^ 31 - 1) : roundP n < PMAX := by
  rw [PMAX_eq]; unfold precBits at h; unfold roundP USIZE_MAX; omega

/-- Binary digits: the first digit is not zero, or the exponent is the smallest one, or the value is zero. -/
theorem C32_bin_partial (s : Sign) (digits : List Nat) (e : Int) (hlo : EMIN ≤ e) (hhi : e ≤ EMAX)
    (p : Nat) (hp : ValidP p) (rm : RM) (tp : List TenPow)
    (hlen : precBits digits.length < 2 ^ 62 - 2 ^ 31 - 1) (hd : ∀ v ∈ digits, v < 2)
    (h : digits.head? ≠ some 0 ∨ e = EMIN ∨ digNat 2 digits = 0) :
    DeliversBF rm (precBits p) (radixVal 2 (s, digits, e) : ℚ) false
      (BF.convertFromRadix s digits e .bin p rm tp).1 := by
  have hpU : p < USIZE_MAX := lt_trans hp.lt' (by decide)
  have h1 : (BF.convertFromRadix s digits e .bin p rm tp).1 =
      BF.resultToExt (Num.convFromBinary s digits e (precBits p) rm) false true := by
    unfold BF.convertFromRadix Num.convertFromRadix
    simp only [if_pos hpU, hp.roundP]
    rw [if_neg (by have := hp.prec.lt'; omega), if_neg (by have := hp.prec.pos; omega)]
  rw [h1]
  exact (convFromBinary_delivers (limit_roundP hlen) hd hlo hhi h
    (by have := hp.pos; omega) (by have := hp.prec.lt'; unfold precBits at this; exact this)).toBF _ _

/-- The radices eight and sixteen, with the number of bits of a digit. -/
def ComRadix (rdx : Radix) (k : Nat) : Prop := (rdx = .oct ∧ k = 3) ∨ (rdx = .hex ∧ k = 4)

theorem com_dispatch {rdx : Radix} {k : Nat} (hk : ComRadix rdx k) (s : Sign) (digits : List Nat) (e : Int)
    (p : Nat) (hp : ValidP p) (rm : RM) (tp : List TenPow) :
    (BF.convertFromRadix s digits e rdx p rm tp).1 =
      BF.resultToExt (Num.convFromCommensurable s digits e k (precBits p) rm) false true := by
  have hpU : p < USIZE_MAX := lt_trans hp.lt' (by decide)
  unfold BF.convertFromRadix Num.convertFromRadix
  simp only [if_pos hpU, hp.roundP]
  rw [if_neg (by have := hp.prec.lt'; omega), if_neg (by have := hp.prec.pos; omega)]
  rcases hk with ⟨rfl, rfl⟩ | ⟨rfl, rfl⟩ <;> rfl

/-- Octal and hexadecimal digits: the mode does not round small values away from zero, or the value is not more
than a word below the smallest subnormal number of the precision, or it is zero. -/
theorem C32_com_partial (rdx : Radix) (k : Nat) (hk : ComRadix rdx k) (s : Sign) (digits : List Nat) (e : Int)
    (p : Nat) (hp : ValidP p) (hp2 : precBits p + 64 < 2 ^ 62 - 2 ^ 31 - 1) (rm : RM) (tp : List TenPow)
    (hlen : precBits (digits.length * k + 64) < 2 ^ 62 - 2 ^ 31 - 1) (hd : ∀ v ∈ digits, v < 2 ^ k)
    (h : ¬ RoundsAway rm s ∨
      (2 : ℚ) ^ (EMIN - ((precBits p + 64 : ℕ) : ℤ)) ≤ |(radixVal (2 ^ k) (s, digits, e) : ℚ)| ∨
      digNat (2 ^ k) digits = 0) :
    DeliversBF rm (precBits p) (radixVal (2 ^ k) (s, digits, e) : ℚ) false
      (BF.convertFromRadix s digits e rdx p rm tp).1 := by
  rw [com_dispatch hk s digits e p hp rm tp]
  have h64 : 64 * ((p + 63) / 64 + 1) = precBits p + 64 := by unfold precBits; ring
  refine (convFromCom_delivers (pw := (p + 63) / 64) (by rcases hk with ⟨_, h⟩ | ⟨_, h⟩ <;> simp [h])
    (limit_roundP hlen) hd (by have := hp.pos; omega) (by rw [h64, PMAX_eq]; exact hp2) ?_).toBF _ _
  rw [h64]
  rcases h with h | h
  · exact Or.inl (not_away h)
  · exact Or.inr h

theorem C32_bin_bad_digit (s : Sign) (digits : List Nat) (e : Int) (p : Nat) (hp : ValidP p) (rm : RM)
    (tp : List TenPow) (hbad : ∃ v ∈ digits, ¬ v < 2) :
    (BF.convertFromRadix s digits e .bin p rm tp).1 = .nan (some .invalidArgument) := by
  have hpU : p < USIZE_MAX := lt_trans hp.lt' (by decide)
  unfold BF.convertFromRadix Num.convertFromRadix
  simp only [if_pos hpU, hp.roundP]
  rw [if_neg (by have := hp.prec.lt'; omega), if_neg (by have := hp.prec.pos; omega)]
  simp only [convFromBinary_bad hbad]
  rfl

/-- A digit out of range is rejected when the exponent is not too large. -/
theorem C32_com_bad_digit_partial (rdx : Radix) (k : Nat) (hk : ComRadix rdx k) (s : Sign) (digits : List Nat)
    (e : Int) (p : Nat) (hp : ValidP p) (rm : RM) (tp : List TenPow) (hbad : ∃ v ∈ digits, ¬ v < 2 ^ k)
    (he : e * k ≤ EMAX) :
    (BF.convertFromRadix s digits e rdx p rm tp).1 = .nan (some .invalidArgument) := by
  rw [com_dispatch hk s digits e p hp rm tp,
    convFromCom_bad (by rcases hk with ⟨_, h⟩ | ⟨_, h⟩ <;> simp [h]) hbad he]
  rfl

/-- Without a precision (`usize::MAX`) any binary digits of a non-zero value are read exactly. -/
theorem C32_bin_auto_partial (s : Sign) (digits : List Nat) (e : Int) (hlo : EMIN ≤ e) (hhi : e ≤ EMAX) (rm : RM)
    (tp : List TenPow) (hlen : precBits digits.length < 2 ^ 62 - 2 ^ 31 - 1) (hd : ∀ v ∈ digits, v < 2)
    (hnz : ∃ v ∈ digits, v ≠ 0) :
    ∃ v, (BF.convertFromRadix s digits e .bin USIZE_MAX rm tp).1 = .num v ∧ v.WF ∧ v.s = s ∧ v.inexact = false ∧
      (v.toK : ℚ) = radixVal 2 (s, digits, e) := by
  obtain ⟨v, h1, h2⟩ := convFromBinary_auto (K := ℚ) (s := s) (e := e) (rm := rm) (limit_roundP hlen) hd hlo hhi (by
    obtain ⟨v, hv, hv0⟩ := hnz
    intro h
    exact hv0 ((digNat_eq_zero (by norm_num)).1 h v hv))
  refine ⟨v, ?_, h2⟩
  unfold BF.convertFromRadix Num.convertFromRadix
  simp only [lt_irrefl, false_and, if_false, h1]
  rfl

example : ∃ v, (BF.convertFromRadix .neg [0, 0, 1, 0, 1] 7 .bin USIZE_MAX .none []).1 = .num v ∧ v.WF ∧ v.s = .neg ∧
    v.inexact = false ∧ (v.toK : ℚ) = radixVal 2 (.neg, [0, 0, 1, 0, 1], 7) :=
  C32_bin_auto_partial _ _ _ (by decide) (by decide) _ _ (by decide) (by decide) ⟨1, by decide, by decide⟩

/-! ### Cases -/

/-- `0.1101 · 2^3 = 6.5`. -/
example : DeliversBF .toEven (precBits 64) (radixVal 2 (.pos, [1, 1, 0, 1], 3) : ℚ) false
    (BF.convertFromRadix .pos [1, 1, 0, 1] 3 .bin 64 .toEven []).1 :=
  C32_bin_partial _ _ _ (by decide) (by decide) _ ValidP_64 _ _ (by decide) (by decide) (Or.inl (by decide))

example : (radixVal 2 (.pos, [1, 1, 0, 1], 3) : ℚ) = 13 / 2 := by
  unfold radixVal; norm_num [digNat, Sign.toK]

/-- `-0.0a3 · 16^-2`, with a leading zero digit. -/
example : DeliversBF .down (precBits 64) (radixVal (2 ^ 4) (.neg, [0, 10, 3], 2) : ℚ) false
    (BF.convertFromRadix .neg [0, 10, 3] 2 .hex 64 .down []).1 :=
  C32_com_partial .hex 4 (Or.inr ⟨rfl, rfl⟩) _ _ _ _ ValidP_64 (by decide) _ _ (by decide) (by decide)
    (Or.inr (Or.inl (by
      have h : (radixVal (2 ^ 4) (.neg, [0, 10, 3], 2) : ℚ) = -(163 / 16) := by
        unfold radixVal; norm_num [digNat, Sign.toK]
      rw [h]
      have h1 : (2 : ℚ) ^ (EMIN - ((precBits 64 + 64 : ℕ) : ℤ)) ≤ 2 ^ (0 : ℤ) :=
        zpow_le_zpow_right₀ (by norm_num) (by decide)
      refine le_trans h1 ?_
      norm_num)))

example : (BF.convertFromRadix .pos [1, 8, 0] 1 .oct 64 .down []).1 = .nan (some .invalidArgument) :=
  C32_com_bad_digit_partial .oct 3 (Or.inl ⟨rfl, rfl⟩) _ _ _ _ ValidP_64 _ _ ⟨8, by decide, by decide⟩ (by decide)

/-! ### Witnesses against the full statement -/

theorem C32_bin_leading_zero_refuted :
    ¬ ∀ (s : Sign) (digits : List Nat) (e : Int), EMIN ≤ e → e ≤ EMAX → ∀ p, ValidP p → ∀ (rm : RM) (tp : List TenPow),
      precBits digits.length < 2 ^ 62 - 2 ^ 31 - 1 → (∀ v ∈ digits, v < 2) →
      DeliversBF rm (precBits p) (radixVal 2 (s, digits, e) : ℚ) false
        (BF.convertFromRadix s digits e .bin p rm tp).1 := by
  intro h
  have h1 := h .pos [0, 1] 0 (by decide) (by decide) 64 ValidP_64 .toEven [] (by decide) (by decide)
  have h2 : (BF.convertFromRadix .pos [0, 1] 0 .bin 64 .toEven []).1 =
      .num (Num.mk 0 .pos ⟨[2 ^ 62], 63⟩ false) := by decide
  rw [h2] at h1
  have h3 := h1.1.norm (by decide) (by decide)
  exact absurd h3 (by decide)

/-- The 64 digits `111…1` after a leading zero fit a mantissa of 64 bits, but the result, at precision 64 and
rounded toward zero, is smaller. -/
theorem C32_bin_lost_bit_refuted :
    (∃ w : Num, w.WF ∧ w.m.m.length = 1 ∧
      (w.toK : ℚ) = radixVal 2 (.pos, 0 :: List.replicate 64 1, 0)) ∧
    ∃ v : Num, (BF.convertFromRadix .pos (0 :: List.replicate 64 1) 0 .bin 64 .toZero []).1 = .num v ∧
      (v.toK : ℚ) < radixVal 2 (.pos, 0 :: List.replicate 64 1, 0) := by
  have hX : (radixVal 2 (.pos, 0 :: List.replicate 64 1, 0) : ℚ) = 18446744073709551615 / 36893488147419103232 := by
    have : digNat 2 (0 :: List.replicate 64 1) = 18446744073709551615 := by decide
    unfold radixVal
    simp only [this, List.length_cons, List.length_replicate]
    norm_num [Sign.toK]
  rw [hX]
  refine ⟨⟨Num.mk (-1) .pos ⟨[18446744073709551615], 64⟩ false, Num.WF_of_check (by decide), rfl, ?_⟩,
    Num.mk 0 .pos ⟨[9223372036854775807], 63⟩ true, by decide +kernel, ?_⟩
  · unfold Num.toK; norm_num [val, B, Sign.toK]
  · unfold Num.toK; norm_num [val, B, Sign.toK]

/-- `0.1 · 16^-600000000` rounded up: the result is `2^-64`, far above the smallest positive number. -/
theorem C32_com_underflow_refuted :
    ¬ ∀ (rdx : Radix) (k : Nat), ComRadix rdx k → ∀ (s : Sign) (digits : List Nat) (e : Int), EMIN ≤ e → e ≤ EMAX →
      ∀ (p : Nat), ValidP p → precBits p + 64 < 2 ^ 62 - 2 ^ 31 - 1 → ∀ (rm : RM) (tp : List TenPow),
      precBits (digits.length * k + 64) < 2 ^ 62 - 2 ^ 31 - 1 → (∀ v ∈ digits, v < 2 ^ k) →
      DeliversBF rm (precBits p) (radixVal (2 ^ k) (s, digits, e) : ℚ) false
        (BF.convertFromRadix s digits e rdx p rm tp).1 := by
  intro h
  have h1 := h .hex 4 (Or.inr ⟨rfl, rfl⟩) .pos [1] (-600000000) (by decide) (by decide) 64 ValidP_64 (by decide)
    .up [] (by decide) (by decide)
  have h2 : (BF.convertFromRadix .pos [1] (-600000000) .hex 64 .up []).1 =
      .num (Num.mk 0 .pos ⟨[1], 1⟩ true) := by decide +kernel
  rw [h2] at h1
  have h3 := h1.1.norm (by decide) (by decide)
  exact absurd h3 (by decide)

/-- A digit out of range with a large exponent gives infinity. -/
theorem C32_com_bad_digit_refuted :
    ¬ ∀ (rdx : Radix) (k : Nat), ComRadix rdx k → ∀ (s : Sign) (digits : List Nat) (e : Int), EMIN ≤ e → e ≤ EMAX →
      ∀ (p : Nat), ValidP p → ∀ (rm : RM) (tp : List TenPow), (∃ v ∈ digits, ¬ v < 2 ^ k) →
      (BF.convertFromRadix s digits e rdx p rm tp).1 = .nan (some .invalidArgument) := by
  intro h
  have h1 := h .hex 4 (Or.inr ⟨rfl, rfl⟩) .pos [1, 200] 2147483647 (by decide) (by decide) 64 ValidP_64 .toEven []
    ⟨200, by decide, by decide⟩
  have h2 : (BF.convertFromRadix .pos [1, 200] 2147483647 .hex 64 .toEven []).1 = .inf .pos := by decide
  rw [h2] at h1
  cases h1

/-- The digit string `0` with exponent 0 and no precision gives a number for which `is_zero` answers no. -/
theorem C32_bin_auto_zero_refuted :
    ∃ v, (BF.convertFromRadix .pos [0] 0 .bin USIZE_MAX .none []).1 = .num v ∧ ¬ v.WF ∧ (v.toK : ℚ) = 0 ∧
      v.isZero = false := by
  refine ⟨Num.mk (-64) .pos ⟨[0], 64⟩ false, by decide +kernel, ?_, ?_, by decide⟩
  · intro h
    have := h.bits
    revert this
    show ¬ 64 = Nat.size (val [0])
    decide
  · unfold Num.toK; simp

end AF
