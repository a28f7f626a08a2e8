import Verif.Lemmas.DecConv
import Verif.Props.C35
/-!
# C56: decimal input is converted to the correctly rounded number

The full claim: decimal digits with an exponent (`convert_from_radix`), and the text of a decimal literal
(`parse`), give the number that is written, correctly rounded in the mode, for every rounding mode.

It is false in the nearest modes (`C56_nearest_refuted`): the roundability check accepts a working result whose
correct bits do not decide the rounding. The relative error is within a factor `1 + 2^-60` of half a unit
(`C56_nearest_partial`), or the answer is NaN with `InvalidArgument`: the check may keep rejecting until the
working precision is no longer valid. In the directed modes the claim holds with the exact inexact flag
(`C56_directed_partial`), and NaN does not occur: a rejection at a large working precision would place the value
next to a representable number, closer than a decimal fraction that is not representable can be. In mode `None`
the result is within one unit (`C56_none_partial`).

Hypotheses: at most 646456991 digits (the largest power of ten the conversion uses in one step), a precision of at most `2^59` bits, and a value at least `2^EMIN`
and below `2^(EMAX-2)`. Missing: values outside of that range.
-/

namespace AF

/-- Decimal digits `ds` of a number `0.ds · 10^e` in range, to be converted with `P` bits: `P` is `p` rounded up to
words, or for `p = usize::MAX` what the number of digits asks for. -/
structure DecInput (s : Sign) (ds : List Nat) (e : Int) (p P : Nat) : Prop where
  digits : ∀ d ∈ ds, d ≤ 9
  few : ds.length ≤ 646456991
  emin : EMIN ≤ e
  emax : e ≤ EMAX
  lo : (2 : ℚ) ^ EMIN ≤ |(radixVal 10 (s, ds, e) : ℚ)|
  hi : |(radixVal 10 (s, ds, e) : ℚ)| < 2 ^ (EMAX - 2)
  prec : (ValidP p ∧ P = precBits p) ∨
    (p = USIZE_MAX ∧ P = precBits (ds.length * 3321928095 / 1000000000 + 1))

theorem decInput_res {s : Sign} {ds : List Nat} {e : Int} {p P : Nat} (h : DecInput s ds e p P) (rm : RM)
    {tp : List TenPow} (htp : TenHist tp) :
    DecRes rm P (radixVal 10 (s, ds, e)) ((rm.directed = true ∨ rm = .none) ∧ P ≤ 2 ^ 59)
      (Num.convertFromRadix s ds e .dec p rm tp).1 := by
  have hT : TEN_PWR_MAX_FROM_DEC = 646456991 := by decide
  have hPM : PMAX = 2 ^ 62 - 2 ^ 31 - 1 := rfl
  have hU : USIZE_MAX = 2 ^ 64 - 1 := rfl
  have hEM : EMAX = 2147483647 := rfl
  have hEm : EMIN = -2147483648 := rfl
  have hfew := h.few
  have h1 := h.emin
  have h2 := h.emax
  have hD : digNat 10 ds ≠ 0 := by
    intro h0
    have hlo := h.lo
    rw [show (radixVal 10 (s, ds, e) : ℚ) = 0 by unfold radixVal; simp [h0], abs_zero] at hlo
    exact absurd hlo (not_le.2 (by positivity))
  have key : ∀ p1 pw : Nat, P = 64 * pw → 0 < pw → 64 * pw < PMAX →
      (if p1 < USIZE_MAX then p1 else autoPrec ds.length) = 64 * pw →
      DecRes rm P (radixVal 10 (s, ds, e)) ((rm.directed = true ∨ rm = .none) ∧ P ≤ 2 ^ 59)
        (Num.convFromDec s ds e p1 rm tp).1 := by
    intro p1 pw g1 g2 g3 g4
    have := convFromDec_spec htp.ok h.digits hD (by rw [hT]; exact h.few) s e g4 g2 g3 rm h.lo h.hi
    rw [← g1] at this
    cases hr : (Num.convFromDec s ds e p1 rm tp).1 with
    | ok v => rw [hr] at this; exact this
    | error er =>
      rw [hr] at this
      exact ⟨this.1, fun hs => this.2 ⟨hs.1, hs.2, by omega⟩⟩
  unfold Num.convertFromRadix
  dsimp only
  rcases h.prec with ⟨hv, hP⟩ | ⟨hp, hP⟩
  · have hlt := hv.lt
    have hpos := hv.pos
    have hpb : precBits p = 64 * ((p + 63) / 64) := rfl
    have hpU : p < USIZE_MAX := by omega
    rw [if_pos hpU, hv.roundP, if_neg (by omega), if_neg (by omega)]
    exact key _ ((p + 63) / 64) (by omega) (by omega) (by omega) (by rw [if_pos (by omega)]; exact hpb)
  · rw [hp, if_neg (lt_irrefl _), if_neg (by simp), if_neg (by simp)]
    have hpb : precBits (ds.length * 3321928095 / 1000000000 + 1) =
      64 * ((ds.length * 3321928095 / 1000000000 + 1 + 63) / 64) := rfl
    have hv : ValidP (ds.length * 3321928095 / 1000000000 + 1) := ⟨by omega, by omega⟩
    refine key USIZE_MAX ((ds.length * 3321928095 / 1000000000 + 1 + 63) / 64) (by omega) (by omega) (by omega) ?_
    rw [if_neg (lt_irrefl _)]
    unfold autoPrec
    rw [hv.roundP, hpb]

/-- Every outcome of the conversion. -/
theorem C56_outcomes_partial (s : Sign) (ds : List Nat) (e : Int) (p P : Nat) (h : DecInput s ds e p P) (rm : RM)
    (tp : List TenPow) (htp : TenHist tp) :
    (∃ v, (BF.convertFromRadix s ds e .dec p rm tp).1 = .num v ∧ v.WF ∧ 64 * v.m.m.length = P ∧ v.s = s ∧
      (v.inexact = false → (v.toK : ℚ) = radixVal 10 (s, ds, e))) ∨
    ((BF.convertFromRadix s ds e .dec p rm tp).1 = .nan (some .invalidArgument) ∧
      ¬ (rm ≠ .toEven ∧ rm ≠ .toOdd ∧ P ≤ 2 ^ 59)) := by
  have hr := decInput_res h rm htp
  unfold BF.convertFromRadix
  dsimp only
  cases hc : (Num.convertFromRadix s ds e .dec p rm tp).1 with
  | ok v =>
    rw [hc] at hr
    refine Or.inl ⟨v, rfl, hr.wf, hr.len, ?_, hr.exact⟩
    have hX0 : (0 : ℚ) < |(radixVal 10 (s, ds, e) : ℚ)| := lt_of_lt_of_le (by positivity) h.lo
    have hnn : (0 : ℚ) ≤ (digNat 10 ds : ℚ) * 10 ^ (e - (ds.length : ℤ)) := by positivity
    have hrv : (radixVal 10 (s, ds, e) : ℚ) = Sign.toK s * ((digNat 10 ds : ℚ) * 10 ^ (e - (ds.length : ℤ))) := by
      unfold radixVal; push_cast; ring
    cases s with
    | pos =>
      apply hr.pos
      rw [hrv] at hX0 ⊢
      simp only [Sign.toK, one_mul, abs_of_nonneg hnn] at hX0 ⊢
      exact hX0
    | neg =>
      apply hr.neg
      rw [hrv] at hX0 ⊢
      simp only [Sign.toK, neg_mul, one_mul, abs_neg, abs_of_nonneg hnn, neg_lt_zero] at hX0 ⊢
      exact hX0
  | error er =>
    rw [hc] at hr
    obtain ⟨rfl, h2⟩ := hr
    refine Or.inr ⟨rfl, fun hh => h2 ⟨?_, hh.2.2⟩⟩
    cases rm <;> simp_all [RM.directed]

/-- In the directed modes the conversion is correctly rounded. -/
theorem C56_directed_partial (s : Sign) (ds : List Nat) (e : Int) (p P : Nat) (h : DecInput s ds e p P) (rm : RM)
    (hrm : rm = .up ∨ rm = .down ∨ rm = .toZero ∨ rm = .fromZero) (hP : P ≤ 2 ^ 59)
    (tp : List TenPow) (htp : TenHist tp) :
    ∃ v, (BF.convertFromRadix s ds e .dec p rm tp).1 = .num v ∧ v.WF ∧ 64 * v.m.m.length = P ∧ v.s = s ∧
      RoundsFmt rm P (radixVal 10 (s, ds, e) : ℚ) v.toK ∧
      (v.inexact = true ↔ (v.toK : ℚ) ≠ radixVal 10 (s, ds, e)) := by
  have hd : rm.directed = true := by rcases hrm with h | h | h | h <;> rw [h] <;> rfl
  rcases C56_outcomes_partial s ds e p P h rm tp htp with ⟨v, h1, h2, h3, h4, h5⟩ | ⟨_, h2⟩
  · have hr := decInput_res h rm htp
    have hv : (Num.convertFromRadix s ds e .dec p rm tp).1 = .ok v := by
      unfold BF.convertFromRadix at h1
      dsimp only at h1
      cases hc : (Num.convertFromRadix s ds e .dec p rm tp).1 with
      | ok w => rw [hc] at h1; simp only [BF.resultToExt] at h1; injection h1 with h1; rw [h1]
      | error er => rw [hc] at hr; obtain ⟨rfl, _⟩ := hr; rw [hc] at h1; cases h1
    rw [hv] at hr
    refine ⟨v, h1, h2, h3, h4, hr.directed hd, hr.flag hd, fun hne => ?_⟩
    cases hi : v.inexact with
    | true => rfl
    | false => exact absurd (h5 hi) hne
  · exact absurd ⟨by rcases hrm with h | h | h | h <;> rw [h] <;> simp,
      by rcases hrm with h | h | h | h <;> rw [h] <;> simp, hP⟩ h2

/-- In the nearest modes the error is within a factor `1 + 2^-60` of that of a correctly rounded result, unless the
conversion gives up. -/
theorem C56_nearest_partial (s : Sign) (ds : List Nat) (e : Int) (p P : Nat) (h : DecInput s ds e p P) (rm : RM)
    (hrm : rm = .toEven ∨ rm = .toOdd) (tp : List TenPow) (htp : TenHist tp) :
    (∃ v, (BF.convertFromRadix s ds e .dec p rm tp).1 = .num v ∧ v.WF ∧ 64 * v.m.m.length = P ∧
      |v.toK - (radixVal 10 (s, ds, e) : ℚ)| ≤
        |(radixVal 10 (s, ds, e) : ℚ)| * (2 ^ (-(P : ℤ)) * (1 + 2 ^ (-60 : ℤ)))) ∨
    (BF.convertFromRadix s ds e .dec p rm tp).1 = .nan (some .invalidArgument) := by
  have hn : rm.nearest = true := by rcases hrm with h | h <;> rw [h] <;> rfl
  have hr := decInput_res h rm htp
  unfold BF.convertFromRadix
  dsimp only
  cases hc : (Num.convertFromRadix s ds e .dec p rm tp).1 with
  | ok v =>
    rw [hc] at hr
    exact Or.inl ⟨v, rfl, hr.wf, hr.len, hr.nearest hn⟩
  | error er =>
    rw [hc] at hr
    obtain ⟨rfl, h2⟩ := hr
    exact Or.inr rfl

/-- In mode `None` the result is within a factor `1 + 2^-60` of one unit. -/
theorem C56_none_partial (s : Sign) (ds : List Nat) (e : Int) (p P : Nat) (h : DecInput s ds e p P)
    (hP : P ≤ 2 ^ 59) (tp : List TenPow) (htp : TenHist tp) :
    ∃ v, (BF.convertFromRadix s ds e .dec p .none tp).1 = .num v ∧ v.WF ∧ 64 * v.m.m.length = P ∧ v.s = s ∧
      |v.toK - (radixVal 10 (s, ds, e) : ℚ)| ≤
        |(radixVal 10 (s, ds, e) : ℚ)| * (2 ^ (1 - (P : ℤ)) * (1 + 2 ^ (-60 : ℤ))) := by
  rcases C56_outcomes_partial s ds e p P h .none tp htp with ⟨v, h1, h2, h3, h4, _⟩ | ⟨_, h2⟩
  · have hr := decInput_res h .none htp
    refine ⟨v, h1, h2, h3, h4, ?_⟩
    unfold BF.convertFromRadix at h1
    dsimp only at h1
    cases hc : (Num.convertFromRadix s ds e .dec p .none tp).1 with
    | ok w =>
      rw [hc] at h1 hr
      simp only [BF.resultToExt] at h1
      injection h1 with h1
      rw [← h1]
      exact hr.none rfl
    | error er => rw [hc] at hr; obtain ⟨rfl, _⟩ := hr; rw [hc] at h1; cases h1
  · exact absurd ⟨by simp, by simp, hP⟩ h2

/-! ### Text -/

/-- A decimal literal in the range of C35 and C56. -/
structure DecLit (l : Lit) (p P : Nat) : Prop where
  valid : l.Valid .dec
  exp : l.expAbs .dec < 10 * (2 ^ 31 + 1)
  range : EMIN ≤ l.expVal .dec + l.intLen ∧ l.expVal .dec + l.intLen ≤ EMAX
  few : l.intLen + l.frac.length ≤ 646456991
  lo : (2 : ℚ) ^ EMIN ≤ |(l.value .dec : ℚ)|
  hi : |(l.value .dec : ℚ)| < 2 ^ (EMAX - 2)
  prec : (ValidP p ∧ P = precBits p) ∨
    (p = USIZE_MAX ∧ P = precBits ((l.intLen + l.frac.length) * 3321928095 / 1000000000 + 1))

theorem decLit_input {l : Lit} {p P : Nat} (h : DecLit l p P) (rm : RM) (tp : List TenPow) :
    ∃ ds e, DecInput l.sign ds e p P ∧ (radixVal 10 (l.sign, ds, e) : ℚ) = l.value .dec ∧
      BF.parse (l.text .dec) .dec p rm tp = BF.convertFromRadix l.sign ds e .dec p rm tp := by
  obtain ⟨ds, e, h1, h2, h3, h4, h5, h6⟩ := C35_parse_literal_partial .dec l h.valid h.exp (Or.inr h.range) p rm tp
  have h4' : (radixVal 10 (l.sign, ds, e) : ℚ) = l.value .dec := h4
  refine ⟨ds, e, ⟨fun d hd => Nat.lt_succ_iff.1 (h1 d hd), by rw [h5]; exact h.few, h2, h3, by rw [h4']; exact h.lo,
    by rw [h4']; exact h.hi, by rw [h5]; exact h.prec⟩, h4', h6⟩

/-- In the directed modes `parse` of a decimal literal is correctly rounded. -/
theorem C56_parse_directed_partial (l : Lit) (p P : Nat) (h : DecLit l p P) (rm : RM)
    (hrm : rm = .up ∨ rm = .down ∨ rm = .toZero ∨ rm = .fromZero) (hP : P ≤ 2 ^ 59)
    (tp : List TenPow) (htp : TenHist tp) :
    ∃ v, (BF.parse (l.text .dec) .dec p rm tp).1 = .num v ∧ v.WF ∧ 64 * v.m.m.length = P ∧ v.s = l.sign ∧
      RoundsFmt rm P (l.value .dec : ℚ) v.toK ∧ (v.inexact = true ↔ (v.toK : ℚ) ≠ l.value .dec) := by
  obtain ⟨ds, e, h1, h2, h3⟩ := decLit_input h rm tp
  rw [h3, ← h2]
  exact C56_directed_partial l.sign ds e p P h1 rm hrm hP tp htp

/-- In the nearest modes `parse` of a decimal literal is nearly correctly rounded, or NaN. -/
theorem C56_parse_nearest_partial (l : Lit) (p P : Nat) (h : DecLit l p P) (rm : RM)
    (hrm : rm = .toEven ∨ rm = .toOdd) (tp : List TenPow) (htp : TenHist tp) :
    (∃ v, (BF.parse (l.text .dec) .dec p rm tp).1 = .num v ∧ v.WF ∧ 64 * v.m.m.length = P ∧
      |v.toK - (l.value .dec : ℚ)| ≤ |(l.value .dec : ℚ)| * (2 ^ (-(P : ℤ)) * (1 + 2 ^ (-60 : ℤ)))) ∨
    (BF.parse (l.text .dec) .dec p rm tp).1 = .nan (some .invalidArgument) := by
  obtain ⟨ds, e, h1, h2, h3⟩ := decLit_input h rm tp
  rw [h3, ← h2]
  exact C56_nearest_partial l.sign ds e p P h1 rm hrm tp htp

/-! ### Nearest modes: a witness -/

/-- A result more than half a unit away is not the nearest. -/
theorem not_nearest_of {rm : RM} (hrm : rm = .toEven ∨ rm = .toOdd) {P : ℕ} {q : ℤ} {x r : ℚ} (hq : EMIN ≤ q)
    (h1 : (2 : ℚ) ^ (q - 1) ≤ x) (h2 : x < 2 ^ q) (h3 : (2 : ℚ) ^ (q - (P : ℤ)) / 2 < r - x) : ¬ RoundsFmt rm P x r := by
  have hx : 0 < x := lt_of_lt_of_le (by positivity) h1
  rintro (⟨h, _⟩ | ⟨q', g1, g2, j, _, g4⟩)
  · exact absurd h hx.ne'
  · rw [abs_of_pos hx] at g1 g2
    have i1 := (zpow_lt_zpow_iff_right₀ (show (1 : ℚ) < 2 by norm_num)).1 (lt_of_le_of_lt g1 h2)
    have i2 := (zpow_lt_zpow_iff_right₀ (show (1 : ℚ) < 2 by norm_num)).1 (lt_of_le_of_lt h1 g2)
    have hqq : q' = q := by omega
    rw [hqq, max_eq_left hq] at g4
    have h7 : |x - r| ≤ (2 : ℚ) ^ (q - (P : ℤ)) / 2 := by
      rcases hrm with h | h <;> rw [h] at g4 <;> exact g4.1
    rw [abs_sub_comm] at h7
    have := le_abs_self (r - x)
    linarith

theorem dec_isDig {cs : List Char} (h : cs.all (fun c => decide (48 ≤ c.toNat ∧ c.toNat ≤ 57)) = true) :
    ∀ c ∈ cs, IsDig .dec c := by
  intro c hc
  have := of_decide_eq_true (List.all_eq_true.1 h c hc)
  refine ⟨c.toNat - 48, ?_, ?_⟩
  · unfold charDigit; rw [if_pos this]
  · show _ < 10; omega

/-- The digits of the witness, in front of `e-85`. -/
def exTieLit : Lit :=
  ⟨[], "9536743164062499999224518175731536554808054351184409824782051146030426025390624".toList, false, [],
    some ('e', ['-'], ['8', '5'])⟩

theorem exTieLit_valid : exTieLit.Valid .dec where
  sgn := Or.inl rfl
  int := dec_isDig (by decide +kernel)
  frac := by intro c hc; cases hc
  point := fun _ => rfl
  some_digit := by decide
  exp := by
    intro c sg ds h
    simp only [exTieLit, Option.some.injEq, Prod.mk.injEq] at h
    obtain ⟨rfl, rfl, rfl⟩ := h
    exact ⟨Or.inl rfl, Or.inr (Or.inr rfl), by simp, dec_isDig (by decide)⟩

theorem exTieLit_value : (exTieLit.value .dec : ℚ) =
    9536743164062499999224518175731536554808054351184409824782051146030426025390624 / 10 ^ 85 := by
  have h1 : digNat 10 (digs (exTieLit.int ++ exTieLit.frac)) =
      9536743164062499999224518175731536554808054351184409824782051146030426025390624 := by decide +kernel
  have h2 : exTieLit.expVal .dec = -85 := by decide
  unfold Lit.value
  rw [h2, show Radix.num .dec = 10 from rfl, h1]
  norm_num [exTieLit, Lit.sign, Sign.toK]

/-- The number lies below the middle of two numbers of 64 bits; both nearest modes give the upper one. -/
theorem C56_nearest_refuted : ∃ (l : Lit) (v : Num), DecLit l 64 64 ∧ ∀ rm, rm = .toEven ∨ rm = .toOdd →
    (BF.parse (l.text .dec) .dec 64 rm []).1 = .num v ∧ ¬ RoundsFmt rm 64 (l.value .dec : ℚ) v.toK := by
  refine ⟨exTieLit, Num.mk (-20) .pos ⟨[18446744073709551615], 64⟩ true, ?_, fun rm hrm => ⟨?_, ?_⟩⟩
  · have hv := exTieLit_value
    refine ⟨exTieLit_valid, by decide, by decide, by decide, ?_, ?_, Or.inl ⟨ValidP_64, by decide⟩⟩
    · refine (zpow_le_zpow_right₀ (by norm_num) (show EMIN ≤ -30 by decide)).trans ?_
      rw [hv]; norm_num [abs_of_pos]
    · refine lt_of_lt_of_le ?_ (zpow_le_zpow_right₀ (by norm_num) (show 0 ≤ EMAX - 2 by decide))
      rw [hv]; norm_num [abs_of_pos]
  · rcases hrm with h | h <;> rw [h] <;> decide +kernel
  · refine not_nearest_of hrm (q := -20) (by decide) ?_ ?_ ?_
    · rw [exTieLit_value]; norm_num
    · rw [exTieLit_value]; norm_num
    · rw [exTieLit_value]
      norm_num [Num.toK, Sign.toK, val]

/-! ### Cases -/

/-- `-0123.450e-7` with 100 bits. -/
theorem exLit_dec : DecLit exLit 100 128 := by
  have hval : (exLit.value .dec : ℚ) = -12345 / 1000000000 := by
    have h1 : digNat 10 (digs (exLit.int ++ exLit.frac)) = 123450 := by decide
    have h2 : exLit.expVal .dec = -7 := by decide
    unfold Lit.value
    rw [h2, show Radix.num .dec = 10 from rfl, h1]
    norm_num [exLit, Lit.sign, Sign.toK]
  refine ⟨exLit_valid, by decide, by decide, by decide, ?_, ?_, Or.inl ⟨ValidP_100, by decide⟩⟩
  · refine (zpow_le_zpow_right₀ (by norm_num) (show EMIN ≤ -30 by decide)).trans ?_
    rw [hval]; norm_num [abs_of_neg]
  · refine lt_of_lt_of_le ?_ (zpow_le_zpow_right₀ (by norm_num) (show 0 ≤ EMAX - 2 by decide))
    rw [hval]; norm_num [abs_of_neg]

example : ∃ v, (BF.parse (exLit.text .dec) .dec 100 .up []).1 = .num v ∧ v.WF ∧ 64 * v.m.m.length = 128 ∧ v.s = .neg ∧
      RoundsFmt .up 128 (exLit.value .dec : ℚ) v.toK ∧ (v.inexact = true ↔ (v.toK : ℚ) ≠ exLit.value .dec) :=
  C56_parse_directed_partial exLit 100 128 exLit_dec .up (Or.inl rfl) (by norm_num) [] .new

example : (BF.parse "-123.456e-7".toList .dec 64 .down []).1 =
    .num (Num.mk (-16) .neg ⟨[14924914598634365940], 64⟩ true) := by decide +kernel

end AF
