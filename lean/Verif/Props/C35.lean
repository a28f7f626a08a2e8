import Verif.Lemmas.Text
import Verif.Lemmas.Samples
import Verif.Lemmas.Finish
/-!
# C35: the parser reads the literal that is written

For a literal of the syntax in `SpecText`, in any of the four radices, the parser returns the sign and digits and
exponent with the value of the literal. Hypotheses: the exponent as written is below `radix · (2^31 + 1)` in magnitude, and
together with the number of digits before the point it is in the exponent range (unless all digits are zeros of
the integer part). Outside that range the parser answers infinity or zero; witnesses show that this can be wrong
(`C35_overflow_refuted`, `C35_underflow_refuted`, `C35_zero_inf_refuted`). Leading zeros after the point are kept
(`C35_leading_zeros_refuted`), which is what makes C32 fail in binary.
-/

namespace AF

variable {K : Type*} [Field K] [LinearOrder K] [IsStrictOrderedRing K]

theorem C35_literal_partial (rdx : Radix) (l : Lit) (h : l.Valid rdx) (hexp : l.expAbs rdx < rdx.num * (2 ^ 31 + 1))
    (hrange : (l.intLen = 0 ∧ l.frac = []) ∨ (EMIN ≤ l.expVal rdx + l.intLen ∧ l.expVal rdx + l.intLen ≤ EMAX)) :
    let r := parseText (l.text rdx) rdx
    r.inf = false ∧ r.nan = false ∧ r.sign = l.sign ∧ (∀ d ∈ r.mant, d < rdx.num) ∧ EMIN ≤ r.e ∧ r.e ≤ EMAX ∧
      (radixVal rdx.num (r.sign, r.mant, r.e) : ℚ) = l.value rdx ∧ r.mant.length = l.intLen + l.frac.length := by
  intro r
  obtain ⟨h1, h2, h3, h4, h5⟩ := parseText_spec h (by simpa using hexp) hrange
  have hl : (digs (l.int.dropWhile (fun c => charDigit c = some 0)) ++ digs l.frac).length =
      l.intLen + l.frac.length := by
    rw [List.length_append, digs_length (rdx := rdx) (fun c hc => h.int c ((List.dropWhile_sublist _).mem hc)),
      digs_length h.frac]
    rfl
  refine ⟨h3, h2, h1, ?_, ?_, ?_, ?_, by rw [← hl]; exact congrArg List.length h4⟩
  · intro d hd
    have hd' : d ∈ digs (l.int.dropWhile (fun c => charDigit c = some 0)) ++ digs l.frac := by rw [← h4]; exact hd
    rcases List.mem_append.1 hd' with hd' | hd'
    · exact digs_lt (fun c hc => h.int c ((List.dropWhile_sublist _).mem hc)) d hd'
    · exact digs_lt h.frac d hd'
  · rw [show r.e = _ from h5]
    split
    · decide
    · rename_i hc; exact (hrange.resolve_left hc).1
  · rw [show r.e = _ from h5]
    split
    · decide
    · rename_i hc; exact (hrange.resolve_left hc).2
  · rw [show r.e = _ from h5, show r.sign = _ from h1, show r.mant = _ from h4]
    unfold radixVal Lit.value
    simp only
    rw [digNat_dropZeros, digs_append]
    rw [hl, Nat.cast_add]
    split
    · rename_i hc
      have h0 : digNat rdx.num (digs l.int ++ digs l.frac) = 0 := by
        rw [← digNat_dropZeros, hc.2]
        have : l.int.dropWhile (fun c => charDigit c = some 0) = [] := List.length_eq_zero_iff.1 hc.1
        rw [this]
        rfl
      rw [h0]; simp
    · congr 2; ring

/-- What `parse` does with a literal: the digits go to `convert_from_radix`. -/
theorem C35_parse_literal_partial (rdx : Radix) (l : Lit) (h : l.Valid rdx) (hexp : l.expAbs rdx < rdx.num * (2 ^ 31 + 1))
    (hrange : (l.intLen = 0 ∧ l.frac = []) ∨ (EMIN ≤ l.expVal rdx + l.intLen ∧ l.expVal rdx + l.intLen ≤ EMAX))
    (p : Nat) (rm : RM) (tp : List TenPow) :
    ∃ (mant : List Nat) (e : Int), (∀ d ∈ mant, d < rdx.num) ∧ EMIN ≤ e ∧ e ≤ EMAX ∧
      (radixVal rdx.num (l.sign, mant, e) : ℚ) = l.value rdx ∧ mant.length = l.intLen + l.frac.length ∧
      BF.parse (l.text rdx) rdx p rm tp = BF.convertFromRadix l.sign mant e rdx p rm tp := by
  obtain ⟨h1, h2, h3, h4, h5, h6, h7, h8⟩ := C35_literal_partial rdx l h hexp hrange
  refine ⟨_, _, h4, h5, h6, by rw [← h7, h3], h8, ?_⟩
  unfold BF.parse
  simp only [h1, h2, h3, Bool.false_eq_true, if_false]

/-- The spellings of the infinities: an optional sign and `inf` in either case. -/
theorem C35_inf (rdx : Radix) (s sg : List Char) (hs : IsSign sg) (h : s.map lowerAscii = sg ++ ['i', 'n', 'f'])
    (p : Nat) (rm : RM) (tp : List TenPow) :
    BF.parse s rdx p rm tp = (.inf (if sg = ['-'] then .neg else .pos), tp) := by
  unfold BF.parse parseText
  rw [h]
  rcases hs with rfl | rfl | rfl <;> rfl

theorem C35_nan (rdx : Radix) (s sg : List Char) (hs : IsSign sg) (h : s.map lowerAscii = sg ++ ['n', 'a', 'n'])
    (p : Nat) (rm : RM) (tp : List TenPow) :
    BF.parse s rdx p rm tp = (.nan none, tp) := by
  unfold BF.parse parseText
  rw [h]
  rcases hs with rfl | rfl | rfl <;> rfl

/-! ### Cases -/

/-- `-0123.450e-7` in decimal. -/
def exLit : Lit := ⟨['-'], ['0', '1', '2', '3'], true, ['4', '5', '0'], some ('e', ['-'], ['7'])⟩

theorem exLit_valid : exLit.Valid .dec where
  sgn := Or.inr (Or.inr rfl)
  int := by
    intro c hc
    refine ⟨_, (toDigit_lower (rdx := .dec) (c := c) ?_), ?_⟩ <;> revert c <;> simp [exLit, IsDig, charDigit, Radix.num, toDigit, lowerAscii]
  frac := by
    intro c hc
    refine ⟨_, (toDigit_lower (rdx := .dec) (c := c) ?_), ?_⟩ <;> revert c <;> simp [exLit, IsDig, charDigit, Radix.num, toDigit, lowerAscii]
  point := by intro h; cases h
  some_digit := by simp [exLit]
  exp := by
    intro c sg ds h
    simp only [exLit, Option.some.injEq, Prod.mk.injEq] at h
    obtain ⟨rfl, rfl, rfl⟩ := h
    exact ⟨Or.inl rfl, Or.inr (Or.inr rfl), by simp, by simp [IsDig, charDigit, Radix.num]⟩

example : exLit.text .dec = "-0123.450e-7".toList := by decide

example : let r := parseText (exLit.text .dec) .dec
    r.inf = false ∧ r.nan = false ∧ r.sign = .neg ∧ (∀ d ∈ r.mant, d < 10) ∧ EMIN ≤ r.e ∧ r.e ≤ EMAX ∧
      (radixVal 10 (r.sign, r.mant, r.e) : ℚ) = exLit.value .dec ∧ r.mant.length = 6 :=
  C35_literal_partial .dec exLit exLit_valid (by decide) (Or.inr (by decide))

example : (exLit.value .dec : ℚ) = -12345 / 1000000000 := by
  have h1 : digNat 10 (digs (exLit.int ++ exLit.frac)) = 123450 := by decide
  have h2 : exLit.expVal .dec = -7 := by decide
  unfold Lit.value
  rw [h2, show Radix.num .dec = 10 from rfl, h1]
  norm_num [exLit, Lit.sign, Sign.toK]

example : parseText "-0123.450e-7".toList .dec = ⟨['-', '7'], .neg, [1, 2, 3, 4, 5, 0], -4, false, false⟩ := by decide

example (rm : RM) : BF.parse "-iNF".toList .hex 64 rm [] = (.inf .neg, []) :=
  C35_inf .hex _ ['-'] (Or.inr (Or.inr rfl)) (by decide) 64 rm []

/-! ### Witnesses against the full statement -/

/-- `0.0` with a large exponent is read as infinity. -/
theorem C35_zero_inf_refuted : (BF.parse "0.0e9999999999".toList .dec 64 .toEven []).1 = .inf .pos := by
  decide +kernel

theorem two_shift (k : ℕ) (a b : ℤ) (h : (k : ℤ) + a = b) :
    (1 : ℚ) * ((2 ^ k + B * 0 : ℕ) : ℚ) * 2 ^ a = 1 * ((1 : ℕ) : ℚ) * ((2 : ℕ) : ℚ) ^ b := by
  rw [← h]
  push_cast
  rw [zpow_add₀ (by norm_num), zpow_natCast]
  ring

/-- Binary `0.01e10…0` (exponent `2^31`). -/
def exOver : Lit := ⟨[], ['0'], true, ['0', '1'], some ('e', [], "10000000000000000000000000000000".toList)⟩

/-- Binary `0.1e-10…01` (exponent `-(2^31+1)`). -/
def exUnder : Lit := ⟨[], ['0'], true, ['1'], some ('e', ['-'], "10000000000000000000000000000001".toList)⟩

/-- The number `2^(EMAX-1)` written with exponent `2^31` is read as infinity. -/
theorem C35_overflow_refuted :
    exOver.text .bin = "0.01e10000000000000000000000000000000".toList ∧
    (BF.parse (exOver.text .bin) .bin 64 .toEven []).1 = .inf .pos ∧
    ∃ v : Num, v.WF ∧ v.m.m.length = 1 ∧ (v.toK : ℚ) = exOver.value .bin := by
  refine ⟨by decide, by decide +kernel, Num.mk EMAX .pos ⟨[2 ^ 63], 64⟩ false, Num.WF_of_check (by decide), rfl, ?_⟩
  have h1 : digNat 2 (digs (exOver.int ++ exOver.frac)) = 1 := by decide
  have h2 : exOver.expVal .bin = 2147483648 := by decide
  have h3 : EMAX = 2147483647 := rfl
  unfold Num.toK Lit.value
  rw [h2, h3, show Radix.num .bin = 2 from rfl, h1]
  simp only [val, exOver, Lit.sign, Sign.toK, List.length_cons, List.length_nil]
  exact two_shift 63 _ _ (by norm_num)

/-- The subnormal number `2^(EMIN-2)` written with exponent `-(2^31+1)` is read as zero. -/
theorem C35_underflow_refuted :
    exUnder.text .bin = "0.1e-10000000000000000000000000000001".toList ∧
    (let r := parseText (exUnder.text .bin) .bin
     r.mant = [0] ∧ r.e = 0 ∧ r.nan = false ∧ r.inf = false) ∧
    ∃ v : Num, v.WF ∧ v.m.m.length = 1 ∧ (v.toK : ℚ) = exUnder.value .bin := by
  refine ⟨by decide, by decide +kernel, Num.mk EMIN .pos ⟨[2 ^ 62], 63⟩ false, Num.WF_of_check (by decide), rfl, ?_⟩
  have h1 : digNat 2 (digs (exUnder.int ++ exUnder.frac)) = 1 := by decide
  have h2 : exUnder.expVal .bin = -2147483649 := by decide
  have h3 : EMIN = -2147483648 := rfl
  unfold Num.toK Lit.value
  rw [h2, h3, show Radix.num .bin = 2 from rfl, h1]
  simp only [val, exUnder, Lit.sign, Sign.toK, List.length_cons, List.length_nil]
  exact two_shift 62 _ _ (by norm_num)

/-- Zeros after the point stay in front of the digits. -/
theorem C35_leading_zeros_refuted : (parseText "0.01".toList .dec).mant = [0, 1] := by decide

end AF
