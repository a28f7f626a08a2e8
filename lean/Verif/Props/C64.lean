import Verif.Props.C63
/-!
# C64: the hyperbolic tangent

The full claim: for every number `x`, every precision, every rounding mode and whatever was asked of the cache before,
`tanh` returns `tanh x` correctly rounded, marked inexact unless `x` is zero; `tanh(±Inf) = ±1`.

Proved: the hyperbolic tangent of a zero is a zero of the same sign (`C64_zero`), of an infinity one with its sign
(`C64_inf_partial`, from 8 bits on; `NaN` with fewer, `C64_inf_refuted`); for arguments so small that `tanh x` is next to `x` (`C64_small`) and for those with the largest exponent
(`C64_top`) the result is correctly rounded in every mode. For other arguments, with `e^(2|x|)` not within four binades
of the largest number, a number returned with working precisions up to `2^22` bits has the sign of `x`, is correctly
rounded in the four directed modes and within the bounds of `FunRounded` in the other modes (`C64_outcome_partial`,
`C64_directed_partial`); it does not depend on the history of the cache or the precision of the argument
(`C64_history_partial`), grows with the argument (`C64_mono_partial`) and is at most one in magnitude
(`C64_bound_partial`); the function is odd in the modes toward and away from zero (`C64_odd_partial`). The first round of
the loop returns such a number in mode `None`, and in the directed modes unless the 63 bits of `tanh x` after the first
`P` are all equal, provided that the same holds for the exponential in the working precision (`C64_number_partial`).

The claim is false at precisions from `2^32` bits on: the exponential overflows there and the result is one or the number
next to it for every number of at least one half in magnitude (`C64_precision`, `C64_precision_refuted`).

Missing: arguments in the two lowest binades and subnormal arguments, arguments with an exponential within four binades
of the largest number, correct rounding in the nearest modes, working precisions over `2^22` bits, the end of the loop in
the exceptional cases.
-/

namespace AF

/-- The exponential of `2|x|` is not within four binades of the largest number. -/
def TanhRange (x : Num) : Prop :=
  Real.exp (2 * |(x.toK : ℝ)|) ≤ 2 ^ (EMAX - 4) ∨ 2 ^ (EMAX + 4) ≤ Real.exp (2 * |(x.toK : ℝ)|)

theorem tanh_strictMono : StrictMono Real.tanh := by
  intro a b h
  rw [tanh_sub_one, tanh_sub_one]
  have h1 := Real.exp_pos (2 * a)
  have h2 : Real.exp (2 * a) < Real.exp (2 * b) := Real.exp_lt_exp.2 (by linarith)
  have := div_lt_div_of_pos_left (by norm_num : (0 : ℝ) < 2) (by linarith : 0 < Real.exp (2 * a) + 1) (by linarith : _ < Real.exp (2 * b) + 1)
  linarith

theorem tanh_pos_of {t : ℝ} (h : 0 < t) : 0 < Real.tanh t := by
  rw [← Real.tanh_zero]; exact tanh_strictMono h

theorem tanh_neg_of {t : ℝ} (h : t < 0) : Real.tanh t < 0 := by
  rw [← Real.tanh_zero]; exact tanh_strictMono h

theorem abs_tanh (t : ℝ) : |Real.tanh t| = Real.tanh |t| := by
  rcases le_total 0 t with h | h
  · rw [abs_of_nonneg h, abs_of_nonneg]
    rw [← Real.tanh_zero]; exact tanh_strictMono.monotone h
  · rw [abs_of_nonpos h, Real.tanh_neg, abs_of_nonpos]
    rw [← Real.tanh_zero]; exact tanh_strictMono.monotone h

/-- `|tanh t|` is at least half of `|t|` or a quarter. -/
theorem abs_tanh_ge (t : ℝ) : min (|t| / 2) (1 / 4) ≤ |Real.tanh t| := by
  rw [abs_tanh]
  obtain ⟨s, hs⟩ : ∃ s, s = |t| := ⟨_, rfl⟩
  have h0 : 0 ≤ s := by rw [hs]; exact abs_nonneg t
  rw [← hs]
  have key : ∀ s : ℝ, 0 < s → s ≤ 1 / 2 → s / 2 ≤ Real.tanh s := by
    intro s h0 h1
    have := (tanh_cube h0 h1).2
    nlinarith [mul_pos h0 h0]
  rcases h0.eq_or_lt with h | h
  · rw [← h]; simp
  rcases le_total s (1 / 2) with h1 | h1
  · exact le_trans (min_le_left _ _) (key s h h1)
  · refine le_trans (min_le_right _ _) (le_trans ?_ (tanh_strictMono.monotone h1))
    have := key (1 / 2) (by norm_num) le_rfl
    linarith

theorem tanh_sign {x : Num} (h0 : (x.toK : ℚ) ≠ 0) {rm : RM} {P : Nat} {v : Num}
    (h : FunRounded rm P (Real.tanh x.toK) v) : v.s = x.s := by
  have h1 : (x.toK : ℝ) ≠ 0 := by
    rw [← toK_ratCast x]; exact_mod_cast h0
  have h2 : 0 < |(x.toK : ℝ)| := abs_pos.2 h1
  have h3 := Num.toK_eq (K := ℝ) x
  cases hs : x.s with
  | pos => rw [hs, Sign.toK, one_mul] at h3; exact h.pos (tanh_pos_of (by rw [h3]; exact h2))
  | neg => rw [hs, Sign.toK] at h3; exact h.neg (tanh_neg_of (by linarith))

/-- The hyperbolic tangent of a zero is a zero of the same sign, exactly, in every mode. -/
theorem C64_zero {x : Num} (hx : x.WF) (h0 : (x.toK : ℚ) = 0) {p : Nat} (hp : ValidP p) (rm : RM) (f : Nat)
    (c : ConstCache (Num × Num)) :
    ∃ v, BF.tanhC (.num x) p rm f c = some (.num v, c, 0) ∧ v.WF ∧ 64 * v.m.m.length = precBits p ∧ v.s = x.s ∧
      (v.toK : ℚ) = 0 ∧ v.inexact = x.inexact := by
  have hz := hx.toK_eq_zero.1 h0
  have hp0 := hp.pos
  have hlt := hp.lt
  have hPM : PMAX = 2 ^ 62 - 2 ^ 31 - 1 := rfl
  have hv := zero_WF (p := precBits p) (by unfold wordLen precBits at *; omega) x.s x.inexact
  refine ⟨Num.zero (precBits p) x.s x.inexact, ?_, hv, ?_, rfl, zero_toK _ _ _, rfl⟩
  · unfold BF.tanhC Num.tanh
    dsimp only
    rw [hp.roundP, if_pos hz]
    unfold Num.new2
    rw [if_neg (by omega)]
    rfl
  · simp only [Num.zero, Mantissa.new, List.length_replicate]
    unfold wordLen precBits
    omega

/-- Next to zero the result is `tanh x` correctly rounded, in every mode and at every precision. -/
theorem C64_small {x : Num} (hx : x.WF) (h0 : (x.toK : ℚ) ≠ 0) (hlo : EMIN + 2 ≤ x.e) {p : Nat} (hp : ValidP p)
    (he : ((max (precBits p) (64 * x.m.m.length) : ℕ) : ℤ) + 1 < -(x.e * 2 - 1)) (rm : RM) (f : Nat) (c : ConstCache (Num × Num)) :
    ∃ v, BF.tanhC (.num x) p rm f c = some (.num v, c, 0) ∧ v.WF ∧ 64 * v.m.m.length = precBits p ∧ v.s = x.s ∧
      v.inexact = true ∧ RoundsFmt rm (precBits p) (Real.tanh x.toK) v.toK := by
  have hz := nz_of_ne hx h0
  have hp0 := hp.pos
  obtain ⟨pw, hpw⟩ : ∃ pw, precBits p = 64 * pw := ⟨(p + 63) / 64, rfl⟩
  have hpw0 : 0 < pw := by unfold precBits at hpw; omega
  have hmb : x.m.maxBitLen = 64 * x.m.m.length := by unfold Mantissa.maxBitLen; omega
  rw [hpw] at he
  obtain ⟨v, v1, v2, v3⟩ := tanh_small hx hz hlo hpw0 (by push_cast at he; omega) rm
  refine ⟨v, ?_, v3.wf, by rw [hpw]; exact v3.prec, tanh_sign h0 v3, v3.inexact, by rw [hpw]; exact v2⟩
  unfold BF.tanhC Num.tanh
  dsimp only
  rw [hp.roundP, hpw, hmb, if_neg (by simp [hz]), if_neg (by have hE : EMAX = 2 ^ 31 - 1 := rfl; push_cast at he; omega), if_pos he, v1]
  rfl

/-- What is returned when `e^|x|` is in range. -/
theorem C64_outcome_partial {x : Num} (hx : x.WF) (h0 : (x.toK : ℚ) ≠ 0) (hlo : EMIN + 2 ≤ x.e)
    (htop : TanhRange x)
    {p : Nat} (hp : ValidP p) (hpm : precBits p + 64 < PMAX) (rm : RM) {f : Nat} {c c' : ConstCache (Num × Num)} (hc : HypHist c) {r : BF} {w : Nat}
    (h : BF.tanhC (.num x) p rm f c = some (r, c', w)) (hw : w ≤ 2 ^ 22) :
    ∃ v, r = .num v ∧ v.s = x.s ∧ FunRounded rm (precBits p) (Real.tanh x.toK) v := by
  obtain ⟨r', h1, h2⟩ := tanhC_num h
  obtain ⟨-, v, v1, v2⟩ := tanh_spec hx (nz_of_ne hx h0) hlo htop hp rm hc.ok h1 hw hpm
  refine ⟨v, ?_, tanh_sign h0 v2, v2⟩
  rw [h2, v1]; rfl

/-- In the directed modes it is `tanh x` correctly rounded. -/
theorem C64_directed_partial {x : Num} (hx : x.WF) (h0 : (x.toK : ℚ) ≠ 0) (hlo : EMIN + 2 ≤ x.e)
    (htop : TanhRange x)
    {p : Nat} (hp : ValidP p) (hpm : precBits p + 64 < PMAX) {rm : RM} (hd : rm = .up ∨ rm = .down ∨ rm = .toZero ∨ rm = .fromZero) {f : Nat}
    {c c' : ConstCache (Num × Num)} (hc : HypHist c) {r : BF} {w : Nat}
    (h : BF.tanhC (.num x) p rm f c = some (r, c', w)) (hw : w ≤ 2 ^ 22) :
    ∃ v, r = .num v ∧ RoundsFmt rm (precBits p) (Real.tanh x.toK) v.toK ∧ 64 * v.m.m.length = precBits p ∧
      v.inexact = true := by
  obtain ⟨v, v1, -, v2⟩ := C64_outcome_partial hx h0 hlo htop hp hpm rm hc h hw
  exact ⟨v, v1, v2.directed hd, v2.prec, v2.inexact⟩

theorem tanh_normal {x : Num} (hx : x.WF) (h0 : (x.toK : ℚ) ≠ 0) (hlo : EMIN + 2 ≤ x.e) :
    (2 : ℝ) ^ (EMIN - 1) ≤ |Real.tanh (x.toK : ℝ)| := by
  obtain ⟨q, q1, -, q3, -⟩ := hx.mag (K := ℝ) (nz_of_ne hx h0)
  have hqe : q = x.e := by omega
  refine le_trans (le_min ?_ ?_) (abs_tanh_ge _)
  · have h1 : (2 : ℝ) ^ EMIN ≤ |(x.toK : ℝ)| := le_trans (zpow_le_zpow_right₀ (by norm_num) (by omega)) q1
    rw [zpow_sub₀ (by norm_num), zpow_one]
    linarith
  · rw [show (1 / 4 : ℝ) = 2 ^ (-2 : ℤ) by norm_num]
    exact zpow_le_zpow_right₀ (by norm_num) (by unfold EMIN; norm_num)

/-- In the directed modes the result depends neither on what the cache was used for before nor on the precision of the
argument. -/
theorem C64_history_partial {x y : Num} (hx : x.WF) (hy : y.WF) (h0 : (x.toK : ℚ) ≠ 0) (hxy : (x.toK : ℚ) = y.toK)
    (hlo : EMIN + 2 ≤ x.e) (hlo' : EMIN + 2 ≤ y.e) (htop : TanhRange x)
    {p : Nat} (hp : ValidP p) (hpm : precBits p + 64 < PMAX) {rm : RM} (hd : rm = .up ∨ rm = .down ∨ rm = .toZero ∨ rm = .fromZero) {f₁ f₂ : Nat}
    {c₁ c₂ c₁' c₂' : ConstCache (Num × Num)} (hc₁ : HypHist c₁) (hc₂ : HypHist c₂) {r₁ r₂ : BF} {w₁ w₂ : Nat}
    (h₁ : BF.tanhC (.num x) p rm f₁ c₁ = some (r₁, c₁', w₁)) (h₂ : BF.tanhC (.num y) p rm f₂ c₂ = some (r₂, c₂', w₂))
    (hw₁ : w₁ ≤ 2 ^ 22) (hw₂ : w₂ ≤ 2 ^ 22) : r₁ = r₂ := by
  have hR : (x.toK : ℝ) = y.toK := by
    rw [← toK_ratCast x, ← toK_ratCast y]; exact_mod_cast hxy
  obtain ⟨v, rfl, -, v2⟩ := C64_outcome_partial hx h0 hlo htop hp hpm rm hc₁ h₁ hw₁
  obtain ⟨v', rfl, -, v2'⟩ := C64_outcome_partial hy (by rw [← hxy]; exact h0) hlo' (by unfold TanhRange at htop ⊢; rw [← hR]; exact htop) hp hpm rm hc₂ h₂ hw₂
  have hP : 64 ≤ precBits p := by have := hp.pos; unfold precBits; omega
  rw [← hR] at v2'
  rw [v2.unique hd hP (tanh_normal hx h0 hlo) v2']

/-- In the directed modes the function grows with the argument. -/
theorem C64_mono_partial {x y : Num} (hx : x.WF) (hy : y.WF) (hx0 : (x.toK : ℚ) ≠ 0) (hy0 : (y.toK : ℚ) ≠ 0)
    (hlo : EMIN + 2 ≤ x.e) (hlo' : EMIN + 2 ≤ y.e) (htx : TanhRange x)
    (hty : TanhRange y)
    (hxy : (x.toK : ℚ) ≤ y.toK) {p : Nat} (hp : ValidP p) (hpm : precBits p + 64 < PMAX) {rm : RM}
    (hd : rm = .up ∨ rm = .down ∨ rm = .toZero ∨ rm = .fromZero) {f₁ f₂ : Nat} {c₁ c₂ c₁' c₂' : ConstCache (Num × Num)}
    (hc₁ : HypHist c₁) (hc₂ : HypHist c₂) {v₁ v₂ : Num} {w₁ w₂ : Nat}
    (h₁ : BF.tanhC (.num x) p rm f₁ c₁ = some (.num v₁, c₁', w₁)) (h₂ : BF.tanhC (.num y) p rm f₂ c₂ = some (.num v₂, c₂', w₂))
    (hw₁ : w₁ ≤ 2 ^ 22) (hw₂ : w₂ ≤ 2 ^ 22) : (v₁.toK : ℚ) ≤ v₂.toK := by
  have hxyR : (x.toK : ℝ) ≤ y.toK := by
    rw [← toK_ratCast x, ← toK_ratCast y]; exact_mod_cast hxy
  obtain ⟨v, e1, v2, -⟩ := C64_directed_partial hx hx0 hlo htx hp hpm hd hc₁ h₁ hw₁
  obtain ⟨v', e2, v2', -⟩ := C64_directed_partial hy hy0 hlo' hty hp hpm hd hc₂ h₂ hw₂
  injection e1 with e1
  injection e2 with e2
  rw [← e1] at v2
  rw [← e2] at v2'
  have hP : 0 < precBits p := by have := hp.pos; unfold precBits; omega
  have := v2.mono hP v2' (tanh_strictMono.monotone hxyR)
  rw [← toK_ratCast v₁, ← toK_ratCast v₂] at this
  exact_mod_cast this

/-- The hyperbolic tangent is odd in the modes toward and away from zero. -/
theorem C64_odd_partial {x y : Num} (hx : x.WF) (hy : y.WF) (h0 : (x.toK : ℚ) ≠ 0) (hxy : (y.toK : ℚ) = -x.toK)
    (hlo : EMIN + 2 ≤ x.e) (hlo' : EMIN + 2 ≤ y.e) (htop : TanhRange x)
    {p : Nat} (hp : ValidP p) (hpm : precBits p + 64 < PMAX) {rm : RM} (hd : rm = .toZero ∨ rm = .fromZero) {f₁ f₂ : Nat}
    {c₁ c₂ c₁' c₂' : ConstCache (Num × Num)} (hc₁ : HypHist c₁) (hc₂ : HypHist c₂) {v₁ v₂ : Num} {w₁ w₂ : Nat}
    (h₁ : BF.tanhC (.num x) p rm f₁ c₁ = some (.num v₁, c₁', w₁)) (h₂ : BF.tanhC (.num y) p rm f₂ c₂ = some (.num v₂, c₂', w₂))
    (hw₁ : w₁ ≤ 2 ^ 22) (hw₂ : w₂ ≤ 2 ^ 22) : (v₂.toK : ℚ) = -v₁.toK := by
  have hR : (y.toK : ℝ) = -x.toK := by
    rw [← toK_ratCast x, ← toK_ratCast y]; exact_mod_cast hxy
  have hd' : rm = .up ∨ rm = .down ∨ rm = .toZero ∨ rm = .fromZero := Or.inr (Or.inr hd)
  have hy0 : (y.toK : ℚ) ≠ 0 := by rw [hxy]; simpa using h0
  obtain ⟨v, e1, v2, -⟩ := C64_directed_partial hx h0 hlo htop hp hpm hd' hc₁ h₁ hw₁
  obtain ⟨v', e2, v2', -⟩ := C64_directed_partial hy hy0 hlo' (by unfold TanhRange at htop ⊢; rw [hR, abs_neg]; exact htop) hp hpm hd' hc₂ h₂ hw₂
  injection e1 with e1
  injection e2 with e2
  rw [← e1] at v2
  rw [← e2, hR, Real.tanh_neg] at v2'
  have hP : 0 < precBits p := by have := hp.pos; unfold precBits; omega
  have := v2'.unique hP (v2.odd hd)
  rw [← toK_ratCast v₁, ← toK_ratCast v₂] at this
  exact_mod_cast this

/-- The first round returns a number in mode `None`, and in the directed modes unless the digits are exceptional. -/
theorem C64_number_partial {x : Num} (hx : x.WF) (h0 : (x.toK : ℚ) ≠ 0) (hlo : EMIN + 2 ≤ x.e)
    {p : Nat} (htop : Real.exp (2 * |(x.toK : ℝ)|) ≤ 2 ^ (EMAX - 4) ∧
        ¬ NearGrid (precBits (tanhPrec x (precBits p))) 63 (Real.exp (2 * |(x.toK : ℝ)|)) ∨
      2 ^ (EMAX + 4) ≤ Real.exp (2 * |(x.toK : ℝ)|))
    (hp : ValidP p) {rm : RM} {c : ConstCache (Num × Num)} (hc : HypHist c)
    (hw : max (precBits p) (64 * x.m.m.length) + 64 ≤ 2 ^ 20)
    (hs : rm = .none ∨ (rm = .up ∨ rm = .down ∨ rm = .toZero ∨ rm = .fromZero) ∧
      ¬ NearGrid (precBits p) 63 |Real.tanh x.toK|) (f : Nat) :
    ∃ v c' w, BF.tanhC (.num x) p rm (f + 1) c = some (.num v, c', w) ∧ w ≤ 2 ^ 22 := by
  have hz := nz_of_ne hx h0
  obtain ⟨r, c', w, h1, h2⟩ := tanh_number (f := f) hx hz htop hp hc.ok hw (by
    rcases hs with h | ⟨h, h'⟩
    · exact Or.inl h
    · exact Or.inr ⟨by rcases h with rfl | rfl | rfl | rfl <;> rfl, h'⟩)
  obtain ⟨-, v, rfl, -⟩ := tanh_spec hx hz hlo (htop.imp And.left id) hp rm hc.ok h1 h2 (by have hPM : PMAX = 2 ^ 62 - 2 ^ 31 - 1 := rfl; omega)
  refine ⟨v, c', w, ?_, h2⟩
  unfold BF.tanhC
  dsimp only
  rw [h1]
  rfl

/-! ## Infinite arguments and the largest exponent -/

/-- The hyperbolic tangent of an infinity is one with its sign, exactly, at precisions from 8 bits on. -/
theorem C64_inf_partial (s : Sign) {p : Nat} (hp : ValidP p) (h8 : 8 ≤ p) (rm : RM) (f : Nat) (c : ConstCache (Num × Num)) :
    ∃ v, BF.tanhC (.inf s) p rm f c = some (.num v, c, 0) ∧ v.WF ∧ 64 * v.m.m.length = precBits p ∧
      (v.toK : ℚ) = (if s = .pos then 1 else -1) ∧ v.inexact = false := by
  obtain ⟨v, v1, v2, v3, v4, v5⟩ := fromI_spec (K := ℚ) (sz := 8) (p := p) (i := s.toInt) (by norm_num) (by norm_num)
    (by cases s <;> simp [Sign.toInt]) h8 (by
      have hlt := hp.lt
      have hPM : PMAX = 2 ^ 62 - 2 ^ 31 - 1 := rfl
      unfold precBits at hlt; omega)
  refine ⟨v, ?_, v2, v3, ?_, v5⟩
  · unfold BF.tanhC BF.fromI
    dsimp only
    rw [v1]; rfl
  · rw [v4]; cases s <;> simp [Sign.toInt]

/-- With fewer than 8 bits it is `NaN`. -/
theorem C64_inf_refuted : ¬ ∀ (s : Sign) (p : Nat) (rm : RM) (f : Nat) (c : ConstCache (Num × Num)), ValidP p →
    ∃ v, BF.tanhC (.inf s) p rm f c = some (.num v, c, 0) := by
  intro h
  obtain ⟨c, -, -⟩ := C58_new
  obtain ⟨v, hv⟩ := h .pos 7 .up 1 c ⟨by norm_num, by decide⟩
  have h2 : BF.fromI 8 1 7 = .nan (some .invalidArgument) := by decide +kernel
  have h3 : BF.tanhC (.inf .pos) 7 .up 1 c = some (BF.fromI 8 1 7, c, 0) := rfl
  rw [h3, h2] at hv
  injection hv with hv
  injection hv with hv _
  cases hv

/-- Arguments with the largest exponent. -/
theorem C64_top {x : Num} (hx : x.WF) (h0 : (x.toK : ℚ) ≠ 0) (he : x.e = EMAX) {p : Nat} (hp : ValidP p)
    (hpm : precBits p + 64 < PMAX) (rm : RM) (f : Nat) (c : ConstCache (Num × Num)) :
    ∃ v, BF.tanhC (.num x) p rm f c = some (.num v, c, 0) ∧ v.WF ∧ 64 * v.m.m.length = precBits p ∧ v.s = x.s ∧
      v.inexact = true ∧ RoundsFmt rm (precBits p) (Real.tanh x.toK) v.toK := by
  have hz := nz_of_ne hx h0
  have hp0 := hp.pos
  obtain ⟨pw, hpw⟩ : ∃ pw, precBits p = 64 * pw := ⟨(p + 63) / 64, rfl⟩
  have hpw0 : 0 < pw := by unfold precBits at hpw; omega
  obtain ⟨o, t, v, v1, v2, v3, v4, v5⟩ := tanh_top hx hz he hpw0 (by omega) rm
  refine ⟨v, ?_, v5.wf, by rw [hpw]; exact v5.prec, tanh_sign h0 v5, v5.inexact, by rw [hpw]; exact v4⟩
  unfold BF.tanhC Num.tanh
  dsimp only
  rw [hp.roundP, hpw, if_neg (by simp [hz]), if_pos he, v1]
  dsimp only
  rw [v2]
  dsimp only
  rw [v3]
  rfl

theorem roundsFmt_one {P : Nat} (hP : 0 < P) (rm : RM) : RoundsFmt rm P (1 : ℝ) 1 := by
  refine Or.inr ⟨1, by norm_num, by norm_num, ?_⟩
  have := zpow_grid (K := ℝ) rm (a := 0) (b := max 1 EMIN - (P : ℤ)) (by unfold EMIN; omega)
  rwa [zpow_zero] at this

theorem roundsFmt_neg_one {P : Nat} (hP : 0 < P) (rm : RM) : RoundsFmt rm P (-1 : ℝ) (-1) := by
  refine Or.inr ⟨1, by norm_num, by norm_num, ?_⟩
  have := neg_zpow_grid (K := ℝ) rm (a := 0) (b := max 1 EMIN - (P : ℤ)) (by unfold EMIN; omega)
  rwa [zpow_zero] at this

/-- In the directed modes the result is at most one in magnitude. -/
theorem C64_bound_partial {x : Num} (hx : x.WF) (h0 : (x.toK : ℚ) ≠ 0) (hlo : EMIN + 2 ≤ x.e) (htop : TanhRange x)
    {p : Nat} (hp : ValidP p) (hpm : precBits p + 64 < PMAX) {rm : RM}
    (hd : rm = .up ∨ rm = .down ∨ rm = .toZero ∨ rm = .fromZero) {f : Nat}
    {c c' : ConstCache (Num × Num)} (hc : HypHist c) {v : Num} {w : Nat}
    (h : BF.tanhC (.num x) p rm f c = some (.num v, c', w)) (hw : w ≤ 2 ^ 22) : |(v.toK : ℚ)| ≤ 1 := by
  obtain ⟨v', e1, v2, -⟩ := C64_directed_partial hx h0 hlo htop hp hpm hd hc h hw
  injection e1 with e1
  rw [← e1] at v2
  have hP : 0 < precBits p := by have := hp.pos; unfold precBits; omega
  have h1 := v2.mono hP (roundsFmt_one hP rm) (tanh_lt_one' _).le
  have h2 := (roundsFmt_neg_one hP rm).mono hP v2 (by
    have := tanh_lt_one' (-(x.toK : ℝ))
    rw [Real.tanh_neg] at this
    linarith)
  rw [← toK_ratCast v] at h1 h2
  rw [abs_le]
  constructor
  · exact_mod_cast h2
  · exact_mod_cast h1

/-! ## Large precisions -/

/-- `process_large_exp` returns one or the number next to it. -/
theorem tanhLarge_val {pw : Nat} (hp : 0 < pw) (hpm : 64 * pw < PMAX) (σ : Sign) (rm : RM) :
    ∃ v, Num.tanhLarge σ (64 * pw) rm = .ok v ∧ v.WF ∧ 1 - 2 ^ (-((64 * pw : ℕ) : ℤ)) ≤ σ.toK * (v.toK : ℝ) := by
  have hu : (0 : ℝ) < 2 ^ (-((64 * pw : ℕ) : ℤ)) := by positivity
  have hσ2 : (σ.toK : ℝ) * σ.toK = 1 := by cases σ <;> simp [Sign.toK]
  unfold Num.tanhLarge
  dsimp only
  by_cases hm : rm = .toZero ∨ (σ = .pos ∧ rm = .down) ∨ (σ = .neg ∧ rm = .up)
  · obtain ⟨r, r1, r2, r3, r4, r5⟩ := belowOne_spec hp hpm σ
    rw [if_pos hm, r1]
    refine ⟨_, rfl, setInexact_WF r2 true, ?_⟩
    have e0 : ((({ ((r.setSign σ).setExponent 0) with inexact := true } : Num)).toK : ℝ) = ((r.setSign σ).setExponent 0).toK := rfl
    rw [e0, r5, ← mul_assoc, hσ2, one_mul]
  · obtain ⟨r, r1, r2, r3, r4, -⟩ := fromI_spec (K := ℝ) (sz := 8) (p := 64 * pw) (i := σ.toInt) (by norm_num) (by norm_num)
      (by cases σ <;> simp [Sign.toInt]) (by omega) hpm
    rw [if_neg hm, r1]
    refine ⟨_, rfl, setInexact_WF r2 true, ?_⟩
    have e0 : ((({ r with inexact := true } : Num)).toK : ℝ) = r.toK := rfl
    have hσ : (σ.toInt : ℝ) = σ.toK := by cases σ <;> simp [Sign.toInt, Sign.toK]
    rw [e0, r4, hσ, hσ2]
    linarith

/-- From `2^32` bits on the hyperbolic tangent of numbers from one half on is one or the number next to it. -/
theorem C64_precision {x : Num} (hx : x.WF) (h1 : 1 / 2 ≤ |(x.toK : ℚ)|) (he : x.e ≤ 63) {p : Nat} (hp : 2 ^ 32 ≤ p)
    (hw : max (precBits p) (64 * x.m.m.length) + 256 < PMAX) (rm : RM) (f : Nat) {c : ConstCache (Num × Num)}
    (hc : HypHist c) : ∃ v c' w, BF.tanhC (.num x) p rm (f + 1) c = some (.num v, c', w) ∧
      1 - 2 ^ (-(precBits p : ℤ)) ≤ (if (x.toK : ℚ) < 0 then -(v.toK : ℝ) else v.toK) := by
  have hPM : PMAX = 2 ^ 62 - 2 ^ 31 - 1 := rfl
  have hR : (1 / 2 : ℝ) ≤ |(x.toK : ℝ)| := by
    have h2 : ((1 / 2 : ℚ) : ℝ) ≤ ((|(x.toK : ℚ)| : ℚ) : ℝ) := Rat.cast_le.2 h1
    rw [← toK_ratCast x, ← Rat.cast_abs]
    push_cast at h2 ⊢
    exact h2
  have hz : x.isZero = false := by
    rw [← Bool.not_eq_true, ← hx.toK_eq_zero (K := ℝ), ← abs_eq_zero]
    linarith
  have hpv : ValidP p := ⟨by omega, by unfold precBits at hw ⊢; omega⟩
  have hE : EMIN = -2 ^ 31 := rfl
  have hEX : EMAX = 2 ^ 31 - 1 := rfl
  have hxe : 0 ≤ x.e := by
    have := hx.e_of_abs (k := -1) (by rw [show (2 : ℝ) ^ (-1 : ℤ) = 1 / 2 by norm_num]; exact hR)
    omega
  obtain ⟨pw, hpw⟩ : ∃ pw, precBits p = 64 * pw := ⟨(p + 63) / 64, rfl⟩
  have hp32 : 2 ^ 32 ≤ precBits p := by unfold precBits; omega
  have hmb : x.m.maxBitLen = 64 * x.m.m.length := by unfold Mantissa.maxBitLen; omega
  rw [hpw] at hw hp32 ⊢
  obtain ⟨W, hW⟩ : ∃ W, W = max (64 * pw) (64 * x.m.m.length) + 64 := ⟨_, rfl⟩
  have hi := tanh_init hx hz (by omega) (by omega) (ap := 4) (w := W) (by omega) hc.ok 0
  obtain ⟨y, y1, y2, y3, y4, y5⟩ := setPrecision_extend hi.wf (p := W + 4) (by omega) (by omega) hi.len .none
  rw [hi.sgn] at y5
  rw [hi.val] at y4
  have yz : y.isZero = false := by
    rw [← Bool.not_eq_true, ← y2.toK_eq_zero (K := ℝ), y4]
    linarith
  have yabs : |(y.toK : ℝ)| = 2 * |(x.toK : ℝ)| := by rw [y4, abs_of_pos (by linarith)]
  have hye : y.e ≤ 64 := by
    obtain ⟨q, q1, -, q3, -⟩ := y2.mag (K := ℝ) yz
    obtain ⟨q', -, q2', q3', -⟩ := hx.mag (K := ℝ) hz
    have hq' : q' ≤ 63 := by omega
    have h2 : 2 * |(x.toK : ℝ)| < 2 ^ (q' + 1) := by
      rw [zpow_add₀ (by norm_num), zpow_one]; linarith
    rw [yabs] at q1
    have h3 := (zpow_lt_zpow_iff_right₀ (by norm_num : (1 : ℝ) < 2)).1 (lt_of_le_of_lt q1 h2)
    omega
  obtain ⟨c', c1, -⟩ := exp_over_prec y2 yz y5 hye (by rw [yabs]; linarith) (p := W + 4) (by omega)
    (by rw [y3]; unfold precBits wordLen; omega) .fromZero hc.ok f
  obtain ⟨v, v1, v2, v3⟩ := tanhLarge_val (pw := pw) (by omega) (by omega) x.s rm
  refine ⟨v, c', max W (max 0 (max (precBits (W + 4)) (64 * y.m.m.length) + 64)), ?_, ?_⟩
  rotate_left
  · have hs := Num.toK_eq (K := ℚ) x
    cases hxs : x.s with
    | pos =>
      rw [hxs] at hs v3
      simp only [Sign.toK, one_mul] at hs v3
      rw [if_neg (by rw [hs]; exact not_lt.2 (abs_nonneg _))]
      exact v3
    | neg =>
      rw [hxs] at hs v3
      simp only [Sign.toK, neg_one_mul] at hs v3
      rw [if_pos (by rw [hs]; linarith)]
      exact v3
  · unfold BF.tanhC Num.tanh
    dsimp only
    rw [hpv.roundP, hpw, hmb, if_neg (by simp [hz]), if_neg (by omega), if_neg (by push_cast; omega), if_neg (by omega), ← hW, roundLoop]
    have hst : Num.tanhStep x.s (64 * pw) rm 4 (f + 1) W ((({ x with inexact := false } : Num).setSign .pos).setExponent (x.e + 1), c, 0) =
        some (.ret (.ok v), (y, c', max 0 (max (precBits (W + 4)) (64 * y.m.m.length) + 64))) := by
      unfold Num.tanhStep
      dsimp only
      rw [y1]
      dsimp only
      rw [c1]
      dsimp only
      rw [v1]
    rw [hst]
    rfl

/-- The hyperbolic tangent of 1 is not within a tenth of its value at every precision. -/
theorem C64_precision_refuted : ¬ ∀ (p : Nat) (rm : RM) (f : Nat) (c c' : ConstCache (Num × Num)) (v : Num) (w : Nat), ValidP p →
    HypHist c → BF.tanhC (.num Num.ONE) p rm (f + 1) c = some (.num v, c', w) → |(v.toK : ℝ) - Real.tanh 1| ≤ 1 / 10 := by
  intro h
  obtain ⟨c, hc, -⟩ := C58_new
  have hp : ValidP (2 ^ 32) := ⟨by norm_num, by decide⟩
  have hone : (Num.ONE.toK : ℚ) = 1 := ONE_toK
  obtain ⟨v, c', w, h1, h2⟩ := C64_precision ONE_WF (by rw [hone]; norm_num) (by decide) (le_refl _) (by decide +kernel) .up 0
    (.new hc)
  have h3 := h _ .up 0 c c' v w hp (.new hc) h1
  rw [if_neg (by rw [hone]; norm_num)] at h2
  have h4 : (2 : ℝ) ^ (-(precBits (2 ^ 32) : ℤ)) ≤ 1 / 16 := by
    rw [show (1 / 16 : ℝ) = 2 ^ (-4 : ℤ) by norm_num]
    exact zpow_le_zpow_right₀ (by norm_num) (by unfold precBits; norm_num)
  have h5 : Real.tanh 1 ≤ 4 / 5 := by
    rw [tanh_sub_one]
    have e1 : Real.exp (2 * 1) = Real.exp 1 * Real.exp 1 := by rw [← Real.exp_add]; norm_num
    have e2 := Real.exp_one_lt_d9
    have e3 := Real.exp_pos 1
    have e4 : Real.exp (2 * 1) ≤ 9 := by rw [e1]; nlinarith
    have e5 := Real.exp_pos (2 * 1)
    have : (1 : ℝ) / 5 ≤ 2 / (Real.exp (2 * 1) + 1) := by
      rw [div_le_div_iff₀ (by norm_num) (by linarith)]; linarith
    linarith
  rw [abs_le] at h3
  have h6 : (1 : ℝ) - 1 / 16 ≤ v.toK := le_trans (sub_le_sub_left h4 1) h2
  have h7 := h3.2
  linarith only [h5, h6, h7]

/-! ## Concrete cases -/

theorem exMinusHalf_tanh : TanhRange exMinusHalf := by
  left
  rw [exMinusHalf_toK]
  have h1 : Real.exp (2 * |(-(1 / 2) : ℝ)|) = Real.exp 1 := by
    rw [abs_neg, abs_of_pos (by norm_num)]; norm_num
  have h2 : (2 : ℝ) ^ (2 : ℤ) ≤ 2 ^ (EMAX - 4) := zpow_le_zpow_right₀ (by norm_num) (by unfold EMAX; norm_num)
  have h3 : (2 : ℝ) ^ (2 : ℤ) = 4 := by norm_num
  rw [h1]
  rw [h3] at h2
  linarith [Real.exp_one_lt_d9]

set_option maxRecDepth 100000 in
/-- `tanh(-1/2)` with 64 bits, rounded up, from a new cache: the hypotheses hold and the number is known. -/
example : ∃ c v c' w, HypHist c ∧ exMinusHalf.WF ∧ (exMinusHalf.toK : ℚ) ≠ 0 ∧ EMIN + 2 ≤ exMinusHalf.e ∧
    TanhRange exMinusHalf ∧ ValidP 64 ∧
    BF.tanhC (.num exMinusHalf) 64 .up 1 c = some (.num v, c', w) ∧ w ≤ 2 ^ 22 ∧
    v.m.m = [17049113864091179816] ∧ v.e = -1 ∧ v.s = .neg ∧ RoundsFmt .up 64 (Real.tanh (-(1 / 2))) v.toK := by
  obtain ⟨c, h1, -⟩ := C58_new
  have hw : exMinusHalf.WF := Num.WF_of_check (by decide +kernel)
  have h0 : (exMinusHalf.toK : ℚ) ≠ 0 := by
    intro h
    have : exMinusHalf.isZero = false := by decide +kernel
    rw [hw.toK_eq_zero.1 h] at this; cases this
  have htop := exMinusHalf_tanh
  have hp : ValidP 64 := ⟨by norm_num, by decide⟩
  have h2 : (match eNew with
    | .ok c => match BF.tanhC (.num exMinusHalf) 64 .up 1 c with
      | some (.num v, _, w) => v.m.m == [17049113864091179816] && v.e == -1 && v.s == .neg && w == 256
      | _ => false
    | _ => false) = true := by decide +kernel
  rw [h1] at h2
  dsimp only at h2
  cases h3 : BF.tanhC (.num exMinusHalf) 64 .up 1 c with
  | none => rw [h3] at h2; cases h2
  | some r =>
    obtain ⟨b, c', w⟩ := r
    rw [h3] at h2
    cases b with
    | nan e => cases h2
    | inf s => cases h2
    | num v =>
      simp at h2
      obtain ⟨⟨⟨h4, h5⟩, h5'⟩, h6⟩ := h2
      have hr := C64_directed_partial hw h0 (by decide) htop hp (by decide) (Or.inl rfl) (.new h1) h3 (by omega)
      obtain ⟨v', e1, e2, -⟩ := hr
      injection e1 with e1
      rw [← e1, exMinusHalf_toK] at e2
      exact ⟨c, v, c', w, .new h1, hw, h0, by decide, htop, hp, h3, by omega, h4, h5, h5', e2⟩

set_option maxRecDepth 100000 in
/-- An argument next to zero. -/
example : exNearZero.WF ∧ (exNearZero.toK : ℚ) ≠ 0 ∧ EMIN + 2 ≤ exNearZero.e ∧
    ((max (precBits 64) (64 * exNearZero.m.m.length) : ℕ) : ℤ) + 1 < -(exNearZero.e * 2 - 1) ∧
    ∀ c, BF.tanhC (.num exNearZero) 64 .up 1 c = some (.num ⟨-101, .neg, ⟨[WMAX], 64⟩, true⟩, c, 0) := by
  have hw : exNearZero.WF := Num.WF_of_check (by decide +kernel)
  refine ⟨hw, ?_, by decide, by decide +kernel, fun c => ?_⟩
  · intro h
    have : exNearZero.isZero = false := by decide +kernel
    rw [hw.toK_eq_zero.1 h] at this; cases this
  · have h1 : exNearZero.smallExp true 64 .up = .ok ⟨-101, .neg, ⟨[WMAX], 64⟩, true⟩ := by decide +kernel
    have h2 : roundP 64 = 64 := by decide +kernel
    unfold BF.tanhC Num.tanh
    dsimp only
    rw [h2, if_neg (by decide +kernel), if_neg (by decide +kernel), if_pos (by decide +kernel), h1]
    rfl

end AF
