import Verif.Props.C62
/-!
# C63: the hyperbolic sine

The full claim: for every number `x`, every precision, every rounding mode and whatever was asked of the cache before,
`sinh` returns `sinh x` correctly rounded, marked inexact unless `x` is zero; the infinity with the sign of `x` if that is
too large.

Proved: the hyperbolic sine of a zero is a zero of the same sign (`C63_zero`); for arguments so small that `sinh x` is
next to `x` the result is correctly rounded in every mode and at every precision (`C63_small`). For other arguments with
`e^|x| ≤ 2^(EMAX-4)` a number returned with a working precision up to `2^21` bits has the sign of `x`, is correctly
rounded in the four directed modes and within the bounds of `FunRounded` in the other modes (`C63_outcome_partial`,
`C63_directed_partial`); it does not depend on the history of the cache or the precision of the argument
(`C63_history_partial`) and grows with the argument (`C63_mono_partial`); the function is odd up to the direction of the
mode (`C63_odd_partial`). The first round of the loop returns such a number in mode `None`, and in the directed modes
unless the 63 bits of `sinh x` after the first `P` are all equal (`C63_number_partial`). Large arguments give the
infinity with their sign (`C63_overflow_partial`).

The claim is false for arguments whose exponential is too large although the hyperbolic sine, half of it, is not: the
result is infinite (`C63_overflow_refuted`). It is false at precisions from `2^32` bits on, where the hyperbolic sine of
every number from 1 on is infinite (`C63_precision`, `C63_precision_refuted`).

Missing: arguments in the two lowest binades and subnormal arguments, results in the top four binades, correct rounding
in the nearest modes, working precisions over `2^21` bits, the end of the loop in the exceptional cases.
-/

namespace AF

/-- The modes toward and away from zero are odd. -/
theorem RoundsFmt.odd {rm : RM} (hd : rm = .toZero ∨ rm = .fromZero) {P : Nat} {x r : ℝ} (h : RoundsFmt rm P x r) :
    RoundsFmt rm P (-x) (-r) := by
  rcases h with ⟨rfl, rfl⟩ | ⟨q, q1, q2, k, k1, k2⟩
  · exact Or.inl ⟨neg_zero, neg_zero⟩
  · refine Or.inr ⟨q, by rwa [abs_neg], by rwa [abs_neg], -k, by rw [k1]; push_cast; ring, ?_⟩
    rcases hd with rfl | rfl <;> · simp only [abs_neg, neg_mul_neg]; exact k2

theorem sinh_sign {x : Num} (h0 : (x.toK : ℚ) ≠ 0) {rm : RM} {P : Nat} {v : Num}
    (h : FunRounded rm P (Real.sinh x.toK) v) : v.s = x.s := by
  have h1 : (x.toK : ℝ) ≠ 0 := by
    rw [← toK_ratCast x]; exact_mod_cast h0
  have h2 : 0 < |(x.toK : ℝ)| := abs_pos.2 h1
  have h3 := Num.toK_eq (K := ℝ) x
  cases hs : x.s with
  | pos => rw [hs, Sign.toK, one_mul] at h3; exact h.pos (Real.sinh_pos_iff.2 (by rw [h3]; exact h2))
  | neg => rw [hs, Sign.toK] at h3; exact h.neg (Real.sinh_neg_iff.2 (by linarith))

/-- The hyperbolic sine of a zero is a zero of the same sign, exactly, in every mode. -/
theorem C63_zero {x : Num} (hx : x.WF) (h0 : (x.toK : ℚ) = 0) {p : Nat} (hp : ValidP p) (rm : RM) (f : Nat)
    (c : ConstCache (Num × Num)) :
    ∃ v, BF.sinhC (.num x) p rm f c = some (.num v, c, 0) ∧ v.WF ∧ 64 * v.m.m.length = precBits p ∧ v.s = x.s ∧
      (v.toK : ℚ) = 0 ∧ v.inexact = x.inexact := by
  have hz := hx.toK_eq_zero.1 h0
  have hp0 := hp.pos
  have hlt := hp.lt
  have hPM : PMAX = 2 ^ 62 - 2 ^ 31 - 1 := rfl
  have hv := zero_WF (p := precBits p) (by unfold wordLen precBits at *; omega) x.s x.inexact
  refine ⟨Num.zero (precBits p) x.s x.inexact, ?_, hv, ?_, rfl, zero_toK _ _ _, rfl⟩
  · unfold BF.sinhC BF.wrapC Num.sinh
    dsimp only
    rw [hp.roundP, if_pos hz]
    unfold Num.new2
    rw [if_neg (by omega)]
    rfl
  · simp only [Num.zero, Mantissa.new, List.length_replicate]
    unfold wordLen precBits
    omega

/-- Next to zero the result is `sinh x` correctly rounded, in every mode and at every precision. -/
theorem C63_small {x : Num} (hx : x.WF) (h0 : (x.toK : ℚ) ≠ 0) (hlo : EMIN + 2 ≤ x.e) {p : Nat} (hp : ValidP p)
    (he : ((max (precBits p) (64 * x.m.m.length) : ℕ) : ℤ) + 1 < -(x.e * 2 - 2)) (rm : RM) (f : Nat) (c : ConstCache (Num × Num)) :
    ∃ v, BF.sinhC (.num x) p rm f c = some (.num v, c, 0) ∧ v.WF ∧ 64 * v.m.m.length = precBits p ∧ v.s = x.s ∧
      v.inexact = true ∧ RoundsFmt rm (precBits p) (Real.sinh x.toK) v.toK := by
  have hz := nz_of_ne hx h0
  have hp0 := hp.pos
  obtain ⟨pw, hpw⟩ : ∃ pw, precBits p = 64 * pw := ⟨(p + 63) / 64, rfl⟩
  have hpw0 : 0 < pw := by unfold precBits at hpw; omega
  have hmb : x.m.maxBitLen = 64 * x.m.m.length := by unfold Mantissa.maxBitLen; omega
  rw [hpw] at he
  obtain ⟨v, v1, v2, v3⟩ := sinh_small hx hz hlo hpw0 (by push_cast at he; omega) rm
  refine ⟨v, ?_, v3.wf, by rw [hpw]; exact v3.prec, sinh_sign h0 v3, v3.inexact, by rw [hpw]; exact v2⟩
  unfold BF.sinhC BF.wrapC Num.sinh
  dsimp only
  rw [hp.roundP, hpw, hmb, if_neg (by simp [hz]), if_pos he, v1]
  rfl

/-- What is returned when `e^|x|` is in range. -/
theorem C63_outcome_partial {x : Num} (hx : x.WF) (h0 : (x.toK : ℚ) ≠ 0) (hlo : EMIN + 2 ≤ x.e)
    (htop : Real.exp |(x.toK : ℝ)| ≤ 2 ^ (EMAX - 4))
    {p : Nat} (hp : ValidP p) (rm : RM) {f : Nat} {c c' : ConstCache (Num × Num)} (hc : HypHist c) {r : BF} {w : Nat}
    (h : BF.sinhC (.num x) p rm f c = some (r, c', w)) (hw : w ≤ 2 ^ 21) :
    ∃ v, r = .num v ∧ v.s = x.s ∧ FunRounded rm (precBits p) (Real.sinh x.toK) v := by
  obtain ⟨r', h1, h2⟩ := wrapC_num h
  obtain ⟨-, v, v1, v2⟩ := sinh_spec hx (nz_of_ne hx h0) hlo htop hp rm hc.ok h1 hw
  refine ⟨v, ?_, sinh_sign h0 v2, v2⟩
  rw [h2, v1]; rfl

/-- In the directed modes it is `sinh x` correctly rounded. -/
theorem C63_directed_partial {x : Num} (hx : x.WF) (h0 : (x.toK : ℚ) ≠ 0) (hlo : EMIN + 2 ≤ x.e)
    (htop : Real.exp |(x.toK : ℝ)| ≤ 2 ^ (EMAX - 4))
    {p : Nat} (hp : ValidP p) {rm : RM} (hd : rm = .up ∨ rm = .down ∨ rm = .toZero ∨ rm = .fromZero) {f : Nat}
    {c c' : ConstCache (Num × Num)} (hc : HypHist c) {r : BF} {w : Nat}
    (h : BF.sinhC (.num x) p rm f c = some (r, c', w)) (hw : w ≤ 2 ^ 21) :
    ∃ v, r = .num v ∧ RoundsFmt rm (precBits p) (Real.sinh x.toK) v.toK ∧ 64 * v.m.m.length = precBits p ∧
      v.inexact = true := by
  obtain ⟨v, v1, -, v2⟩ := C63_outcome_partial hx h0 hlo htop hp rm hc h hw
  exact ⟨v, v1, v2.directed hd, v2.prec, v2.inexact⟩

theorem sinh_normal {x : Num} (hx : x.WF) (h0 : (x.toK : ℚ) ≠ 0) (hlo : EMIN + 2 ≤ x.e) :
    (2 : ℝ) ^ (EMIN - 1) ≤ |Real.sinh (x.toK : ℝ)| := by
  obtain ⟨q, q1, -, q3, -⟩ := hx.mag (K := ℝ) (nz_of_ne hx h0)
  have hqe : q = x.e := by omega
  refine le_trans (le_trans (zpow_le_zpow_right₀ (by norm_num) (by omega)) q1) (abs_sinh_bounds _).1

/-- In the directed modes the result depends neither on what the cache was used for before nor on the precision of the
argument. -/
theorem C63_history_partial {x y : Num} (hx : x.WF) (hy : y.WF) (h0 : (x.toK : ℚ) ≠ 0) (hxy : (x.toK : ℚ) = y.toK)
    (hlo : EMIN + 2 ≤ x.e) (hlo' : EMIN + 2 ≤ y.e) (htop : Real.exp |(x.toK : ℝ)| ≤ 2 ^ (EMAX - 4))
    {p : Nat} (hp : ValidP p) {rm : RM} (hd : rm = .up ∨ rm = .down ∨ rm = .toZero ∨ rm = .fromZero) {f₁ f₂ : Nat}
    {c₁ c₂ c₁' c₂' : ConstCache (Num × Num)} (hc₁ : HypHist c₁) (hc₂ : HypHist c₂) {r₁ r₂ : BF} {w₁ w₂ : Nat}
    (h₁ : BF.sinhC (.num x) p rm f₁ c₁ = some (r₁, c₁', w₁)) (h₂ : BF.sinhC (.num y) p rm f₂ c₂ = some (r₂, c₂', w₂))
    (hw₁ : w₁ ≤ 2 ^ 21) (hw₂ : w₂ ≤ 2 ^ 21) : r₁ = r₂ := by
  have hR : (x.toK : ℝ) = y.toK := by
    rw [← toK_ratCast x, ← toK_ratCast y]; exact_mod_cast hxy
  obtain ⟨v, rfl, -, v2⟩ := C63_outcome_partial hx h0 hlo htop hp rm hc₁ h₁ hw₁
  obtain ⟨v', rfl, -, v2'⟩ := C63_outcome_partial hy (by rw [← hxy]; exact h0) hlo' (by rw [← hR]; exact htop) hp rm hc₂ h₂ hw₂
  have hP : 64 ≤ precBits p := by have := hp.pos; unfold precBits; omega
  rw [← hR] at v2'
  rw [v2.unique hd hP (sinh_normal hx h0 hlo) v2']

/-- In the directed modes the function grows with the argument. -/
theorem C63_mono_partial {x y : Num} (hx : x.WF) (hy : y.WF) (hx0 : (x.toK : ℚ) ≠ 0) (hy0 : (y.toK : ℚ) ≠ 0)
    (hlo : EMIN + 2 ≤ x.e) (hlo' : EMIN + 2 ≤ y.e) (htx : Real.exp |(x.toK : ℝ)| ≤ 2 ^ (EMAX - 4))
    (hty : Real.exp |(y.toK : ℝ)| ≤ 2 ^ (EMAX - 4))
    (hxy : (x.toK : ℚ) ≤ y.toK) {p : Nat} (hp : ValidP p) {rm : RM}
    (hd : rm = .up ∨ rm = .down ∨ rm = .toZero ∨ rm = .fromZero) {f₁ f₂ : Nat} {c₁ c₂ c₁' c₂' : ConstCache (Num × Num)}
    (hc₁ : HypHist c₁) (hc₂ : HypHist c₂) {v₁ v₂ : Num} {w₁ w₂ : Nat}
    (h₁ : BF.sinhC (.num x) p rm f₁ c₁ = some (.num v₁, c₁', w₁)) (h₂ : BF.sinhC (.num y) p rm f₂ c₂ = some (.num v₂, c₂', w₂))
    (hw₁ : w₁ ≤ 2 ^ 21) (hw₂ : w₂ ≤ 2 ^ 21) : (v₁.toK : ℚ) ≤ v₂.toK := by
  have hxyR : (x.toK : ℝ) ≤ y.toK := by
    rw [← toK_ratCast x, ← toK_ratCast y]; exact_mod_cast hxy
  obtain ⟨v, e1, v2, -⟩ := C63_directed_partial hx hx0 hlo htx hp hd hc₁ h₁ hw₁
  obtain ⟨v', e2, v2', -⟩ := C63_directed_partial hy hy0 hlo' hty hp hd hc₂ h₂ hw₂
  injection e1 with e1
  injection e2 with e2
  rw [← e1] at v2
  rw [← e2] at v2'
  have hP : 0 < precBits p := by have := hp.pos; unfold precBits; omega
  have := v2.mono hP v2' (Real.sinh_le_sinh.2 hxyR)
  rw [← toK_ratCast v₁, ← toK_ratCast v₂] at this
  exact_mod_cast this

/-- The hyperbolic sine is odd in the modes toward and away from zero. -/
theorem C63_odd_partial {x y : Num} (hx : x.WF) (hy : y.WF) (h0 : (x.toK : ℚ) ≠ 0) (hxy : (y.toK : ℚ) = -x.toK)
    (hlo : EMIN + 2 ≤ x.e) (hlo' : EMIN + 2 ≤ y.e) (htop : Real.exp |(x.toK : ℝ)| ≤ 2 ^ (EMAX - 4))
    {p : Nat} (hp : ValidP p) {rm : RM} (hd : rm = .toZero ∨ rm = .fromZero) {f₁ f₂ : Nat}
    {c₁ c₂ c₁' c₂' : ConstCache (Num × Num)} (hc₁ : HypHist c₁) (hc₂ : HypHist c₂) {v₁ v₂ : Num} {w₁ w₂ : Nat}
    (h₁ : BF.sinhC (.num x) p rm f₁ c₁ = some (.num v₁, c₁', w₁)) (h₂ : BF.sinhC (.num y) p rm f₂ c₂ = some (.num v₂, c₂', w₂))
    (hw₁ : w₁ ≤ 2 ^ 21) (hw₂ : w₂ ≤ 2 ^ 21) : (v₂.toK : ℚ) = -v₁.toK := by
  have hR : (y.toK : ℝ) = -x.toK := by
    rw [← toK_ratCast x, ← toK_ratCast y]; exact_mod_cast hxy
  have hd' : rm = .up ∨ rm = .down ∨ rm = .toZero ∨ rm = .fromZero := Or.inr (Or.inr hd)
  have hy0 : (y.toK : ℚ) ≠ 0 := by rw [hxy]; simpa using h0
  obtain ⟨v, e1, v2, -⟩ := C63_directed_partial hx h0 hlo htop hp hd' hc₁ h₁ hw₁
  obtain ⟨v', e2, v2', -⟩ := C63_directed_partial hy hy0 hlo' (by rw [hR, abs_neg]; exact htop) hp hd' hc₂ h₂ hw₂
  injection e1 with e1
  injection e2 with e2
  rw [← e1] at v2
  rw [← e2, hR, Real.sinh_neg] at v2'
  have hP : 0 < precBits p := by have := hp.pos; unfold precBits; omega
  have := v2'.unique hP (v2.odd hd)
  rw [← toK_ratCast v₁, ← toK_ratCast v₂] at this
  exact_mod_cast this

/-- The first round returns a number in mode `None`, and in the directed modes unless the digits are exceptional. -/
theorem C63_number_partial {x : Num} (hx : x.WF) (h0 : (x.toK : ℚ) ≠ 0) (hlo : EMIN + 2 ≤ x.e)
    (htop : Real.exp |(x.toK : ℝ)| ≤ 2 ^ (EMAX - 4))
    {p : Nat} (hp : ValidP p) {rm : RM} {c : ConstCache (Num × Num)} (hc : HypHist c)
    (hw : max (precBits p) (64 * x.m.m.length) + 64 ≤ 2 ^ 21)
    (hs : rm = .none ∨ (rm = .up ∨ rm = .down ∨ rm = .toZero ∨ rm = .fromZero) ∧
      ¬ NearGrid (precBits p) 63 |Real.sinh x.toK|) (f : Nat) :
    ∃ v c' w, BF.sinhC (.num x) p rm (f + 1) c = some (.num v, c', w) ∧ w ≤ 2 ^ 21 := by
  have hz := nz_of_ne hx h0
  obtain ⟨r, c', w, h1, h2⟩ := sinh_number (f := f) hx hz hlo htop hp hc.ok hw (by
    rcases hs with h | ⟨h, h'⟩
    · exact Or.inl h
    · exact Or.inr ⟨by rcases h with rfl | rfl | rfl | rfl <;> rfl, h'⟩)
  obtain ⟨-, v, rfl, -⟩ := sinh_spec hx hz hlo htop hp rm hc.ok h1 h2
  refine ⟨v, c', w, ?_, h2⟩
  unfold BF.sinhC BF.wrapC
  dsimp only
  rw [h1]
  rfl

/-! ## Results out of range -/

/-- Arguments with `e^|x|` well above the largest number: the infinity with the sign of `x`. -/
theorem C63_overflow_partial {x : Num} (hx : x.WF) (hbig : (2 : ℝ) ^ (EMAX + 4) ≤ Real.exp |(x.toK : ℝ)|) {p : Nat}
    (hp : ValidP p) (hw : max (precBits p) (64 * x.m.m.length) + 192 ≤ 2 ^ 22) (rm : RM) (f : Nat)
    {c : ConstCache (Num × Num)} (hc : HypHist c) :
    ∃ c' w, BF.sinhC (.num x) p rm (f + 1) c = some (.inf x.s, c', w) := by
  have hPM : PMAX = 2 ^ 62 - 2 ^ 31 - 1 := rfl
  have h1 := big_abs hbig
  have hz : x.isZero = false := by
    rw [← Bool.not_eq_true, ← hx.toK_eq_zero (K := ℝ), ← abs_eq_zero]
    linarith
  obtain ⟨c', c1, -⟩ := sinh_over hx hz h1 hp rm rfl (by omega)
    (expOver_big hbig (by unfold precBits; omega) (by omega) hc.ok f)
  refine ⟨c', max (precBits p) (64 * x.m.m.length) + 64, ?_⟩
  unfold BF.sinhC BF.wrapC
  dsimp only
  rw [c1]
  cases x.s <;> rfl

/-- From `2^32` bits on the hyperbolic sine of numbers from 1 on is infinite. -/
theorem C63_precision {x : Num} (hx : x.WF) (h1 : 1 ≤ |(x.toK : ℚ)|) (h2 : |(x.toK : ℚ)| < 2 ^ 64) {p : Nat} (hp : 2 ^ 32 ≤ p)
    (hw : max (precBits p) (64 * x.m.m.length) + 256 < PMAX) (rm : RM) (f : Nat) {c : ConstCache (Num × Num)}
    (hc : HypHist c) : ∃ c' w, BF.sinhC (.num x) p rm (f + 1) c = some (.inf x.s, c', w) := by
  have hPM : PMAX = 2 ^ 62 - 2 ^ 31 - 1 := rfl
  have hR : (1 : ℝ) ≤ |(x.toK : ℝ)| := by
    rw [← toK_ratCast x, ← Rat.cast_abs]; exact_mod_cast h1
  have hR2 : |(x.toK : ℝ)| < 2 ^ (64 : ℤ) := by
    rw [← toK_ratCast x, ← Rat.cast_abs]; exact_mod_cast h2
  have hz : x.isZero = false := by
    rw [← Bool.not_eq_true, ← hx.toK_eq_zero (K := ℝ), ← abs_eq_zero]
    linarith
  have hpv : ValidP p := ⟨by omega, by unfold precBits at hw ⊢; omega⟩
  obtain ⟨c', c1, -⟩ := sinh_over hx hz hR hpv rm rfl (by omega)
    (expOver_prec hR hR2 (by unfold precBits; omega) (by unfold precBits; omega) (by omega) hc.ok f)
  refine ⟨c', max (precBits p) (64 * x.m.m.length) + 64, ?_⟩
  unfold BF.sinhC BF.wrapC
  dsimp only
  rw [c1]
  cases x.s <;> rfl

/-- The hyperbolic sine of 1 is not a number at every precision. -/
theorem C63_precision_refuted : ¬ ∀ (p : Nat) (rm : RM) (f : Nat) (c : ConstCache (Num × Num)), ValidP p → HypHist c →
    ∃ v c' w, BF.sinhC (.num Num.ONE) p rm (f + 1) c = some (.num v, c', w) := by
  intro h
  obtain ⟨c, hc, -⟩ := C58_new
  have hp : ValidP (2 ^ 32) := ⟨by norm_num, by decide⟩
  obtain ⟨v, c', w, h1⟩ := h _ .up 0 c hp (.new hc)
  have hone : (Num.ONE.toK : ℚ) = 1 := ONE_toK
  obtain ⟨c'', w', h2⟩ := C63_precision ONE_WF (by rw [hone]; norm_num) (by rw [hone]; norm_num) (le_refl _) (by decide +kernel) .up 0
    (.new hc)
  rw [h1] at h2
  injection h2 with h2
  injection h2 with h2 _
  cases h2

set_option maxRecDepth 100000 in
theorem exTop_sinh : ∃ c c' w, HypHist c ∧ BF.sinhC (.num exTop) 64 .toEven 1 c = some (.inf .pos, c', w) := by
  obtain ⟨c, h1, -⟩ := C58_new
  have h2 : (match eNew with
    | .ok c => match BF.sinhC (.num exTop) 64 .toEven 1 c with
      | some (.inf .pos, _, _) => true
      | _ => false
    | _ => false) = true := by decide +kernel
  rw [h1] at h2
  dsimp only at h2
  cases h3 : BF.sinhC (.num exTop) 64 .toEven 1 c with
  | none => rw [h3] at h2; cases h2
  | some r =>
    obtain ⟨b, c', w⟩ := r
    rw [h3] at h2
    cases b with
    | nan e => cases h2
    | num v => cases h2
    | inf s =>
      cases s with
      | neg => cases h2
      | pos => exact ⟨c, c', w, .new h1, h3⟩

/-- A hyperbolic sine below `0.95 * 2^EMAX` is not always a number. -/
theorem C63_overflow_refuted : ¬ ∀ (x : Num) (p : Nat) (rm : RM) (f : Nat) (c c' : ConstCache (Num × Num)) (r : BF) (w : Nat),
    x.WF → Real.sinh (x.toK : ℝ) ≤ 19 / 20 * 2 ^ EMAX → ValidP p → HypHist c → BF.sinhC (.num x) p rm f c = some (r, c', w) →
    ∃ v, r = .num v := by
  intro h
  obtain ⟨c, c', w, h1, h2⟩ := exTop_sinh
  have hle : Real.sinh (exTop.toK : ℝ) ≤ 19 / 20 * 2 ^ EMAX := by
    have h3 := exp_exTop
    rw [zpow_add₀ (by norm_num), zpow_one] at h3
    have h4 := Real.exp_pos (-(exTop.toK : ℝ))
    have h5 : (2 : ℝ) ^ (10 : ℤ) ≤ 2 ^ EMAX := zpow_le_zpow_right₀ (by norm_num) (by unfold EMAX; norm_num)
    have h6 : (2 : ℝ) ^ (10 : ℤ) = 1024 := by norm_num
    rw [h6] at h5
    rw [Real.sinh_eq]
    obtain ⟨M, hM⟩ : ∃ M : ℝ, M = 2 ^ EMAX := ⟨_, rfl⟩
    rw [← hM] at h3 h5 ⊢
    linarith
  obtain ⟨v, hv⟩ := h _ _ _ _ _ _ _ _ exTop_WF hle ⟨by norm_num, by decide⟩ h1 h2
  cases hv

/-! ## Concrete cases -/

set_option maxRecDepth 100000 in
/-- `sinh(-1/2)` with 64 bits, rounded up, from a new cache: the hypotheses hold and the number is known. -/
example : ∃ c v c' w, HypHist c ∧ exMinusHalf.WF ∧ (exMinusHalf.toK : ℚ) ≠ 0 ∧ EMIN + 2 ≤ exMinusHalf.e ∧
    Real.exp |(exMinusHalf.toK : ℝ)| ≤ 2 ^ (EMAX - 4) ∧ ValidP 64 ∧
    BF.sinhC (.num exMinusHalf) 64 .up 1 c = some (.num v, c', w) ∧ w ≤ 2 ^ 21 ∧
    v.m.m = [9612511738454652497] ∧ v.e = 0 ∧ v.s = .neg ∧ RoundsFmt .up 64 (Real.sinh (-(1 / 2))) v.toK := by
  obtain ⟨c, h1, -⟩ := C58_new
  have hw : exMinusHalf.WF := Num.WF_of_check (by decide +kernel)
  have h0 : (exMinusHalf.toK : ℚ) ≠ 0 := by
    intro h
    have : exMinusHalf.isZero = false := by decide +kernel
    rw [hw.toK_eq_zero.1 h] at this; cases this
  have htop := exMinusHalf_top
  have hp : ValidP 64 := ⟨by norm_num, by decide⟩
  have h2 : (match eNew with
    | .ok c => match BF.sinhC (.num exMinusHalf) 64 .up 1 c with
      | some (.num v, _, w) => v.m.m == [9612511738454652497] && v.e == 0 && v.s == .neg && w == 128
      | _ => false
    | _ => false) = true := by decide +kernel
  rw [h1] at h2
  dsimp only at h2
  cases h3 : BF.sinhC (.num exMinusHalf) 64 .up 1 c with
  | none => rw [h3] at h2; cases h2
  | some r =>
    obtain ⟨b, c', w⟩ := r
    rw [h3] at h2
    cases b with
    | nan e => cases h2
    | inf s => cases h2
    | num v =>
      simp at h2
      obtain ⟨⟨⟨h4, h5⟩, h5'⟩, h6⟩ := h2
      have hr := C63_directed_partial hw h0 (by decide) htop hp (Or.inl rfl) (.new h1) h3 (by omega)
      obtain ⟨v', e1, e2, -⟩ := hr
      injection e1 with e1
      rw [← e1, exMinusHalf_toK] at e2
      exact ⟨c, v, c', w, .new h1, hw, h0, by decide, htop, hp, h3, by omega, h4, h5, h5', e2⟩

set_option maxRecDepth 100000 in
/-- An argument next to zero. -/
example : exNearZero.WF ∧ (exNearZero.toK : ℚ) ≠ 0 ∧ EMIN + 2 ≤ exNearZero.e ∧
    ((max (precBits 64) (64 * exNearZero.m.m.length) : ℕ) : ℤ) + 1 < -(exNearZero.e * 2 - 2) ∧
    ∀ c, BF.sinhC (.num exNearZero) 64 .down 1 c = some (.num ⟨-100, .neg, ⟨[MSB + 1], 64⟩, true⟩, c, 0) := by
  have hw : exNearZero.WF := Num.WF_of_check (by decide +kernel)
  refine ⟨hw, ?_, by decide, by decide +kernel, fun c => ?_⟩
  · intro h
    have : exNearZero.isZero = false := by decide +kernel
    rw [hw.toK_eq_zero.1 h] at this; cases this
  · have h1 : exNearZero.smallExp false 64 .down = .ok ⟨-100, .neg, ⟨[MSB + 1], 64⟩, true⟩ := by decide +kernel
    have h2 : roundP 64 = 64 := by decide +kernel
    unfold BF.sinhC BF.wrapC Num.sinh
    dsimp only
    rw [h2, if_neg (by decide +kernel), if_pos (by decide +kernel), h1]
    rfl

/-- `-2^65` is an argument whose exponential is out of range. -/
example : exFar.WF ∧ (2 : ℝ) ^ (EMAX + 4) ≤ Real.exp |(exFar.toK : ℝ)| ∧ ValidP 64 ∧
    max (precBits 64) (64 * exFar.m.m.length) + 192 ≤ 2 ^ 22 := by
  refine ⟨Num.WF_of_check (by decide +kernel), ?_, ⟨by norm_num, by decide⟩, by decide +kernel⟩
  have h1 : ((EMAX + 4).toNat : ℝ) ≤ |(exFar.toK : ℝ)| := by
    have : (exFar.toK : ℝ) = -2 ^ 65 := by
      unfold Num.toK exFar
      simp only [val, Sign.toK, List.length_cons, List.length_nil, MSB]
      norm_num
    rw [this, abs_neg, abs_of_pos (by norm_num)]
    unfold EMAX
    norm_num
  have h2 := exp_ge_two_pow h1
  have h3 : (((EMAX + 4).toNat : ℕ) : ℤ) = EMAX + 4 := by unfold EMAX; norm_num
  rw [h3] at h2
  exact h2

end AF
