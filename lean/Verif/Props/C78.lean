import Verif.Props.C77
import Verif.Lemmas.CosFun
/-!
# C78: the cosine

The full claim: for every number `x`, every precision, every rounding mode and whatever was asked of the cache before, `cos`
returns the cosine of `x` correctly rounded, marked inexact unless `x` is zero; at the infinities the result is NaN.

Proved: the values at zeros, NaN and the infinities (`C78_zero`, `C78_nan`, `C78_inf`). Next to zero, subnormal arguments
included, the result is correctly rounded in all modes and at every precision (`C78_small`). For the other arguments a result
obtained with a working precision `w` is a number, correctly rounded in the four directed modes and within the bounds of
`FunRounded` in the other modes (`C78_outcome_partial`, `C78_directed_partial`), if `CosOk x w` holds: `|cos x| >= 2^-58`;
`|x| <= 3` or `|sin x| >= 2^-58`; `w` and the exponent of `x` together are at most `2^15 - 192`; `w` is at most 3264 or
the exponent of `x` is at least -284; and from 4 on, where the argument is reduced with the constant pi (C73), `w` and the exponent are
together at most 4092, or the formula of Chudnovsky and Chudnovsky is a hypothesis. The result has the sign of `cos x`, and in
the directed modes it is between -1 and 1 (`C78_bound_partial`), does not depend on the history of the cache or on the precision of
the argument (`C78_history_partial`) and is even (`C78_even_partial`). In mode `None` the loop ends after its first round
(`C78_number_partial`).

Missing: arguments within `2^-58` of a nonzero multiple of half pi; small arguments at high precision: every doubling of the
argument makes the error four times as large, and the extra precision `6 n + 6 - e_eff` that `cos_series` uses for `n` doublings can
be less than the `2 n` bits needed, so that the spare bits of the working precision have to cover the difference, which grows
with the precision; correct rounding in the nearest modes; larger working precisions; the end of the loop in the other modes.
-/

namespace AF

/-- The arguments and working precisions for which the cosine is covered. -/
structure CosOk (x : Num) (w : Nat) : Prop where
  wf : x.WF
  nz : (x.toK : ℚ) ≠ 0
  far : (2 : ℝ) ^ (-58 : ℤ) ≤ |Real.cos x.toK|
  far' : |(x.toK : ℝ)| ≤ 3 ∨ (2 : ℝ) ^ (-58 : ℤ) ≤ |Real.sin x.toK|
  size : (w : ℤ) + max x.e 0 + 192 ≤ 2 ^ 15
  tiny : -284 ≤ x.e ∨ w ≤ 3264
  pi : |(x.toK : ℚ)| < 4 ∨ (w : ℤ) + x.e + 4 ≤ 4096 ∨ chudPi = Real.pi

theorem CosOk.size' {x : Num} {w : Nat} (h : CosOk x w) : w + x.e.toNat + 192 ≤ 2 ^ 15 := by
  have := h.size
  omega

theorem CosOk.spec {x : Num} {w : Nat} (ho : CosOk x w) {p : Nat} (hp : ValidP p) {rm : RM} {f : Nat} {c c' : Num.PiCache}
    (hc : PiOk c) {r : BF} (h : BF.cosC (.num x) p rm f c = some (r, c', w)) :
    PiOk c' ∧ ∃ v, r = .num v ∧ FunRounded rm (precBits p) (Real.cos x.toK) v := by
  obtain ⟨r', h2, h3⟩ := wrapPi_num h
  have hz := nz_of_ne ho.wf ho.nz
  obtain ⟨v0, v, v1, v2⟩ := cos_spec ho.wf hz ⟨ho.far, ho.far'⟩ hp rm hc h2 ho.size' ho.tiny (pi_close_of ho.wf hz ho.pi)
  refine ⟨v0, v, ?_, v2⟩
  rw [h3, v1]; rfl

/-- The caches that exist after `PiCache::new` and any number of calls with valid precisions. -/
inductive CosHist : Num.PiCache → Prop
  | new {c} : piNew = .ok c → CosHist c
  | pi {c c' p rm r} : CosHist c → ValidP p → constPi p rm c = some (r, c') → CosHist c'
  | atan {c c' x p rm f r w} : CosHist c → ValidP p → p ≤ 2 ^ 41 → BF.atanC x p rm f c = some (r, c', w) → w ≤ 2 ^ 40 → CosHist c'
  | asin {c c' x p rm f r w} : CosHist c → ValidP p → p ≤ 2 ^ 41 → BF.asinC x p rm f c = some (r, c', w) → w ≤ 2 ^ 40 → CosHist c'
  | acos {c c' x p rm f r w} : CosHist c → ValidP p → p ≤ 2 ^ 41 → BF.acosC x p rm f c = some (r, c', w) → w ≤ 2 ^ 40 → CosHist c'
  | sin {c c' x p rm f r w} : CosHist c → ValidP p → BF.sinC (.num x) p rm f c = some (r, c', w) → SinOk x w → CosHist c'
  | cos {c c' x p rm f r w} : CosHist c → ValidP p → BF.cosC (.num x) p rm f c = some (r, c', w) → CosOk x w → CosHist c'

theorem CosHist.ok {c : Num.PiCache} (h : CosHist c) : PiOk c := by
  induction h with
  | new h => exact (PiHist.new h).ok
  | pi h hp hc ih => exact constPi_keep hp ih hc
  | atan h hp hp2 hc hw ih => exact atanC_keep hp.pos hp2 ih hc hw
  | asin h hp hp2 hc hw ih => exact asinC_keep hp.pos hp2 ih hc hw
  | acos h hp hp2 hc hw ih => exact acosC_keep ih hc hw
  | sin h hp hc ho ih => exact (ho.spec hp ih hc).1
  | cos h hp hc ho ih => exact (ho.spec hp ih hc).1

/-- NaN. -/
theorem C78_nan (e : Option Err) (p : Nat) (rm : RM) (f : Nat) (c : Num.PiCache) : BF.cosC (.nan e) p rm f c = some (.nan e, c, 0) := rfl

/-- The infinities. -/
theorem C78_inf (s : Sign) (p : Nat) (rm : RM) (f : Nat) (c : Num.PiCache) : BF.cosC (.inf s) p rm f c = some (.nan none, c, 0) := rfl

/-- The value at a zero is one, exactly, in every mode. -/
theorem C78_zero {x : Num} (hx : x.WF) (h0 : (x.toK : ℚ) = 0) {p : Nat} (hp : ValidP p) (rm : RM) (f : Nat) (c : Num.PiCache) :
    ∃ v, BF.cosC (.num x) p rm f c = some (.num v, c, 0) ∧ v.WF ∧ 64 * v.m.m.length = precBits p ∧
      (v.toK : ℚ) = 1 ∧ v.inexact = x.inexact := by
  have hz := hx.toK_eq_zero.1 h0
  have hlt := hp.lt
  have hp0 := hp.pos
  have hpb : precBits (precBits p) = precBits p := by unfold precBits; omega
  obtain ⟨v, v1, v2, v3, v4, -⟩ := fromWord_spec (K := ℚ) (d := 1) (p := precBits p) (by unfold B; norm_num) (by unfold precBits; omega) hlt
  rw [hpb] at v3
  refine ⟨{ v with inexact := x.inexact }, ?_, ⟨v2.wf, v2.bits, v2.emin, v2.emax, v2.norm, v2.sized⟩, v3, ?_, rfl⟩
  · unfold BF.cosC BF.wrapPi Num.cos
    dsimp only
    rw [hp.roundP, if_pos hz, v1]
    rfl
  · rw [show ((({ v with inexact := x.inexact } : Num).toK : ℚ)) = v.toK from rfl, v4, Nat.cast_one]

/-- Next to zero the result is `cos x` correctly rounded, in every mode and at every precision. -/
theorem C78_small {x : Num} (hx : x.WF) (h0 : (x.toK : ℚ) ≠ 0) {p : Nat} (hp : ValidP p)
    (he : ((max (precBits p) (64 * x.m.m.length) : ℕ) : ℤ) + 1 < -(x.e * 2 - 1)) (rm : RM) (f : Nat) (c : Num.PiCache) :
    ∃ v, BF.cosC (.num x) p rm f c = some (.num v, c, 0) ∧ v.WF ∧ 64 * v.m.m.length = precBits p ∧ v.s = .pos ∧
      v.inexact = true ∧ RoundsFmt rm (precBits p) (Real.cos x.toK) v.toK := by
  have hz := nz_of_ne hx h0
  have hp0 := hp.pos
  have hE : EMIN = -2 ^ 31 := rfl
  obtain ⟨pw, hpw⟩ : ∃ pw, precBits p = 64 * pw := ⟨(p + 63) / 64, rfl⟩
  have hpw0 : 0 < pw := by unfold precBits at hpw; omega
  have hmb : x.m.maxBitLen = 64 * x.m.m.length := by unfold Mantissa.maxBitLen; omega
  rw [hpw] at he
  obtain ⟨v, v1, v2, v3⟩ := cos_small hx hz hpw0 he rm
  have hs : v.s = .pos := by
    obtain ⟨q, q1, q2, q3, -⟩ := hx.mag (K := ℝ) hz
    have hlt1 : |(x.toK : ℝ)| ≤ 1 / 2 := by
      refine le_trans q2.le ?_
      rw [show (1 / 2 : ℝ) = 2 ^ (-1 : ℤ) by norm_num]
      exact zpow_le_zpow_right₀ (by norm_num) (by omega)
    exact v3.pos (by have := cos_half_lower hlt1; linarith)
  refine ⟨v, ?_, v3.wf, by rw [hpw]; exact v3.prec, hs, v3.inexact, by rw [hpw]; exact v2⟩
  unfold BF.cosC BF.wrapPi Num.cos
  dsimp only
  rw [hp.roundP, hpw, hz, if_neg Bool.false_ne_true, hmb, if_pos he, v1]
  rfl

/-- What is returned for the other arguments. -/
theorem C78_outcome_partial {x : Num} {p : Nat} (hp : ValidP p) (rm : RM) {f : Nat} {c c' : Num.PiCache} (hc : CosHist c) {r : BF}
    {w : Nat} (h : BF.cosC (.num x) p rm f c = some (r, c', w)) (ho : CosOk x w) :
    ∃ v, r = .num v ∧ FunRounded rm (precBits p) (Real.cos x.toK) v ∧ (0 < Real.cos x.toK → v.s = .pos) ∧
      (Real.cos x.toK < 0 → v.s = .neg) := by
  obtain ⟨-, v, v1, v2⟩ := ho.spec hp hc.ok h
  exact ⟨v, v1, v2, v2.pos, v2.neg⟩

/-- In the directed modes it is `cos x` correctly rounded. -/
theorem C78_directed_partial {x : Num} {p : Nat} (hp : ValidP p) {rm : RM}
    (hd : rm = .up ∨ rm = .down ∨ rm = .toZero ∨ rm = .fromZero) {f : Nat} {c c' : Num.PiCache} (hc : CosHist c) {r : BF} {w : Nat}
    (h : BF.cosC (.num x) p rm f c = some (r, c', w)) (ho : CosOk x w) :
    ∃ v, r = .num v ∧ RoundsFmt rm (precBits p) (Real.cos x.toK) v.toK ∧ 64 * v.m.m.length = precBits p ∧ v.inexact = true := by
  obtain ⟨v, v1, v2, -⟩ := C78_outcome_partial hp rm hc h ho
  exact ⟨v, v1, v2.directed hd, v2.prec, v2.inexact⟩

theorem cos_ge_emin {x : Num} {w : Nat} (ho : CosOk x w) : (2 : ℝ) ^ (EMIN - 1) ≤ |Real.cos x.toK| :=
  le_trans (zpow_le_zpow_right₀ (by norm_num) (by unfold EMIN; omega)) ho.far

/-- In the directed modes the result depends neither on what the cache was used for before nor on the precision of the
argument. -/
theorem C78_history_partial {x y : Num} (hxy : (x.toK : ℚ) = y.toK) {p : Nat} (hp : ValidP p) {rm : RM}
    (hd : rm = .up ∨ rm = .down ∨ rm = .toZero ∨ rm = .fromZero) {f₁ f₂ : Nat}
    {c₁ c₂ c₁' c₂' : Num.PiCache} (hc₁ : CosHist c₁) (hc₂ : CosHist c₂) {r₁ r₂ : BF} {w₁ w₂ : Nat}
    (h₁ : BF.cosC (.num x) p rm f₁ c₁ = some (r₁, c₁', w₁)) (h₂ : BF.cosC (.num y) p rm f₂ c₂ = some (r₂, c₂', w₂))
    (ho₁ : CosOk x w₁) (ho₂ : CosOk y w₂) : r₁ = r₂ := by
  have hR : (x.toK : ℝ) = y.toK := by rw [← toK_ratCast x, ← toK_ratCast y, hxy]
  obtain ⟨v, rfl, v2, -⟩ := C78_outcome_partial hp rm hc₁ h₁ ho₁
  obtain ⟨v', rfl, v2', -⟩ := C78_outcome_partial hp rm hc₂ h₂ ho₂
  have hP : 64 ≤ precBits p := by have := hp.pos; unfold precBits; omega
  rw [← hR] at v2'
  rw [v2.unique hd hP (cos_ge_emin ho₁) v2']

/-- In the directed modes the result is between -1 and 1. -/
theorem C78_bound_partial {x : Num} {p : Nat} (hp : ValidP p) {rm : RM}
    (hd : rm = .up ∨ rm = .down ∨ rm = .toZero ∨ rm = .fromZero) {f : Nat} {c c' : Num.PiCache} (hc : CosHist c) {v : Num} {w : Nat}
    (h : BF.cosC (.num x) p rm f c = some (.num v, c', w)) (ho : CosOk x w) : |(v.toK : ℚ)| ≤ 1 := by
  obtain ⟨v', e, v2, -⟩ := C78_directed_partial hp hd hc h ho
  injection e with e
  rw [← e] at v2
  have hP : 0 < precBits p := by have := hp.pos; unfold precBits; omega
  have a1 := v2.mono hP (roundsFmt_unit rm hP) (Real.cos_le_one _)
  have a3 := (roundsFmt_unit (invertRm rm) hP).neg
  have a2 := a3.mono hP v2 (Real.neg_one_le_cos _)
  have : |(v.toK : ℝ)| ≤ 1 := abs_le.2 ⟨a2, a1⟩
  rw [abs_cast] at this
  exact_mod_cast this

/-- The function is even: `cos(-x)` is `cos(x)` rounded in the same directed mode. -/
theorem C78_even_partial {x y : Num} (hxy : (y.toK : ℚ) = -x.toK)
    {p : Nat} (hp : ValidP p) {rm : RM} (hd : rm = .up ∨ rm = .down ∨ rm = .toZero ∨ rm = .fromZero) {f₁ f₂ : Nat}
    {c₁ c₂ c₁' c₂' : Num.PiCache} (hc₁ : CosHist c₁) (hc₂ : CosHist c₂) {r₁ r₂ : BF} {w₁ w₂ : Nat}
    (h₁ : BF.cosC (.num x) p rm f₁ c₁ = some (r₁, c₁', w₁)) (h₂ : BF.cosC (.num y) p rm f₂ c₂ = some (r₂, c₂', w₂))
    (ho₁ : CosOk x w₁) (ho₂ : CosOk y w₂) : r₁ = r₂ := by
  have hR : (y.toK : ℝ) = -x.toK := by
    rw [← toK_ratCast x, ← toK_ratCast y]; exact_mod_cast hxy
  obtain ⟨v, rfl, v2, -⟩ := C78_outcome_partial hp rm hc₁ h₁ ho₁
  obtain ⟨v', rfl, v2', -⟩ := C78_outcome_partial hp rm hc₂ h₂ ho₂
  have hP : 64 ≤ precBits p := by have := hp.pos; unfold precBits; omega
  rw [hR, Real.cos_neg] at v2'
  rw [v2.unique hd hP (cos_ge_emin ho₁) v2']

/-- In mode `None` the loop returns a number after its first round. -/
theorem C78_number_partial {x : Num} {p : Nat} (hp : ValidP p) {c : Num.PiCache} (hc : CosHist c)
    (ho : CosOk x (max (precBits p) (64 * x.m.m.length) + 129)) (f : Nat) :
    ∃ v c' w, BF.cosC (.num x) p .none (f + 1) c = some (.num v, c', w) ∧ CosOk x w := by
  have hz := nz_of_ne ho.wf ho.nz
  have hsz := ho.size'
  obtain ⟨r, c', w, h2, h3⟩ := cos_number (f := f) ho.wf hz ⟨ho.far, ho.far'⟩ hp hc.ok hsz ho.tiny (pi_close_of ho.wf hz ho.pi)
  have ho' : CosOk x w := by
    refine ⟨ho.wf, ho.nz, ho.far, ho.far', ?_, ?_, ?_⟩
    · have := ho.size
      omega
    · have := ho.tiny
      omega
    · rcases ho.pi with h | h | h
      exacts [Or.inl h, Or.inr (Or.inl (by omega)), Or.inr (Or.inr h)]
  obtain ⟨-, v, rfl, -⟩ := cos_spec ho.wf hz ⟨ho.far, ho.far'⟩ hp .none hc.ok h2 ho'.size' ho'.tiny (pi_close_of ho.wf hz ho'.pi)
  refine ⟨v, c', w, ?_, ho'⟩
  unfold BF.cosC BF.wrapPi
  dsimp only
  rw [h2]
  rfl

/-! ## Concrete cases -/

theorem exTen_cos {w : Nat} (hw : w ≤ 4000) : CosOk exTen w := by
  have h1 := Real.pi_gt_d2
  have h2 := Real.pi_lt_d2
  have h3 : |(10 : ℝ) - (3 : ℤ) * Real.pi| ≤ 6 / 10 := by rw [abs_le]; push_cast; constructor <;> linarith
  refine ⟨exTen_WF, by rw [exTen_toK_rat]; norm_num, ?_, Or.inr ?_, ?_, Or.inl (by decide), Or.inr (Or.inl ?_)⟩
  · have e : |Real.cos (10 - (3 : ℤ) * Real.pi)| = |Real.cos 10| := by
      rw [Real.cos_sub_int_mul_pi, abs_mul, abs_neg_one_zpow, one_mul]
    rw [exTen_toK, ← e]
    have h4 := Real.one_sub_sq_div_two_le_cos (x := 10 - (3 : ℤ) * Real.pi)
    have h5 : (10 - (3 : ℤ) * Real.pi) ^ 2 ≤ (6 / 10 : ℝ) ^ 2 := by
      rw [← sq_abs]; exact pow_le_pow_left₀ (abs_nonneg _) h3 2
    refine le_trans ?_ (le_abs_self _)
    have h6 : (2 : ℝ) ^ (-58 : ℤ) ≤ 1 / 128 := by norm_num
    have h7 : ((6 : ℝ) / 10) ^ 2 ≤ 1 / 2 := by norm_num
    generalize (2 : ℝ) ^ (-58 : ℤ) = b at *
    have h8 := le_trans h5 h7
    generalize (10 - (3 : ℤ) * Real.pi) ^ 2 = u at h4 h8
    generalize Real.cos (10 - (3 : ℤ) * Real.pi) = v at h4 ⊢
    linarith only [h4, h6, h8]
  · rw [exTen_toK, ← abs_sin_sub_pi 10 3]
    refine le_trans ?_ (sin_lower3 (le_trans h3 (by norm_num)))
    have h4 : (1 : ℝ) / 2 ≤ |(10 : ℝ) - (3 : ℤ) * Real.pi| := le_trans (by push_cast; linarith) (le_abs_self _)
    have h5 : (2 : ℝ) ^ (-58 : ℤ) ≤ 1 / 128 := by norm_num
    generalize (2 : ℝ) ^ (-58 : ℤ) = b at *
    linarith
  · show (w : ℤ) + max 4 0 + 192 ≤ 2 ^ 15
    omega
  · show (w : ℤ) + 4 + 4 ≤ 4096
    omega

theorem exMinusThreeQuarters_cos {w : Nat} (hw : w ≤ 32576) : CosOk exMinusThreeQuarters w := by
  refine ⟨exMinusThreeQuarters_WF, by rw [exMinusThreeQuarters_toK_rat]; norm_num, ?_, Or.inl ?_, ?_, Or.inl (by decide), Or.inl ?_⟩
  · rw [exMinusThreeQuarters_toK]
    have h4 := Real.one_sub_sq_div_two_le_cos (x := -(3 / 4))
    refine le_trans ?_ (le_abs_self _)
    have h6 : (2 : ℝ) ^ (-58 : ℤ) ≤ 1 / 128 := by norm_num
    generalize (2 : ℝ) ^ (-58 : ℤ) = b at *
    norm_num at h4 ⊢
    linarith
  · rw [exMinusThreeQuarters_toK, abs_neg, abs_of_pos] <;> norm_num
  · show (w : ℤ) + max 0 0 + 192 ≤ 2 ^ 15
    omega
  · rw [exMinusThreeQuarters_toK_rat, abs_neg, abs_of_pos] <;> norm_num

set_option maxRecDepth 100000 in
/-- `cos(10)` with 64 bits, rounded up, from a new cache: an argument that is reduced. -/
example : ∃ c v c' w, CosHist c ∧ ValidP 64 ∧ BF.cosC (.num exTen) 64 .up 1 c = some (.num v, c', w) ∧ CosOk exTen w ∧
    v.m.m = [15478137756409460996] ∧ v.e = 0 ∧ v.s = .neg ∧ RoundsFmt .up 64 (Real.cos 10) v.toK := by
  obtain ⟨c, h1, -⟩ := C73_new
  have hp : ValidP 64 := ⟨by norm_num, by decide⟩
  have h2 : (match piNew with
    | .ok c => match BF.cosC (.num exTen) 64 .up 1 c with
      | some (.num v, _, w) => v.m.m == [15478137756409460996] && v.e == 0 && v.s == .neg && decide (w ≤ 1000)
      | _ => false
    | _ => false) = true := by decide +kernel
  rw [h1] at h2
  dsimp only at h2
  cases h3 : BF.cosC (.num exTen) 64 .up 1 c with
  | none => rw [h3] at h2; cases h2
  | some r =>
    obtain ⟨b, c', w⟩ := r
    rw [h3] at h2
    cases b with
    | nan e => cases h2
    | inf s => cases h2
    | num v =>
      simp at h2
      obtain ⟨⟨⟨h4, h5⟩, h5'⟩, h6⟩ := h2
      have ho : CosOk exTen w := exTen_cos (by omega)
      obtain ⟨v', e1, e2, -⟩ := C78_directed_partial hp (Or.inl rfl) (.new h1) h3 ho
      injection e1 with e1
      rw [← e1, exTen_toK] at e2
      exact ⟨c, v, c', w, .new h1, hp, h3, ho, h4, h5, h5', e2⟩

set_option maxRecDepth 100000 in
/-- `cos(-3/4)` with 64 bits, rounded up: an argument that is not reduced. -/
example : ∃ c v c' w, CosHist c ∧ ValidP 64 ∧ BF.cosC (.num exMinusThreeQuarters) 64 .up 1 c = some (.num v, c', w) ∧
    CosOk exMinusThreeQuarters w ∧ v.m.m = [13497277305697400639] ∧ v.e = 0 ∧ v.s = .pos ∧
    RoundsFmt .up 64 (Real.cos (-(3 / 4))) v.toK := by
  obtain ⟨c, h1, -⟩ := C73_new
  have hp : ValidP 64 := ⟨by norm_num, by decide⟩
  have h2 : (match piNew with
    | .ok c => match BF.cosC (.num exMinusThreeQuarters) 64 .up 1 c with
      | some (.num v, _, w) => v.m.m == [13497277305697400639] && v.e == 0 && v.s == .pos && decide (w ≤ 1000)
      | _ => false
    | _ => false) = true := by decide +kernel
  rw [h1] at h2
  dsimp only at h2
  cases h3 : BF.cosC (.num exMinusThreeQuarters) 64 .up 1 c with
  | none => rw [h3] at h2; cases h2
  | some r =>
    obtain ⟨b, c', w⟩ := r
    rw [h3] at h2
    cases b with
    | nan e => cases h2
    | inf s => cases h2
    | num v =>
      simp at h2
      obtain ⟨⟨⟨h4, h5⟩, h5'⟩, h6⟩ := h2
      have ho : CosOk exMinusThreeQuarters w := exMinusThreeQuarters_cos (by omega)
      obtain ⟨v', e1, e2, -⟩ := C78_directed_partial hp (Or.inl rfl) (.new h1) h3 ho
      injection e1 with e1
      rw [← e1, exMinusThreeQuarters_toK] at e2
      exact ⟨c, v, c', w, .new h1, hp, h3, ho, h4, h5, h5', e2⟩

set_option maxRecDepth 100000 in
/-- An argument next to zero, and the hypothesis of `C78_number_partial` at 3800 bits for ten. -/
example : exNearZero.WF ∧ ((max (precBits 64) (64 * exNearZero.m.m.length) : ℕ) : ℤ) + 1 < -(exNearZero.e * 2 - 1) ∧
    Num.ONE.smallExp true 64 .down = .ok ⟨0, .pos, ⟨[B - 1], 64⟩, true⟩ ∧
    CosOk exTen (max (precBits 3800) (64 * exTen.m.m.length) + 129) :=
  ⟨Num.WF_of_check (by decide +kernel), by decide +kernel, by decide +kernel, exTen_cos (by decide +kernel)⟩

end AF
