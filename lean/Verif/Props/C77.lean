import Verif.Props.C76
import Verif.Lemmas.SinNum
/-!
# C77: the sine

The full claim: for every number `x`, every precision, every rounding mode and whatever was asked of the cache before, `sin`
returns the sine of `x` correctly rounded, marked inexact unless `x` is zero; at the infinities the result is NaN.

Proved: the values at zeros, NaN and the infinities (`C77_zero`, `C77_nan`, `C77_inf`). Next to zero the result is correctly
rounded in all modes and at every precision (`C77_small`). For the other arguments a result obtained with a working precision
`w` is a number, correctly rounded in the four directed modes and within the bounds of `FunRounded` in the other modes
(`C77_outcome_partial`, `C77_directed_partial`), if `SinOk x w` holds: `|x| <= 3` or `|sin x| >= 2^-65`; `w` and the exponent of
`x` together are at most `2^15 - 192`; and from 4 on, where the argument is reduced with the constant pi (C73), they are together
at most 4092, or the formula of Chudnovsky and Chudnovsky is a hypothesis. The result has the sign of `sin x`, and in the directed
modes it is between -1 and 1 (`C77_bound_partial`), does not depend on the history of the cache or on the precision of the argument
(`C77_history_partial`) and is odd (`C77_odd_partial`). In mode `None` the loop ends and the working precision has a
bound (`C77_number_partial`).

Missing: arguments within `2^-65` of a nonzero multiple of pi, where the precision of the reduced argument has no spare bits
when the working precision is a multiple of 64; arguments in the two lowest binades and subnormal arguments; correct rounding
in the nearest modes; larger working precisions; the end of the loop in the other modes.
-/

namespace AF

/-- The arguments and working precisions for which the sine is covered. -/
structure SinOk (x : Num) (w : Nat) : Prop where
  wf : x.WF
  nz : (x.toK : ℚ) ≠ 0
  lo : EMIN + 2 ≤ x.e
  far : |(x.toK : ℝ)| ≤ 3 ∨ (2 : ℝ) ^ (-65 : ℤ) ≤ |Real.sin x.toK|
  size : (w : ℤ) + max x.e 0 + 192 ≤ 2 ^ 15
  pi : |(x.toK : ℚ)| < 4 ∨ (w : ℤ) + x.e + 4 ≤ 4096 ∨ chudPi = Real.pi

theorem pi_close_of {x : Num} (hx : x.WF) (hz : x.isZero = false) {w : Nat}
    (hcov : |(x.toK : ℚ)| < 4 ∨ (w : ℤ) + x.e + 4 ≤ 4096 ∨ chudPi = Real.pi) :
    2 < x.e → |chudPi - Real.pi| ≤ 2 ^ (-(w : ℤ) - 64 - x.e) := by
  intro h2
  rcases hcov with h | h | h
  · exfalso
    have h3 := e_gt_two hx hz h2
    rw [abs_cast] at h3
    have : (4 : ℚ) ≤ |(x.toK : ℚ)| := by exact_mod_cast h3
    linarith
  · obtain ⟨n, hn⟩ : ∃ n : ℕ, x.e = n := ⟨x.e.toNat, by omega⟩
    refine le_trans (chud_pi_close (P := w + n + 4) (by omega)) (zpow_le_zpow_right₀ (by norm_num) (by push_cast; omega))
  · rw [h, sub_self, abs_zero]; positivity

theorem SinOk.size' {x : Num} {w : Nat} (h : SinOk x w) : w + x.e.toNat + 192 ≤ 2 ^ 15 := by
  have := h.size
  omega

theorem SinOk.spec {x : Num} {w : Nat} (ho : SinOk x w) {p : Nat} (hp : ValidP p) {rm : RM} {f : Nat} {c c' : Num.PiCache}
    (hc : PiOk c) {r : BF} (h : BF.sinC (.num x) p rm f c = some (r, c', w)) :
    PiOk c' ∧ ∃ v, r = .num v ∧ FunRounded rm (precBits p) (Real.sin x.toK) v := by
  obtain ⟨r', h2, h3⟩ := wrapPi_num h
  have hz := nz_of_ne ho.wf ho.nz
  obtain ⟨v0, v, v1, v2⟩ := sin_spec ho.wf hz ho.lo ho.far hp rm hc h2 ho.size' (pi_close_of ho.wf hz ho.pi)
  refine ⟨v0, v, ?_, v2⟩
  rw [h3, v1]; rfl

/-- The caches that exist after `PiCache::new` and any number of calls with valid precisions. -/
inductive SinHist : Num.PiCache → Prop
  | new {c} : piNew = .ok c → SinHist c
  | pi {c c' p rm r} : SinHist c → ValidP p → constPi p rm c = some (r, c') → SinHist c'
  | atan {c c' x p rm f r w} : SinHist c → ValidP p → p ≤ 2 ^ 41 → BF.atanC x p rm f c = some (r, c', w) → w ≤ 2 ^ 40 → SinHist c'
  | asin {c c' x p rm f r w} : SinHist c → ValidP p → p ≤ 2 ^ 41 → BF.asinC x p rm f c = some (r, c', w) → w ≤ 2 ^ 40 → SinHist c'
  | acos {c c' x p rm f r w} : SinHist c → ValidP p → p ≤ 2 ^ 41 → BF.acosC x p rm f c = some (r, c', w) → w ≤ 2 ^ 40 → SinHist c'
  | sin {c c' x p rm f r w} : SinHist c → ValidP p → BF.sinC (.num x) p rm f c = some (r, c', w) → SinOk x w → SinHist c'

theorem SinHist.ok {c : Num.PiCache} (h : SinHist c) : PiOk c := by
  induction h with
  | new h => exact (PiHist.new h).ok
  | pi h hp hc ih => exact constPi_keep hp ih hc
  | atan h hp hp2 hc hw ih => exact atanC_keep hp.pos hp2 ih hc hw
  | asin h hp hp2 hc hw ih => exact asinC_keep hp.pos hp2 ih hc hw
  | acos h hp hp2 hc hw ih => exact acosC_keep ih hc hw
  | sin h hp hc ho ih => exact (ho.spec hp ih hc).1

/-- NaN. -/
theorem C77_nan (e : Option Err) (p : Nat) (rm : RM) (f : Nat) (c : Num.PiCache) : BF.sinC (.nan e) p rm f c = some (.nan e, c, 0) := rfl

/-- The infinities. -/
theorem C77_inf (s : Sign) (p : Nat) (rm : RM) (f : Nat) (c : Num.PiCache) : BF.sinC (.inf s) p rm f c = some (.nan none, c, 0) := rfl

/-- The value at a zero is a zero of the same sign, exactly, in every mode. -/
theorem C77_zero {x : Num} (hx : x.WF) (h0 : (x.toK : ℚ) = 0) {p : Nat} (hp : ValidP p) (rm : RM) (f : Nat) (c : Num.PiCache) :
    ∃ v, BF.sinC (.num x) p rm f c = some (.num v, c, 0) ∧ v.WF ∧ 64 * v.m.m.length = precBits p ∧ v.s = x.s ∧
      (v.toK : ℚ) = 0 ∧ v.inexact = x.inexact := by
  have hz := hx.toK_eq_zero.1 h0
  have hlt := hp.lt
  have hPM : PMAX = 2 ^ 62 - 2 ^ 31 - 1 := rfl
  have hv := zero_WF (p := precBits p) (by unfold wordLen precBits at *; omega) x.s x.inexact
  refine ⟨Num.zero (precBits p) x.s x.inexact, ?_, hv, ?_, rfl, zero_toK _ _ _, rfl⟩
  · unfold BF.sinC BF.wrapPi Num.sin
    dsimp only
    rw [hp.roundP, if_pos hz]
    unfold Num.new2
    rw [if_neg (by omega)]
    rfl
  · simp only [Num.zero, Mantissa.new, List.length_replicate]
    unfold wordLen precBits; omega

/-- Next to zero the result is `sin x` correctly rounded, in every mode and at every precision. -/
theorem C77_small {x : Num} (hx : x.WF) (h0 : (x.toK : ℚ) ≠ 0) (hlo : EMIN + 2 ≤ x.e) {p : Nat} (hp : ValidP p)
    (he : ((max (precBits p) (64 * x.m.m.length) : ℕ) : ℤ) + 1 < -(x.e * 2 - 2)) (rm : RM) (f : Nat) (c : Num.PiCache) :
    ∃ v, BF.sinC (.num x) p rm f c = some (.num v, c, 0) ∧ v.WF ∧ 64 * v.m.m.length = precBits p ∧ v.s = x.s ∧
      v.inexact = true ∧ RoundsFmt rm (precBits p) (Real.sin x.toK) v.toK := by
  have hz := nz_of_ne hx h0
  have hp0 := hp.pos
  have hE : EMIN = -2 ^ 31 := rfl
  obtain ⟨pw, hpw⟩ : ∃ pw, precBits p = 64 * pw := ⟨(p + 63) / 64, rfl⟩
  have hpw0 : 0 < pw := by unfold precBits at hpw; omega
  have hmb : x.m.maxBitLen = 64 * x.m.m.length := by unfold Mantissa.maxBitLen; omega
  rw [hpw] at he
  obtain ⟨v, v1, v2, v3⟩ := sin_small hx hz hlo hpw0 he rm
  have hs : v.s = x.s := by
    obtain ⟨q, q1, q2, q3, -⟩ := hx.mag (K := ℝ) hz
    have hlt1 : |(x.toK : ℝ)| < 1 := lt_of_lt_of_le q2 (zpow_le_one_of_nonpos₀ (by norm_num) (by omega))
    have hgt : 0 < |(x.toK : ℝ)| := lt_of_lt_of_le (by positivity) q1
    have h3 := Real.sin_pos_of_pos_of_lt_pi hgt (by have := Real.pi_gt_three; linarith)
    have h4 := sign_sin x
    cases hs : x.s with
    | pos => rw [hs, Sign.toK, one_mul] at h4; exact v3.pos (by rw [h4]; linarith)
    | neg => rw [hs, Sign.toK] at h4; exact v3.neg (by rw [h4]; linarith)
  refine ⟨v, ?_, v3.wf, by rw [hpw]; exact v3.prec, hs, v3.inexact, by rw [hpw]; exact v2⟩
  unfold BF.sinC BF.wrapPi Num.sin
  dsimp only
  rw [hp.roundP, hpw, hz, if_neg Bool.false_ne_true, hmb, if_pos he, v1]
  rfl

/-- What is returned for the other arguments. -/
theorem C77_outcome_partial {x : Num} {p : Nat} (hp : ValidP p) (rm : RM) {f : Nat} {c c' : Num.PiCache} (hc : SinHist c) {r : BF}
    {w : Nat} (h : BF.sinC (.num x) p rm f c = some (r, c', w)) (ho : SinOk x w) :
    ∃ v, r = .num v ∧ FunRounded rm (precBits p) (Real.sin x.toK) v ∧ (0 < Real.sin x.toK → v.s = .pos) ∧
      (Real.sin x.toK < 0 → v.s = .neg) := by
  obtain ⟨-, v, v1, v2⟩ := ho.spec hp hc.ok h
  exact ⟨v, v1, v2, v2.pos, v2.neg⟩

/-- In the directed modes it is `sin x` correctly rounded. -/
theorem C77_directed_partial {x : Num} {p : Nat} (hp : ValidP p) {rm : RM}
    (hd : rm = .up ∨ rm = .down ∨ rm = .toZero ∨ rm = .fromZero) {f : Nat} {c c' : Num.PiCache} (hc : SinHist c) {r : BF} {w : Nat}
    (h : BF.sinC (.num x) p rm f c = some (r, c', w)) (ho : SinOk x w) :
    ∃ v, r = .num v ∧ RoundsFmt rm (precBits p) (Real.sin x.toK) v.toK ∧ 64 * v.m.m.length = precBits p ∧ v.inexact = true := by
  obtain ⟨v, v1, v2, -⟩ := C77_outcome_partial hp rm hc h ho
  exact ⟨v, v1, v2.directed hd, v2.prec, v2.inexact⟩

theorem sin_ge_emin {x : Num} {w : Nat} (ho : SinOk x w) : (2 : ℝ) ^ (EMIN - 1) ≤ |Real.sin x.toK| := by
  have hlo := ho.lo
  have hE : EMIN = -2 ^ 31 := rfl
  have hz := nz_of_ne ho.wf ho.nz
  obtain ⟨q, q1, -, q3, -⟩ := ho.wf.mag (K := ℝ) hz
  by_cases h1 : x.e ≤ 0
  · have h2 : |(x.toK : ℝ)| ≤ 1 :=
      le_trans (le_of_lt (ho.wf.mag_normal hz (by omega)).2) (zpow_le_one_of_nonpos₀ (by norm_num) h1)
    have h3 := Real.mul_le_sin (abs_nonneg (x.toK : ℝ)) (by have := Real.pi_gt_three; linarith)
    have h4 : |Real.sin x.toK| = Real.sin |(x.toK : ℝ)| :=
      Real.abs_sin_eq_sin_abs_of_abs_le_pi (by have := Real.pi_gt_three; linarith)
    have h5 : (1 : ℝ) / 2 ≤ 2 / Real.pi := by
      rw [div_le_div_iff₀ (by norm_num) Real.pi_pos]; linarith [Real.pi_le_four]
    rw [h4]
    refine le_trans ?_ (le_trans (mul_le_mul h5 q1 (by positivity) (by positivity)) h3)
    rw [show (1 : ℝ) / 2 = 2 ^ (-1 : ℤ) by norm_num, ← zpow_add₀ (by norm_num)]
    exact zpow_le_zpow_right₀ (by norm_num) (by omega)
  · exact le_trans (zpow_le_zpow_right₀ (by norm_num) (by omega)) (SinFar.big ho.wf hz ho.far (by omega))

/-- In the directed modes the result depends neither on what the cache was used for before nor on the precision of the
argument. -/
theorem C77_history_partial {x y : Num} (hxy : (x.toK : ℚ) = y.toK) {p : Nat} (hp : ValidP p) {rm : RM}
    (hd : rm = .up ∨ rm = .down ∨ rm = .toZero ∨ rm = .fromZero) {f₁ f₂ : Nat}
    {c₁ c₂ c₁' c₂' : Num.PiCache} (hc₁ : SinHist c₁) (hc₂ : SinHist c₂) {r₁ r₂ : BF} {w₁ w₂ : Nat}
    (h₁ : BF.sinC (.num x) p rm f₁ c₁ = some (r₁, c₁', w₁)) (h₂ : BF.sinC (.num y) p rm f₂ c₂ = some (r₂, c₂', w₂))
    (ho₁ : SinOk x w₁) (ho₂ : SinOk y w₂) : r₁ = r₂ := by
  have hR : (x.toK : ℝ) = y.toK := by rw [← toK_ratCast x, ← toK_ratCast y, hxy]
  obtain ⟨v, rfl, v2, -⟩ := C77_outcome_partial hp rm hc₁ h₁ ho₁
  obtain ⟨v', rfl, v2', -⟩ := C77_outcome_partial hp rm hc₂ h₂ ho₂
  have hP : 64 ≤ precBits p := by have := hp.pos; unfold precBits; omega
  rw [← hR] at v2'
  rw [v2.unique hd hP (sin_ge_emin ho₁) v2']

/-- One and minus one are on the grid of every precision. -/
theorem roundsFmt_unit (rm : RM) {P : Nat} (hP : 0 < P) : RoundsFmt rm P (1 : ℝ) 1 := by
  refine Or.inr ⟨1, by norm_num, by norm_num, ?_⟩
  have hm : max (1 : ℤ) EMIN = 1 := by unfold EMIN; omega
  rw [hm]
  have hu : (0 : ℝ) < 2 ^ ((1 : ℤ) - P) := by positivity
  refine ⟨2 ^ (P - 1), ?_, ?_⟩
  · push_cast
    rw [← zpow_natCast, ← zpow_add₀ (by norm_num), show (((P - 1 : ℕ) : ℤ) + (1 - (P : ℤ))) = 0 by omega, zpow_zero]
  · cases rm <;> simp [hu]
    all_goals exact ⟨by linarith, fun h => absurd h (by linarith)⟩

/-- In the directed modes the result is between -1 and 1. -/
theorem C77_bound_partial {x : Num} {p : Nat} (hp : ValidP p) {rm : RM}
    (hd : rm = .up ∨ rm = .down ∨ rm = .toZero ∨ rm = .fromZero) {f : Nat} {c c' : Num.PiCache} (hc : SinHist c) {v : Num} {w : Nat}
    (h : BF.sinC (.num x) p rm f c = some (.num v, c', w)) (ho : SinOk x w) : |(v.toK : ℚ)| ≤ 1 := by
  obtain ⟨v', e, v2, -⟩ := C77_directed_partial hp hd hc h ho
  injection e with e
  rw [← e] at v2
  have hP : 0 < precBits p := by have := hp.pos; unfold precBits; omega
  have a1 := v2.mono hP (roundsFmt_unit rm hP) (Real.sin_le_one _)
  have a3 := (roundsFmt_unit (invertRm rm) hP).neg
  have a2 := a3.mono hP v2 (Real.neg_one_le_sin _)
  have : |(v.toK : ℝ)| ≤ 1 := abs_le.2 ⟨a2, a1⟩
  rw [abs_cast] at this
  exact_mod_cast this

/-- The function is odd: `sin(-x)` rounded in one of the directed modes is `-sin(x)` rounded in the mirrored mode. -/
theorem C77_odd_partial {x y : Num} (hxy : (y.toK : ℚ) = -x.toK)
    {p : Nat} (hp : ValidP p) {rm : RM} (hd : rm = .up ∨ rm = .down ∨ rm = .toZero ∨ rm = .fromZero) {f₁ f₂ : Nat}
    {c₁ c₂ c₁' c₂' : Num.PiCache} (hc₁ : SinHist c₁) (hc₂ : SinHist c₂) {v₁ v₂ : Num} {w₁ w₂ : Nat}
    (h₁ : BF.sinC (.num x) p rm.mirror f₁ c₁ = some (.num v₁, c₁', w₁))
    (h₂ : BF.sinC (.num y) p rm f₂ c₂ = some (.num v₂, c₂', w₂))
    (ho₁ : SinOk x w₁) (ho₂ : SinOk y w₂) : (v₂.toK : ℚ) = -v₁.toK := by
  have hR : (y.toK : ℝ) = -x.toK := by
    rw [← toK_ratCast x, ← toK_ratCast y]; exact_mod_cast hxy
  obtain ⟨v, e1, v2, -⟩ := C77_directed_partial hp (RM.mirror_directed hd) hc₁ h₁ ho₁
  obtain ⟨v', e2, v2', -⟩ := C77_directed_partial hp hd hc₂ h₂ ho₂
  injection e1 with e1
  injection e2 with e2
  rw [← e1, RM.mirror_eq] at v2
  rw [← e2, hR, Real.sin_neg] at v2'
  have hP : 0 < precBits p := by have := hp.pos; unfold precBits; omega
  have := v2'.unique hP v2.neg
  rw [← toK_ratCast v₁, ← toK_ratCast v₂] at this
  exact_mod_cast this

/-- In mode `None` the loop returns a number. -/
theorem C77_number_partial {x : Num} {p : Nat} (hp : ValidP p) {c : Num.PiCache} (hc : SinHist c)
    (ho : SinOk x (2 * max (precBits p) (64 * x.m.m.length) + 208)) (f : Nat) :
    ∃ v c' w, BF.sinC (.num x) p .none (f + 2) c = some (.num v, c', w) ∧ SinOk x w := by
  have hz := nz_of_ne ho.wf ho.nz
  have hsz := ho.size'
  obtain ⟨r, c', w, h2, h3⟩ := sin_number (f := f) ho.wf hz ho.far hp hc.ok (by omega)
    (pi_close_of ho.wf hz (by rcases ho.pi with h | h | h; exacts [Or.inl h, Or.inr (Or.inl (by omega)), Or.inr (Or.inr h)]))
  have ho' : SinOk x w := by
    refine ⟨ho.wf, ho.nz, ho.lo, ho.far, ?_, ?_⟩
    · have := ho.size
      omega
    · rcases ho.pi with h | h | h
      exacts [Or.inl h, Or.inr (Or.inl (by omega)), Or.inr (Or.inr h)]
  obtain ⟨-, v, rfl, -⟩ := sin_spec ho.wf hz ho.lo ho.far hp .none hc.ok h2 ho'.size' (pi_close_of ho.wf hz ho'.pi)
  refine ⟨v, c', w, ?_, ho'⟩
  unfold BF.sinC BF.wrapPi
  dsimp only
  rw [h2]
  rfl

/-! ## Concrete cases -/

/-- The number ten. -/
def exTen : Num := ⟨4, .pos, ⟨[11529215046068469760], 64⟩, false⟩

theorem exTen_WF : exTen.WF := Num.WF_of_check (by decide +kernel)

theorem exTen_toK : (exTen.toK : ℝ) = 10 := by
  unfold Num.toK exTen
  simp [Sign.toK, val]
  norm_num

theorem exTen_toK_rat : (exTen.toK : ℚ) = 10 := by
  unfold Num.toK exTen
  simp [Sign.toK, val]
  norm_num

theorem exTen_ok {w : Nat} (hw : w ≤ 4000) : SinOk exTen w := by
  refine ⟨exTen_WF, by rw [exTen_toK_rat]; norm_num, by decide, Or.inr ?_, ?_, Or.inr (Or.inl ?_)⟩
  · have h1 := Real.pi_gt_d2
    have h2 := Real.pi_lt_d2
    rw [exTen_toK, ← abs_sin_sub_pi 10 3]
    have h3 : |(10 : ℝ) - (3 : ℤ) * Real.pi| ≤ 3 := by rw [abs_le]; push_cast; constructor <;> linarith
    refine le_trans ?_ (sin_lower3 h3)
    have h4 : (1 : ℝ) / 2 ≤ |(10 : ℝ) - (3 : ℤ) * Real.pi| := le_trans (by push_cast; linarith) (le_abs_self _)
    have h5 : (2 : ℝ) ^ (-65 : ℤ) ≤ 1 / 128 := by norm_num
    linarith
  · show (w : ℤ) + max 4 0 + 192 ≤ 2 ^ 15
    omega
  · show (w : ℤ) + 4 + 4 ≤ 4096
    omega

theorem exMinusThreeQuarters_ok {w : Nat} (hw : w ≤ 32576) : SinOk exMinusThreeQuarters w := by
  refine ⟨exMinusThreeQuarters_WF, by rw [exMinusThreeQuarters_toK_rat]; norm_num, by decide, Or.inl ?_, ?_, Or.inl ?_⟩
  · rw [exMinusThreeQuarters_toK, abs_neg, abs_of_pos] <;> norm_num
  · show (w : ℤ) + max 0 0 + 192 ≤ 2 ^ 15
    omega
  · rw [exMinusThreeQuarters_toK_rat, abs_neg, abs_of_pos] <;> norm_num

set_option maxRecDepth 100000 in
/-- `sin(10)` with 64 bits, rounded up, from a new cache: an argument that is reduced. -/
example : ∃ c v c' w, SinHist c ∧ ValidP 64 ∧ BF.sinC (.num exTen) 64 .up 1 c = some (.num v, c', w) ∧ SinOk exTen w ∧
    v.m.m = [10035418203271369422] ∧ v.e = 0 ∧ v.s = .neg ∧ RoundsFmt .up 64 (Real.sin 10) v.toK := by
  obtain ⟨c, h1, -⟩ := C73_new
  have hp : ValidP 64 := ⟨by norm_num, by decide⟩
  have h2 : (match piNew with
    | .ok c => match BF.sinC (.num exTen) 64 .up 1 c with
      | some (.num v, _, w) => v.m.m == [10035418203271369422] && v.e == 0 && v.s == .neg && decide (w ≤ 1000)
      | _ => false
    | _ => false) = true := by decide +kernel
  rw [h1] at h2
  dsimp only at h2
  cases h3 : BF.sinC (.num exTen) 64 .up 1 c with
  | none => rw [h3] at h2; cases h2
  | some r =>
    obtain ⟨b, c', w⟩ := r
    rw [h3] at h2
    cases b with
    | nan e => cases h2
    | inf s => cases h2
    | num v =>
      simp at h2
      obtain ⟨⟨⟨h4, h5⟩, h5'⟩, h6⟩ := h2
      have ho : SinOk exTen w := exTen_ok (by omega)
      obtain ⟨v', e1, e2, -⟩ := C77_directed_partial hp (Or.inl rfl) (.new h1) h3 ho
      injection e1 with e1
      rw [← e1, exTen_toK] at e2
      exact ⟨c, v, c', w, .new h1, hp, h3, ho, h4, h5, h5', e2⟩

set_option maxRecDepth 100000 in
/-- `sin(-3/4)` with 64 bits, rounded up: an argument that is not reduced. -/
example : ∃ c v c' w, SinHist c ∧ ValidP 64 ∧ BF.sinC (.num exMinusThreeQuarters) 64 .up 1 c = some (.num v, c', w) ∧
    SinOk exMinusThreeQuarters w ∧ v.m.m = [12574015756871166765] ∧ v.e = 0 ∧ v.s = .neg ∧
    RoundsFmt .up 64 (Real.sin (-(3 / 4))) v.toK := by
  obtain ⟨c, h1, -⟩ := C73_new
  have hp : ValidP 64 := ⟨by norm_num, by decide⟩
  have h2 : (match piNew with
    | .ok c => match BF.sinC (.num exMinusThreeQuarters) 64 .up 1 c with
      | some (.num v, _, w) => v.m.m == [12574015756871166765] && v.e == 0 && v.s == .neg && decide (w ≤ 1000)
      | _ => false
    | _ => false) = true := by decide +kernel
  rw [h1] at h2
  dsimp only at h2
  cases h3 : BF.sinC (.num exMinusThreeQuarters) 64 .up 1 c with
  | none => rw [h3] at h2; cases h2
  | some r =>
    obtain ⟨b, c', w⟩ := r
    rw [h3] at h2
    cases b with
    | nan e => cases h2
    | inf s => cases h2
    | num v =>
      simp at h2
      obtain ⟨⟨⟨h4, h5⟩, h5'⟩, h6⟩ := h2
      have ho : SinOk exMinusThreeQuarters w := exMinusThreeQuarters_ok (by omega)
      obtain ⟨v', e1, e2, -⟩ := C77_directed_partial hp (Or.inl rfl) (.new h1) h3 ho
      injection e1 with e1
      rw [← e1, exMinusThreeQuarters_toK] at e2
      exact ⟨c, v, c', w, .new h1, hp, h3, ho, h4, h5, h5', e2⟩

set_option maxRecDepth 100000 in
/-- An argument next to zero, and the hypothesis of `C77_number_partial` at 1800 bits for ten. -/
example : exNearZero.WF ∧ EMIN + 2 ≤ exNearZero.e ∧
    ((max (precBits 64) (64 * exNearZero.m.m.length) : ℕ) : ℤ) + 1 < -(exNearZero.e * 2 - 2) ∧
    exNearZero.smallExp true 64 .up = .ok ⟨exNearZero.e - 1, .neg, ⟨[B - 1], 64⟩, true⟩ ∧ exNearZero.m.m = [MSB] ∧
    SinOk exTen (2 * max (precBits 1800) (64 * exTen.m.m.length) + 208) :=
  ⟨Num.WF_of_check (by decide +kernel), by decide, by decide +kernel, by decide +kernel, by decide +kernel, exTen_ok (by decide +kernel)⟩

end AF
