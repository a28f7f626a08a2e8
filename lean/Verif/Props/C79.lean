import Verif.Props.C78
import Verif.Lemmas.TanFun
/-!
# C79: the tangent

The full claim: for every number `x`, every precision, every rounding mode and whatever was asked of the cache before, `tan`
returns the tangent of `x` correctly rounded, marked inexact unless `x` is zero; at the infinities the result is NaN.

Proved: the values at zeros, NaN and the infinities (`C79_zero`, `C79_nan`, `C79_inf`). Next to zero the result is correctly
rounded in all modes and at every precision (`C79_small`). For the other arguments a result obtained with a working precision
`w` is a number, correctly rounded in the four directed modes and within the bounds of `FunRounded` in the other modes
(`C79_outcome_partial`, `C79_directed_partial`), if `TanOk x w` holds: `|cos x| >= 2^-56`; `|x| <= 3` or `|sin x| >= 2^-56`; `w` is
at most 6808; and from 4 on, where the argument is reduced with the constant pi (C73), `w` and the exponent of `x` are together
at most 3308. The result has the sign of `tan x`, and in the directed modes it does not depend on the history of the cache or on the
precision of the argument (`C79_history_partial`) and is odd (`C79_odd_partial`). In mode `None` the loop ends and the working
precision has a bound (`C79_number_partial`).

Missing: arguments within `2^-56` of a nonzero multiple of half pi; arguments in the two lowest binades and subnormal arguments;
correct rounding in the nearest modes; larger working precisions; the end of the loop in the other modes.
-/

namespace AF

/-- The arguments and working precisions for which the tangent is covered. -/
structure TanOk (x : Num) (w : Nat) : Prop where
  wf : x.WF
  nz : (x.toK : ℚ) ≠ 0
  lo : EMIN + 2 ≤ x.e
  far : (2 : ℝ) ^ (-56 : ℤ) ≤ |Real.cos x.toK|
  far' : |(x.toK : ℝ)| ≤ 3 ∨ (2 : ℝ) ^ (-56 : ℤ) ≤ |Real.sin x.toK|
  size : w + 192 ≤ 7000
  size' : |(x.toK : ℚ)| < 4 ∨ (w : ℤ) + x.e + 192 ≤ 3500

theorem TanOk.big {x : Num} {w : Nat} (h : TanOk x w) : 2 < x.e → w + x.e.toNat + 192 ≤ 3500 := by
  intro h2
  rcases h.size' with h3 | h3
  · exfalso
    have h4 := e_gt_two h.wf (nz_of_ne h.wf h.nz) h2
    rw [abs_cast] at h4
    have : (4 : ℚ) ≤ |(x.toK : ℚ)| := by exact_mod_cast h4
    linarith
  · omega

theorem TanOk.close {x : Num} {w : Nat} (h : TanOk x w) : 2 < x.e → |chudPi - Real.pi| ≤ 2 ^ (-(w : ℤ) - 64 - x.e) :=
  pi_close_of h.wf (nz_of_ne h.wf h.nz) (by
    rcases h.size' with h3 | h3
    · exact Or.inl h3
    · exact Or.inr (Or.inl (by omega)))

theorem TanOk.spec {x : Num} {w : Nat} (ho : TanOk x w) {p : Nat} (hp : ValidP p) {rm : RM} {f : Nat} {c c' : Num.PiCache}
    (hc : PiOk c) {r : BF} (h : BF.tanC (.num x) p rm f c = some (r, c', w)) :
    PiOk c' ∧ ∃ v, r = .num v ∧ FunRounded rm (precBits p) (Real.tan x.toK) v := by
  obtain ⟨r', h2, h3⟩ := wrapPi_num h
  have hz := nz_of_ne ho.wf ho.nz
  obtain ⟨v0, v, v1, v2⟩ := tan_spec ho.wf hz ho.lo ⟨ho.far, ho.far'⟩ hp rm hc h2 ho.size ho.big ho.close
  refine ⟨v0, v, ?_, v2⟩
  rw [h3, v1]; rfl

/-- The caches that exist after `PiCache::new` and any number of calls with valid precisions. -/
inductive TanHist : Num.PiCache → Prop
  | new {c} : piNew = .ok c → TanHist c
  | pi {c c' p rm r} : TanHist c → ValidP p → constPi p rm c = some (r, c') → TanHist c'
  | atan {c c' x p rm f r w} : TanHist c → ValidP p → p ≤ 2 ^ 41 → BF.atanC x p rm f c = some (r, c', w) → w ≤ 2 ^ 40 → TanHist c'
  | asin {c c' x p rm f r w} : TanHist c → ValidP p → p ≤ 2 ^ 41 → BF.asinC x p rm f c = some (r, c', w) → w ≤ 2 ^ 40 → TanHist c'
  | acos {c c' x p rm f r w} : TanHist c → ValidP p → p ≤ 2 ^ 41 → BF.acosC x p rm f c = some (r, c', w) → w ≤ 2 ^ 40 → TanHist c'
  | sin {c c' x p rm f r w} : TanHist c → ValidP p → BF.sinC (.num x) p rm f c = some (r, c', w) → SinOk x w → TanHist c'
  | cos {c c' x p rm f r w} : TanHist c → ValidP p → BF.cosC (.num x) p rm f c = some (r, c', w) → CosOk x w → TanHist c'
  | tan {c c' x p rm f r w} : TanHist c → ValidP p → BF.tanC (.num x) p rm f c = some (r, c', w) → TanOk x w → TanHist c'

theorem TanHist.ok {c : Num.PiCache} (h : TanHist c) : PiOk c := by
  induction h with
  | new h => exact (PiHist.new h).ok
  | pi h hp hc ih => exact constPi_keep hp ih hc
  | atan h hp hp2 hc hw ih => exact atanC_keep hp.pos hp2 ih hc hw
  | asin h hp hp2 hc hw ih => exact asinC_keep hp.pos hp2 ih hc hw
  | acos h hp hp2 hc hw ih => exact acosC_keep ih hc hw
  | sin h hp hc ho ih => exact (ho.spec hp ih hc).1
  | cos h hp hc ho ih => exact (ho.spec hp ih hc).1
  | tan h hp hc ho ih => exact (ho.spec hp ih hc).1

/-- NaN. -/
theorem C79_nan (e : Option Err) (p : Nat) (rm : RM) (f : Nat) (c : Num.PiCache) : BF.tanC (.nan e) p rm f c = some (.nan e, c, 0) := rfl

/-- The infinities. -/
theorem C79_inf (s : Sign) (p : Nat) (rm : RM) (f : Nat) (c : Num.PiCache) : BF.tanC (.inf s) p rm f c = some (.nan none, c, 0) := rfl

/-- The value at a zero is a zero of the same sign, exactly, in every mode. -/
theorem C79_zero {x : Num} (hx : x.WF) (h0 : (x.toK : ℚ) = 0) {p : Nat} (hp : ValidP p) (rm : RM) (f : Nat) (c : Num.PiCache) :
    ∃ v, BF.tanC (.num x) p rm f c = some (.num v, c, 0) ∧ v.WF ∧ 64 * v.m.m.length = precBits p ∧ v.s = x.s ∧
      (v.toK : ℚ) = 0 ∧ v.inexact = x.inexact := by
  have hz := hx.toK_eq_zero.1 h0
  have hlt := hp.lt
  have hPM : PMAX = 2 ^ 62 - 2 ^ 31 - 1 := rfl
  have hv := zero_WF (p := precBits p) (by unfold wordLen precBits at *; omega) x.s x.inexact
  refine ⟨Num.zero (precBits p) x.s x.inexact, ?_, hv, ?_, rfl, zero_toK _ _ _, rfl⟩
  · unfold BF.tanC BF.wrapPi Num.tan
    dsimp only
    rw [hp.roundP, if_pos hz]
    unfold Num.new2
    rw [if_neg (by omega)]
    rfl
  · simp only [Num.zero, Mantissa.new, List.length_replicate]
    unfold wordLen precBits; omega

/-- Next to zero the result is `tan x` correctly rounded, in every mode and at every precision. -/
theorem C79_small {x : Num} (hx : x.WF) (h0 : (x.toK : ℚ) ≠ 0) (hlo : EMIN + 2 ≤ x.e) {p : Nat} (hp : ValidP p)
    (he : ((max (precBits p) (64 * x.m.m.length) : ℕ) : ℤ) + 1 < -(x.e * 2 - 1)) (rm : RM) (f : Nat) (c : Num.PiCache) :
    ∃ v, BF.tanC (.num x) p rm f c = some (.num v, c, 0) ∧ v.WF ∧ 64 * v.m.m.length = precBits p ∧ v.s = x.s ∧
      v.inexact = true ∧ RoundsFmt rm (precBits p) (Real.tan x.toK) v.toK := by
  have hz := nz_of_ne hx h0
  have hp0 := hp.pos
  have hE : EMIN = -2 ^ 31 := rfl
  obtain ⟨pw, hpw⟩ : ∃ pw, precBits p = 64 * pw := ⟨(p + 63) / 64, rfl⟩
  have hpw0 : 0 < pw := by unfold precBits at hpw; omega
  have hmb : x.m.maxBitLen = 64 * x.m.m.length := by unfold Mantissa.maxBitLen; omega
  rw [hpw] at he
  obtain ⟨v, v1, v2, v3⟩ := tan_small hx hz hlo hpw0 he rm
  have hs : v.s = x.s := by
    obtain ⟨q, q1, q2, q3, -⟩ := hx.mag (K := ℝ) hz
    have hlt1 : |(x.toK : ℝ)| < 1 := lt_of_lt_of_le q2 (zpow_le_one_of_nonpos₀ (by norm_num) (by omega))
    have hgt : 0 < |(x.toK : ℝ)| := lt_of_lt_of_le (by positivity) q1
    have h3 := Real.tan_pos_of_pos_of_lt_pi_div_two hgt (by have := Real.pi_gt_three; linarith)
    have h4 := sign_tan x
    cases hs : x.s with
    | pos => rw [hs, Sign.toK, one_mul] at h4; exact v3.pos (by rw [h4]; linarith)
    | neg => rw [hs, Sign.toK] at h4; exact v3.neg (by rw [h4]; linarith)
  refine ⟨v, ?_, v3.wf, by rw [hpw]; exact v3.prec, hs, v3.inexact, by rw [hpw]; exact v2⟩
  unfold BF.tanC BF.wrapPi Num.tan
  dsimp only
  rw [hp.roundP, hpw, hz, if_neg Bool.false_ne_true, hmb, if_pos he, v1]
  rfl

/-- What is returned for the other arguments. -/
theorem C79_outcome_partial {x : Num} {p : Nat} (hp : ValidP p) (rm : RM) {f : Nat} {c c' : Num.PiCache} (hc : TanHist c) {r : BF}
    {w : Nat} (h : BF.tanC (.num x) p rm f c = some (r, c', w)) (ho : TanOk x w) :
    ∃ v, r = .num v ∧ FunRounded rm (precBits p) (Real.tan x.toK) v ∧ (0 < Real.tan x.toK → v.s = .pos) ∧
      (Real.tan x.toK < 0 → v.s = .neg) := by
  obtain ⟨-, v, v1, v2⟩ := ho.spec hp hc.ok h
  exact ⟨v, v1, v2, v2.pos, v2.neg⟩

/-- In the directed modes it is `tan x` correctly rounded. -/
theorem C79_directed_partial {x : Num} {p : Nat} (hp : ValidP p) {rm : RM}
    (hd : rm = .up ∨ rm = .down ∨ rm = .toZero ∨ rm = .fromZero) {f : Nat} {c c' : Num.PiCache} (hc : TanHist c) {r : BF} {w : Nat}
    (h : BF.tanC (.num x) p rm f c = some (r, c', w)) (ho : TanOk x w) :
    ∃ v, r = .num v ∧ RoundsFmt rm (precBits p) (Real.tan x.toK) v.toK ∧ 64 * v.m.m.length = precBits p ∧ v.inexact = true := by
  obtain ⟨v, v1, v2, -⟩ := C79_outcome_partial hp rm hc h ho
  exact ⟨v, v1, v2.directed hd, v2.prec, v2.inexact⟩

theorem tan_ge_emin {x : Num} {w : Nat} (ho : TanOk x w) : (2 : ℝ) ^ (EMIN - 1) ≤ |Real.tan x.toK| := by
  have h1 : SinOk x 0 := by
    refine ⟨ho.wf, ho.nz, ho.lo, TanArg.sin ⟨ho.far, ho.far'⟩, ?_, ?_⟩
    · have := ho.big
      omega
    · rcases ho.size' with h3 | h3
      · exact Or.inl h3
      · exact Or.inr (Or.inl (by omega))
  refine le_trans (sin_ge_emin h1) ?_
  rw [Real.tan_eq_sin_div_cos, abs_div]
  exact le_div_self (abs_nonneg _) (lt_of_lt_of_le (by positivity) ho.far) (Real.abs_cos_le_one _)

/-- In the directed modes the result depends neither on what the cache was used for before nor on the precision of the
argument. -/
theorem C79_history_partial {x y : Num} (hxy : (x.toK : ℚ) = y.toK) {p : Nat} (hp : ValidP p) {rm : RM}
    (hd : rm = .up ∨ rm = .down ∨ rm = .toZero ∨ rm = .fromZero) {f₁ f₂ : Nat}
    {c₁ c₂ c₁' c₂' : Num.PiCache} (hc₁ : TanHist c₁) (hc₂ : TanHist c₂) {r₁ r₂ : BF} {w₁ w₂ : Nat}
    (h₁ : BF.tanC (.num x) p rm f₁ c₁ = some (r₁, c₁', w₁)) (h₂ : BF.tanC (.num y) p rm f₂ c₂ = some (r₂, c₂', w₂))
    (ho₁ : TanOk x w₁) (ho₂ : TanOk y w₂) : r₁ = r₂ := by
  have hR : (x.toK : ℝ) = y.toK := by rw [← toK_ratCast x, ← toK_ratCast y, hxy]
  obtain ⟨v, rfl, v2, -⟩ := C79_outcome_partial hp rm hc₁ h₁ ho₁
  obtain ⟨v', rfl, v2', -⟩ := C79_outcome_partial hp rm hc₂ h₂ ho₂
  have hP : 64 ≤ precBits p := by have := hp.pos; unfold precBits; omega
  rw [← hR] at v2'
  rw [v2.unique hd hP (tan_ge_emin ho₁) v2']

/-- The function is odd: `tan(-x)` rounded in one of the directed modes is `-tan(x)` rounded in the mirrored mode. -/
theorem C79_odd_partial {x y : Num} (hxy : (y.toK : ℚ) = -x.toK)
    {p : Nat} (hp : ValidP p) {rm : RM} (hd : rm = .up ∨ rm = .down ∨ rm = .toZero ∨ rm = .fromZero) {f₁ f₂ : Nat}
    {c₁ c₂ c₁' c₂' : Num.PiCache} (hc₁ : TanHist c₁) (hc₂ : TanHist c₂) {v₁ v₂ : Num} {w₁ w₂ : Nat}
    (h₁ : BF.tanC (.num x) p rm.mirror f₁ c₁ = some (.num v₁, c₁', w₁))
    (h₂ : BF.tanC (.num y) p rm f₂ c₂ = some (.num v₂, c₂', w₂))
    (ho₁ : TanOk x w₁) (ho₂ : TanOk y w₂) : (v₂.toK : ℚ) = -v₁.toK := by
  have hR : (y.toK : ℝ) = -x.toK := by
    rw [← toK_ratCast x, ← toK_ratCast y]; exact_mod_cast hxy
  obtain ⟨v, e1, v2, -⟩ := C79_directed_partial hp (RM.mirror_directed hd) hc₁ h₁ ho₁
  obtain ⟨v', e2, v2', -⟩ := C79_directed_partial hp hd hc₂ h₂ ho₂
  injection e1 with e1
  injection e2 with e2
  rw [← e1, RM.mirror_eq] at v2
  rw [← e2, hR, Real.tan_neg] at v2'
  have hP : 0 < precBits p := by have := hp.pos; unfold precBits; omega
  have := v2'.unique hP v2.neg
  rw [← toK_ratCast v₁, ← toK_ratCast v₂] at this
  exact_mod_cast this

/-- In mode `None` the loop returns a number. -/
theorem C79_number_partial {x : Num} {p : Nat} (hp : ValidP p) {c : Num.PiCache} (hc : TanHist c)
    (ho : TanOk x (2 * max (precBits p) (64 * x.m.m.length) + 208)) (f : Nat) :
    ∃ v c' w, BF.tanC (.num x) p .none (f + 2) c = some (.num v, c', w) ∧ TanOk x w := by
  have hz := nz_of_ne ho.wf ho.nz
  have hsz := ho.size
  have hbg := ho.big
  obtain ⟨r, c', w, h2, h3⟩ := tan_number (f := f) ho.wf hz ⟨ho.far, ho.far'⟩ hp hc.ok (by omega) (by omega)
    (fun h => le_trans (ho.close h) (zpow_le_zpow_right₀ (by norm_num) (by push_cast; omega)))
  have ho' : TanOk x w := by
    refine ⟨ho.wf, ho.nz, ho.lo, ho.far, ho.far', by omega, ?_⟩
    rcases ho.size' with h | h
    exacts [Or.inl h, Or.inr (by omega)]
  obtain ⟨-, v, rfl, -⟩ := tan_spec ho.wf hz ho.lo ⟨ho.far, ho.far'⟩ hp .none hc.ok h2 ho'.size ho'.big ho'.close
  refine ⟨v, c', w, ?_, ho'⟩
  unfold BF.tanC BF.wrapPi
  dsimp only
  rw [h2]
  rfl

/-! ## Concrete cases -/

theorem exTen_tan {w : Nat} (hw : w ≤ 3304) : TanOk exTen w := by
  have h1 := Real.pi_gt_d2
  have h2 := Real.pi_lt_d2
  have h3 : |(10 : ℝ) - (3 : ℤ) * Real.pi| ≤ 6 / 10 := by rw [abs_le]; push_cast; constructor <;> linarith
  refine ⟨exTen_WF, by rw [exTen_toK_rat]; norm_num, by decide, ?_, Or.inr ?_, by omega, Or.inr ?_⟩
  · have e : |Real.cos (10 - (3 : ℤ) * Real.pi)| = |Real.cos 10| := by
      rw [Real.cos_sub_int_mul_pi, abs_mul, abs_neg_one_zpow, one_mul]
    rw [exTen_toK, ← e]
    have h4 := Real.one_sub_sq_div_two_le_cos (x := 10 - (3 : ℤ) * Real.pi)
    have h5 : (10 - (3 : ℤ) * Real.pi) ^ 2 ≤ (6 / 10 : ℝ) ^ 2 := by
      rw [← sq_abs]; exact pow_le_pow_left₀ (abs_nonneg _) h3 2
    refine le_trans ?_ (le_abs_self _)
    have h6 : (2 : ℝ) ^ (-56 : ℤ) ≤ 1 / 128 := by norm_num
    have h7 : ((6 : ℝ) / 10) ^ 2 ≤ 1 / 2 := by norm_num
    generalize (2 : ℝ) ^ (-56 : ℤ) = b at *
    have h8 := le_trans h5 h7
    generalize (10 - (3 : ℤ) * Real.pi) ^ 2 = u at h4 h8
    generalize Real.cos (10 - (3 : ℤ) * Real.pi) = v at h4 ⊢
    linarith only [h4, h6, h8]
  · rw [exTen_toK, ← abs_sin_sub_pi 10 3]
    refine le_trans ?_ (sin_lower3 (le_trans h3 (by norm_num)))
    have h4 : (1 : ℝ) / 2 ≤ |(10 : ℝ) - (3 : ℤ) * Real.pi| := le_trans (by push_cast; linarith) (le_abs_self _)
    have h5 : (2 : ℝ) ^ (-56 : ℤ) ≤ 1 / 128 := by norm_num
    generalize (2 : ℝ) ^ (-56 : ℤ) = b at *
    linarith
  · show (w : ℤ) + 4 + 192 ≤ 3500
    omega

theorem exMinusThreeQuarters_tan {w : Nat} (hw : w ≤ 6808) : TanOk exMinusThreeQuarters w := by
  refine ⟨exMinusThreeQuarters_WF, by rw [exMinusThreeQuarters_toK_rat]; norm_num, by decide, ?_, Or.inl ?_, by omega, Or.inl ?_⟩
  · rw [exMinusThreeQuarters_toK]
    have h4 := Real.one_sub_sq_div_two_le_cos (x := -(3 / 4))
    refine le_trans ?_ (le_abs_self _)
    have h6 : (2 : ℝ) ^ (-56 : ℤ) ≤ 1 / 128 := by norm_num
    generalize (2 : ℝ) ^ (-56 : ℤ) = b at *
    norm_num at h4 ⊢
    linarith
  · rw [exMinusThreeQuarters_toK, abs_neg, abs_of_pos] <;> norm_num
  · rw [exMinusThreeQuarters_toK_rat, abs_neg, abs_of_pos] <;> norm_num

set_option maxRecDepth 100000 in
/-- `tan(10)` with 64 bits, rounded up, from a new cache: an argument that is reduced. -/
example : ∃ c v c' w, TanHist c ∧ ValidP 64 ∧ BF.tanC (.num exTen) 64 .up 1 c = some (.num v, c', w) ∧ TanOk exTen w ∧
    v.m.m = [11960146251556328176] ∧ v.e = 0 ∧ v.s = .pos ∧ RoundsFmt .up 64 (Real.tan 10) v.toK := by
  obtain ⟨c, h1, -⟩ := C73_new
  have hp : ValidP 64 := ⟨by norm_num, by decide⟩
  have h2 : (match piNew with
    | .ok c => match BF.tanC (.num exTen) 64 .up 1 c with
      | some (.num v, _, w) => v.m.m == [11960146251556328176] && v.e == 0 && v.s == .pos && decide (w ≤ 1000)
      | _ => false
    | _ => false) = true := by decide +kernel
  rw [h1] at h2
  dsimp only at h2
  cases h3 : BF.tanC (.num exTen) 64 .up 1 c with
  | none => rw [h3] at h2; cases h2
  | some r =>
    obtain ⟨b, c', w⟩ := r
    rw [h3] at h2
    cases b with
    | nan e => cases h2
    | inf s => cases h2
    | num v =>
      simp at h2
      obtain ⟨⟨⟨h4, h5⟩, h5'⟩, h6⟩ := h2
      have ho : TanOk exTen w := exTen_tan (by omega)
      obtain ⟨v', e1, e2, -⟩ := C79_directed_partial hp (Or.inl rfl) (.new h1) h3 ho
      injection e1 with e1
      rw [← e1, exTen_toK] at e2
      exact ⟨c, v, c', w, .new h1, hp, h3, ho, h4, h5, h5', e2⟩

set_option maxRecDepth 100000 in
/-- `tan(-3/4)` with 64 bits, rounded up: an argument that is not reduced. -/
example : ∃ c v c' w, TanHist c ∧ ValidP 64 ∧ BF.tanC (.num exMinusThreeQuarters) 64 .up 1 c = some (.num v, c', w) ∧
    TanOk exMinusThreeQuarters w ∧ v.m.m = [17184921476562116358] ∧ v.e = 0 ∧ v.s = .neg ∧
    RoundsFmt .up 64 (Real.tan (-(3 / 4))) v.toK := by
  obtain ⟨c, h1, -⟩ := C73_new
  have hp : ValidP 64 := ⟨by norm_num, by decide⟩
  have h2 : (match piNew with
    | .ok c => match BF.tanC (.num exMinusThreeQuarters) 64 .up 1 c with
      | some (.num v, _, w) => v.m.m == [17184921476562116358] && v.e == 0 && v.s == .neg && decide (w ≤ 1000)
      | _ => false
    | _ => false) = true := by decide +kernel
  rw [h1] at h2
  dsimp only at h2
  cases h3 : BF.tanC (.num exMinusThreeQuarters) 64 .up 1 c with
  | none => rw [h3] at h2; cases h2
  | some r =>
    obtain ⟨b, c', w⟩ := r
    rw [h3] at h2
    cases b with
    | nan e => cases h2
    | inf s => cases h2
    | num v =>
      simp at h2
      obtain ⟨⟨⟨h4, h5⟩, h5'⟩, h6⟩ := h2
      have ho : TanOk exMinusThreeQuarters w := exMinusThreeQuarters_tan (by omega)
      obtain ⟨v', e1, e2, -⟩ := C79_directed_partial hp (Or.inl rfl) (.new h1) h3 ho
      injection e1 with e1
      rw [← e1, exMinusThreeQuarters_toK] at e2
      exact ⟨c, v, c', w, .new h1, hp, h3, ho, h4, h5, h5', e2⟩

set_option maxRecDepth 100000 in
/-- An argument next to zero, and the hypothesis of `C79_number_partial` at 1500 bits for ten. -/
example : exNearZero.WF ∧ EMIN + 2 ≤ exNearZero.e ∧
    ((max (precBits 64) (64 * exNearZero.m.m.length) : ℕ) : ℤ) + 1 < -(exNearZero.e * 2 - 2) ∧
    exNearZero.smallExp false 64 .up = .ok ⟨exNearZero.e, .neg, ⟨[MSB], 64⟩, true⟩ ∧ exNearZero.m.m = [MSB] ∧
    TanOk exTen (2 * max (precBits 1500) (64 * exTen.m.m.length) + 208) :=
  ⟨Num.WF_of_check (by decide +kernel), by decide, by decide +kernel, by decide +kernel, by decide +kernel, exTen_tan (by decide +kernel)⟩

end AF
