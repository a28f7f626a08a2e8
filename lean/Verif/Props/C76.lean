import Verif.Props.C75
import Verif.Lemmas.AcosNum
/-!
# C76: the arccosine

The full claim: for every number `x` between -1 and 1, every precision, every rounding mode and whatever was asked of the cache
before, `acos` returns `arccos x` correctly rounded, marked inexact unless `x` is one, where it is zero; outside of that range
and at the infinities the result is NaN.

Proved: the values at one, NaN and the infinities, and the error above one (`C76_one`, `C76_nan`, `C76_inf`, `C76_domain`). For the
other arguments, -1 and zero included, a result obtained with a working precision up to 4096 bits (up to `2^17 - 64` bits under
the hypothesis that the formula of Chudnovsky and Chudnovsky gives pi, `AcosCov`) is a positive number, correctly rounded in
the four directed modes and within the bounds of `FunRounded` in the other modes (`C76_outcome_partial`,
`C76_directed_partial`). The condition is `AcosBand`: either `arccos x` is at least `2^-56`, which all `x` up to `1 - 2^-113`
satisfy (`C76_band`), or its exponent leaves at least 7 unused bits in the last word of the working precision. Without unused
bits the error of the difference `pi/2 - arcsin x` can exceed the unit in the last place that the loop assumes. In
the directed modes the result does not depend on the history of the cache or on the precision of the argument
(`C76_history_partial`) and falls when the argument grows (`C76_mono_partial`). The first round of the loop returns such a
number in mode `None`, and in the directed modes unless the 63 bits of `arccos x` after the first `P` are all equal
(`C76_number_partial`).

Missing: the remaining arguments next to one, arguments in the two lowest binades and subnormal arguments, correct rounding in
the nearest modes, larger working precisions, the end of the loop in the exceptional cases.
-/

namespace AF

/-- The caches that exist after `PiCache::new` and any number of calls with valid precisions. -/
inductive AcosHist : Num.PiCache → Prop
  | new {c} : piNew = .ok c → AcosHist c
  | pi {c c' p rm r} : AcosHist c → ValidP p → constPi p rm c = some (r, c') → AcosHist c'
  | atan {c c' x p rm f r w} : AcosHist c → ValidP p → p ≤ 2 ^ 41 → BF.atanC x p rm f c = some (r, c', w) → w ≤ 2 ^ 40 → AcosHist c'
  | asin {c c' x p rm f r w} : AcosHist c → ValidP p → p ≤ 2 ^ 41 → BF.asinC x p rm f c = some (r, c', w) → w ≤ 2 ^ 40 → AcosHist c'
  | acos {c c' x p rm f r w} : AcosHist c → ValidP p → p ≤ 2 ^ 41 → BF.acosC x p rm f c = some (r, c', w) → w ≤ 2 ^ 40 → AcosHist c'

theorem acosC_keep {x : BF} {p : Nat} {rm : RM} {f : Nat} {c c' : Num.PiCache} {r : BF} {w : Nat}
    (ih : PiOk c) (hc : BF.acosC x p rm f c = some (r, c', w)) (hw : w ≤ 2 ^ 40) : PiOk c' := by
  cases x with
  | nan e =>
    injection hc with hc
    injection hc with _ hc
    injection hc with hc _
    rw [← hc]; exact ih
  | inf s =>
    injection hc with hc
    injection hc with _ hc
    injection hc with hc _
    rw [← hc]; exact ih
  | num x =>
    obtain ⟨r', h2, -⟩ := wrapPi_num hc
    exact acos_keep ih h2 hw

theorem AcosHist.ok {c : Num.PiCache} (h : AcosHist c) : PiOk c := by
  induction h with
  | new h => exact (PiHist.new h).ok
  | pi h hp hc ih => exact constPi_keep hp ih hc
  | atan h hp hp2 hc hw ih => exact atanC_keep hp.pos hp2 ih hc hw
  | asin h hp hp2 hc hw ih => exact asinC_keep hp.pos hp2 ih hc hw
  | acos h hp hp2 hc hw ih => exact acosC_keep ih hc hw

/-- NaN. -/
theorem C76_nan (e : Option Err) (p : Nat) (rm : RM) (f : Nat) (c : Num.PiCache) : BF.acosC (.nan e) p rm f c = some (.nan e, c, 0) := rfl

/-- The infinities. -/
theorem C76_inf (s : Sign) (p : Nat) (rm : RM) (f : Nat) (c : Num.PiCache) : BF.acosC (.inf s) p rm f c = some (.nan none, c, 0) := rfl

/-- The value at one is a positive zero, exactly, in every mode. -/
theorem C76_one {x : Num} (hx : x.WF) (h1 : (x.toK : ℚ) = 1) {p : Nat} (hp : ValidP p) (rm : RM) (f : Nat) (c : Num.PiCache) :
    ∃ v, BF.acosC (.num x) p rm f c = some (.num v, c, 0) ∧ v.WF ∧ 64 * v.m.m.length = precBits p ∧ v.s = .pos ∧
      (v.toK : ℚ) = 0 ∧ v.inexact = x.inexact ∧ Real.arccos x.toK = 0 := by
  have h0 : (x.toK : ℚ) ≠ 0 := by rw [h1]; norm_num
  have hz := nz_of_ne hx h0
  have hlt := hp.lt
  have hR : (x.toK : ℝ) = 1 := by rw [← toK_ratCast x, h1, Rat.cast_one]
  have hPM : PMAX = 2 ^ 62 - 2 ^ 31 - 1 := rfl
  have hv := zero_WF (p := precBits p) (by unfold wordLen precBits at *; omega) .pos x.inexact
  obtain ⟨c1, c2⟩ := absCmp_one hx hz
  have hcmp : x.absCmp Num.ONE = 0 := by
    have n1 : ¬ x.absCmp Num.ONE > 0 := by rw [c1, hR, abs_one]; norm_num
    have n2 : ¬ x.absCmp Num.ONE < 0 := by rw [c2, hR, abs_one]; norm_num
    omega
  have hpos : x.isPositive = true := by
    have n2 := Num.toK_eq (K := ℝ) x
    unfold Num.isPositive
    cases hs : x.s with
    | pos => rfl
    | neg =>
      rw [hs, hR, Sign.toK, abs_one] at n2
      norm_num at n2
  refine ⟨Num.zero (precBits p) .pos x.inexact, ?_, hv, ?_, rfl, zero_toK _ _ _, rfl, by rw [hR, Real.arccos_one]⟩
  · unfold BF.acosC BF.wrapPi Num.acos
    dsimp only
    rw [hp.roundP, if_pos ⟨hcmp, hpos⟩]
    unfold Num.new2
    rw [if_neg (by omega)]
    rfl
  · simp only [Num.zero, Mantissa.new, List.length_replicate]
    unfold wordLen precBits; omega

/-- Beyond one the result is NaN with the error "invalid argument". -/
theorem C76_domain {x : Num} (hx : x.WF) (h1 : 1 < |(x.toK : ℚ)|) (p : Nat) (rm : RM) (f : Nat) (c : Num.PiCache) :
    BF.acosC (.num x) p rm f c = some (.nan (some .invalidArgument), c, 0) := by
  have h0 : (x.toK : ℚ) ≠ 0 := by
    intro h
    rw [h, abs_zero] at h1
    linarith
  have hz := nz_of_ne hx h0
  have hgt : x.absCmp Num.ONE > 0 := by
    rw [(absCmp_one hx hz).1, abs_cast]
    exact_mod_cast h1
  unfold BF.acosC BF.wrapPi Num.acos
  dsimp only
  rw [if_neg (by omega), if_pos hgt]
  rfl

/-- Where the constant pi used at the working precision `w` is known to be pi: up to 4096 bits it has been checked, and
otherwise the formula behind it is a hypothesis. -/
def AcosCov (w : Nat) : Prop := w ≤ 4096 ∨ chudPi = Real.pi

theorem AcosCov.pi_close {w : Nat} (h : AcosCov w) : |chudPi - Real.pi| ≤ 2 ^ (-(w : ℤ) - 60) := by
  rcases h with h | h
  · refine le_trans (chud_pi_close h) (zpow_le_zpow_right₀ (by norm_num) (by omega))
  · rw [h, sub_self, abs_zero]; positivity

/-- The condition holds up to `1 - 2^-113`. -/
theorem C76_band {x : Num} (h1 : |(x.toK : ℚ)| ≤ 1) (h : (x.toK : ℚ) ≤ 1 - 2 ^ (-113 : ℤ)) : AcosBand (Real.arccos x.toK) := by
  have hR : (x.toK : ℝ) ≤ 1 - 2 ^ (-113 : ℤ) := by
    rw [← toK_ratCast x]
    have : ((x.toK : ℚ) : ℝ) ≤ ((1 - 2 ^ (-113 : ℤ) : ℚ) : ℝ) := by exact_mod_cast h
    push_cast at this
    exact this
  have h1R : |(x.toK : ℝ)| ≤ 1 := by rw [abs_cast]; exact_mod_cast h1
  obtain ⟨a1, a2⟩ := abs_le.1 h1R
  refine ⟨0, ?_, Or.inl rfl⟩
  have h2 := Real.one_sub_sq_div_two_le_cos (x := Real.arccos x.toK)
  rw [Real.cos_arccos a1 a2] at h2
  have h0 := Real.arccos_nonneg (x.toK : ℝ)
  generalize Real.arccos (x.toK : ℝ) = Y at h2 h0 ⊢
  have e1 : (2 : ℝ) ^ (-113 : ℤ) * 2 = (2 ^ (-56 : ℤ)) ^ 2 := by norm_num
  have e2 : (0 : ℝ) < 2 ^ (-56 : ℤ) := by positivity
  have h3 : ((2 : ℝ) ^ (-56 : ℤ)) ^ 2 ≤ Y ^ 2 := by
    rw [← e1]
    generalize (2 : ℝ) ^ (-113 : ℤ) = z at hR ⊢
    linarith
  have h4 := abs_le_of_sq_le_sq h3 h0
  refine le_trans (le_of_eq ?_) (le_trans (le_abs_self _) h4)
  norm_num

theorem acosDom_of {x : Num} (hx : x.WF) (h1 : |(x.toK : ℚ)| ≤ 1) (hlo : (x.toK : ℚ) = 0 ∨ EMIN + 2 ≤ x.e) : AcosDom (x.toK : ℝ) := by
  have h1R : |(x.toK : ℝ)| ≤ 1 := by rw [abs_cast]; exact_mod_cast h1
  rcases eq_or_ne (x.toK : ℚ) 0 with h0 | h0
  · left; rw [← toK_ratCast x, h0, Rat.cast_zero]
  · rcases hlo with hlo | hlo
    · exact absurd hlo h0
    · rcases h1R.eq_or_lt with h | h
      · exact Or.inr (Or.inl h)
      · refine Or.inr (Or.inr ⟨h, ?_⟩)
        have hE : EMIN = -2 ^ 31 := rfl
        obtain ⟨q, q1, q2, q3, -⟩ := hx.mag (K := ℝ) (nz_of_ne hx h0)
        exact le_trans (zpow_le_zpow_right₀ (by norm_num) (by omega)) q1

theorem ne_one_cast {x : Num} (h : (x.toK : ℚ) ≠ 1) : (x.toK : ℝ) ≠ 1 := by
  rw [← toK_ratCast x]; exact_mod_cast h

/-- What is returned for the other arguments. -/
theorem C76_outcome_partial {x : Num} (hx : x.WF) (h1 : |(x.toK : ℚ)| ≤ 1) (hn : (x.toK : ℚ) ≠ 1) (hlo : (x.toK : ℚ) = 0 ∨ EMIN + 2 ≤ x.e)
    (hb : AcosBand (Real.arccos x.toK)) {p : Nat} (hp : ValidP p) (rm : RM) {f : Nat} {c c' : Num.PiCache} (hc : AcosHist c) {r : BF} {w : Nat}
    (h : BF.acosC (.num x) p rm f c = some (r, c', w)) (hw : w + 64 ≤ 2 ^ 17) (hcov : AcosCov w) :
    ∃ v, r = .num v ∧ v.s = .pos ∧ FunRounded rm (precBits p) (Real.arccos x.toK) v := by
  obtain ⟨r', h2, h3⟩ := wrapPi_num h
  have hd := acosDom_of hx h1 hlo
  obtain ⟨v, v1, v2⟩ := acos_spec hx hd (ne_one_cast hn) hb hp rm hc.ok h2 hw hcov.pi_close
  refine ⟨v, ?_, v2.pos (lt_of_lt_of_le (by positivity) (arccos_len hx hd.le (ne_one_cast hn))), v2⟩
  rw [h3, v1]; rfl

/-- In the directed modes it is `arccos x` correctly rounded. -/
theorem C76_directed_partial {x : Num} (hx : x.WF) (h1 : |(x.toK : ℚ)| ≤ 1) (hn : (x.toK : ℚ) ≠ 1) (hlo : (x.toK : ℚ) = 0 ∨ EMIN + 2 ≤ x.e)
    (hb : AcosBand (Real.arccos x.toK)) {p : Nat} (hp : ValidP p) {rm : RM} (hd : rm = .up ∨ rm = .down ∨ rm = .toZero ∨ rm = .fromZero)
    {f : Nat} {c c' : Num.PiCache} (hc : AcosHist c) {r : BF} {w : Nat}
    (h : BF.acosC (.num x) p rm f c = some (r, c', w)) (hw : w + 64 ≤ 2 ^ 17) (hcov : AcosCov w) :
    ∃ v, r = .num v ∧ RoundsFmt rm (precBits p) (Real.arccos x.toK) v.toK ∧ 64 * v.m.m.length = precBits p ∧
      v.inexact = true := by
  obtain ⟨v, v1, -, v2⟩ := C76_outcome_partial hx h1 hn hlo hb hp rm hc h hw hcov
  exact ⟨v, v1, v2.directed hd, v2.prec, v2.inexact⟩

theorem acos_len_le {x : Num} (hx : x.WF) (h1 : |(x.toK : ℝ)| ≤ 1) (hn : (x.toK : ℝ) ≠ 1) {p : Nat} {rm : RM} {f : Nat} {c c' : Num.PiCache}
    {r : Except Err Num} {w : Nat} (h : x.acos p rm f c = some (r, c', w)) : 64 * x.m.m.length ≤ w := by
  have hmb : x.m.maxBitLen = 64 * x.m.m.length := by unfold Mantissa.maxBitLen; omega
  obtain ⟨n1, n2⟩ := acos_cmp hx h1 hn
  unfold Num.acos at h
  dsimp only at h
  rw [if_neg n1, if_neg n2, hmb] at h
  split at h
  · cases h
  · rename_i r' s' w' hlp
    injection h with h
    injection h with h h'
    injection h' with h' h''
    have hge := roundLoop_ge hlp
    omega

/-- In the directed modes the result depends neither on what the cache was used for before nor on the precision of the
argument. -/
theorem C76_history_partial {x y : Num} (hx : x.WF) (hy : y.WF) (h1 : |(x.toK : ℚ)| ≤ 1) (hn : (x.toK : ℚ) ≠ 1)
    (hxy : (x.toK : ℚ) = y.toK) (hlo : (x.toK : ℚ) = 0 ∨ EMIN + 2 ≤ x.e) (hlo' : (y.toK : ℚ) = 0 ∨ EMIN + 2 ≤ y.e)
    (hb : AcosBand (Real.arccos x.toK))
    {p : Nat} (hp : ValidP p) {rm : RM} (hd : rm = .up ∨ rm = .down ∨ rm = .toZero ∨ rm = .fromZero) {f₁ f₂ : Nat}
    {c₁ c₂ c₁' c₂' : Num.PiCache} (hc₁ : AcosHist c₁) (hc₂ : AcosHist c₂) {r₁ r₂ : BF} {w₁ w₂ : Nat}
    (h₁ : BF.acosC (.num x) p rm f₁ c₁ = some (r₁, c₁', w₁)) (h₂ : BF.acosC (.num y) p rm f₂ c₂ = some (r₂, c₂', w₂))
    (hw₁ : w₁ + 64 ≤ 2 ^ 17) (hw₂ : w₂ + 64 ≤ 2 ^ 17) (hv₁ : AcosCov w₁) (hv₂ : AcosCov w₂) : r₁ = r₂ := by
  have hR : (x.toK : ℝ) = y.toK := by rw [← toK_ratCast x, ← toK_ratCast y, hxy]
  obtain ⟨v, rfl, -, v2⟩ := C76_outcome_partial hx h1 hn hlo hb hp rm hc₁ h₁ hw₁ hv₁
  obtain ⟨v', rfl, -, v2'⟩ := C76_outcome_partial hy (hxy ▸ h1) (hxy ▸ hn) hlo' (hR ▸ hb) hp rm hc₂ h₂ hw₂ hv₂
  have hP : 64 ≤ precBits p := by have := hp.pos; unfold precBits; omega
  have hE : EMIN = -2 ^ 31 := rfl
  rw [← hR] at v2'
  have hl := arccos_len hx (acosDom_of hx h1 hlo).le (ne_one_cast hn)
  obtain ⟨r', h5, -⟩ := wrapPi_num h₁
  have hlen := acos_len_le hx (acosDom_of hx h1 hlo).le (ne_one_cast hn) h5
  rw [v2.unique hd hP (by
    rw [abs_of_nonneg (Real.arccos_nonneg _)]
    exact le_trans (zpow_le_zpow_right₀ (by norm_num) (by omega)) hl) v2']

/-- In the directed modes the function falls when the argument grows. -/
theorem C76_mono_partial {x y : Num} (hx : x.WF) (hy : y.WF) (hx1 : |(x.toK : ℚ)| ≤ 1) (hy1 : |(y.toK : ℚ)| ≤ 1)
    (hxn : (x.toK : ℚ) ≠ 1) (hyn : (y.toK : ℚ) ≠ 1) (hlo : (x.toK : ℚ) = 0 ∨ EMIN + 2 ≤ x.e) (hlo' : (y.toK : ℚ) = 0 ∨ EMIN + 2 ≤ y.e)
    (hb : AcosBand (Real.arccos x.toK)) (hb' : AcosBand (Real.arccos y.toK))
    (hxy : (x.toK : ℚ) ≤ y.toK) {p : Nat} (hp : ValidP p) {rm : RM}
    (hd : rm = .up ∨ rm = .down ∨ rm = .toZero ∨ rm = .fromZero) {f₁ f₂ : Nat} {c₁ c₂ c₁' c₂' : Num.PiCache}
    (hc₁ : AcosHist c₁) (hc₂ : AcosHist c₂) {v₁ v₂ : Num} {w₁ w₂ : Nat}
    (h₁ : BF.acosC (.num x) p rm f₁ c₁ = some (.num v₁, c₁', w₁)) (h₂ : BF.acosC (.num y) p rm f₂ c₂ = some (.num v₂, c₂', w₂))
    (hw₁ : w₁ + 64 ≤ 2 ^ 17) (hw₂ : w₂ + 64 ≤ 2 ^ 17) (hv₁ : AcosCov w₁) (hv₂ : AcosCov w₂) : (v₂.toK : ℚ) ≤ v₁.toK := by
  have hxyR : (x.toK : ℝ) ≤ y.toK := by
    rw [← toK_ratCast x, ← toK_ratCast y]; exact_mod_cast hxy
  obtain ⟨v, e1, v2, -⟩ := C76_directed_partial hx hx1 hxn hlo hb hp hd hc₁ h₁ hw₁ hv₁
  obtain ⟨v', e2, v2', -⟩ := C76_directed_partial hy hy1 hyn hlo' hb' hp hd hc₂ h₂ hw₂ hv₂
  injection e1 with e1
  injection e2 with e2
  rw [← e1] at v2
  rw [← e2] at v2'
  have hP : 0 < precBits p := by have := hp.pos; unfold precBits; omega
  have := v2'.mono hP v2 (Real.antitone_arccos hxyR)
  rw [← toK_ratCast v₁, ← toK_ratCast v₂] at this
  exact_mod_cast this

/-- The first round returns a number in mode `None`, and in the directed modes unless the digits are exceptional. -/
theorem C76_number_partial {x : Num} (hx : x.WF) (h0 : (x.toK : ℚ) ≠ 0) (h1 : |(x.toK : ℚ)| ≤ 1 - 2 ^ (-61 : ℤ)) (hlo : EMIN + 2 ≤ x.e)
    {p : Nat} (hp : ValidP p) {rm : RM} {c : Num.PiCache} (hc : AcosHist c)
    (hw : 2 * max (precBits p) (64 * x.m.m.length) + 700 ≤ 2 ^ 17)
    (hcov : AcosCov (2 * max (precBits p) (64 * x.m.m.length) + 512))
    (hs : rm = .none ∨ (rm = .up ∨ rm = .down ∨ rm = .toZero ∨ rm = .fromZero) ∧
      ¬ NearGrid (precBits p) 63 (Real.arccos x.toK)) (f : Nat) :
    ∃ v c' w, BF.acosC (.num x) p rm (f + 1) c = some (.num v, c', w) ∧ w ≤ 2 * max (precBits p) (64 * x.m.m.length) + 512 ∧
      AcosCov w := by
  have hz := nz_of_ne hx h0
  have e1 : (2 : ℝ) ^ (-61 : ℤ) * 2 = (2 ^ (-30 : ℤ)) ^ 2 := by norm_num
  have h1R : |(x.toK : ℝ)| ≤ 1 - 2 ^ (-61 : ℤ) := by
    rw [abs_cast]
    have : ((|(x.toK : ℚ)| : ℚ) : ℝ) ≤ ((1 - 2 ^ (-61 : ℤ) : ℚ) : ℝ) := by exact_mod_cast h1
    push_cast at this ⊢
    exact this
  have hlt : |(x.toK : ℝ)| < 1 := lt_of_le_of_lt h1R (by norm_num)
  have key : ∀ X : ℝ, |X| ≤ 1 - 2 ^ (-61 : ℤ) → (2 : ℝ) ^ (-31 : ℤ) ≤ Real.arccos X := by
    intro X hX
    obtain ⟨a1, a2⟩ := abs_le.1 (le_trans hX (by norm_num) : |X| ≤ 1)
    have h2 := Real.one_sub_sq_div_two_le_cos (x := Real.arccos X)
    rw [Real.cos_arccos a1 a2] at h2
    have h0 := Real.arccos_nonneg X
    generalize Real.arccos X = Y at h2 h0 ⊢
    have h3 : ((2 : ℝ) ^ (-30 : ℤ)) ^ 2 ≤ Y ^ 2 := by
      rw [← e1]
      have := le_abs_self X
      generalize (2 : ℝ) ^ (-61 : ℤ) = z at hX ⊢
      linarith
    have h4 := abs_le_of_sq_le_sq h3 h0
    exact le_trans (by norm_num) (le_trans (le_abs_self _) h4)
  have hy1 := key _ h1R
  have hy2 := key (-(x.toK : ℝ)) (by rw [abs_neg]; exact h1R)
  rw [Real.arccos_neg] at hy2
  have hb : AcosBand (Real.arccos x.toK) := ⟨0, le_trans (zpow_le_zpow_right₀ (by norm_num) (by norm_num)) hy1, Or.inl rfl⟩
  obtain ⟨r, c', w, h2, h3⟩ := acos_number (f := f) hx hz hlt hlo hy1 hy2 hp hc.ok hw hcov.pi_close (rm := rm) (by
    rw [abs_of_nonneg (Real.arccos_nonneg _)]
    rcases hs with h | ⟨h, h'⟩
    · exact Or.inl h
    · exact Or.inr ⟨by rcases h with rfl | rfl | rfl | rfl <;> rfl, h'⟩)
  have hcov' : AcosCov w := by
    rcases hcov with h | h
    · exact Or.inl (by omega)
    · exact Or.inr h
  have hle : |(x.toK : ℚ)| ≤ 1 := le_trans h1 (by norm_num)
  have hn : (x.toK : ℝ) ≠ 1 := by
    intro h
    rw [h, abs_one] at hlt
    exact lt_irrefl _ hlt
  obtain ⟨v, rfl, -⟩ := acos_spec hx (acosDom_of hx hle (Or.inr hlo)) hn hb hp rm hc.ok h2 (by omega) hcov'.pi_close
  refine ⟨v, c', w, ?_, h3, hcov'⟩
  unfold BF.acosC BF.wrapPi
  dsimp only
  rw [h2]
  rfl

/-! ## Concrete cases -/

/-- The number `-1`. -/
def exMinusOne : Num := ⟨1, .neg, ⟨[MSB], 64⟩, false⟩

theorem exMinusOne_toK_rat : (exMinusOne.toK : ℚ) = -1 := by
  unfold Num.toK exMinusOne
  simp [Sign.toK, val, MSB]
  norm_num

/-- The number `1 - 2^-140`, with 192 bits. -/
def exNearOne : Num := ⟨0, .pos, ⟨[18442240474082181120, WMAX, WMAX], 192⟩, false⟩

theorem exNearOne_toK_rat : (exNearOne.toK : ℚ) = 1 - 2 ^ (-140 : ℤ) := by
  unfold Num.toK exNearOne
  simp [Sign.toK, val, WMAX, B]
  norm_num

/-- Its arccosine is near `2^-69.5`: the second case of `AcosBand`. -/
theorem exNearOne_band : AcosBand (Real.arccos exNearOne.toK) := by
  have hX : (exNearOne.toK : ℝ) = 1 - 2 ^ (-140 : ℤ) := by rw [← toK_ratCast, exNearOne_toK_rat]; norm_num
  rw [hX]
  have hc := Real.cos_arccos (x := 1 - (2 : ℝ) ^ (-140 : ℤ)) (by norm_num) (by norm_num)
  have h2 := Real.one_sub_sq_div_two_le_cos (x := Real.arccos (1 - (2 : ℝ) ^ (-140 : ℤ)))
  have h0 := Real.arccos_nonneg (1 - (2 : ℝ) ^ (-140 : ℤ))
  have h4 := Real.cos_le_one_sub_mul_cos_sq (x := Real.arccos (1 - (2 : ℝ) ^ (-140 : ℤ))) (by
    rw [abs_of_nonneg h0]; exact Real.arccos_le_pi _)
  rw [hc] at h2 h4
  generalize Real.arccos (1 - (2 : ℝ) ^ (-140 : ℤ)) = Y at h0 h2 h4 ⊢
  have h5 : (2 : ℝ) / Real.pi ^ 2 ≥ 1 / 8 := by
    rw [ge_iff_le, div_le_div_iff₀ (by norm_num) (by positivity)]
    nlinarith [Real.pi_le_four, Real.pi_pos]
  have h6 : Y ^ 2 / 8 ≤ 2 ^ (-140 : ℤ) := by
    generalize (2 : ℝ) ^ (-140 : ℤ) = z at h4 ⊢
    nlinarith [sq_nonneg Y]
  have h7 : (2 : ℝ) ^ (-140 : ℤ) ≤ Y ^ 2 / 2 := by
    generalize (2 : ℝ) ^ (-140 : ℤ) = z at h2 ⊢
    linarith
  refine ⟨1, ?_, Or.inr ?_⟩
  · have := abs_le_of_sq_le_sq (a := (2 : ℝ) ^ (-(64 * (1 : ℕ) : ℤ) - 56)) (b := Y) (by
      refine le_trans ?_ (le_trans h7 (by linarith [sq_nonneg Y]))
      norm_num) h0
    exact le_trans (le_abs_self _) this
  · have := abs_le_of_sq_le_sq (a := Y) (b := (2 : ℝ) ^ (-(64 * (1 : ℕ) : ℤ) - 1)) (by
      have : Y ^ 2 ≤ 8 * (2 : ℝ) ^ (-140 : ℤ) := by
        generalize (2 : ℝ) ^ (-140 : ℤ) = z at h6 ⊢
        linarith
      refine le_trans this ?_
      norm_num) (by positivity)
    exact le_trans (le_abs_self _) this

set_option maxRecDepth 100000 in
/-- `acos(-3/4)` with 64 bits, rounded up, from a new cache: the hypotheses hold and the number is known. -/
example : ∃ c v c' w, AcosHist c ∧ exMinusThreeQuarters.WF ∧ |(exMinusThreeQuarters.toK : ℚ)| ≤ 1 ∧ (exMinusThreeQuarters.toK : ℚ) ≠ 1 ∧
    ((exMinusThreeQuarters.toK : ℚ) = 0 ∨ EMIN + 2 ≤ exMinusThreeQuarters.e) ∧ AcosBand (Real.arccos exMinusThreeQuarters.toK) ∧ ValidP 64 ∧
    BF.acosC (.num exMinusThreeQuarters) 64 .up 2 c = some (.num v, c', w) ∧ w + 64 ≤ 2 ^ 17 ∧ AcosCov w ∧
    v.m.m = [11155015490474481963] ∧ v.e = 2 ∧ RoundsFmt .up 64 (Real.arccos (-(3 / 4))) v.toK := by
  obtain ⟨c, h1, -⟩ := C73_new
  have hw : exMinusThreeQuarters.WF := Num.WF_of_check (by decide +kernel)
  have hX : (exMinusThreeQuarters.toK : ℚ) = -(3 / 4) := exMinusThreeQuarters_toK_rat
  have hXR : (exMinusThreeQuarters.toK : ℝ) = -(3 / 4) := by rw [← toK_ratCast, hX]; norm_num
  have ha : |(exMinusThreeQuarters.toK : ℚ)| ≤ 1 := by rw [hX, abs_le]; norm_num
  have hn : (exMinusThreeQuarters.toK : ℚ) ≠ 1 := by rw [hX]; norm_num
  have hb : AcosBand (Real.arccos exMinusThreeQuarters.toK) := C76_band ha (by rw [hX]; norm_num)
  have hp : ValidP 64 := ⟨by norm_num, by decide⟩
  have h2 : (match piNew with
    | .ok c => match BF.acosC (.num exMinusThreeQuarters) 64 .up 2 c with
      | some (.num v, _, w) => v.m.m == [11155015490474481963] && v.e == 2 && decide (w ≤ 1000)
      | _ => false
    | _ => false) = true := by decide +kernel
  rw [h1] at h2
  dsimp only at h2
  cases h3 : BF.acosC (.num exMinusThreeQuarters) 64 .up 2 c with
  | none => rw [h3] at h2; cases h2
  | some r =>
    obtain ⟨b, c', w⟩ := r
    rw [h3] at h2
    cases b with
    | nan e => cases h2
    | inf s => cases h2
    | num v =>
      simp at h2
      obtain ⟨⟨h4, h5⟩, h6⟩ := h2
      have hcov : AcosCov w := Or.inl (by omega)
      obtain ⟨v', e1, e2, -⟩ := C76_directed_partial hw ha hn (Or.inr (by decide)) hb hp (Or.inl rfl) (.new h1) h3 (by omega) hcov
      injection e1 with e1
      rw [← e1, hXR] at e2
      exact ⟨c, v, c', w, .new h1, hw, ha, hn, Or.inr (by decide), hb, hp, h3, by omega, hcov, h4, h5, e2⟩

set_option maxRecDepth 100000 in
/-- `acos(-1)` with 64 bits. -/
example : ∃ c v c' w, AcosHist c ∧ exMinusOne.WF ∧ |(exMinusOne.toK : ℚ)| ≤ 1 ∧ (exMinusOne.toK : ℚ) ≠ 1 ∧
    ((exMinusOne.toK : ℚ) = 0 ∨ EMIN + 2 ≤ exMinusOne.e) ∧ AcosBand (Real.arccos exMinusOne.toK) ∧ ValidP 64 ∧
    BF.acosC (.num exMinusOne) 64 .up 2 c = some (.num v, c', w) ∧ w + 64 ≤ 2 ^ 17 ∧ AcosCov w ∧
    v.m.m = [14488038916154245685] ∧ v.e = 2 ∧ RoundsFmt .up 64 (Real.arccos (-1)) v.toK := by
  obtain ⟨c, h1, -⟩ := C73_new
  have hw : exMinusOne.WF := Num.WF_of_check (by decide +kernel)
  have hX : (exMinusOne.toK : ℚ) = -1 := exMinusOne_toK_rat
  have hXR : (exMinusOne.toK : ℝ) = -1 := by rw [← toK_ratCast, hX]; norm_num
  have ha : |(exMinusOne.toK : ℚ)| ≤ 1 := by rw [hX, abs_le]; norm_num
  have hn : (exMinusOne.toK : ℚ) ≠ 1 := by rw [hX]; norm_num
  have hb : AcosBand (Real.arccos exMinusOne.toK) := C76_band ha (by rw [hX]; norm_num)
  have hp : ValidP 64 := ⟨by norm_num, by decide⟩
  have h2 : (match piNew with
    | .ok c => match BF.acosC (.num exMinusOne) 64 .up 2 c with
      | some (.num v, _, w) => v.m.m == [14488038916154245685] && v.e == 2 && decide (w ≤ 1000)
      | _ => false
    | _ => false) = true := by decide +kernel
  rw [h1] at h2
  dsimp only at h2
  cases h3 : BF.acosC (.num exMinusOne) 64 .up 2 c with
  | none => rw [h3] at h2; cases h2
  | some r =>
    obtain ⟨b, c', w⟩ := r
    rw [h3] at h2
    cases b with
    | nan e => cases h2
    | inf s => cases h2
    | num v =>
      simp at h2
      obtain ⟨⟨h4, h5⟩, h6⟩ := h2
      have hcov : AcosCov w := Or.inl (by omega)
      obtain ⟨v', e1, e2, -⟩ := C76_directed_partial hw ha hn (Or.inr (by decide)) hb hp (Or.inl rfl) (.new h1) h3 (by omega) hcov
      injection e1 with e1
      rw [← e1, hXR] at e2
      exact ⟨c, v, c', w, .new h1, hw, ha, hn, Or.inr (by decide), hb, hp, h3, by omega, hcov, h4, h5, e2⟩

set_option maxRecDepth 100000 in
/-- An argument next to one: the first pass finds that the extra precision is not enough. -/
example : ∃ c v c' w, AcosHist c ∧ exNearOne.WF ∧ |(exNearOne.toK : ℚ)| ≤ 1 ∧ (exNearOne.toK : ℚ) ≠ 1 ∧
    ((exNearOne.toK : ℚ) = 0 ∨ EMIN + 2 ≤ exNearOne.e) ∧ AcosBand (Real.arccos exNearOne.toK) ∧ ValidP 64 ∧
    BF.acosC (.num exNearOne) 64 .up 2 c = some (.num v, c', w) ∧ w + 64 ≤ 2 ^ 17 ∧ AcosCov w ∧
    v.m.m = [13043817825332782213] ∧ v.e = -69 ∧ RoundsFmt .up 64 (Real.arccos (1 - 2 ^ (-140 : ℤ))) v.toK := by
  obtain ⟨c, h1, -⟩ := C73_new
  have hw : exNearOne.WF := Num.WF_of_check (by decide +kernel)
  have hX : (exNearOne.toK : ℚ) = 1 - 2 ^ (-140 : ℤ) := exNearOne_toK_rat
  have hXR : (exNearOne.toK : ℝ) = 1 - 2 ^ (-140 : ℤ) := by rw [← toK_ratCast, hX]; norm_num
  have ha : |(exNearOne.toK : ℚ)| ≤ 1 := by rw [hX, abs_le]; norm_num
  have hn : (exNearOne.toK : ℚ) ≠ 1 := by rw [hX]; norm_num
  have hb : AcosBand (Real.arccos exNearOne.toK) := exNearOne_band
  have hp : ValidP 64 := ⟨by norm_num, by decide⟩
  have h2 : (match piNew with
    | .ok c => match BF.acosC (.num exNearOne) 64 .up 2 c with
      | some (.num v, _, w) => v.m.m == [13043817825332782213] && v.e == -69 && decide (w ≤ 1000)
      | _ => false
    | _ => false) = true := by decide +kernel
  rw [h1] at h2
  dsimp only at h2
  cases h3 : BF.acosC (.num exNearOne) 64 .up 2 c with
  | none => rw [h3] at h2; cases h2
  | some r =>
    obtain ⟨b, c', w⟩ := r
    rw [h3] at h2
    cases b with
    | nan e => cases h2
    | inf s => cases h2
    | num v =>
      simp at h2
      obtain ⟨⟨h4, h5⟩, h6⟩ := h2
      have hcov : AcosCov w := Or.inl (by omega)
      obtain ⟨v', e1, e2, -⟩ := C76_directed_partial hw ha hn (Or.inr (by decide)) hb hp (Or.inl rfl) (.new h1) h3 (by omega) hcov
      injection e1 with e1
      rw [← e1, hXR] at e2
      exact ⟨c, v, c', w, .new h1, hw, ha, hn, Or.inr (by decide), hb, hp, h3, by omega, hcov, h4, h5, e2⟩

/-- The hypotheses of `C76_number_partial` about the size are met by `-3/4` at 1700 bits. -/
example : |(exMinusThreeQuarters.toK : ℚ)| ≤ 1 - 2 ^ (-61 : ℤ) ∧
    2 * max (precBits 1700) (64 * exMinusThreeQuarters.m.m.length) + 700 ≤ 2 ^ 17 ∧
    AcosCov (2 * max (precBits 1700) (64 * exMinusThreeQuarters.m.m.length) + 512) := by
  refine ⟨?_, by decide +kernel, Or.inl (by decide +kernel)⟩
  rw [exMinusThreeQuarters_toK_rat, abs_le]
  norm_num

end AF
