import Verif.Props.C68
import Verif.Props.C73
import Verif.Lemmas.AtanEndless
import Mathlib.Analysis.Real.Pi.Irrational
/-!
# C74: the arctangent

The full claim: for every number `x`, every precision, every rounding mode and whatever was asked of the cache before,
`atan` returns `arctan x` correctly rounded, marked inexact unless `x` is zero; at the infinities it returns `pi/2` and
`-pi/2` correctly rounded.

Proved: the values at zeros and NaN (`C74_zero`, `C74_nan`). Next to zero the result is correctly rounded in all modes and at
every precision (`C74_small`). For the other arguments below `2^689999990` in magnitude a result obtained with a working
precision up to `2^17 - 64` bits is a number with the sign of `x`, correctly rounded in the four directed modes and within
the bounds of `FunRounded` in the other modes (`C74_outcome_partial`, `C74_directed_partial`). For arguments from one on the
function uses the constant pi (C73), which is known to be pi up to 4096 bits; there the working precision is at most 4096
bits, or the formula of Chudnovsky and Chudnovsky is a hypothesis (`AtanCov`). In the directed modes the result does not depend
on the history of the cache or on the precision of the argument (`C74_history_partial`), grows with the argument
(`C74_mono_partial`) and is odd (`C74_odd_partial`). The first round of the loop returns such a number in mode `None`, and in
the directed modes unless the 63 bits of `|arctan x|` after the first `P` are all equal (`C74_number_partial`).

The claim is false in two places. For some numbers near `2^715827946` the function does not return: the first term of the
series is rounded to zero, whose exponent 0 is larger than that of the sum, and the loop that waits for a small exponent
runs for ever (`C74_endless`, `C74_endless_refuted`). At minus infinity pi is rounded before its sign is changed, so
that the modes `Up` and `Down` round `-pi/2` in the wrong direction (`C74_inf_partial`, `C74_inf_refuted`).

Missing: arguments in the two lowest binades and subnormal arguments, arguments from `2^689999990` on, correct rounding in
the nearest modes, larger working precisions, the end of the loop in the exceptional cases.
-/

namespace AF

/-- The caches that exist after `PiCache::new` and any number of calls with valid precisions. -/
inductive AtanHist : Num.PiCache → Prop
  | new {c} : piNew = .ok c → AtanHist c
  | pi {c c' p rm r} : AtanHist c → ValidP p → constPi p rm c = some (r, c') → AtanHist c'
  | atan {c c' x p rm f r w} : AtanHist c → ValidP p → p ≤ 2 ^ 41 → BF.atanC x p rm f c = some (r, c', w) → w ≤ 2 ^ 40 → AtanHist c'

theorem atanC_num {x : Num} {p : Nat} {rm : RM} {f : Nat} {c c' : Num.PiCache} {r : BF} {w : Nat}
    (h : BF.atanC (.num x) p rm f c = some (r, c', w)) :
    ∃ r', x.atan p rm f c = some (r', c', w) ∧ r = BF.resultToExt r' x.isZero true := by
  unfold BF.atanC at h
  dsimp only at h
  split at h
  · cases h
  · rename_i h1
    injection h with h
    injection h with h h'
    injection h' with h' h''
    rw [← h', ← h'']
    exact ⟨_, h1, h.symm⟩

theorem AtanHist.ok {c : Num.PiCache} (h : AtanHist c) : PiOk c := by
  induction h with
  | new h => exact (PiHist.new h).ok
  | pi h hp hc ih =>
    obtain ⟨r, c', h1, h2, -⟩ := constPi_spec hp _ ih
    rw [h1] at hc
    injection hc with hc
    injection hc with _ hc
    rw [← hc]; exact h2
  | @atan c c' x p rm f r w h hp hp2 hc hw ih =>
    cases x with
    | nan e =>
      injection hc with hc
      injection hc with _ hc
      injection hc with hc _
      rw [← hc]; exact ih
    | inf s =>
      unfold BF.atanC BF.halfPiC at hc
      dsimp only at hc
      cases h1 : piForPrec (roundP p) rm c with
      | none => rw [h1] at hc; cases hc
      | some r =>
        rw [h1] at hc
        injection hc with hc
        injection hc with _ hc
        injection hc with hc _
        rw [← hc]
        exact piForPrec_keep (r := r.1) hp.pos hp2 ih h1
    | num x =>
      obtain ⟨r', h2, -⟩ := atanC_num hc
      exact atan_keep ih h2 hw

/-- NaN. -/
theorem C74_nan (e : Option Err) (p : Nat) (rm : RM) (f : Nat) (c : Num.PiCache) : BF.atanC (.nan e) p rm f c = some (.nan e, c, 0) := rfl

/-- The value at a zero is a zero of the same sign, exactly, in every mode. -/
theorem C74_zero {x : Num} (hx : x.WF) (h0 : (x.toK : ℚ) = 0) {p : Nat} (hp : ValidP p) (rm : RM) (f : Nat) (c : Num.PiCache) :
    ∃ v, BF.atanC (.num x) p rm f c = some (.num v, c, 0) ∧ v.WF ∧ 64 * v.m.m.length = precBits p ∧ v.s = x.s ∧
      (v.toK : ℚ) = 0 ∧ v.inexact = x.inexact := by
  have hz := hx.toK_eq_zero.1 h0
  have hlt := hp.lt
  have hPM : PMAX = 2 ^ 62 - 2 ^ 31 - 1 := rfl
  have hv := zero_WF (p := precBits p) (by unfold wordLen precBits at *; omega) x.s x.inexact
  refine ⟨Num.zero (precBits p) x.s x.inexact, ?_, hv, ?_, rfl, zero_toK _ _ _, rfl⟩
  · unfold BF.atanC Num.atan
    dsimp only
    rw [hp.roundP, if_pos hz]
    unfold Num.new2
    rw [if_neg (by omega)]
    rfl
  · simp only [Num.zero, Mantissa.new, List.length_replicate]
    unfold wordLen precBits; omega

theorem arctan_sign {x : Num} (h0 : (x.toK : ℚ) ≠ 0) {rm : RM} {P : Nat} {v : Num}
    (h : FunRounded rm P (Real.arctan x.toK) v) : v.s = x.s := by
  have h2 : 0 < |(x.toK : ℝ)| := by
    rw [abs_pos, ← toK_ratCast x]; exact_mod_cast h0
  have h3 := Real.arctan_pos.2 h2
  have h4 := sign_arctan x
  cases hs : x.s with
  | pos => rw [hs, Sign.toK, one_mul] at h4; exact h.pos (by rw [h4]; linarith)
  | neg => rw [hs, Sign.toK] at h4; exact h.neg (by rw [h4]; linarith)

/-- Next to zero the result is `arctan x` correctly rounded, in every mode and at every precision. -/
theorem C74_small {x : Num} (hx : x.WF) (h0 : (x.toK : ℚ) ≠ 0) (hlo : EMIN + 2 ≤ x.e) {p : Nat} (hp : ValidP p)
    (he : ((max (precBits p) (64 * x.m.m.length) : ℕ) : ℤ) + 1 < -(x.e * 2 - 1)) (rm : RM) (f : Nat) (c : Num.PiCache) :
    ∃ v, BF.atanC (.num x) p rm f c = some (.num v, c, 0) ∧ v.WF ∧ 64 * v.m.m.length = precBits p ∧ v.s = x.s ∧
      v.inexact = true ∧ RoundsFmt rm (precBits p) (Real.arctan x.toK) v.toK := by
  have hz := nz_of_ne hx h0
  have hp0 := hp.pos
  obtain ⟨pw, hpw⟩ : ∃ pw, precBits p = 64 * pw := ⟨(p + 63) / 64, rfl⟩
  have hpw0 : 0 < pw := by unfold precBits at hpw; omega
  have hmb : x.m.maxBitLen = 64 * x.m.m.length := by unfold Mantissa.maxBitLen; omega
  rw [hpw] at he
  obtain ⟨v, v1, v2, v3⟩ := atan_small hx hz hlo hpw0 he rm
  refine ⟨v, ?_, v3.wf, by rw [hpw]; exact v3.prec, arctan_sign h0 v3, v3.inexact, by rw [hpw]; exact v2⟩
  unfold BF.atanC Num.atan
  dsimp only
  rw [hp.roundP, hpw, hz, if_neg Bool.false_ne_true, hmb, if_pos he, v1]
  rfl

/-- Where the constant pi used for the argument `x` at the working precision `w` is known to be pi: below one it is not used,
up to 4096 bits it has been checked, and otherwise the formula behind it is a hypothesis. -/
def AtanCov (x : Num) (w : Nat) : Prop := |(x.toK : ℚ)| < 1 ∨ w ≤ 4096 ∨ chudPi = Real.pi

theorem AtanCov.pi_close {x : Num} (hx : x.WF) (h0 : (x.toK : ℚ) ≠ 0) {w : Nat} (h : AtanCov x w) :
    0 < x.e → |chudPi - Real.pi| ≤ 2 ^ (-(w : ℤ) - 20) := by
  intro he
  rcases h with h | h | h
  · exfalso
    have hE : EMIN = -2 ^ 31 := rfl
    obtain ⟨b, b1, -, b3, -⟩ := hx.mag (K := ℚ) (nz_of_ne hx h0)
    have : (1 : ℚ) ≤ 2 ^ (b - 1) := one_le_zpow₀ (by norm_num) (by omega)
    linarith
  · refine le_trans (chud_pi_close h) (zpow_le_zpow_right₀ (by norm_num) (by omega))
  · rw [h, sub_self, abs_zero]; positivity

/-- What is returned for the other arguments. -/
theorem C74_outcome_partial {x : Num} (hx : x.WF) (h0 : (x.toK : ℚ) ≠ 0) (hlo : EMIN + 2 ≤ x.e) (hhi : x.e ≤ 689999990)
    {p : Nat} (hp : ValidP p) (rm : RM) {f : Nat} {c c' : Num.PiCache} (hc : AtanHist c) {r : BF} {w : Nat}
    (h : BF.atanC (.num x) p rm f c = some (r, c', w)) (hw : w + 64 ≤ 2 ^ 17) (hcov : AtanCov x w) :
    ∃ v, r = .num v ∧ v.s = x.s ∧ FunRounded rm (precBits p) (Real.arctan x.toK) v := by
  obtain ⟨r', h2, h3⟩ := atanC_num h
  obtain ⟨v, v1, v2⟩ := atan_spec hx (nz_of_ne hx h0) hlo hhi hp rm hc.ok h2 hw (hcov.pi_close hx h0)
  rw [atanBy_pi] at v2
  refine ⟨v, ?_, arctan_sign h0 v2, v2⟩
  rw [h3, v1]; rfl

/-- In the directed modes it is `arctan x` correctly rounded. -/
theorem C74_directed_partial {x : Num} (hx : x.WF) (h0 : (x.toK : ℚ) ≠ 0) (hlo : EMIN + 2 ≤ x.e) (hhi : x.e ≤ 689999990)
    {p : Nat} (hp : ValidP p) {rm : RM} (hd : rm = .up ∨ rm = .down ∨ rm = .toZero ∨ rm = .fromZero) {f : Nat}
    {c c' : Num.PiCache} (hc : AtanHist c) {r : BF} {w : Nat}
    (h : BF.atanC (.num x) p rm f c = some (r, c', w)) (hw : w + 64 ≤ 2 ^ 17) (hcov : AtanCov x w) :
    ∃ v, r = .num v ∧ RoundsFmt rm (precBits p) (Real.arctan x.toK) v.toK ∧ 64 * v.m.m.length = precBits p ∧
      v.inexact = true := by
  obtain ⟨v, v1, -, v2⟩ := C74_outcome_partial hx h0 hlo hhi hp rm hc h hw hcov
  exact ⟨v, v1, v2.directed hd, v2.prec, v2.inexact⟩

theorem arctan_normal {x : Num} (hx : x.WF) (h0 : (x.toK : ℚ) ≠ 0) (hlo : EMIN + 2 ≤ x.e) :
    (2 : ℝ) ^ (EMIN - 1) ≤ |Real.arctan x.toK| := by
  have hE : EMIN = -2 ^ 31 := rfl
  obtain ⟨q, q1, -, q3, -⟩ := hx.mag (K := ℝ) (nz_of_ne hx h0)
  rw [abs_arctan]
  have h1 : (2 : ℝ) ^ EMIN ≤ min |(x.toK : ℝ)| 1 := by
    rw [le_min_iff]
    exact ⟨le_trans (zpow_le_zpow_right₀ (by norm_num) (by omega)) q1, zpow_le_one_of_nonpos₀ (by norm_num) (by omega)⟩
  refine le_trans ?_ (Real.arctan_mono (min_le_left |(x.toK : ℝ)| 1))
  have h2 : (0 : ℝ) < 2 ^ EMIN := by positivity
  have h3 := abs_arctan_half (y := min |(x.toK : ℝ)| 1) (by rw [abs_of_pos (lt_of_lt_of_le h2 h1)]; exact min_le_right _ _)
  rw [abs_arctan, abs_of_pos (lt_of_lt_of_le h2 h1)] at h3
  refine le_trans ?_ h3
  rw [le_div_iff₀ (by norm_num), ← zpow_add_one₀ (by norm_num), sub_add_cancel]
  exact h1

/-- In the directed modes the result depends neither on what the cache was used for before nor on the precision of the
argument. -/
theorem C74_history_partial {x y : Num} (hx : x.WF) (hy : y.WF) (h0 : (x.toK : ℚ) ≠ 0)
    (hxy : (x.toK : ℚ) = y.toK) (hlo : EMIN + 2 ≤ x.e) (hlo' : EMIN + 2 ≤ y.e) (hhi : x.e ≤ 689999990) (hhi' : y.e ≤ 689999990)
    {p : Nat} (hp : ValidP p) {rm : RM} (hd : rm = .up ∨ rm = .down ∨ rm = .toZero ∨ rm = .fromZero) {f₁ f₂ : Nat}
    {c₁ c₂ c₁' c₂' : Num.PiCache} (hc₁ : AtanHist c₁) (hc₂ : AtanHist c₂) {r₁ r₂ : BF} {w₁ w₂ : Nat}
    (h₁ : BF.atanC (.num x) p rm f₁ c₁ = some (r₁, c₁', w₁)) (h₂ : BF.atanC (.num y) p rm f₂ c₂ = some (r₂, c₂', w₂))
    (hw₁ : w₁ + 64 ≤ 2 ^ 17) (hw₂ : w₂ + 64 ≤ 2 ^ 17) (hv₁ : AtanCov x w₁) (hv₂ : AtanCov y w₂) : r₁ = r₂ := by
  have hR : (x.toK : ℝ) = y.toK := by rw [← toK_ratCast x, ← toK_ratCast y, hxy]
  obtain ⟨v, rfl, -, v2⟩ := C74_outcome_partial hx h0 hlo hhi hp rm hc₁ h₁ hw₁ hv₁
  obtain ⟨v', rfl, -, v2'⟩ := C74_outcome_partial hy (hxy ▸ h0) hlo' hhi' hp rm hc₂ h₂ hw₂ hv₂
  have hP : 64 ≤ precBits p := by have := hp.pos; unfold precBits; omega
  rw [← hR] at v2'
  rw [v2.unique hd hP (arctan_normal hx h0 hlo) v2']

/-- In the directed modes the function grows with the argument. -/
theorem C74_mono_partial {x y : Num} (hx : x.WF) (hy : y.WF) (hx0 : (x.toK : ℚ) ≠ 0) (hy0 : (y.toK : ℚ) ≠ 0)
    (hlo : EMIN + 2 ≤ x.e) (hlo' : EMIN + 2 ≤ y.e) (hhi : x.e ≤ 689999990) (hhi' : y.e ≤ 689999990)
    (hxy : (x.toK : ℚ) ≤ y.toK) {p : Nat} (hp : ValidP p) {rm : RM}
    (hd : rm = .up ∨ rm = .down ∨ rm = .toZero ∨ rm = .fromZero) {f₁ f₂ : Nat} {c₁ c₂ c₁' c₂' : Num.PiCache}
    (hc₁ : AtanHist c₁) (hc₂ : AtanHist c₂) {v₁ v₂ : Num} {w₁ w₂ : Nat}
    (h₁ : BF.atanC (.num x) p rm f₁ c₁ = some (.num v₁, c₁', w₁)) (h₂ : BF.atanC (.num y) p rm f₂ c₂ = some (.num v₂, c₂', w₂))
    (hw₁ : w₁ + 64 ≤ 2 ^ 17) (hw₂ : w₂ + 64 ≤ 2 ^ 17) (hv₁ : AtanCov x w₁) (hv₂ : AtanCov y w₂) : (v₁.toK : ℚ) ≤ v₂.toK := by
  have hxyR : (x.toK : ℝ) ≤ y.toK := by
    rw [← toK_ratCast x, ← toK_ratCast y]; exact_mod_cast hxy
  obtain ⟨v, e1, v2, -⟩ := C74_directed_partial hx hx0 hlo hhi hp hd hc₁ h₁ hw₁ hv₁
  obtain ⟨v', e2, v2', -⟩ := C74_directed_partial hy hy0 hlo' hhi' hp hd hc₂ h₂ hw₂ hv₂
  injection e1 with e1
  injection e2 with e2
  rw [← e1] at v2
  rw [← e2] at v2'
  have hP : 0 < precBits p := by have := hp.pos; unfold precBits; omega
  have := v2.mono hP v2' (Real.arctan_mono hxyR)
  rw [← toK_ratCast v₁, ← toK_ratCast v₂] at this
  exact_mod_cast this

/-- The function is odd: `atan(-x)` rounded in one of the directed modes is `-atan(x)` rounded in the mirrored mode. -/
theorem C74_odd_partial {x y : Num} (hx : x.WF) (hy : y.WF) (h0 : (x.toK : ℚ) ≠ 0)
    (hxy : (y.toK : ℚ) = -x.toK) (hlo : EMIN + 2 ≤ x.e) (hlo' : EMIN + 2 ≤ y.e) (hhi : x.e ≤ 689999990) (hhi' : y.e ≤ 689999990)
    {p : Nat} (hp : ValidP p) {rm : RM} (hd : rm = .up ∨ rm = .down ∨ rm = .toZero ∨ rm = .fromZero) {f₁ f₂ : Nat}
    {c₁ c₂ c₁' c₂' : Num.PiCache} (hc₁ : AtanHist c₁) (hc₂ : AtanHist c₂) {v₁ v₂ : Num} {w₁ w₂ : Nat}
    (h₁ : BF.atanC (.num x) p rm.mirror f₁ c₁ = some (.num v₁, c₁', w₁))
    (h₂ : BF.atanC (.num y) p rm f₂ c₂ = some (.num v₂, c₂', w₂))
    (hw₁ : w₁ + 64 ≤ 2 ^ 17) (hw₂ : w₂ + 64 ≤ 2 ^ 17) (hv₁ : AtanCov x w₁) (hv₂ : AtanCov y w₂) : (v₂.toK : ℚ) = -v₁.toK := by
  have hR : (y.toK : ℝ) = -x.toK := by
    rw [← toK_ratCast x, ← toK_ratCast y]; exact_mod_cast hxy
  have hy0 : (y.toK : ℚ) ≠ 0 := by rw [hxy]; simpa using h0
  obtain ⟨v, e1, v2, -⟩ := C74_directed_partial hx h0 hlo hhi hp (RM.mirror_directed hd) hc₁ h₁ hw₁ hv₁
  obtain ⟨v', e2, v2', -⟩ := C74_directed_partial hy hy0 hlo' hhi' hp hd hc₂ h₂ hw₂ hv₂
  injection e1 with e1
  injection e2 with e2
  rw [← e1, RM.mirror_eq] at v2
  rw [← e2, hR, Real.arctan_neg] at v2'
  have hP : 0 < precBits p := by have := hp.pos; unfold precBits; omega
  have := v2'.unique hP v2.neg
  rw [← toK_ratCast v₁, ← toK_ratCast v₂] at this
  exact_mod_cast this

/-- The first round returns a number in mode `None`, and in the directed modes unless the digits are exceptional. -/
theorem C74_number_partial {x : Num} (hx : x.WF) (h0 : (x.toK : ℚ) ≠ 0) (hlo : EMIN + 2 ≤ x.e) (hhi : x.e ≤ 689999990)
    {p : Nat} (hp : ValidP p) {rm : RM} {c : Num.PiCache} (hc : AtanHist c)
    (hw : max (precBits p) (64 * x.m.m.length) + 128 ≤ 2 ^ 17)
    (hcov : AtanCov x (max (precBits p) (64 * x.m.m.length) + 64))
    (hs : rm = .none ∨ (rm = .up ∨ rm = .down ∨ rm = .toZero ∨ rm = .fromZero) ∧
      ¬ NearGrid (precBits p) 63 |Real.arctan x.toK|) (f : Nat) :
    ∃ v c' w, BF.atanC (.num x) p rm (f + 1) c = some (.num v, c', w) ∧ w ≤ max (precBits p) (64 * x.m.m.length) + 64 ∧
      AtanCov x w := by
  have hz := nz_of_ne hx h0
  obtain ⟨r, c', w, h2, h3⟩ := atan_number (f := f) hx hz hhi hp hc.ok hw (hcov.pi_close hx h0) (by
    rw [atanBy_pi]
    rcases hs with h | ⟨h, h'⟩
    · exact Or.inl h
    · exact Or.inr ⟨by rcases h with rfl | rfl | rfl | rfl <;> rfl, h'⟩)
  have hcov' : AtanCov x w := by
    rcases hcov with h | h | h
    · exact Or.inl h
    · exact Or.inr (Or.inl (by omega))
    · exact Or.inr (Or.inr h)
  obtain ⟨v, rfl, -⟩ := atan_spec hx hz hlo hhi hp rm hc.ok h2 (by omega) (hcov'.pi_close hx h0)
  refine ⟨v, c', w, ?_, h3, hcov'⟩
  unfold BF.atanC
  dsimp only
  rw [h2]
  rfl

/-! ## The infinities -/

theorem Rounds.half {rm : RM} {x u r : ℝ} (h : Rounds rm x u r) : Rounds rm (x / 2) (u / 2) (r / 2) := by
  obtain ⟨k, h1, h2⟩ := h
  refine ⟨k, by rw [h1]; ring, ?_⟩
  have a2 : |(2 : ℝ)| = 2 := abs_two
  have ax : |x / 2| = |x| / 2 := by rw [abs_div, a2]
  have ar : |r / 2| = |r| / 2 := by rw [abs_div, a2]
  have axr : |x / 2 - r / 2| = |x - r| / 2 := by rw [← sub_div, abs_div, a2]
  have am : x / 2 * (r / 2) = x * r / 4 := by ring
  cases rm <;> dsimp only at h2 ⊢ <;> try simp only [ax, ar, axr, am]
  all_goals first
    | exact ⟨by linarith [h2.1], by linarith [h2.2.1], by linarith [h2.2.2]⟩
    | exact ⟨by linarith [h2.1], by linarith [h2.2]⟩
    | exact ⟨by linarith [h2.1], fun h => h2.2 (by linarith)⟩

theorem RoundsFmt.half {rm : RM} {P : Nat} {x r : ℝ} (h : RoundsFmt rm P x r) (hx : (2 : ℝ) ^ EMIN ≤ |x|) :
    RoundsFmt rm P (x / 2) (r / 2) := by
  have h0 : (0 : ℝ) < 2 ^ EMIN := by positivity
  rcases h with ⟨h, -⟩ | ⟨q, h1, h2, h3⟩
  · rw [h, abs_zero] at hx; linarith
  · have hq := (zpow_lt_zpow_iff_right₀ (by norm_num : (1 : ℝ) < 2)).1 (lt_of_le_of_lt hx h2)
    have e : ∀ z : ℤ, (2 : ℝ) ^ (z - 1) = 2 ^ z / 2 := fun z => by rw [zpow_sub₀ (by norm_num), zpow_one]
    refine Or.inr ⟨q - 1, ?_, ?_, ?_⟩
    · rw [e, abs_div, abs_two]; linarith
    · rw [e, abs_div, abs_two]; linarith
    · have h4 := h3.half
      rw [← e, show max q EMIN - (P : ℤ) - 1 = max (q - 1) EMIN - (P : ℤ) by omega] at h4
      exact h4

theorem pi_num_range {rm : RM} {P : Nat} (hP : 64 ≤ P) (hd : rm = .up ∨ rm = .down ∨ rm = .toZero ∨ rm = .fromZero) {v : ℝ}
    (h : RoundsFmt rm P chudPi v) : 3 ≤ v ∧ v < 4 := by
  obtain ⟨b1, b2⟩ := chudPi_small
  have ha : |chudPi| = chudPi := abs_of_pos (by linarith)
  rcases h with ⟨h, -⟩ | ⟨q, h1, h2, k, h3, h4⟩
  · linarith
  · rw [ha] at h1 h2
    have hq : q = 2 := by
      have k1 : (2 : ℝ) ^ (q - 1) < 2 ^ (2 : ℤ) := lt_of_le_of_lt h1 (by norm_num; linarith)
      have k2 : (2 : ℝ) ^ (1 : ℤ) < 2 ^ q := lt_of_le_of_lt (by norm_num; linarith) h2
      have := (zpow_lt_zpow_iff_right₀ (by norm_num : (1 : ℝ) < 2)).1 k1
      have := (zpow_lt_zpow_iff_right₀ (by norm_num : (1 : ℝ) < 2)).1 k2
      omega
    have hE : EMIN = -2 ^ 31 := rfl
    have hu : (2 : ℝ) ^ (max q EMIN - (P : ℤ)) ≤ 1 / 100 := by
      refine le_trans (zpow_le_zpow_right₀ (n := -10) (by norm_num) (by omega)) (by norm_num)
    generalize (2 : ℝ) ^ (max q EMIN - (P : ℤ)) = u at h3 h4 hu
    rcases hd with rfl | rfl | rfl | rfl <;> dsimp only at h4
    · exact ⟨by linarith [h4.1], by linarith [h4.2]⟩
    · exact ⟨by linarith [h4.2], by linarith [h4.1]⟩
    · have hv : 0 ≤ v := by
        by_contra hc
        push Not at hc
        have := mul_neg_of_pos_of_neg (show 0 < chudPi by linarith) hc
        linarith [h4.2.2]
      rw [ha, abs_of_nonneg hv] at h4
      exact ⟨by linarith [h4.2.1], by linarith [h4.1]⟩
    · have hv : 0 ≤ v := by
        by_contra hc
        push Not at hc
        have := mul_neg_of_pos_of_neg (show 0 < chudPi by linarith) hc
        linarith [h4.2.2]
      rw [ha, abs_of_nonneg hv] at h4
      exact ⟨by linarith [h4.1], by linarith [h4.2.1]⟩

/-- At the infinities up to 4096 bits: the magnitude is `pi/2` correctly rounded in the given mode, as if it were positive. -/
theorem C74_inf_partial (s : Sign) {p : Nat} (hp : 0 < p) (hp12 : p ≤ 4096) {rm : RM}
    (hd : rm = .up ∨ rm = .down ∨ rm = .toZero ∨ rm = .fromZero) {c : Num.PiCache} (hc : AtanHist c) (f : Nat) :
    ∃ v c', BF.atanC (.inf s) p rm f c = some (.num v, c', 0) ∧ v.WF ∧ v.s = s ∧ 64 * v.m.m.length = precBits p ∧
      v.inexact = true ∧ RoundsFmt rm (precBits p) (Real.pi / 2) |v.toK| := by
  have hk : precBits p = 64 * ((p + 63) / 64) := rfl
  have hv : ValidP p := ⟨hp, by omega⟩
  have hPM : PMAX = 2 ^ 62 - 2 ^ 31 - 1 := rfl
  obtain ⟨r, c', p1, p2, p3, p4⟩ := piForPrec_spec (pw := (p + 63) / 64) (by omega) (by omega) (by omega) rm hc.ok
  obtain ⟨v, rfl⟩ := p4 (Or.inr ⟨by rcases hd with rfl | rfl | rfl | rfl <;> rfl, pi_not_near (by omega) (by omega)⟩) (by omega)
  rcases p3 with ⟨v', e, h3⟩ | ⟨_, e⟩
  · injection e with e
    subst e
    obtain ⟨b1, b2⟩ := pi_num_range (by omega) hd (h3.directed hd)
    obtain ⟨u1, u2, u3, u4, u5⟩ := halfPi_num (by omega) h3 b1 b2 s
    refine ⟨_, c', ?_, u1, u5, by rw [hk]; exact u3, u4, ?_⟩
    · unfold BF.atanC BF.halfPiC
      dsimp only
      rw [hv.roundP, hk, p1]
      rfl
    · have h4 := rounds_pi hd (by omega) (by omega) (h3.directed hd)
      have h5 := h4.half (by
        have h6 : (2 : ℝ) ^ EMIN ≤ 1 := zpow_le_one_of_nonpos₀ (by norm_num) (by unfold EMIN; omega)
        rw [abs_of_pos Real.pi_pos]
        linarith [Real.pi_gt_three])
      rw [u2, abs_mul, abs_of_pos (by linarith : (0 : ℝ) < v.toK / 2), hk]
      cases s <;> simpa [Sign.toK] using h5
  · cases e

/-- At minus infinity the mode `Up` does not round up. -/
theorem C74_inf_refuted : ¬ ∀ (s : Sign) (p : Nat) (rm : RM) (f : Nat) (c c' : Num.PiCache) (v : Num) (w : Nat), ValidP p → AtanHist c →
    (rm = .up ∨ rm = .down ∨ rm = .toZero ∨ rm = .fromZero) →
    BF.atanC (.inf s) p rm f c = some (.num v, c', w) → RoundsFmt rm (precBits p) (s.toK * (Real.pi / 2)) v.toK := by
  intro h
  obtain ⟨c, hc, -⟩ := C73_new
  obtain ⟨v, c', h1, h2, h3, -, -, h4⟩ := C74_inf_partial .neg (p := 64) (by norm_num) (by norm_num) (rm := .up) (Or.inl rfl) (.new hc) 0
  have h5 := h .neg 64 .up 0 c c' v 0 ⟨by norm_num, by decide⟩ (.new hc) (Or.inl rfl) h1
  have hv := Num.toK_eq (K := ℝ) v
  rw [h3, Sign.toK] at hv
  have hpi := Real.pi_gt_three
  rw [Sign.toK] at h5
  -- both directions give equality, but pi is irrational
  have k1 : Real.pi / 2 ≤ |(v.toK : ℝ)| := by
    rcases h4 with ⟨h, -⟩ | ⟨q, -, -, k, -, h6, -⟩
    · linarith
    · exact h6
  have k2 : -1 * (Real.pi / 2) ≤ (v.toK : ℝ) := by
    rcases h5 with ⟨h, -⟩ | ⟨q, -, -, k, -, h6, -⟩
    · linarith
    · exact h6
  have k3 : Real.pi = ((-2 * v.toK : ℚ) : ℝ) := by
    push_cast
    rw [toK_ratCast]
    linarith
  exact irrational_pi ⟨_, k3.symm⟩

/-! ## A run that does not end -/

/-- The number `1.25 * 2^715827946`. -/
def exEndless : Num := ⟨715827947, .pos, ⟨[11529215046068469760], 64⟩, false⟩

/-- Its reciprocal, the square and the cube of that. -/
def exEndlessInv : Num := ⟨-715827946, .pos, ⟨[14757395258967641292, 14757395258967641292, 14757395258967641292], 192⟩, true⟩
@[inherit_doc exEndlessInv]
def exEndlessSq : Num := ⟨-1431655892, .pos, ⟨[15495265021916023356, 4427218577690292387, 11805916207174113034], 192⟩, true⟩
@[inherit_doc exEndlessInv]
def exEndlessCube : Num := ⟨EMIN, .pos, ⟨[2, 0, 0], 2⟩, true⟩

/-- The number one, with 64 bits. -/
def exOne : Num := ⟨1, .pos, ⟨[MSB], 64⟩, false⟩

/-- The number `-3`, the first divisor of the series. -/
def exMinusThree : Num := ⟨2, .neg, ⟨[13835058055282163712], 64⟩, false⟩

theorem exEndless_WF : exEndless.WF := Num.WF_of_check (by decide +kernel)

theorem exEndless_loop (f : Nat) : linearLoop atanNext true 192 exEndlessSq f exEndlessInv exEndlessCube ⟨exOne, 64⟩ = .error .panic := by
  cases f with
  | zero => rfl
  | succ f =>
    have hz : exEndlessInv.WF := Num.WF_of_check (by decide +kernel)
    have h1 : atanNext ⟨exOne, 64⟩ = .ok (exMinusThree, ⟨exMinusThree, 64⟩) := by
      have : (if exOne.isPositive then exOne.add Num.TWO 64 .none else exOne.sub Num.TWO 64 .none) = .ok exMinusThree.invSign := by
        decide +kernel
      have hm : exOne.m.maxBitLen = 64 := by decide +kernel
      unfold atanNext
      dsimp only
      rw [hm, this]
      rfl
    have h2 : exEndlessCube.div exMinusThree 192 .none = .ok ⟨0, .neg, ⟨[0, 0, 0], 0⟩, true⟩ := by decide +kernel
    have h3 : exEndlessInv.add ⟨0, .neg, ⟨[0, 0, 0], 0⟩, true⟩ 192 .none = .ok exEndlessInv := by decide +kernel
    have h4 : exEndlessCube.mul exEndlessSq 192 .none = .ok ⟨0, .pos, ⟨[0, 0, 0], 0⟩, true⟩ := by decide +kernel
    have hw : exMinusThree.WF := Num.WF_of_check (by decide +kernel)
    have ht : (exMinusThree.toK : ℝ) = -3 := by
      unfold Num.toK exMinusThree
      simp only [Sign.toK, val]
      norm_num
    rw [linearLoop, h1]
    dsimp only
    unfold seriesTerm
    rw [if_pos rfl, h2]
    dsimp only
    rw [h3]
    dsimp only
    rw [if_neg (by decide +kernel), h4]
    dsimp only
    exact linearLoop_endless (pw := 3) (by norm_num) (by decide) f _ _ _
      ⟨hw, rfl, by dsimp only; rw [ht]; norm_num, by dsimp only; rw [ht]; norm_num⟩ (by decide +kernel) hz rfl (by decide +kernel)
      (by decide +kernel) (by decide +kernel)

/-- The series of `atan(1.25 * 2^715827946)` at 64 bits: the loop is entered with the reciprocal of the argument, its square and
its cube, and no amount of fuel lets it return. -/
theorem C74_endless : ∃ y z xs xf g, exEndless.setPrecision (128 + 5) .none = .ok y ∧ y.reciprocal (128 + 5) .none = .ok z ∧
    z.mul z 192 .none = .ok xs ∧ z.mul xs 192 .none = .ok xf ∧ atanGenNew = .ok g ∧
    (z.atanSeries = match linearLoop atanNext true 192 xs 448 z xf g with
      | .error e => .error e
      | .ok v => .ok { v with inexact := true }) ∧
    ∀ f, linearLoop atanNext true 192 xs f z xf g = .error .panic := by
  have hg : atanGenNew = .ok ⟨exOne, 64⟩ := rfl
  have e3 : exEndlessInv.mul exEndlessInv 192 .none = .ok exEndlessSq := by decide +kernel
  have e4 : exEndlessInv.mul exEndlessSq 192 .none = .ok exEndlessCube := by decide +kernel
  refine ⟨⟨715827947, .pos, ⟨[0, 0, 11529215046068469760], 192⟩, false⟩, exEndlessInv, exEndlessSq, exEndlessCube, ⟨exOne, 64⟩,
    by decide +kernel, by decide +kernel, e3, e4, hg, ?_, exEndless_loop⟩
  have hc : seriesCostOptimize atanRedCost (atanRedEff (-exEndlessInv.e)) 192 64 (-exEndlessInv.e) 2 = .ok (0, 0, 715827949) := by decide +kernel
  have hm : exEndlessInv.m.maxBitLen = 192 := by decide +kernel
  have hs : exEndlessInv.setPrecision 192 .none = .ok exEndlessInv := by decide +kernel
  unfold Num.atanSeries
  dsimp only
  rw [hg]
  dsimp only
  rw [hm, hc]
  dsimp only
  rw [if_neg (by decide), if_neg (by decide), Nat.add_zero, hs]
  dsimp only
  rw [if_neg (by decide)]
  unfold Num.atanSeriesArg
  dsimp only
  rw [e3]
  dsimp only
  rw [e4]
  dsimp only
  unfold seriesRun
  dsimp only
  rw [if_neg (by decide +kernel), if_neg (by decide), if_pos rfl]
  unfold seriesLinear
  dsimp only
  rw [show max (max exEndlessInv.m.maxBitLen exEndlessCube.m.maxBitLen) exEndlessSq.m.maxBitLen = 192 by decide +kernel]
  rw [exEndless_loop]

/-- So there is a number for which `atan` does not return a number. -/
theorem C74_endless_refuted : ¬ ∀ (x : Num) (p : Nat) (rm : RM) (f : Nat) (c c' : Num.PiCache) (r : BF) (w : Nat), x.WF → ValidP p →
    AtanHist c → BF.atanC (.num x) p rm f c = some (r, c', w) → ∃ v, r = .num v := by
  intro h
  obtain ⟨c, hc, -⟩ := C73_new
  obtain ⟨y, z, xs, xf, g, e1, e2, e3, e4, e5, e6, e7⟩ := C74_endless
  rw [e7] at e6
  dsimp only at e6
  have hye : y.e > 0 := by
    have : exEndless.setPrecision (128 + 5) .none = .ok ⟨715827947, .pos, ⟨[0, 0, 11529215046068469760], 192⟩, false⟩ := by decide +kernel
    rw [this] at e1
    injection e1 with e1
    rw [← e1]
    dsimp only
    norm_num
  have hst : exEndless.atanStep 128 c = some (.ret (.error .panic), c) := by
    unfold Num.atanStep
    dsimp only
    rw [e1]
    dsimp only
    rw [if_pos hye, e2]
    dsimp only
    rw [e6]
  have hat : BF.atanC (.num exEndless) 64 .up 1 c = some (.nan (some .panic), c, 128) := by
    unfold BF.atanC Num.atan
    have hr : roundP 64 = 64 := by decide
    have hm : exEndless.m.maxBitLen = 64 := by decide +kernel
    have hn : ¬ (((max 64 64 : ℕ) : ℤ) + 1 < -(exEndless.e * 2 - 1)) := by decide +kernel
    dsimp only
    rw [hr, hm, if_neg (by decide +kernel), if_neg hn]
    rw [roundLoop, show max 64 64 + 64 = 128 by norm_num, hst]
    rfl
  obtain ⟨v, hv⟩ := h _ _ _ _ _ _ _ _ exEndless_WF ⟨by norm_num, by decide⟩ (.new hc) hat
  cases hv

/-! ## Concrete cases -/

set_option maxRecDepth 100000 in
/-- `atan(-1/2)` with 64 bits, rounded up, from a new cache: the hypotheses hold and the number is known. -/
example : ∃ c v c' w, AtanHist c ∧ exMinusHalf.WF ∧ (exMinusHalf.toK : ℚ) ≠ 0 ∧
    EMIN + 2 ≤ exMinusHalf.e ∧ exMinusHalf.e ≤ 689999990 ∧ ValidP 64 ∧
    BF.atanC (.num exMinusHalf) 64 .up 1 c = some (.num v, c', w) ∧ w ≤ 4096 ∧ AtanCov exMinusHalf w ∧
    v.m.m = [17105577567250447173] ∧ v.e = -1 ∧ v.s = .neg ∧ RoundsFmt .up 64 (Real.arctan (-(1 / 2))) v.toK := by
  obtain ⟨c, h1, -⟩ := C73_new
  have hw : exMinusHalf.WF := Num.WF_of_check (by decide +kernel)
  have h0 : (exMinusHalf.toK : ℚ) ≠ 0 := by rw [exMinusHalf_toK_rat]; norm_num
  have hp : ValidP 64 := ⟨by norm_num, by decide⟩
  have h2 : (match piNew with
    | .ok c => match BF.atanC (.num exMinusHalf) 64 .up 1 c with
      | some (.num v, _, w) => v.m.m == [17105577567250447173] && v.e == -1 && v.s == .neg && decide (w ≤ 1000)
      | _ => false
    | _ => false) = true := by decide +kernel
  rw [h1] at h2
  dsimp only at h2
  cases h3 : BF.atanC (.num exMinusHalf) 64 .up 1 c with
  | none => rw [h3] at h2; cases h2
  | some r =>
    obtain ⟨b, c', w⟩ := r
    rw [h3] at h2
    cases b with
    | nan e => cases h2
    | inf s => cases h2
    | num v =>
      simp at h2
      obtain ⟨⟨⟨h4, h5⟩, h5'⟩, h6⟩ := h2
      have hcov : AtanCov exMinusHalf w := Or.inr (Or.inl (by omega))
      obtain ⟨v', e1, e2, -⟩ := C74_directed_partial hw h0 (by decide) (by decide) hp (Or.inl rfl) (.new h1) h3 (by omega) hcov
      injection e1 with e1
      rw [← e1, exMinusHalf_toK] at e2
      exact ⟨c, v, c', w, .new h1, hw, h0, by decide, by decide, hp, h3, by omega, hcov, h4, h5, h5', e2⟩

set_option maxRecDepth 100000 in
/-- `atan(2)` with 64 bits, rounded up: an argument for which pi is used. -/
example : ∃ c v c' w, AtanHist c ∧ BF.atanC (.num Num.TWO) 64 .up 1 c = some (.num v, c', w) ∧ AtanCov Num.TWO w ∧
    v.m.m = [10211644524341633892] ∧ v.e = 1 ∧ RoundsFmt .up 64 (Real.arctan 2) v.toK := by
  obtain ⟨c, h1, -⟩ := C73_new
  have h0 : (Num.TWO.toK : ℚ) ≠ 0 := by
    intro h
    have : Num.TWO.isZero = false := by decide +kernel
    rw [TWO_WF.toK_eq_zero.1 h] at this; cases this
  have hp : ValidP 64 := ⟨by norm_num, by decide⟩
  have h2 : (match piNew with
    | .ok c => match BF.atanC (.num Num.TWO) 64 .up 1 c with
      | some (.num v, _, w) => v.m.m == [10211644524341633892] && v.e == 1 && decide (w ≤ 1000)
      | _ => false
    | _ => false) = true := by decide +kernel
  rw [h1] at h2
  dsimp only at h2
  cases h3 : BF.atanC (.num Num.TWO) 64 .up 1 c with
  | none => rw [h3] at h2; cases h2
  | some r =>
    obtain ⟨b, c', w⟩ := r
    rw [h3] at h2
    cases b with
    | nan e => cases h2
    | inf s => cases h2
    | num v =>
      simp at h2
      obtain ⟨⟨h4, h5⟩, h6⟩ := h2
      have hcov : AtanCov Num.TWO w := Or.inr (Or.inl (by omega))
      obtain ⟨v', e1, e2, -⟩ := C74_directed_partial TWO_WF h0 (by decide) (by decide) hp (Or.inl rfl) (.new h1) h3 (by omega) hcov
      injection e1 with e1
      rw [← e1, TWO_toK] at e2
      exact ⟨c, v, c', w, .new h1, h3, hcov, h4, h5, e2⟩

set_option maxRecDepth 100000 in
/-- An argument next to zero. -/
example : exNearZero.WF ∧ (exNearZero.toK : ℚ) ≠ 0 ∧ EMIN + 2 ≤ exNearZero.e ∧
    ((max (precBits 64) (64 * exNearZero.m.m.length) : ℕ) : ℤ) + 1 < -(exNearZero.e * 2 - 1) ∧
    ∀ c, BF.atanC (.num exNearZero) 64 .up 1 c = some (.num ⟨-101, .neg, ⟨[WMAX], 64⟩, true⟩, c, 0) := by
  have hw : exNearZero.WF := Num.WF_of_check (by decide +kernel)
  refine ⟨hw, ?_, by decide, by decide +kernel, fun c => ?_⟩
  · intro h
    have : exNearZero.isZero = false := by decide +kernel
    rw [hw.toK_eq_zero.1 h] at this; cases this
  · have h1 : exNearZero.smallExp true 64 .up = .ok ⟨-101, .neg, ⟨[WMAX], 64⟩, true⟩ := by decide +kernel
    have h2 : roundP 64 = 64 := by decide +kernel
    unfold BF.atanC Num.atan
    dsimp only
    rw [h2, if_neg (by decide +kernel), if_pos (by decide +kernel), h1]
    rfl

/-- The hypotheses of `C74_number_partial` about the size are met by 2 at 3900 bits and by `-1/2` at 130000 bits. -/
example : max (precBits 3900) (64 * Num.TWO.m.m.length) + 128 ≤ 2 ^ 17 ∧ AtanCov Num.TWO (max (precBits 3900) (64 * Num.TWO.m.m.length) + 64) ∧
    max (precBits 130000) (64 * exMinusHalf.m.m.length) + 128 ≤ 2 ^ 17 ∧ |(exMinusHalf.toK : ℚ)| < 1 :=
  ⟨by decide +kernel, Or.inr (Or.inl (by decide +kernel)), by decide +kernel, by rw [exMinusHalf_toK_rat]; norm_num⟩

end AF
