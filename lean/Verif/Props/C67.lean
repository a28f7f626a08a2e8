import Verif.Lemmas.InvFun
import Verif.Props.C63
import Verif.Props.C65
/-!
# C67: the inverse hyperbolic tangent

The full claim: for every number `x` between -1 and 1, every precision, every rounding mode and whatever was asked of the
cache before, `atanh` returns `artanh x` correctly rounded, marked inexact unless `x` is zero; `atanh` of a zero is a zero
of the same sign, `atanh(±1)` is the infinity of the same sign, and other numbers and the infinities give NaN.

Proved: the values at zeros (`C67_zero`), at ±1 (`C67_one`), out of the domain (`C67_domain`, `C67_special`). Next to zero
the result is correctly rounded in all modes and at every precision (`C67_small`). For the other arguments a result
obtained with a working precision up to `2^15` bits is a number with the sign of `x`, correctly rounded in the four
directed modes and within the bounds of `FunRounded` in the other modes (`C67_outcome_partial`, `C67_directed_partial`); in
the directed modes it does not depend on the history of the cache or on the precision of the argument
(`C67_history_partial`), grows with the argument (`C67_mono_partial`) and is odd (`C67_odd_partial`). The first round of the
loop returns such a number in mode `None`, and in the directed modes unless the 63 bits of `|artanh x|` after the first
`P` are all equal (`C67_number_partial`).

Missing: arguments in the two lowest binades and subnormal arguments, correct rounding in the nearest modes, working
precisions over `2^15` bits, the end of the loop in the exceptional cases.
-/

namespace AF

/-- The caches that exist after `Ln2Cache::new` and any number of calls of `Consts::ln_2`, of `ln` and `log2` with working
precisions up to `2^17`, of `atanh` with working precisions up to `2^15`, and of `asinh` and `acosh` with working precisions
up to `2^14`. -/
inductive InvHist : Num.Ln2Cache → Prop
  | new {c} : ln2New = .ok c → InvHist c
  | ln2 {c c' p rm r} : InvHist c → ValidP p → constLn2 p rm c = some (r, c') → InvHist c'
  | ln {c c' x p rm f r w} : InvHist c → ValidP p → BF.WF x → BF.lnC x p rm f c = some (r, c', w) → w ≤ 2 ^ 17 → InvHist c'
  | log2 {c c' x p rm f r w} : InvHist c → ValidP p → BF.WF x → BF.log2C x p rm f c = some (r, c', w) → w ≤ 2 ^ 17 → InvHist c'
  | atanh {c c' x p rm f r w} : InvHist c → ValidP p → BF.WF x → BF.atanhC x p rm f c = some (r, c', w) → w ≤ 2 ^ 15 → InvHist c'
  | asinh {c c' x p rm f r w} : InvHist c → ValidP p → BF.WF x → BF.asinhC x p rm f c = some (r, c', w) → w ≤ 2 ^ 14 → InvHist c'
  | acosh {c c' x p rm f r w} : InvHist c → ValidP p → BF.WF x → BF.acoshC x p rm f c = some (r, c', w) → w ≤ 2 ^ 14 → InvHist c'

theorem wrapInv_num {f : Num → Nat → RM → Nat → Num.Ln2Cache → Option (Except Err Num × Num.Ln2Cache × Nat)} {pinf ninf : BF}
    {x : Num} {p : Nat} {rm : RM} {n : Nat} {c c' : Num.Ln2Cache} {r : BF} {w : Nat}
    (h : BF.wrapInv f pinf ninf (.num x) p rm n c = some (r, c', w)) :
    ∃ r', f x p rm n c = some (r', c', w) ∧ r = BF.resultToExt r' x.isZero true := by
  unfold BF.wrapInv at h
  dsimp only at h
  split at h
  · cases h
  · rename_i he
    simp only [Option.some.injEq, Prod.mk.injEq] at h
    obtain ⟨rfl, rfl, rfl⟩ := h
    exact ⟨_, he, rfl⟩

theorem wrapInv_cache {f : Num → Nat → RM → Nat → Num.Ln2Cache → Option (Except Err Num × Num.Ln2Cache × Nat)} {pinf ninf : BF}
    {x : BF} {p : Nat} {rm : RM} {n : Nat} {c c' : Num.Ln2Cache} {r : BF} {w : Nat} (hx : x.WF) (hc : Ln2Ok c)
    (hf : ∀ (y : Num) (r' : Except Err Num), y.WF → f y p rm n c = some (r', c', w) → Ln2Ok c')
    (h : BF.wrapInv f pinf ninf x p rm n c = some (r, c', w)) : Ln2Ok c' := by
  cases x with
  | nan e => exact some_cache h ▸ hc
  | inf s => exact some_cache h ▸ hc
  | num y =>
    obtain ⟨r', h1, -⟩ := wrapInv_num h
    exact hf y r' hx h1

theorem asinh_cache {y : Num} (hy : y.WF) {p : Nat} (hp : ValidP p) {rm : RM} {f : Nat} {c c' : Num.Ln2Cache}
    (hc : Ln2Ok c) {r : Except Err Num} {w : Nat} (h : y.asinh p rm f c = some (r, c', w)) (hw : w ≤ 2 ^ 14) : Ln2Ok c' := by
  cases hz : y.isZero with
  | true =>
    unfold Num.asinh at h
    dsimp only at h
    rw [if_pos hz] at h
    exact some_cache h ▸ hc
  | false => exact (asinh_spec hy hz hp rm hc h hw).1

theorem acosh_cache {y : Num} (hy : y.WF) {p : Nat} (hp : ValidP p) {rm : RM} {f : Nat} {c c' : Num.Ln2Cache}
    (hc : Ln2Ok c) {r : Except Err Num} {w : Nat} (h : y.acosh p rm f c = some (r, c', w)) (hw : w ≤ 2 ^ 14) : Ln2Ok c' := by
  by_cases h1 : 1 < (y.toK : ℝ)
  · exact (acosh_spec hy h1 hp rm hc h hw).1
  · obtain ⟨o1, o2⟩ := cmp_one_real hy
    unfold Num.acosh at h
    dsimp only at h
    rcases lt_or_eq_of_le (not_lt.1 h1) with h2 | h2
    · rw [if_neg (by rw [o1]; exact h2.ne), if_pos (by rw [o2]; exact h2)] at h
      exact some_cache h ▸ hc
    · rw [if_pos (by rw [o1]; exact h2)] at h
      exact some_cache h ▸ hc

theorem InvHist.ok {c : Num.Ln2Cache} (h : InvHist c) : Ln2Ok c := by
  induction h with
  | new h => exact (Ln2Hist.new h).ok
  | ln2 h hp hc ih =>
    obtain ⟨r, c', h1, h2, -⟩ := constLn2_spec hp _ ih
    rw [h1] at hc
    injection hc with hc
    injection hc with _ hc
    rw [← hc]; exact h2
  | ln h hp hx hc hw ih => exact wrapLogC_cache hx ih (fun y r' hy hz h => ln_cache hy hz hp ih h hw) hc
  | log2 h hp hx hc hw ih => exact wrapLogC_cache hx ih (fun y r' hy hz h => log2_cache hy hz hp ih h hw) hc
  | atanh h hp hx hc hw ih => exact wrapInv_cache hx ih (fun y r' hy h => atanh_cache hy hp _ ih h hw) hc
  | asinh h hp hx hc hw ih => exact wrapInv_cache hx ih (fun y r' hy h => asinh_cache hy hp ih h hw) hc
  | acosh h hp hx hc hw ih => exact wrapInv_cache hx ih (fun y r' hy h => acosh_cache hy hp ih h hw) hc

/-- The magnitude of a number below one bounds its exponent. -/
theorem exp_le_zero {x : Num} (hx : x.WF) (h0 : (x.toK : ℚ) ≠ 0) (h1 : |(x.toK : ℚ)| < 1) : x.e ≤ 0 := by
  have hE : EMIN = -2 ^ 31 := rfl
  obtain ⟨q, q1, -, q3, -⟩ := hx.mag (K := ℚ) (nz_of_ne hx h0)
  by_contra h
  have : (1 : ℚ) ≤ 2 ^ (q - 1) := one_le_zpow₀ (by norm_num) (by omega)
  linarith

theorem abs_lt_one_real {x : Num} (h : |(x.toK : ℚ)| < 1) : |(x.toK : ℝ)| < 1 := by
  rw [← toK_ratCast x, ← Rat.cast_abs]; exact_mod_cast h

/-- NaN and the infinities. -/
theorem C67_special (p : Nat) (rm : RM) (f : Nat) (c : Num.Ln2Cache) :
    (∀ e, BF.atanhC (.nan e) p rm f c = some (.nan e, c, 0)) ∧ (∀ s, BF.atanhC (.inf s) p rm f c = some (.nan none, c, 0)) :=
  ⟨fun _ => rfl, fun s => by cases s <;> rfl⟩

/-- The value at a zero is a zero of the same sign, exactly, in every mode. -/
theorem C67_zero {x : Num} (hx : x.WF) (h0 : (x.toK : ℚ) = 0) {p : Nat} (hp : ValidP p) (rm : RM) (f : Nat) (c : Num.Ln2Cache) :
    ∃ v, BF.atanhC (.num x) p rm f c = some (.num v, c, 0) ∧ v.WF ∧ 64 * v.m.m.length = precBits p ∧ v.s = x.s ∧
      (v.toK : ℚ) = 0 ∧ v.inexact = x.inexact := by
  have hz := hx.toK_eq_zero.1 h0
  have hP := hp.pos
  have hlt := hp.lt
  have hs := setPrecision_spec (K := ℚ) hx (p := precBits p) (by unfold precBits; omega) hlt .none
  have hk : 0 < keptBits .none (precBits p) := by
    unfold keptBits wordLen precBits; simp; omega
  unfold BF.atanhC BF.wrapInv Num.atanh
  dsimp only
  rw [hp.roundP, if_pos hz]
  cases hr : x.setPrecision (precBits p) .none with
  | error e => rw [hr] at hs; rw [hz] at hs; exact absurd hs.2.1 (by simp)
  | ok v =>
    rw [hr] at hs
    obtain ⟨⟨h1, h2, h3, h4, h5⟩, -⟩ := hs
    have hv : (v.toK : ℚ) = 0 := by
      rw [h0] at h5
      rcases h5 with h | ⟨q, q1, -⟩
      · exact h.2
      · have : (0 : ℚ) < 2 ^ (q - 1) := by positivity
        rw [abs_zero] at q1; linarith
    refine ⟨v, rfl, h1, by rw [h2]; unfold precBits wordLen; omega, h3, hv, ?_⟩
    have h6 := h4 (Or.inr (by unfold precBits; omega))
    rw [hv, h0] at h6
    cases h7 : v.inexact <;> cases h8 : x.inexact <;> simp [h7, h8] at h6 ⊢

/-- The values at `1` and `-1` are the infinities. -/
theorem C67_one {x : Num} (hx : x.WF) (h1 : |(x.toK : ℚ)| = 1) (p : Nat) (rm : RM) (f : Nat) (c : Num.Ln2Cache) :
    BF.atanhC (.num x) p rm f c = some (.inf x.s, c, 0) := by
  have hE : EMIN = -2 ^ 31 := rfl
  have h0 : (x.toK : ℚ) ≠ 0 := by intro h; rw [h, abs_zero] at h1; norm_num at h1
  have hz := nz_of_ne hx h0
  obtain ⟨q, q1, q2, q3, -⟩ := hx.mag (K := ℚ) hz
  rw [h1] at q1 q2
  have hq : q = 1 := by
    have a1 : q - 1 ≤ 0 := by
      by_contra h
      have : (2 : ℚ) ^ (1 : ℤ) ≤ 2 ^ (q - 1) := zpow_le_zpow_right₀ (by norm_num) (by omega)
      norm_num at this; linarith
    have a2 : 0 < q := by
      by_contra h
      have : (2 : ℚ) ^ q ≤ 1 := zpow_le_one_of_nonpos₀ (by norm_num) (by omega)
      linarith
    omega
  have he : x.e = 1 := by omega
  have hone : Num.ONE.isZero = false := by decide
  have hc : x.absCmp Num.ONE = 0 := by
    obtain ⟨a1, a2⟩ := absCmp_spec (K := ℚ) hx ONE_WF hz hone
    rw [ONE_toK, h1, abs_one] at a1 a2
    have b1 := mt a1.1 (lt_irrefl _)
    have b2 := mt a2.1 (lt_irrefl _)
    omega
  unfold BF.atanhC BF.wrapInv Num.atanh
  dsimp only
  rw [hz, if_neg Bool.false_ne_true, if_pos he, if_pos hc]
  cases x.s <;> rfl

/-- Other numbers are out of the domain: NaN with the reason. -/
theorem C67_domain {x : Num} (hx : x.WF) (h1 : 1 < |(x.toK : ℚ)|) (p : Nat) (rm : RM) (f : Nat) (c : Num.Ln2Cache) :
    BF.atanhC (.num x) p rm f c = some (.nan (some .invalidArgument), c, 0) := by
  have hE : EMIN = -2 ^ 31 := rfl
  have h0 : (x.toK : ℚ) ≠ 0 := by intro h; rw [h, abs_zero] at h1; norm_num at h1
  have hz := nz_of_ne hx h0
  obtain ⟨q, q1, q2, q3, -⟩ := hx.mag (K := ℚ) hz
  have a2 : 0 < q := by
    by_contra h
    have : (2 : ℚ) ^ q ≤ 1 := zpow_le_one_of_nonpos₀ (by norm_num) (by omega)
    linarith
  have hone : Num.ONE.isZero = false := by decide
  have hc : x.absCmp Num.ONE ≠ 0 := by
    obtain ⟨a1, -⟩ := absCmp_spec (K := ℚ) hx ONE_WF hz hone
    rw [ONE_toK, abs_one] at a1
    have := a1.2 h1
    omega
  unfold BF.atanhC BF.wrapInv Num.atanh
  dsimp only
  rw [hz, if_neg Bool.false_ne_true]
  by_cases he : x.e = 1
  · rw [if_pos he, if_neg hc]; rfl
  · rw [if_neg he, if_pos (by omega)]; rfl

theorem artanh_sign {x : Num} (h0 : (x.toK : ℚ) ≠ 0) (h1 : |(x.toK : ℚ)| < 1) {rm : RM} {P : Nat} {v : Num}
    (h : FunRounded rm P (Real.artanh x.toK) v) : v.s = x.s := by
  have h2 : 0 < |(x.toK : ℝ)| := by
    rw [abs_pos, ← toK_ratCast x]; exact_mod_cast h0
  have h3 := artanh_gt_self h2 (abs_lt_one_real h1)
  have h4 := sign_artanh x
  cases hs : x.s with
  | pos => rw [hs, Sign.toK, one_mul] at h4; exact h.pos (by rw [h4]; linarith)
  | neg => rw [hs, Sign.toK] at h4; exact h.neg (by rw [h4]; linarith)

/-- Next to zero the result is `artanh x` correctly rounded, in every mode and at every precision. -/
theorem C67_small {x : Num} (hx : x.WF) (h0 : (x.toK : ℚ) ≠ 0) (hlo : EMIN + 2 ≤ x.e) {p : Nat} (hp : ValidP p)
    (he : ((max (precBits p) (64 * x.m.m.length) : ℕ) : ℤ) + 1 < -(x.e * 2 - 1)) (rm : RM) (f : Nat) (c : Num.Ln2Cache) :
    ∃ v, BF.atanhC (.num x) p rm f c = some (.num v, c, 0) ∧ v.WF ∧ 64 * v.m.m.length = precBits p ∧ v.s = x.s ∧
      v.inexact = true ∧ RoundsFmt rm (precBits p) (Real.artanh x.toK) v.toK := by
  have hz := nz_of_ne hx h0
  have hp0 := hp.pos
  obtain ⟨pw, hpw⟩ : ∃ pw, precBits p = 64 * pw := ⟨(p + 63) / 64, rfl⟩
  have hpw0 : 0 < pw := by unfold precBits at hpw; omega
  have hmb : x.m.maxBitLen = 64 * x.m.m.length := by unfold Mantissa.maxBitLen; omega
  rw [hpw] at he
  obtain ⟨v, v1, v2, v3⟩ := atanh_small hx hz hlo hpw0 he rm
  have h1 : |(x.toK : ℚ)| < 1 := by
    have h2 := hx.abs_lt_zpow (K := ℚ)
    have h3 : (2 : ℚ) ^ x.e ≤ 1 := zpow_le_one_of_nonpos₀ (by norm_num) (by omega)
    linarith
  refine ⟨v, ?_, v3.wf, by rw [hpw]; exact v3.prec, artanh_sign h0 h1 v3, v3.inexact, by rw [hpw]; exact v2⟩
  unfold BF.atanhC BF.wrapInv Num.atanh
  dsimp only
  rw [hp.roundP, hpw, hz, if_neg Bool.false_ne_true, if_neg (by omega), if_neg (by omega), hmb, if_pos he, v1]
  rfl

/-- What is returned for the other arguments. -/
theorem C67_outcome_partial {x : Num} (hx : x.WF) (h0 : (x.toK : ℚ) ≠ 0) (h1 : |(x.toK : ℚ)| < 1) (hlo : EMIN + 2 ≤ x.e)
    {p : Nat} (hp : ValidP p) (rm : RM) {f : Nat} {c c' : Num.Ln2Cache} (hc : InvHist c) {r : BF} {w : Nat}
    (h : BF.atanhC (.num x) p rm f c = some (r, c', w)) (hw : w ≤ 2 ^ 15) :
    ∃ v, r = .num v ∧ v.s = x.s ∧ FunRounded rm (precBits p) (Real.artanh x.toK) v := by
  obtain ⟨r', h2, h3⟩ := wrapInv_num h
  obtain ⟨-, v, v1, v2⟩ := atanh_spec hx (nz_of_ne hx h0) (exp_le_zero hx h0 h1) hlo hp rm hc.ok h2 hw
  refine ⟨v, ?_, artanh_sign h0 h1 v2, v2⟩
  rw [h3, v1]; rfl

/-- In the directed modes it is `artanh x` correctly rounded. -/
theorem C67_directed_partial {x : Num} (hx : x.WF) (h0 : (x.toK : ℚ) ≠ 0) (h1 : |(x.toK : ℚ)| < 1) (hlo : EMIN + 2 ≤ x.e)
    {p : Nat} (hp : ValidP p) {rm : RM} (hd : rm = .up ∨ rm = .down ∨ rm = .toZero ∨ rm = .fromZero) {f : Nat}
    {c c' : Num.Ln2Cache} (hc : InvHist c) {r : BF} {w : Nat}
    (h : BF.atanhC (.num x) p rm f c = some (r, c', w)) (hw : w ≤ 2 ^ 15) :
    ∃ v, r = .num v ∧ RoundsFmt rm (precBits p) (Real.artanh x.toK) v.toK ∧ 64 * v.m.m.length = precBits p ∧
      v.inexact = true := by
  obtain ⟨v, v1, -, v2⟩ := C67_outcome_partial hx h0 h1 hlo hp rm hc h hw
  exact ⟨v, v1, v2.directed hd, v2.prec, v2.inexact⟩

theorem artanh_normal {x : Num} (hx : x.WF) (h0 : (x.toK : ℚ) ≠ 0) (h1 : |(x.toK : ℚ)| < 1) (hlo : EMIN + 2 ≤ x.e) :
    (2 : ℝ) ^ (EMIN - 1) ≤ |Real.artanh x.toK| := by
  have hE : EMIN = -2 ^ 31 := rfl
  obtain ⟨q, q1, -, q3, -⟩ := hx.mag (K := ℝ) (nz_of_ne hx h0)
  have h2 : 0 < |(x.toK : ℝ)| := lt_of_lt_of_le (by positivity) q1
  rw [abs_artanh]
  refine le_trans (le_trans ?_ q1) (artanh_gt_self h2 (abs_lt_one_real h1)).le
  exact zpow_le_zpow_right₀ (by norm_num) (by omega)

/-- In the directed modes the result depends neither on what the cache was used for before nor on the precision of the
argument. -/
theorem C67_history_partial {x y : Num} (hx : x.WF) (hy : y.WF) (h0 : (x.toK : ℚ) ≠ 0) (h1 : |(x.toK : ℚ)| < 1)
    (hxy : (x.toK : ℚ) = y.toK) (hlo : EMIN + 2 ≤ x.e) (hlo' : EMIN + 2 ≤ y.e)
    {p : Nat} (hp : ValidP p) {rm : RM} (hd : rm = .up ∨ rm = .down ∨ rm = .toZero ∨ rm = .fromZero) {f₁ f₂ : Nat}
    {c₁ c₂ c₁' c₂' : Num.Ln2Cache} (hc₁ : InvHist c₁) (hc₂ : InvHist c₂) {r₁ r₂ : BF} {w₁ w₂ : Nat}
    (h₁ : BF.atanhC (.num x) p rm f₁ c₁ = some (r₁, c₁', w₁)) (h₂ : BF.atanhC (.num y) p rm f₂ c₂ = some (r₂, c₂', w₂))
    (hw₁ : w₁ ≤ 2 ^ 15) (hw₂ : w₂ ≤ 2 ^ 15) : r₁ = r₂ := by
  have hR : (x.toK : ℝ) = y.toK := by rw [← toK_ratCast x, ← toK_ratCast y, hxy]
  obtain ⟨v, rfl, -, v2⟩ := C67_outcome_partial hx h0 h1 hlo hp rm hc₁ h₁ hw₁
  obtain ⟨v', rfl, -, v2'⟩ := C67_outcome_partial hy (hxy ▸ h0) (hxy ▸ h1) hlo' hp rm hc₂ h₂ hw₂
  have hP : 64 ≤ precBits p := by have := hp.pos; unfold precBits; omega
  rw [← hR] at v2'
  rw [v2.unique hd hP (artanh_normal hx h0 h1 hlo) v2']

theorem artanh_mono {x y : ℝ} (hx : |x| < 1) (hy : |y| < 1) (h : x ≤ y) : Real.artanh x ≤ Real.artanh y := by
  obtain ⟨x1, x2⟩ := abs_lt.1 hx
  obtain ⟨y1, y2⟩ := abs_lt.1 hy
  rw [Real.artanh_eq_half_log ⟨x1.le, x2.le⟩, Real.artanh_eq_half_log ⟨y1.le, y2.le⟩]
  refine mul_le_mul_of_nonneg_left (Real.log_le_log (div_pos (by linarith) (by linarith)) ?_) (by norm_num)
  rw [div_le_div_iff₀ (by linarith) (by linarith)]
  nlinarith

/-- In the directed modes the function grows with the argument. -/
theorem C67_mono_partial {x y : Num} (hx : x.WF) (hy : y.WF) (hx0 : (x.toK : ℚ) ≠ 0) (hy0 : (y.toK : ℚ) ≠ 0)
    (hx1 : |(x.toK : ℚ)| < 1) (hy1 : |(y.toK : ℚ)| < 1) (hlo : EMIN + 2 ≤ x.e) (hlo' : EMIN + 2 ≤ y.e)
    (hxy : (x.toK : ℚ) ≤ y.toK) {p : Nat} (hp : ValidP p) {rm : RM}
    (hd : rm = .up ∨ rm = .down ∨ rm = .toZero ∨ rm = .fromZero) {f₁ f₂ : Nat} {c₁ c₂ c₁' c₂' : Num.Ln2Cache}
    (hc₁ : InvHist c₁) (hc₂ : InvHist c₂) {v₁ v₂ : Num} {w₁ w₂ : Nat}
    (h₁ : BF.atanhC (.num x) p rm f₁ c₁ = some (.num v₁, c₁', w₁)) (h₂ : BF.atanhC (.num y) p rm f₂ c₂ = some (.num v₂, c₂', w₂))
    (hw₁ : w₁ ≤ 2 ^ 15) (hw₂ : w₂ ≤ 2 ^ 15) : (v₁.toK : ℚ) ≤ v₂.toK := by
  have hxyR : (x.toK : ℝ) ≤ y.toK := by
    rw [← toK_ratCast x, ← toK_ratCast y]; exact_mod_cast hxy
  obtain ⟨v, e1, v2, -⟩ := C67_directed_partial hx hx0 hx1 hlo hp hd hc₁ h₁ hw₁
  obtain ⟨v', e2, v2', -⟩ := C67_directed_partial hy hy0 hy1 hlo' hp hd hc₂ h₂ hw₂
  injection e1 with e1
  injection e2 with e2
  rw [← e1] at v2
  rw [← e2] at v2'
  have hP : 0 < precBits p := by have := hp.pos; unfold precBits; omega
  have := v2.mono hP v2' (artanh_mono (abs_lt_one_real hx1) (abs_lt_one_real hy1) hxyR)
  rw [← toK_ratCast v₁, ← toK_ratCast v₂] at this
  exact_mod_cast this

/-- The mode to which a directed mode corresponds after a change of the sign. -/
def RM.mirror : RM → RM
  | .up => .down
  | .down => .up
  | rm => rm

theorem RM.mirror_eq (rm : RM) : rm.mirror = invertRm rm := by cases rm <;> rfl

theorem RM.mirror_directed {rm : RM} (hd : rm = .up ∨ rm = .down ∨ rm = .toZero ∨ rm = .fromZero) :
    rm.mirror = .up ∨ rm.mirror = .down ∨ rm.mirror = .toZero ∨ rm.mirror = .fromZero := by
  rcases hd with rfl | rfl | rfl | rfl <;> simp [RM.mirror]

/-- The function is odd: `atanh(-x)` rounded in one of the directed modes is `-atanh(x)` rounded in the mirrored mode. -/
theorem C67_odd_partial {x y : Num} (hx : x.WF) (hy : y.WF) (h0 : (x.toK : ℚ) ≠ 0) (h1 : |(x.toK : ℚ)| < 1)
    (hxy : (y.toK : ℚ) = -x.toK) (hlo : EMIN + 2 ≤ x.e) (hlo' : EMIN + 2 ≤ y.e)
    {p : Nat} (hp : ValidP p) {rm : RM} (hd : rm = .up ∨ rm = .down ∨ rm = .toZero ∨ rm = .fromZero) {f₁ f₂ : Nat}
    {c₁ c₂ c₁' c₂' : Num.Ln2Cache} (hc₁ : InvHist c₁) (hc₂ : InvHist c₂) {v₁ v₂ : Num} {w₁ w₂ : Nat}
    (h₁ : BF.atanhC (.num x) p rm.mirror f₁ c₁ = some (.num v₁, c₁', w₁))
    (h₂ : BF.atanhC (.num y) p rm f₂ c₂ = some (.num v₂, c₂', w₂))
    (hw₁ : w₁ ≤ 2 ^ 15) (hw₂ : w₂ ≤ 2 ^ 15) : (v₂.toK : ℚ) = -v₁.toK := by
  have hR : (y.toK : ℝ) = -x.toK := by
    rw [← toK_ratCast x, ← toK_ratCast y]; exact_mod_cast hxy
  have hy0 : (y.toK : ℚ) ≠ 0 := by rw [hxy]; simpa using h0
  obtain ⟨v, e1, v2, -⟩ := C67_directed_partial hx h0 h1 hlo hp (RM.mirror_directed hd) hc₁ h₁ hw₁
  obtain ⟨v', e2, v2', -⟩ := C67_directed_partial hy hy0 (by rw [hxy, abs_neg]; exact h1) hlo' hp hd hc₂ h₂ hw₂
  injection e1 with e1
  injection e2 with e2
  rw [← e1, RM.mirror_eq] at v2
  rw [← e2, hR, artanh_odd] at v2'
  have hP : 0 < precBits p := by have := hp.pos; unfold precBits; omega
  have := v2'.unique hP v2.neg
  rw [← toK_ratCast v₁, ← toK_ratCast v₂] at this
  exact_mod_cast this

/-- The first round returns a number in mode `None`, and in the directed modes unless the digits are exceptional. -/
theorem C67_number_partial {x : Num} (hx : x.WF) (h0 : (x.toK : ℚ) ≠ 0) (h1 : |(x.toK : ℚ)| < 1) (hlo : EMIN + 2 ≤ x.e)
    {p : Nat} (hp : ValidP p) {rm : RM} {c : Num.Ln2Cache} (hc : InvHist c)
    (hw : 2 * max (precBits p) (64 * x.m.m.length) + 69 ≤ 2 ^ 15)
    (hs : rm = .none ∨ (rm = .up ∨ rm = .down ∨ rm = .toZero ∨ rm = .fromZero) ∧
      ¬ NearGrid (precBits p) 63 |Real.artanh x.toK|) (f : Nat) :
    ∃ v c' w, BF.atanhC (.num x) p rm (f + 1) c = some (.num v, c', w) ∧ w ≤ 2 ^ 15 := by
  have hz := nz_of_ne hx h0
  have he := exp_le_zero hx h0 h1
  obtain ⟨r, c', w, h2, h3⟩ := atanh_number (f := f) hx hz he hp hc.ok hw (by
    rcases hs with h | ⟨h, h'⟩
    · exact Or.inl h
    · exact Or.inr ⟨by rcases h with rfl | rfl | rfl | rfl <;> rfl, h'⟩)
  obtain ⟨-, v, rfl, -⟩ := atanh_spec hx hz he hlo hp rm hc.ok h2 h3
  refine ⟨v, c', w, ?_, h3⟩
  unfold BF.atanhC BF.wrapInv
  dsimp only
  rw [h2]
  rfl

/-! ## Concrete cases -/

theorem exMinusHalf_toK_rat : (exMinusHalf.toK : ℚ) = -(1 / 2) := by
  unfold Num.toK exMinusHalf
  simp only [val, Sign.toK, List.length_cons, List.length_nil, MSB]
  norm_num

set_option maxRecDepth 100000 in
/-- `atanh(-1/2)` with 64 bits, rounded up, from a new cache: the hypotheses hold and the number is known. -/
example : ∃ c v c' w, InvHist c ∧ exMinusHalf.WF ∧ (exMinusHalf.toK : ℚ) ≠ 0 ∧ |(exMinusHalf.toK : ℚ)| < 1 ∧
    EMIN + 2 ≤ exMinusHalf.e ∧ ValidP 64 ∧
    BF.atanhC (.num exMinusHalf) 64 .up 1 c = some (.num v, c', w) ∧ w ≤ 2 ^ 15 ∧
    v.m.m = [10132909862646469819] ∧ v.e = 0 ∧ v.s = .neg ∧ RoundsFmt .up 64 (Real.artanh (-(1 / 2))) v.toK := by
  obtain ⟨c, h1, -⟩ := C59_new
  have hw : exMinusHalf.WF := Num.WF_of_check (by decide +kernel)
  have h0 : (exMinusHalf.toK : ℚ) ≠ 0 := by rw [exMinusHalf_toK_rat]; norm_num
  have hl : |(exMinusHalf.toK : ℚ)| < 1 := by rw [exMinusHalf_toK_rat, abs_lt]; constructor <;> norm_num
  have hp : ValidP 64 := ⟨by norm_num, by decide⟩
  have h2 : (match ln2New with
    | .ok c => match BF.atanhC (.num exMinusHalf) 64 .up 1 c with
      | some (.num v, _, w) => v.m.m == [10132909862646469819] && v.e == 0 && v.s == .neg && decide (w ≤ 1000)
      | _ => false
    | _ => false) = true := by decide +kernel
  rw [h1] at h2
  dsimp only at h2
  cases h3 : BF.atanhC (.num exMinusHalf) 64 .up 1 c with
  | none => rw [h3] at h2; cases h2
  | some r =>
    obtain ⟨b, c', w⟩ := r
    rw [h3] at h2
    cases b with
    | nan e => cases h2
    | inf s => cases h2
    | num v =>
      simp at h2
      obtain ⟨⟨⟨h4, h5⟩, h5'⟩, h6⟩ := h2
      have hr := C67_directed_partial hw h0 hl (by decide) hp (Or.inl rfl) (.new h1) h3 (by omega)
      obtain ⟨v', e1, e2, -⟩ := hr
      injection e1 with e1
      rw [← e1, exMinusHalf_toK] at e2
      exact ⟨c, v, c', w, .new h1, hw, h0, hl, by decide, hp, h3, by omega, h4, h5, h5', e2⟩

set_option maxRecDepth 100000 in
/-- An argument next to zero. -/
example : exNearZero.WF ∧ (exNearZero.toK : ℚ) ≠ 0 ∧ EMIN + 2 ≤ exNearZero.e ∧
    ((max (precBits 64) (64 * exNearZero.m.m.length) : ℕ) : ℤ) + 1 < -(exNearZero.e * 2 - 1) ∧
    ∀ c, BF.atanhC (.num exNearZero) 64 .down 1 c = some (.num ⟨-100, .neg, ⟨[MSB + 1], 64⟩, true⟩, c, 0) := by
  have hw : exNearZero.WF := Num.WF_of_check (by decide +kernel)
  refine ⟨hw, ?_, by decide, by decide +kernel, fun c => ?_⟩
  · intro h
    have : exNearZero.isZero = false := by decide +kernel
    rw [hw.toK_eq_zero.1 h] at this; cases this
  · have h1 : exNearZero.smallExp false 64 .down = .ok ⟨-100, .neg, ⟨[MSB + 1], 64⟩, true⟩ := by decide +kernel
    have h2 : roundP 64 = 64 := by decide +kernel
    unfold BF.atanhC BF.wrapInv Num.atanh
    dsimp only
    rw [h2, if_neg (by decide +kernel), if_neg (by decide +kernel), if_neg (by decide +kernel), if_pos (by decide +kernel), h1]
    rfl

/-- The precision bound of `C67_number_partial` is met by `-1/2` at 16000 bits; `C67_one` is met by 1, `C67_domain` by 3. -/
example : 2 * max (precBits 16000) (64 * exMinusHalf.m.m.length) + 69 ≤ 2 ^ 15 ∧ |(Num.ONE.toK : ℚ)| = 1 ∧
    1 < |(exThree.toK : ℚ)| := by
  refine ⟨by decide +kernel, by rw [ONE_toK, abs_one], by rw [exThree_toK]; norm_num⟩

end AF
