import Verif.Lemmas.LogFun
import Verif.Lemmas.TruncLoop
/-!
# The logarithm in mode `None`, as the inverse hyperbolic functions use it
-/

namespace AF

set_option linter.unusedSectionVars false

/-- The unit in the last place of a truncated number. -/
theorem RoundsPrec.none_unit {P : Nat} (hP : 0 < P) {t : ℝ} {v : Num} (hv : v.WF) (h0 : t ≠ 0) (h : RoundsPrec .none P t v.toK) :
    |(v.toK : ℝ)| ≤ |t| ∧ |t| < |(v.toK : ℝ)| + 2 ^ (v.e - (P : ℤ)) ∧ 0 ≤ t * v.toK := by
  rcases h with ⟨h, -⟩ | ⟨q, q1, q2, k, k1, k2, k3, k4⟩
  · exact absurd h h0
  · refine ⟨k2, lt_of_lt_of_le k3 ?_, k4⟩
    have hu : (0 : ℝ) < 2 ^ (q - (P : ℤ)) := by positivity
    have hq : (2 : ℝ) ^ (q - 1) = 2 ^ (P - 1) * 2 ^ (q - (P : ℤ)) := by
      rw [← zpow_natCast, ← zpow_add₀ (by norm_num)]; congr 1; omega
    have hk : (2 : ℝ) ^ (P - 1) < |(k : ℝ)| + 1 := by
      rw [k1, abs_mul, abs_of_pos hu] at k3
      refine lt_of_mul_lt_mul_right (a := (2 : ℝ) ^ (q - (P : ℤ))) ?_ hu.le
      rw [← hq]; linarith
    have hk' : (2 : ℝ) ^ (P - 1) ≤ |(k : ℝ)| := by
      have : (2 : ℤ) ^ (P - 1) < |k| + 1 := by exact_mod_cast hk
      have : (2 : ℤ) ^ (P - 1) ≤ |k| := by omega
      exact_mod_cast this
    have hv1 : (2 : ℝ) ^ (q - 1) ≤ |(v.toK : ℝ)| := by
      rw [hq, k1, abs_mul, abs_of_pos hu]
      exact mul_le_mul_of_nonneg_right hk' hu.le
    have := hv.e_of_abs hv1
    have h2 : (2 : ℝ) ^ (q - (P : ℤ)) ≤ 2 ^ (v.e - (P : ℤ)) := zpow_le_zpow_right₀ (by norm_num) (by omega)
    linarith

variable {x : Num}

/-- The value of `ln` in mode `None`. Besides the relative error, it is the logarithm cut off, but for a small error. -/
theorem ln_none (hx : x.WF) (h0 : 0 < (x.toK : ℝ)) (h1 : (x.toK : ℝ) ≠ 1) {p : Nat} (hp : ValidP p) {f : Nat}
    {c : Num.Ln2Cache} (hc : Ln2Ok c) (hw : max (precBits p) (64 * x.m.m.length) + 64 * x.m.m.length + 69 ≤ 2 ^ 17) :
    ∃ v c' w, x.ln p .none (f + 1) c = some (.ok v, c', w) ∧ Ln2Ok c' ∧ FunRounded .none (precBits p) (Real.log x.toK) v ∧
      |(v.toK : ℝ)| ≤ |Real.log x.toK| * (1 + 2 ^ (-((precBits p : ℕ) : ℤ) - 64)) ∧
      |Real.log x.toK| * (1 - 2 ^ (-((precBits p : ℕ) : ℤ) - 64)) ≤ |(v.toK : ℝ)| + 2 ^ (v.e - ((precBits p : ℕ) : ℤ)) := by
  have hm := lnSplit_spec hx h0
  have hmb : x.m.maxBitLen = 64 * x.m.m.length := by unfold Mantissa.maxBitLen; omega
  have hp0 := hp.pos
  have hlt := hp.lt
  have hPM : PMAX = 2 ^ 62 - 2 ^ 31 - 1 := rfl
  unfold Num.ln
  rw [hp.roundP]
  dsimp only
  rw [ln_args hx h0, if_neg Bool.false_ne_true, hmb]
  generalize x.lnSplit.1 = m at hm
  generalize x.lnSplit.2 = e at hm
  have h1' := fun h => h1 (hm.one.1 h)
  rw [if_neg (fun h => h1' (lnAddPrec_one.1 h)), ← hm.len]
  rw [← hm.len] at hw
  obtain ⟨cnt, c1, c2, -⟩ := lnCnt_spec hm h1'
  obtain ⟨pw, hpw⟩ : ∃ pw, precBits p = 64 * pw := ⟨(p + 63) / 64, rfl⟩
  have hpw0 : 0 < pw := by unfold precBits at hpw; omega
  rw [hpw] at hlt hw ⊢
  obtain ⟨W, hWd⟩ : ∃ W, W = max (64 * pw) (64 * m.m.m.length) + 64 := ⟨_, rfl⟩
  rw [← hWd]
  obtain ⟨t, c', a1, a2, a3⟩ := lnStep_spec hm h1' (w := W) (by omega) (by omega) (by omega) hc
  have hmid := ln_midRange hm h1' (by omega)
  obtain ⟨a, v, b1, b2, b3⟩ := TestOk.try a3 hmid hpw0 (by omega) (by omega) (by omega) .none
  have ha := b3 (Or.inl rfl)
  subst ha
  have hF := b2 rfl
  have hvx : v = { v with inexact := v.inexact || x.inexact } := by
    cases v
    have := hF.inexact
    simp only at this
    simp [this]
  refine ⟨v, c', W + m.lnAddPrec e, ?_, a2, hF, ?_⟩
  · rw [roundLoop, a1]
    dsimp only
    rw [b1]
    dsimp only
    first
      | rw [← hvx]
      | (have := hF.inexact; cases v; simp only at this; simp [this])
  · obtain ⟨_, hS⟩ := tryPrec_eq_setPrec (by omega) (by omega) a3.len (by omega) (Or.inr (Or.inl rfl)) b1 (Or.inr (Or.inl rfl))
    have hD := setPrecision_delivers (K := ℝ) a3.wf hpw0 (by omega) .none
    rw [hS] at hD
    obtain ⟨k, k1, k2⟩ := a3.err
    have hε : (2 : ℝ) ^ (-(W : ℤ)) ≤ 2 ^ (-((64 * pw : ℕ) : ℤ) - 64) :=
      zpow_le_zpow_right₀ (by norm_num) (by omega)
    obtain ⟨ε, hεd⟩ : ∃ ε : ℝ, ε = 2 ^ (-((64 * pw : ℕ) : ℤ) - 64) := ⟨_, rfl⟩
    rw [← hεd] at hε ⊢
    have hε0 : 0 < ε := by rw [hεd]; positivity
    have hε1 : ε ≤ 1 / 4 := by
      rw [hεd, show (1 / 4 : ℝ) = 2 ^ (-2 : ℤ) by norm_num]
      exact zpow_le_zpow_right₀ (by norm_num) (by omega)
    have k3 : |k - 1| ≤ ε := by
      have : (0 : ℝ) < 2 ^ (-(W : ℤ)) := by positivity
      linarith
    obtain ⟨k4, k5⟩ := abs_le.1 k3
    have hk0 : 0 < k := by linarith
    have hta : |(t.toK : ℝ)| = |Real.log x.toK| * k := by rw [k1, abs_mul, abs_of_pos hk0]
    obtain ⟨q, hq1, hq2, hy1, hy2⟩ := hmid
    have hqp : (0 : ℝ) < 2 ^ (q - 1) := by positivity
    have ht1 : (2 : ℝ) ^ (EMIN - 1) ≤ |(t.toK : ℝ)| := by
      rw [hta]
      have h2 : (2 : ℝ) ^ (EMIN - 1) * 2 ≤ 2 ^ (q - 1) := by
        rw [← zpow_add_one₀ (by norm_num)]
        exact zpow_le_zpow_right₀ (by norm_num) (by omega)
      have : (2 : ℝ) ^ (q - 1) * (1 / 2) ≤ |Real.log x.toK| * k := mul_le_mul hy1 (by linarith) (by norm_num) (by linarith)
      linarith
    have ht0 : (t.toK : ℝ) ≠ 0 := by
      rw [← abs_pos]
      exact lt_of_lt_of_le (by positivity) ht1
    obtain ⟨u1, u2, -⟩ := RoundsPrec.none_unit (by omega) hF.wf ht0 (hD.normal ht1)
    rw [hta] at u1 u2
    have hy0 : 0 ≤ |Real.log x.toK| := abs_nonneg _
    constructor
    · exact le_trans u1 (mul_le_mul_of_nonneg_left (by linarith) hy0)
    · exact le_trans (mul_le_mul_of_nonneg_left (by linarith) hy0) u2.le

/-- The logarithms of two close numbers. -/
theorem log_close {d D η : ℝ} (hD : 0 < D) (hη : η ≤ 1 / 32) (h : |d - D| ≤ D * η) :
    0 < d ∧ |Real.log d - Real.log D| ≤ η * (32 / 31) := by
  obtain ⟨h1, h2⟩ := abs_le.1 h
  have hη0 : 0 ≤ η := by
    have := abs_nonneg (d - D)
    by_contra hc
    push Not at hc
    nlinarith
  have hd : 0 < d := by nlinarith
  refine ⟨hd, ?_⟩
  rw [← Real.log_div hd.ne' hD.ne']
  have hr : 0 < d / D := by positivity
  have r1 : d / D ≤ 1 + η := by rw [div_le_iff₀ hD]; linarith
  have r2 : 1 - η ≤ d / D := by rw [le_div_iff₀ hD]; linarith
  have u1 := Real.log_le_sub_one_of_pos hr
  have u2 := Real.one_sub_inv_le_log_of_pos hr
  rw [abs_le]
  constructor
  · have : (d / D)⁻¹ ≤ (1 - η)⁻¹ := inv_anti₀ (by linarith) r2
    have h3 : (1 - η)⁻¹ ≤ 1 + η * (32 / 31) := by
      rw [inv_le_comm₀ (by linarith) (by nlinarith), inv_le_comm₀ (by linarith) (by linarith), inv_le_iff_one_le_mul₀ (by linarith)]
      nlinarith
    linarith
  · nlinarith

/-- The logarithm of a number that is close to `D`, as a value to test. -/
theorem lnTest (hx : x.WF) {D η : ℝ} (hD : 0 < D) (hη : η ≤ 1 / 32) (hd : |x.toK - D| ≤ D * η) {w : Nat}
    (hw : η ≤ |Real.log D| * (2 ^ (-(w : ℤ)) * (5 / 8))) (hl : 0 < |Real.log D|) {p : Nat} (hp : ValidP p) (hwp : w + 4 ≤ precBits p) {f : Nat}
    {c : Num.Ln2Cache} (hc : Ln2Ok c) (hs : max (precBits p) (64 * x.m.m.length) + 64 * x.m.m.length + 69 ≤ 2 ^ 17) :
    ∃ v c' w', x.ln p .none (f + 1) c = some (.ok v, c', w') ∧ Ln2Ok c' ∧ TestOk w (Real.log D) v ∧ 64 * v.m.m.length = precBits p := by
  obtain ⟨d0, d1⟩ := log_close hD hη hd
  obtain ⟨W, hWd⟩ : ∃ W : ℝ, W = 2 ^ (-(w : ℤ)) := ⟨_, rfl⟩
  have hW1 : W ≤ 1 := by
    rw [hWd]; exact zpow_le_one_of_nonpos₀ (by norm_num) (by omega)
  have hW0 : 0 < W := by rw [hWd]; positivity
  rw [← hWd] at hw
  have hη0 : 0 ≤ η := by
    by_contra hc
    push Not at hc
    have := abs_nonneg (x.toK - D : ℝ)
    nlinarith
  have hne : (x.toK : ℝ) ≠ 1 := by
    intro h
    rw [h, Real.log_one, zero_sub, abs_neg] at d1
    nlinarith
  obtain ⟨v, c', w', a1, a2, a3, -⟩ := ln_none hx d0 hne hp (f := f) hc hs
  refine ⟨v, c', w', a1, a2, ?_, a3.prec⟩
  have hn := a3.none rfl
  have hδ : (2 : ℝ) ^ (1 - ((precBits p : ℕ) : ℤ)) ≤ W * (1 / 8) := by
    rw [hWd, show (1 / 8 : ℝ) = 2 ^ (-3 : ℤ) by norm_num, ← zpow_add₀ (by norm_num)]
    exact zpow_le_zpow_right₀ (by norm_num) (by omega)
  have hδ' : (2 : ℝ) ^ (1 - ((precBits p : ℕ) : ℤ)) * (1 + 2 ^ (-60 : ℤ)) ≤ W * (9 / 64) := by
    have h60 : (2 : ℝ) ^ (-60 : ℤ) ≤ 1 / 8 := by norm_num
    calc _ ≤ W * (1 / 8) * (1 + 1 / 8) := mul_le_mul hδ (by linarith) (by positivity) (by positivity)
      _ = _ := by ring
  refine TestOk.of_rel' a3.wf a3.inexact (by rw [a3.prec]; omega) (abs_pos.1 hl) (δ := |Real.log D| * (W * (15 / 16))) (by rw [hWd]) ?_
  have e1 : |Real.log x.toK| ≤ |Real.log D| + |Real.log x.toK - Real.log D| := by
    have := abs_add_le (Real.log D) (Real.log x.toK - Real.log D)
    simpa using this
  have e2 : |v.toK - Real.log D| ≤ |v.toK - Real.log x.toK| + |Real.log x.toK - Real.log D| := by
    have := abs_add_le (v.toK - Real.log x.toK : ℝ) (Real.log x.toK - Real.log D)
    simpa using this
  have e3 : |Real.log x.toK - Real.log D| ≤ |Real.log D| * (W * (20 / 31)) := by
    refine le_trans d1 ?_
    calc η * (32 / 31) ≤ |Real.log D| * (W * (5 / 8)) * (32 / 31) := mul_le_mul_of_nonneg_right hw (by norm_num)
      _ = _ := by ring
  have e4 : |v.toK - Real.log x.toK| ≤ (|Real.log D| + |Real.log D| * (20 / 31)) * (W * (9 / 64)) := by
    refine le_trans hn (mul_le_mul ?_ hδ' (by positivity) (by positivity))
    refine le_trans e1 (add_le_add_right (le_trans e3 ?_) _)
    refine mul_le_mul_of_nonneg_left ?_ hl.le
    linarith
  have e5 : (|Real.log D| + |Real.log D| * (20 / 31)) * (W * (9 / 64)) = |Real.log D| * W * (51 / 31 * (9 / 64)) := by ring
  have e6 : |Real.log D| * (W * (20 / 31)) = |Real.log D| * W * (20 / 31) := by ring
  have e7 : 0 < |Real.log D| * W := by positivity
  nlinarith only [e2, e3, e4, e5, e6, e7]

end AF
