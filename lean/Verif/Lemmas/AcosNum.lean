import Verif.Lemmas.AcosLoop
/-!
# The first round of `acos`
-/

namespace AF

open Num

set_option linter.unusedSectionVars false

variable {x : Num}

theorem exp_midrange {t : Num} (ht : t.WF) {Y : ℝ} (h1 : (2 : ℝ) ^ (-31 : ℤ) ≤ Y) (h2 : Y ≤ 4) {P : Nat} (hP : 128 ≤ P)
    (herr : |t.toK - Y| ≤ 2 ^ (-(P : ℤ)) * 64) : t.e.natAbs + 1 ≤ 33 := by
  have hE : EMIN = -2 ^ 31 := rfl
  have h3 : (2 : ℝ) ^ (-(P : ℤ)) * 64 ≤ 2 ^ (-32 : ℤ) := by
    rw [show (64 : ℝ) = 2 ^ (6 : ℤ) by norm_num, ← zpow_add₀ (by norm_num)]
    exact zpow_le_zpow_right₀ (by norm_num) (by omega)
  obtain ⟨a1, a2⟩ := abs_le.1 (le_trans herr h3)
  have h4 : (2 : ℝ) ^ (-31 : ℤ) = 2 ^ (-32 : ℤ) * 2 := by norm_num
  have h5 : (2 : ℝ) ^ (-32 : ℤ) ≤ 1 := by norm_num
  have h6 : (0 : ℝ) < 2 ^ (-32 : ℤ) := by norm_num
  have h7 : (2 : ℝ) ^ EMIN ≤ 2 ^ (-32 : ℤ) := zpow_le_zpow_right₀ (by norm_num) (by omega)
  have h8 : (2 : ℝ) ^ (3 : ℤ) = 8 := by norm_num
  have k1 : (2 : ℝ) ^ (-32 : ℤ) ≤ t.toK := by generalize (2 : ℝ) ^ (-32 : ℤ) = z at *; linarith
  have k2 : (t.toK : ℝ) < 2 ^ (3 : ℤ) := by rw [h8]; generalize (2 : ℝ) ^ (-32 : ℤ) = z at *; linarith
  have k0 : 0 < (t.toK : ℝ) := lt_of_lt_of_le h6 k1
  obtain ⟨e1, e2⟩ := exp_bounds_abs ht (by rw [abs_of_pos k0]; exact le_trans h7 k1)
  rw [abs_of_pos k0] at e1 e2
  have g1 := (zpow_lt_zpow_iff_right₀ (by norm_num : (1 : ℝ) < 2)).1 (lt_of_le_of_lt e1 k2)
  have g2 := (zpow_lt_zpow_iff_right₀ (by norm_num : (1 : ℝ) < 2)).1 (lt_of_le_of_lt k1 e2)
  omega

/-- The first round returns a number, in mode `None`, and in the directed modes unless the digits are exceptional. -/
theorem acos_number (hx : x.WF) (hz : x.isZero = false) (h1 : |(x.toK : ℝ)| < 1) (hlo : EMIN + 2 ≤ x.e)
    (hy1 : (2 : ℝ) ^ (-31 : ℤ) ≤ Real.arccos x.toK) (hy2 : (2 : ℝ) ^ (-31 : ℤ) ≤ Real.pi - Real.arccos x.toK)
    {p : Nat} (hp : ValidP p) {rm : RM}
    {f : Nat} {c : PiCache} (hc : PiOk c) (hw : 2 * max (precBits p) (64 * x.m.m.length) + 700 ≤ 2 ^ 17)
    (hpi : |chudPi - Real.pi| ≤ 2 ^ (-((2 * max (precBits p) (64 * x.m.m.length) + 512 : ℕ) : ℤ) - 60))
    (hrm : rm = .none ∨ rm.directed = true ∧ ¬ NearGrid (precBits p) 63 |Real.arccos x.toK|) :
    ∃ r c' w, x.acos p rm (f + 1) c = some (r, c', w) ∧ w ≤ 2 * max (precBits p) (64 * x.m.m.length) + 512 := by
  have hmb : x.m.maxBitLen = 64 * x.m.m.length := by unfold Mantissa.maxBitLen; omega
  have hp0 := hp.pos
  have hlt := hp.lt
  have hE : EMIN = -2 ^ 31 := rfl
  obtain ⟨pw, hpw⟩ : ∃ pw, precBits p = 64 * pw := ⟨(p + 63) / 64, rfl⟩
  have hpw0 : 0 < pw := by unfold precBits at hpw; omega
  have hdom : AcosDom (x.toK : ℝ) := by
    refine Or.inr (Or.inr ⟨h1, ?_⟩)
    obtain ⟨q, q1, q2, q3, -⟩ := hx.mag (K := ℝ) hz
    exact le_trans (zpow_le_zpow_right₀ (by norm_num) (by omega)) q1
  have hn1 : (x.toK : ℝ) ≠ 1 := by
    intro h
    rw [h, abs_one] at h1
    exact lt_irrefl _ h1
  obtain ⟨n1, n2⟩ := acos_cmp hx hdom.le hn1
  have hl := arccos_len hx hdom.le hn1
  have hb : AcosBand (Real.arccos x.toK) := ⟨0, le_trans (zpow_le_zpow_right₀ (by norm_num) (by norm_num)) hy1, Or.inl rfl⟩
  unfold Num.acos
  rw [hp.roundP]
  dsimp only
  rw [if_neg n1, if_neg n2, hmb]
  rw [hpw] at hlt hw hpi hrm ⊢
  have hx' : ({ x with inexact := false } : Num).WF := ⟨hx.wf, hx.bits, hx.emin, hx.emax, hx.norm, hx.sized⟩
  obtain ⟨M, hM⟩ : ∃ M, M = max (64 * pw) (64 * x.m.m.length) := ⟨_, rfl⟩
  rw [← hM] at hw hpi ⊢
  have hPb : precBits (M + 64 + 33) = M + 128 := by unfold precBits; omega
  have hwl : 64 * wordLen (M + 64 + 33) = M + 128 := by unfold wordLen; omega
  have hpv : ValidP (M + 64 + 33) := ⟨by omega, by rw [hPb]; exact lt_PMAX_of_small (by omega)⟩
  obtain ⟨v, v1, v2, v3, v4, v5⟩ := setPrecision_extendN hx' (p := M + 64 + 33) (by omega) (lt_PMAX_of_small (by omega)) (by
    rw [hwl]; show 64 * x.m.m.length ≤ _; omega)
  have v4' : (v.toK : ℝ) = x.toK := v4
  have vz : v.isZero = false := by
    rw [← Bool.not_eq_true, ← v2.toK_eq_zero (K := ℝ), v4', hx.toK_eq_zero, hz]
    exact Bool.false_ne_true
  obtain ⟨r, c1, n, a1, a2⟩ := asin_number (f := f) v2 vz (by rw [v4']; exact h1) hpv hc (by rw [hPb, v3, hwl]; omega)
    (fun _ => le_trans hpi (by rw [hPb, v3, hwl]; exact zpow_le_zpow_right₀ (by norm_num) (by omega)))
  rw [hPb, v3, hwl, max_self] at a2
  have hlM : (2 : ℝ) ^ (-((M + 1 : ℕ) : ℤ)) ≤ Real.arccos x.toK := le_trans (zpow_le_zpow_right₀ (by norm_num) (by omega)) hl
  have hlM2 : (2 : ℝ) ^ (-((M + 1 : ℕ) : ℤ)) ≤ Real.pi - Real.arccos x.toK := le_trans (zpow_le_zpow_right₀ (by norm_num) (by omega)) hy2
  obtain ⟨hc1, u, pi, c2, r2, t, rfl, p1, p2, o1, o2, t1, t2, t3, t4, t5⟩ := acosPass_spec v2 v4' hdom hlM (p := M + 64 + 33) (by omega) (by omega) hc a1
    (by omega) (W := 2 * M + 512) (by omega) (by omega) hpi
  obtain ⟨t6, t7⟩ := t5 hlM2
  have q2 := Real.pi_le_four
  have x1 := exp_midrange t1 hy1 (by linarith [Real.arccos_le_pi (x.toK : ℝ)]) (by rw [hPb]; omega) t4
  have x2 := exp_midrange t6 hy2 (by linarith [Real.arccos_nonneg (x.toK : ℝ)]) (by rw [hPb]; omega) t7
  have hst : acosStep (f + 1) (f + 1) (M + 64) ({ x with inexact := false }, 33, c, 0) = some (.tst t, (v, 33, c2, max 0 n)) := by
    rw [acosStep]
    dsimp only
    rw [v1]
    dsimp only
    rw [a1]
    dsimp only
    rw [p1]
    dsimp only
    rw [o1]
    dsimp only
    rw [o2]
    dsimp only
    rw [if_neg (by omega)]
  have hT := acos_test t1 t2 hb hlM (w := M + 64) (ap := 33) (by omega) le_rfl (by omega) (by omega) t3 t4 x1
  obtain ⟨r, hr⟩ := roundLoop_number (rm := rm) (ix := x.inexact) (arccos_midRange hlM (by omega)) hpw0 hlt (by omega) (by omega) hst hT hrm f 64
  rw [hr]
  exact ⟨_, _, _, rfl, by dsimp only; omega⟩

end AF
