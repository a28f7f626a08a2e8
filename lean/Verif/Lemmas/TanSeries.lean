import Verif.Lemmas.TanRestore
/-!
# The tangent by series: the whole computation
-/

namespace AF

set_option linter.unusedSectionVars false

variable {δ : ℝ} {P₀ : Nat}

/-- `tan_series`. -/
theorem tanSeries_spec (hd : DOk δ) (hδ2 : δ ≤ 1 / 2 ^ 120) (hp : PrecOk δ P₀ P₀) (hP1 : 128 ≤ P₀) (hP2 : P₀ ≤ 7000) {x : Num} (hx : x.WF)
    (hlen : 64 * x.m.m.length = P₀) (hx1 : |(x.toK : ℝ)| ≤ 63 / 10) (hxl : (2 : ℝ) ^ (-(P₀ : ℤ)) ≤ |(x.toK : ℝ)|)
    (hf : TanFar x.toK) :
    ∃ v P, x.tanSeries = .ok v ∧ Tn P (2 ^ 45 * δ) x.toK v ∧ P₀ ≤ P := by
  obtain ⟨X, hX⟩ : ∃ X : ℝ, X = x.toK := ⟨_, rfl⟩
  rw [← hX] at hx1 hxl hf ⊢
  have hδ := hd.nonneg
  have hE : EMIN = -2 ^ 31 := rfl
  have hX0 : 0 < |X| := lt_of_lt_of_le (by positivity) hxl
  have hb := exp_bounds_abs hx (by
    rw [← hX]
    refine le_trans (zpow_le_zpow_right₀ (by norm_num) ?_) hxl
    omega)
  rw [← hX] at hb
  have he0 : x.e ≤ 3 := by
    have h1 := lt_of_le_of_lt hb.1 (lt_of_le_of_lt hx1 (show (63 / 10 : ℝ) < 2 ^ (3 : ℤ) by norm_num))
    have := (zpow_lt_zpow_iff_right₀ (by norm_num : (1 : ℝ) < 2)).1 h1
    omega
  have he1 : -(P₀ : ℤ) < x.e := (zpow_lt_zpow_iff_right₀ (by norm_num : (1 : ℝ) < 2)).1 (lt_of_le_of_lt hxl hb.2)
  have hmbx : x.m.maxBitLen = P₀ := by
    unfold Mantissa.maxBitLen; omega
  obtain ⟨n, niter, meff, step, c1, c2, c4, c5, c6, c7⟩ := tanCost_spec (p := P₀) (m := -x.e) hP1 (by omega) (by omega)
  unfold Num.tanSeries
  dsimp only
  rw [hmbx, c1]
  dsimp only
  unfold Num.tanSeriesBody
  dsimp only
  obtain ⟨pA, hpA⟩ : ∃ pA, pA = P₀ + ((n : ℤ) * 4 + 9 - (meff : ℤ)).toNat := ⟨_, rfl⟩
  rw [← hpA]
  have hmeff : (meff : ℤ) = n + step - x.e := by
    rw [c7]
    unfold tanRedEff
    push_cast
    omega
  have hpA1 : P₀ ≤ pA := by omega
  have hpA2 : pA ≤ 24900 := by omega
  obtain ⟨P, hP⟩ : ∃ P, P = 64 * wordLen pA := ⟨_, rfl⟩
  have hPr : roundP pA = P ∧ pA ≤ P ∧ P ≤ pA + 63 ∧ 64 ∣ P := by
    obtain ⟨w1, w2⟩ := wordLen_bounds pA
    rw [hP]
    exact ⟨roundP_wl (by omega), w1, w2, ⟨_, rfl⟩⟩
  have hPr2 : roundP P = P := by
    have := hPr.2.2.1
    rw [roundP_wl (by omega), hP, wordLen_mul]
  have hPm : P < PMAX := by
    have := hPr.2.2.1
    unfold PMAX; omega
  have hPP : P₀ ≤ P := by omega
  have herr : (2 : ℝ) ^ (1 - (P : ℤ)) ≤ δ :=
    le_trans (zpow_le_zpow_right₀ (by norm_num) (by omega)) hp.err
  have hpp : PrecOk δ P P := ⟨by omega, hPr2, hPm, herr⟩
  obtain ⟨y, y1, y2, y3, y4, -⟩ := setPrecision_extendN hx (p := pA) (by omega) (by unfold PMAX; omega) (by rw [hlen, ← hP]; exact hPP)
  rw [y1]
  dsimp only
  rw [← hX] at y4
  have hyl : 64 * y.m.m.length = P := by rw [y3, hP]
  have hye : y.e = x.e := by
    obtain ⟨d1, d2⟩ := exp_bounds_abs y2 (by
      rw [y4]
      refine le_trans (zpow_le_zpow_right₀ (by norm_num) ?_) hxl
      omega)
    rw [y4] at d1 d2
    have h1 := (zpow_lt_zpow_iff_right₀ (by norm_num : (1 : ℝ) < 2)).1 (lt_of_le_of_lt hb.1 d2)
    have h2 := (zpow_lt_zpow_iff_right₀ (by norm_num : (1 : ℝ) < 2)).1 (lt_of_le_of_lt d1 hb.2)
    omega
  have hyz : y.isZero = false := by
    rw [← Bool.not_eq_true, ← y2.toK_eq_zero (K := ℝ), y4]
    exact abs_pos.1 hX0
  obtain ⟨Z, hZ⟩ : ∃ Z : ℝ, Z = X / 2 ^ n := ⟨_, rfl⟩
  have hZX : Z * 2 ^ n = X := by rw [hZ]; field_simp
  have hZX' : |Z| * 2 ^ n = |X| := by
    rw [← hZX, abs_mul, abs_of_pos (show (0 : ℝ) < 2 ^ n by positivity)]
  have hZm : |Z| = |X| * 2 ^ (-(n : ℤ)) := by
    rw [← hZX', zpow_neg, zpow_natCast]; field_simp
  have hZl : (2 : ℝ) ^ (-(meff : ℤ)) ≤ |Z| := by
    rw [hZm]
    refine le_trans ?_ (mul_le_mul_of_nonneg_right hb.1 (by positivity))
    rw [← zpow_add₀ (by norm_num)]
    exact zpow_le_zpow_right₀ (by norm_num) (by omega)
  have hZ8 : |Z| ≤ 1 / 8 := by
    rw [hZm]
    refine le_trans (mul_le_mul_of_nonneg_right hb.2.le (by positivity)) ?_
    rw [← zpow_add₀ (by norm_num)]
    refine le_trans (zpow_le_zpow_right₀ (n := -3) (by norm_num) (by omega)) ?_
    norm_num
  have hred : ∃ a, (if n > 0 then y.cosArgReduce n else .ok y) = .ok a ∧ a.WF ∧ (a.toK : ℝ) = Z ∧ 64 * a.m.m.length = P := by
    by_cases hn : n > 0
    · rw [if_pos hn]
      obtain ⟨a1, a2, a3, -⟩ := setExponent_normal y2 hyz (by omega) (e := y.e - n) (by omega) (by unfold EMAX; omega)
      refine ⟨y.setExponent (y.e - n), ?_, a1, ?_, by rw [a3]; exact hyl⟩
      · unfold Num.cosArgReduce
        rw [if_neg (by omega)]
      · rw [a2, y4, hZ, show y.e - (n : ℤ) - y.e = -(n : ℤ) by ring, zpow_neg, zpow_natCast]
        rfl
    · rw [if_neg hn]
      have hn0 : n = 0 := by omega
      rw [hn0, pow_zero, mul_one] at hZX
      exact ⟨y, rfl, y2, by rw [y4, hZX], hyl⟩
  obtain ⟨a, a1, a2, a3, a4⟩ := hred
  rw [a1]
  dsimp only
  obtain ⟨v, v1, v2, v3, v4, θ, v5, v6⟩ := tanSeriesRun_spec hd hpp (by omega) a2 a4 (L := meff) (by omega) (by rw [a3]; exact hZl)
    (by rw [a3]; exact hZ8)
  rw [a3] at v5
  rw [v1]
  dsimp only
  have hmv : v.m.maxBitLen = P := by
    unfold Mantissa.maxBitLen; omega
  rw [hmv]
  have hθ : |θ| ≤ 1 / 2 := le_trans v6 (le_trans (mul_le_mul_of_nonneg_left hδ2 (by positivity)) (by norm_num))
  have hcZ : Real.cos Z ≠ 0 := (lt_of_lt_of_le (by norm_num) (cos_half_lower (X := Z) (by linarith))).ne'
  obtain ⟨η, s1, s2, s3⟩ := tan_shift hcZ hθ
  have htn : Tn P (2 ^ 44 * δ) Z v := by
    refine ⟨v2, v3, v4, η, s1, by rw [v5, s2], le_trans s3 ?_⟩
    have k1 : |Real.sin Z| * |Real.cos Z| ≤ |Z| :=
      le_trans (mul_le_of_le_one_right (abs_nonneg _) (Real.abs_cos_le_one Z)) Real.abs_sin_le_abs
    have k2 : 2 * |θ| ≤ 2 ^ 44 * δ := by linarith
    exact mul_le_mul k2 k1 (by positivity) (by positivity)
  have hnd : (n : ℝ) * (32 * δ) ≤ 2 ^ 44 * δ := by
    have : (n : ℝ) ≤ 6000 := by
      have : n ≤ 6000 := by omega
      exact_mod_cast this
    have := mul_le_mul_of_nonneg_right this (show 0 ≤ 32 * δ by positivity)
    linarith
  have hsum : 2 ^ 44 * δ + (n : ℝ) * (32 * δ) ≤ 2 ^ 45 * δ := by linarith
  obtain ⟨w, w1, w2⟩ := tanRestoreLoop_spec hd hpp (L := meff) (by omega) n (2 ^ 44 * δ) Z v htn (by positivity) (by
    have k1 : (2 : ℝ) ^ 45 * δ ≤ 2 ^ 45 * (1 / 2 ^ 120) := mul_le_mul_of_nonneg_left hδ2 (by positivity)
    have k2 : (2 : ℝ) ^ 45 * (1 / 2 ^ 120) ≤ 1 / 2 ^ 70 := by norm_num
    linarith only [k1, k2, hsum]) hZl (by rw [hZX]; exact hx1) (by rw [hZX]; exact hf)
  rw [hZX] at w2
  obtain ⟨ζ, z1, z2, z3⟩ := w2.err
  refine ⟨w, P, ?_, ⟨w2.wf, w2.len, w2.ix, ζ, z1, z2, le_trans z3 (mul_le_mul_of_nonneg_right hsum (abs_nonneg _))⟩, hPP⟩
  by_cases hn : n > 0
  · rw [if_pos hn]; exact w1
  · rw [if_neg hn]
    have hn0 : n = 0 := by omega
    rw [hn0] at w1
    exact w1

end AF
