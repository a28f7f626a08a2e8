import Verif.Lemmas.CosRestore
/-!
# The cosine by series: the whole computation
-/

namespace AF

set_option linter.unusedSectionVars false

variable {δ : ℝ} {P P₀ p : Nat}

/-- The series at the reduced argument. -/
theorem cos_core (hd : DOk δ) (hg : PrecOk δ P₀ P₀) (hp : PrecOk δ p P) (hpp : PrecOk δ P P) {a o : Num} {L niter : Nat} {g : TrigGen}
    (hr : TrigRep δ P₀ 0 0 0 g) (haw : a.WF) (hal : (2 : ℝ) ^ (-(L : ℤ)) ≤ |(a.toK : ℝ)|) (ha1 : |(a.toK : ℝ)| ≤ 1 / 8)
    (ho : o.WF) (hol : 64 * o.m.m.length = P) (ho1 : (o.toK : ℝ) = 1) (hn : niter ≤ 2 ^ 17) (hPL : P + L + 1 ≤ 2 ^ 21)
    (hℓ : (2 * L + 80) * (4 * niter) ≤ 2 ^ 28) :
    ∃ xs v, a.mul a p .none = .ok xs ∧ seriesRun trigNext false o xs xs niter g = .ok v ∧
      Cn P (2 ^ 54 * δ * (a.toK * a.toK) + 12 * 2 ^ (1 - (P : ℤ))) a.toK v := by
  obtain ⟨z, hz⟩ : ∃ z : ℝ, z = a.toK := ⟨_, rfl⟩
  rw [← hz] at ha1 hal ⊢
  have hz0 : 0 < |z| := lt_of_lt_of_le (by positivity) hal
  have hzz : z * z ≤ 1 / 64 := by
    rw [← abs_mul_abs_self]
    calc |z| * |z| ≤ 1 / 8 * (1 / 8) := mul_le_mul ha1 ha1 hz0.le (by norm_num)
      _ = _ := by norm_num
  obtain ⟨xs, s1, s2⟩ := square_lo hd hp haw (ℓ := L) (by rw [← hz]; exact hal) (by rw [← hz]; linarith) (by omega)
  rw [← hz] at s2
  have hab : |z * z| = z * z := abs_of_nonneg (mul_self_nonneg z)
  obtain ⟨v, k, v1, -, v2, v3, v4, v5, v6⟩ := seriesRun_ab hd (trig_gen hd hg (s := 0) (by norm_num)) hpp ho hol ho1 (Rl.of_lo hd s2) s2 hr
    (by rw [hab]; linarith) (by linarith) (by norm_num) (by norm_num) (niter := niter) hn hpp.pos (by omega) (by omega)
  refine ⟨xs, v, s1, v1, v2, v3, v4, ?_⟩
  have hps := cos_partial (x := z) (by linarith) k
  rw [hab] at v5
  have e : (v.toK : ℝ) - Real.cos z = (v.toK - (1 + z * z * serSum (trigCoef 0) (z * z) 1 k)) -
      (Real.cos z - (1 + z * z * serSum (trigCoef 0) (z * z) 1 k)) := by ring
  rw [e]
  refine le_trans (abs_sub _ _) ?_
  linarith

set_option maxHeartbeats 800000 in
/-- `cos_series`. -/
theorem cosSeries_spec (hd : DOk δ) (hδ2 : δ ≤ 1 / 2 ^ 250) (hp : PrecOk δ P₀ P₀) (hP1 : 128 ≤ P₀) (hP2 : P₀ ≤ 2 ^ 16) {x : Num} (hx : x.WF)
    (hlen : 64 * x.m.m.length = P₀) (hx1 : |(x.toK : ℝ)| ≤ 63 / 10) (hxl : (2 : ℝ) ^ (-(P₀ : ℤ)) ≤ |(x.toK : ℝ)|)
    (hc : ∀ k : ℕ, 0 < k → 1 / 2 ^ 61 ≤ |Real.cos ((x.toK : ℝ) / 2 ^ k)|) {Λ : Nat}
    (hΛ : (-1 ≤ x.e ∧ Λ = 5) ∨ (-285 ≤ x.e ∧ Λ = 115) ∨ (P₀ ≤ 3328 ∧ Λ = 115)) :
    ∃ v P, x.cosSeries = .ok v ∧ Cn P (2 ^ 55 * δ * (x.toK * x.toK) + 30 * (2 ^ Λ * δ)) x.toK v ∧ P₀ ≤ P := by
  obtain ⟨X, hX⟩ : ∃ X : ℝ, X = x.toK := ⟨_, rfl⟩
  rw [← hX] at hx1 hxl hc ⊢
  have hδ := hd.nonneg
  have hE : EMIN = -2 ^ 31 := rfl
  have hX0 : 0 < |X| := lt_of_lt_of_le (by positivity) hxl
  have hb := exp_bounds_abs hx (by
    rw [← hX]
    refine le_trans (zpow_le_zpow_right₀ (by norm_num) ?_) hxl
    omega)
  rw [← hX] at hb
  have he0 : x.e ≤ 3 := by
    have h1 := lt_of_le_of_lt hb.1 (lt_of_le_of_lt hx1 (show (63 / 10 : ℝ) < 2 ^ (3 : ℤ) by norm_num))
    have := (zpow_lt_zpow_iff_right₀ (by norm_num : (1 : ℝ) < 2)).1 h1
    omega
  have he1 : -(P₀ : ℤ) < x.e := (zpow_lt_zpow_iff_right₀ (by norm_num : (1 : ℝ) < 2)).1 (lt_of_le_of_lt hxl hb.2)
  have hmbx : x.m.maxBitLen = P₀ := by
    unfold Mantissa.maxBitLen; omega
  obtain ⟨g, g1, g2, g3⟩ := cosGenNew_spec hp (by unfold PMAX; omega)
  obtain ⟨n, niter, meff, step, c1, c2, c3, c4, c5, c6, c7, c8⟩ := cosCost_first (p := P₀) (m := -x.e) hP1 hP2 (by omega)
  unfold Num.cosSeries
  dsimp only
  rw [hmbx, g1]
  dsimp only
  rw [g3, c1]
  dsimp only
  unfold Num.cosSeriesBody
  dsimp only
  obtain ⟨pA, hpA⟩ : ∃ pA, pA = P₀ + ((n : ℤ) * 6 + 6 - (meff : ℤ)).toNat := ⟨_, rfl⟩
  rw [← hpA]
  have hmeff : (meff : ℤ) = n + step - x.e := by
    rw [c7]
    unfold cosRedEff
    push_cast
    omega
  have hpA1 : P₀ ≤ pA := by omega
  have hpA2 : pA ≤ 11 * P₀ + 300 := by omega
  -- the loss of the doublings
  have hloss : 2 * n + P₀ ≤ pA + Λ := by
    rcases hΛ with ⟨h1, h2⟩ | ⟨h1, h2⟩ | ⟨h1, h2⟩
    · omega
    · omega
    · by_cases h3 : -285 ≤ x.e
      · omega
      · have h4 := c8 (by omega)
        have h5 : (n : ℤ) ≤ 57 := by
          by_contra h6
          have h7 : (58 : ℤ) * 289 ≤ n * (-x.e + 3) := mul_le_mul (by omega) (by omega) (by norm_num) (by omega)
          have h8 : (16762 : ℤ) ≤ 5 * P₀ := by omega
          omega
        omega
  obtain ⟨P, hP⟩ : ∃ P, P = 64 * wordLen pA := ⟨_, rfl⟩
  have hPr : roundP pA = P ∧ pA ≤ P ∧ P ≤ pA + 63 ∧ 64 ∣ P := by
    obtain ⟨w1, w2⟩ := wordLen_bounds pA
    rw [hP]
    exact ⟨roundP_wl (by omega), w1, w2, ⟨_, rfl⟩⟩
  have hPr2 : roundP P = P := by
    have := hPr.2.2.1
    rw [roundP_wl (by omega), hP, wordLen_mul]
  have hPm : P < PMAX := by
    have := hPr.2.2.1
    unfold PMAX; omega
  have hPP : P₀ ≤ P := by omega
  have herr : (2 : ℝ) ^ (1 - (P : ℤ)) ≤ δ :=
    le_trans (zpow_le_zpow_right₀ (by norm_num) (by omega)) hp.err
  have hpa : PrecOk δ pA P := ⟨by omega, hPr.1, hPm, herr⟩
  have hpp : PrecOk δ P P := ⟨by omega, hPr2, hPm, herr⟩
  obtain ⟨η, hη⟩ : ∃ η : ℝ, η = 2 ^ (1 - (P : ℤ)) := ⟨_, rfl⟩
  have hη0 : 0 < η := by rw [hη]; positivity
  rw [← hη] at herr
  have hdη : DOk η := ⟨hη0.le, le_trans herr hd.small⟩
  have hpη : PrecOk η P P := ⟨by omega, hPr2, hPm, by rw [hη]⟩
  have hnη : 4 ^ n * η ≤ 2 ^ Λ * δ := by
    have h1 : (4 : ℝ) ^ n = 2 ^ ((2 * n : ℕ) : ℤ) := by rw [zpow_natCast, pow_mul]; norm_num
    refine le_trans ?_ (mul_le_mul_of_nonneg_left hp.err (by positivity))
    rw [h1, hη, ← zpow_natCast 2 Λ, ← zpow_add₀ (by norm_num), ← zpow_add₀ (by norm_num)]
    exact zpow_le_zpow_right₀ (by norm_num) (by push_cast; omega)
  obtain ⟨y, y1, y2, y3, y4, -⟩ := setPrecision_extendN hx (p := pA) (by omega) (by unfold PMAX; omega) (by rw [hlen, ← hP]; exact hPP)
  rw [y1]
  dsimp only
  rw [← hX] at y4
  obtain ⟨L, hL⟩ : ∃ L, L = meff := ⟨_, rfl⟩
  have hyl : 64 * y.m.m.length = P := by rw [y3, hP]
  have hye : y.e = x.e := by
    obtain ⟨d1, d2⟩ := exp_bounds_abs y2 (by
      rw [y4]
      refine le_trans (zpow_le_zpow_right₀ (by norm_num) ?_) hxl
      omega)
    rw [y4] at d1 d2
    have h1 := (zpow_lt_zpow_iff_right₀ (by norm_num : (1 : ℝ) < 2)).1 (lt_of_le_of_lt hb.1 d2)
    have h2 := (zpow_lt_zpow_iff_right₀ (by norm_num : (1 : ℝ) < 2)).1 (lt_of_le_of_lt d1 hb.2)
    omega
  have hyz : y.isZero = false := by
    rw [← Bool.not_eq_true, ← y2.toK_eq_zero (K := ℝ), y4]
    exact abs_pos.1 hX0
  obtain ⟨Z, hZ⟩ : ∃ Z : ℝ, Z = X / 2 ^ n := ⟨_, rfl⟩
  have hZX : Z * 2 ^ n = X := by rw [hZ]; field_simp
  have hZX' : |Z| * 2 ^ n = |X| := by
    rw [← hZX, abs_mul, abs_of_pos (show (0 : ℝ) < 2 ^ n by positivity)]
  have hZm : |Z| = |X| * 2 ^ (-(n : ℤ)) := by
    rw [← hZX', zpow_neg, zpow_natCast]; field_simp
  have hZl : (2 : ℝ) ^ (-(L : ℤ)) ≤ |Z| := by
    rw [hZm]
    refine le_trans ?_ (mul_le_mul_of_nonneg_right hb.1 (by positivity))
    rw [← zpow_add₀ (by norm_num)]
    exact zpow_le_zpow_right₀ (by norm_num) (by omega)
  have hZ8 : |Z| ≤ 1 / 8 := by
    rw [hZm]
    refine le_trans (mul_le_mul_of_nonneg_right hb.2.le (by positivity)) ?_
    rw [← zpow_add₀ (by norm_num)]
    refine le_trans (zpow_le_zpow_right₀ (n := -3) (by norm_num) (by omega)) ?_
    norm_num
  have hred : ∃ a, (if n > 0 then y.cosArgReduce n else .ok y) = .ok a ∧ a.WF ∧ (a.toK : ℝ) = Z := by
    by_cases hn : n > 0
    · rw [if_pos hn]
      obtain ⟨a1, a2, -⟩ := setExponent_normal y2 hyz (by omega) (e := y.e - n) (by omega) (by unfold EMAX; omega)
      refine ⟨y.setExponent (y.e - n), ?_, a1, ?_⟩
      · unfold Num.cosArgReduce
        rw [if_neg (by omega)]
      · rw [a2, y4, hZ, show y.e - (n : ℤ) - y.e = -(n : ℤ) by ring, zpow_neg, zpow_natCast]
        rfl
    · rw [if_neg hn]
      have hn0 : n = 0 := by omega
      rw [hn0, pow_zero, mul_one] at hZX
      exact ⟨y, rfl, y2, by rw [y4, hZX]⟩
  obtain ⟨a, a1, a2, a3⟩ := hred
  rw [a1]
  dsimp only
  obtain ⟨o, o1, o2, o3, o4, -⟩ := fromWord_spec (K := ℝ) (d := 1) (p := pA) (by unfold B; norm_num) (by omega) (by unfold PMAX; omega)
  rw [o1]
  dsimp only
  have hniter : 6 * niter ≤ P₀ := by
    have : 2 * niter * 3 ≤ 2 * niter * (meff + 3) := Nat.mul_le_mul_left _ (by omega)
    omega
  obtain ⟨xs, v, s1, v1, v2⟩ := cos_core hd hp hpa hpp g2 a2 (L := L) (by rw [a3]; exact hZl) (by rw [a3]; exact hZ8) o2 (by
      have := (roundP_valid hpa.pos (show roundP pA < PMAX by rw [hPr.1]; exact hPm)).2
      rw [this, hPr.1] at o3
      exact o3) (by rw [o4]; norm_num) (niter := niter) (by omega) (by omega) (by
      have e1 : (2 * L + 80) * (4 * niter) ≤ 4 * (2 * niter * (meff + 3)) + 320 * niter := by rw [hL]; nlinarith
      refine le_trans e1 ?_
      omega)
  rw [a3, ← hη] at v2
  rw [s1]; dsimp only
  rw [v1]; dsimp only
  have hmv : v.m.maxBitLen = P := by
    have := v2.len
    unfold Mantissa.maxBitLen; omega
  rw [hmv]
  obtain ⟨t, ht⟩ : ∃ t : ℝ, t = 2 ^ 54 * δ * (Z * Z) + 15 * η := ⟨_, rfl⟩
  have hZZ : 0 ≤ Z * Z := mul_self_nonneg Z
  have ht0 : 0 ≤ t := by rw [ht]; positivity
  have h4n : 4 ^ n * (Z * Z) = X * X := by
    rw [← hZX, show (4 : ℝ) ^ n = 2 ^ n * 2 ^ n by rw [← mul_pow]; norm_num]; ring
  have hXX : X * X ≤ 40 := by
    rw [← abs_mul_abs_self]
    calc |X| * |X| ≤ 63 / 10 * (63 / 10) := mul_le_mul hx1 hx1 (abs_nonneg _) (by norm_num)
      _ ≤ 40 := by norm_num
  have hΛ2 : (2 : ℝ) ^ Λ ≤ 2 ^ 115 := pow_le_pow_right₀ (by norm_num) (by omega)
  have ht4 : 4 ^ n * t ≤ 2 ^ 54 * δ * (X * X) + 15 * (2 ^ Λ * δ) := by
    rw [ht, ← h4n]
    have : 4 ^ n * (2 ^ 54 * δ * (Z * Z) + 15 * η) = 2 ^ 54 * δ * (4 ^ n * (Z * Z)) + 15 * (4 ^ n * η) := by ring
    rw [this]
    linarith
  have hts : 4 ^ n * t ≤ 1 / 2 ^ 80 := by
    refine le_trans ht4 ?_
    have h1 : 2 ^ 54 * δ * (X * X) ≤ 2 ^ 54 * (1 / 2 ^ 250) * 40 :=
      mul_le_mul (mul_le_mul_of_nonneg_left hδ2 (by positivity)) hXX (mul_self_nonneg _) (by positivity)
    have h2 : (2 : ℝ) ^ Λ * δ ≤ 2 ^ 115 * (1 / 2 ^ 250) := mul_le_mul hΛ2 hδ2 hδ (by positivity)
    have h3 : (2 : ℝ) ^ 54 * (1 / 2 ^ 250) * 40 + 15 * (2 ^ 115 * (1 / 2 ^ 250)) ≤ 1 / 2 ^ 80 := by norm_num
    linarith only [h1, h2, h3]
  obtain ⟨w, w1, w2⟩ := cosRestoreLoop_spec hdη hpη (by omega) n t Z v
    ⟨v2.wf, v2.len, v2.ix, le_trans v2.err (by
      rw [ht]
      have := mul_self_nonneg (2 ^ 54 * δ * (Z * Z) + 15 * η)
      linarith only [this])⟩ ht0 hts (by
    intro k hk
    have h1 := hc (n - k) (by omega)
    have h2 : Z * 2 ^ k = X / 2 ^ (n - k) := by
      rw [hZ, eq_div_iff (by positivity)]
      have : (2 : ℝ) ^ n = 2 ^ k * 2 ^ (n - k) := by rw [← pow_add]; congr 1; omega
      rw [this]
      field_simp
    rw [h2]
    exact h1)
  rw [hZX] at w2
  refine ⟨w, P, ?_, ⟨w2.wf, w2.len, w2.ix, le_trans w2.err ?_⟩, hPP⟩
  · by_cases hn : n > 0
    · rw [if_pos hn]; exact w1
    · rw [if_neg hn]
      have hn0 : n = 0 := by omega
      rw [hn0] at w1
      exact w1
  · have : 2 ^ 55 * δ * (X * X) = 2 * (2 ^ 54 * δ * (X * X)) := by ring
    rw [this]
    linarith

end AF
