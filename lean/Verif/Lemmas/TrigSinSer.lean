import Verif.Lemmas.TrigSin
/-!
# The sine by series: the whole computation
-/

namespace AF

set_option linter.unusedSectionVars false

variable {δ : ℝ} {P P₀ p : Nat}

theorem sin_sub_le (a b : ℝ) : |Real.sin a - Real.sin b| ≤ |a - b| := by
  rw [Real.sin_sub_sin, abs_mul, abs_mul, abs_of_pos (show (0 : ℝ) < 2 by norm_num)]
  have h1 : |Real.sin ((a - b) / 2)| ≤ |(a - b) / 2| := Real.abs_sin_le_abs
  have h2 := Real.abs_cos_le_one ((a + b) / 2)
  rw [abs_div, abs_of_pos (show (0 : ℝ) < 2 by norm_num)] at h1
  calc 2 * |Real.sin ((a - b) / 2)| * |Real.cos ((a + b) / 2)| ≤ 2 * |Real.sin ((a - b) / 2)| := mul_le_of_le_one_right (by positivity) h2
    _ ≤ _ := by linarith

set_option maxHeartbeats 800000 in
/-- The series at the reduced argument. -/
theorem sin_core (hd : DOk δ) (hg : PrecOk δ P₀ P₀) (hp : PrecOk δ p P) (hpp : PrecOk δ P P) {a : Num} {L niter : Nat} {Z : ℝ} {g : TrigGen} (hr : TrigRep δ P₀ 1 0 0 g)
    (ha : Rl δ P L 2 Z a) (ha1 : |(a.toK : ℝ)| ≤ 1 / 2) (hn : niter ≤ 2 ^ 17) (hPL : P + L + 1 ≤ 2 ^ 21) (hℓ : (2 * (L + 1) + 80) * (4 * niter) ≤ 2 ^ 28) :
    ∃ xs xf v, a.mul a p .none = .ok xs ∧ a.mul xs p .none = .ok xf ∧ seriesRun trigNext false a xf xs niter g = .ok v ∧ An δ P (2 ^ 56) Z v := by
  obtain ⟨z, hz⟩ : ∃ z : ℝ, z = a.toK := ⟨_, rfl⟩
  rw [← hz] at ha1
  have hδ := hd.nonneg
  have hδ1 : δ ≤ 1 / 2 ^ 100 := le_trans hd.small (by norm_num)
  have hZ0 : 0 < |Z| := abs_pos.2 ha.nzY
  obtain ⟨θ, t1, t2⟩ := ha.err
  rw [← hz] at t1
  have hzZ : |z - Z| ≤ 2 * δ * |Z| := by
    rw [t1, show Z * (1 + θ) - Z = θ * Z by ring, abs_mul]
    exact mul_le_mul_of_nonneg_right (by push_cast at t2; exact t2) hZ0.le
  obtain ⟨m1, m2⟩ := ha.mag hd (by norm_num)
  rw [← hz] at m1 m2
  have m1' : |Z| / 2 ≤ |z| := by
    refine le_trans ?_ m1
    rw [div_eq_mul_one_div]
    exact mul_le_mul_of_nonneg_left (by norm_num) hZ0.le
  have m2' : |z| ≤ 101 / 100 * |Z| := by
    refine le_trans m2 ?_
    rw [mul_comm]
    exact mul_le_mul_of_nonneg_right (by norm_num) hZ0.le
  have hz0 : 0 < |z| := by linarith
  have hlb : (2 : ℝ) ^ (-((L + 1 : ℕ) : ℤ)) ≤ |z| := by
    refine le_trans ?_ m1'
    rw [show (-((L + 1 : ℕ) : ℤ)) = -(L : ℤ) + -1 by push_cast; ring, zpow_add₀ (by norm_num), show (2 : ℝ) ^ (-1 : ℤ) = 1 / 2 by norm_num]
    have := ha.lb
    linarith
  have hzz : z * z ≤ 1 / 4 := by
    rw [← abs_mul_abs_self]
    calc |z| * |z| ≤ 1 / 2 * (1 / 2) := mul_le_mul ha1 ha1 hz0.le (by norm_num)
      _ = _ := by norm_num
  have ra : Rl δ P (L + 1) 0 z a := by rw [hz]; exact Rl.of_exact ha.wf ha.len (by rw [← hz]; exact hlb)
  obtain ⟨xs, s1, s2⟩ := square_lo hd hp ha.wf (ℓ := L + 1) (by rw [← hz]; exact hlb) (by rw [← hz]; linarith) (by omega)
  rw [← hz] at s2
  have ezz : |z * (z * z)| = |z| * (z * z) := by rw [abs_mul, abs_of_nonneg (mul_self_nonneg z)]
  have hF : |z * (z * z)| ≤ |z| / 4 := by
    rw [ezz, div_eq_mul_one_div]
    exact mul_le_mul_of_nonneg_left hzz hz0.le
  obtain ⟨xf, f1, f2⟩ := ra.mul hd hp (Rl.of_lo hd s2) (ℓ := 3 * (L + 1)) (by
    rw [ezz, show (-((3 * (L + 1) : ℕ) : ℤ)) = -((L + 1 : ℕ) : ℤ) + -((2 * (L + 1) : ℕ) : ℤ) by push_cast; ring, zpow_add₀ (by norm_num)]
    exact mul_le_mul hlb s2.lb (by positivity) hz0.le) (by omega) (by norm_num) (by norm_num)
    (le_trans hF (le_trans (b := 1) (by linarith) (by norm_num)))
  obtain ⟨v, k, v1, -, v2, v3, v4⟩ := seriesRun_rl hd (trig_gen hd hg (s := 1) le_rfl) hpp ra f2 s2 hr (by linarith) hF (by linarith) (by norm_num)
    (by norm_num) (by norm_num) (niter := niter) hn hpp.pos (by omega) (by omega)
  refine ⟨xs, xf, v, s1, f1, v1, v2.wf, v2.len, v3, ?_⟩
  have hps := sin_partial (x := z) (by linarith) k
  obtain ⟨φ, u1, u2⟩ := v2.err
  obtain ⟨S, hS⟩ : ∃ S, S = z + z * (z * z) * serSum (trigCoef 1) (z * z) 1 k := ⟨_, rfl⟩
  rw [← hS] at hps u1
  have hps' : |Real.sin z - S| ≤ 16 * δ * |z| := by linarith
  have hS1 : |S| ≤ 102 / 100 * |z| := by
    have h1 : |Real.sin z| ≤ |z| := Real.abs_sin_le_abs
    have h2 := abs_sub_abs_le_abs_sub S (Real.sin z)
    rw [abs_sub_comm] at h2
    have h3 : 16 * δ * |z| ≤ 1 / 100 * |z| := mul_le_mul_of_nonneg_right (by
      refine le_trans (mul_le_mul_of_nonneg_left hδ1 (by norm_num)) ?_
      norm_num) hz0.le
    linarith
  have e1 : |(v.toK : ℝ) - S| ≤ 2 ^ 55 * δ * (103 / 100 * |z|) := by
    rw [u1, show S * (1 + φ) - S = φ * S by ring, abs_mul]
    refine mul_le_mul ?_ (by linarith) (abs_nonneg _) (by positivity)
    rw [show (2 : ℝ) ^ 55 = ((2 ^ 55 : ℕ) : ℝ) from (Nat.cast_pow 2 55).symm]; exact u2
  have e2 := sin_sub_le z Z
  have e3 : (v.toK : ℝ) - Real.sin Z = (v.toK - S) - (Real.sin z - S) + (Real.sin z - Real.sin Z) := by ring
  rw [e3]
  refine le_trans (abs_add_le _ _) (le_trans (add_le_add (abs_sub _ _) le_rfl) ?_)
  have d1 : 2 ^ 55 * δ * (103 / 100 * |z|) ≤ 2 ^ 55 * δ * (105 / 100 * |Z|) := mul_le_mul_of_nonneg_left (by linarith only [m2', hZ0]) (mul_nonneg (by norm_num) hδ)
  have d2 : 16 * δ * |z| ≤ 16 * δ * (2 * |Z|) := mul_le_mul_of_nonneg_left (by linarith) (by positivity)
  have d3 : ((2 ^ 56 : ℕ) : ℝ) * δ * |Z| = 2 ^ 56 * (δ * |Z|) := by rw [Nat.cast_pow, mul_assoc]; rfl
  have d4 : 2 ^ 55 * δ * (105 / 100 * |Z|) = 2 ^ 55 * (105 / 100) * (δ * |Z|) := by ring
  have d5 : 16 * δ * (2 * |Z|) = 32 * (δ * |Z|) := by ring
  have d6 : 2 * δ * |Z| = 2 * (δ * |Z|) := by ring
  have d0 : 0 ≤ δ * |Z| := by positivity
  rw [d3]
  rw [d4] at d1
  rw [d5] at d2
  rw [d6] at hzZ
  generalize δ * |Z| = y at *
  have : |(v.toK : ℝ) - S| + |Real.sin z - S| + |Real.sin z - Real.sin Z| ≤ (2 ^ 55 * (105 / 100) + 34) * y := by linarith
  refine le_trans this (mul_le_mul_of_nonneg_right (by norm_num) d0)

set_option maxHeartbeats 800000 in
/-- `sin_series`. -/
theorem sinSeries_spec (hd : DOk δ) (hp : PrecOk δ P₀ P₀) (hP1 : 128 ≤ P₀) (hP2 : P₀ ≤ 2 ^ 16) {x : Num} (hx : x.WF)
    (hlen : 64 * x.m.m.length = P₀) (hx1 : |(x.toK : ℝ)| ≤ 63 / 10) (hxl : (2 : ℝ) ^ (-(P₀ : ℤ)) ≤ |(x.toK : ℝ)|) :
    ∃ v P, x.sinSeries = .ok v ∧ An δ P (2 ^ 58) x.toK v ∧ P₀ ≤ P := by
  obtain ⟨X, hX⟩ : ∃ X : ℝ, X = x.toK := ⟨_, rfl⟩
  rw [← hX] at hx1 hxl ⊢
  have hX0 : 0 < |X| := lt_of_lt_of_le (by positivity) hxl
  have hb := exp_bounds_abs hx (by
    rw [← hX]
    refine le_trans (zpow_le_zpow_right₀ (by norm_num) ?_) hxl
    unfold EMIN; omega)
  rw [← hX] at hb
  have he0 : x.e ≤ 3 := by
    have h1 := lt_of_le_of_lt hb.1 (lt_of_le_of_lt hx1 (show (63 / 10 : ℝ) < 2 ^ (3 : ℤ) by norm_num))
    have := (zpow_lt_zpow_iff_right₀ (by norm_num : (1 : ℝ) < 2)).1 h1
    omega
  have he1 : -(P₀ : ℤ) < x.e := (zpow_lt_zpow_iff_right₀ (by norm_num : (1 : ℝ) < 2)).1 (lt_of_le_of_lt hxl hb.2)
  have hmbx : x.m.maxBitLen = P₀ := by
    unfold Mantissa.maxBitLen; omega
  obtain ⟨g, g1, g2, g3⟩ := sinGenNew_spec hp (by unfold PMAX; omega)
  obtain ⟨n, niter, meff, step, c1, c2, c3, c4, c5, c6, c7⟩ := sinCost_spec (p := P₀) (m := -x.e) hP1 (by omega)
  unfold Num.sinSeries
  dsimp only
  rw [hmbx, g1]
  dsimp only
  rw [g3, c1]
  dsimp only
  unfold Num.sinSeriesBody
  dsimp only
  obtain ⟨pA, hpA⟩ : ∃ pA, pA = P₀ + ((n : ℤ) * 6 + 9 - (meff : ℤ)).toNat := ⟨_, rfl⟩
  rw [← hpA]
  unfold sinRedEff at c7
  have hpA1 : P₀ ≤ pA := by omega
  have hpA2 : pA ≤ 13 * P₀ + 300 := by omega
  obtain ⟨P, hP⟩ : ∃ P, P = 64 * wordLen pA := ⟨_, rfl⟩
  have hPr : roundP pA = P ∧ pA ≤ P ∧ P ≤ pA + 63 ∧ 64 ∣ P := by
    obtain ⟨w1, w2⟩ := wordLen_bounds pA
    rw [hP]
    exact ⟨roundP_wl (by omega), w1, w2, ⟨_, rfl⟩⟩
  have hPr2 : roundP P = P := by
    have := hPr.2.2.1
    rw [roundP_wl (by omega), hP, wordLen_mul]
  have hPm : P < PMAX := by
    have := hPr.2.2.1
    unfold PMAX; omega
  have hPP : P₀ ≤ P := by omega
  have herr : (2 : ℝ) ^ (1 - (P : ℤ)) ≤ δ :=
    le_trans (zpow_le_zpow_right₀ (by norm_num) (by omega)) hp.err
  have hpa : PrecOk δ pA P := ⟨by omega, hPr.1, hPm, herr⟩
  have hpp : PrecOk δ P P := ⟨by omega, hPr2, hPm, herr⟩
  obtain ⟨y, y1, y2, y3, y4, -⟩ := setPrecision_extendN hx (p := pA) (by omega) (by unfold PMAX; omega) (by rw [hlen, ← hP]; exact hPP)
  rw [y1]
  dsimp only
  rw [← hX] at y4
  obtain ⟨L, hL⟩ : ∃ L, L = 2 * (meff + 3) := ⟨_, rfl⟩
  have hyl : 64 * y.m.m.length = P := by rw [y3, hP]
  have h3n : (1 : ℝ) ≤ 3 ^ n := one_le_pow₀ (by norm_num)
  obtain ⟨Z, hZ⟩ : ∃ Z : ℝ, Z = X / 3 ^ n := ⟨_, rfl⟩
  have hZX : Z * 3 ^ n = X := by rw [hZ]; field_simp
  have hZX' : |Z| * 3 ^ n = |X| := by
    rw [← hZX, abs_mul, abs_of_pos (show (0 : ℝ) < 3 ^ n by positivity)]
  have hZl : (2 : ℝ) ^ (-(L : ℤ)) ≤ |Z| := by
    have h1 : (2 : ℝ) ^ (-(L : ℤ)) * 3 ^ n ≤ |X| := by
      refine le_trans ?_ hb.1
      calc (2 : ℝ) ^ (-(L : ℤ)) * 3 ^ n ≤ 2 ^ (-(L : ℤ)) * 2 ^ (2 * n : ℕ) := by
            refine mul_le_mul_of_nonneg_left ?_ (by positivity)
            rw [pow_mul]; exact pow_le_pow_left₀ (by norm_num) (by norm_num) n
        _ = 2 ^ (-(L : ℤ) + (2 * n : ℕ)) := by rw [zpow_add₀ (by norm_num), zpow_natCast]
        _ ≤ _ := zpow_le_zpow_right₀ (by norm_num) (by push_cast; omega)
    rw [← hZX'] at h1
    exact le_of_mul_le_mul_right h1 (by positivity)
  have hred : ∃ a, (if n > 0 then y.sinArgReduce n else .ok y) = .ok a ∧ Rl δ P L 2 Z a ∧ |(a.toK : ℝ)| ≤ 1 / 2 := by
    by_cases hn : n > 0
    · rw [if_pos hn]
      obtain ⟨d, d1, d2, -, d4⟩ := threePow_spec (n - 1) (by omega)
      rw [Nat.sub_add_cancel hn] at d4
      have hmb : y.m.maxBitLen = P := by
        unfold Mantissa.maxBitLen; omega
      have ry : Rl δ P (P₀ + 1) 0 y.toK y := Rl.of_exact y2 hyl (by
        rw [y4]
        refine le_trans (zpow_le_zpow_right₀ (by norm_num) ?_) hxl
        push_cast; omega)
      rw [y4] at ry
      obtain ⟨a, a1, a2⟩ := ry.div hd hpp d2 d4 (by rw [abs_of_pos (by positivity)]; exact h3n) (ℓ := L) (by rw [← hZ]; exact hZl) (by omega)
        (by norm_num) (le_trans hx1 (by norm_num))
      rw [← hZ] at a2
      refine ⟨a, ?_, a2, ?_⟩
      · unfold Num.sinArgReduce
        rw [d1, hmb]
        exact a1
      · refine le_trans (a2.mag hd (by norm_num)).2 ?_
        have hZ4 : |Z| ≤ 1 / 4 := by
          rcases le_or_gt 0 x.e with he | he
          · have h27 : (27 : ℝ) ≤ 3 ^ n := by
              calc (27 : ℝ) = 3 ^ 3 := by norm_num
                _ ≤ 3 ^ n := pow_le_pow_right₀ (by norm_num) (by omega)
            have := mul_le_mul_of_nonneg_left h27 (abs_nonneg Z)
            linarith
          · have h3 : (3 : ℝ) ≤ 3 ^ n := by
              calc (3 : ℝ) = 3 ^ 1 := by norm_num
                _ ≤ 3 ^ n := pow_le_pow_right₀ (by norm_num) (by omega)
            have h4 := mul_le_mul_of_nonneg_left h3 (abs_nonneg Z)
            have h5 : |X| ≤ 1 / 2 := by
              refine le_trans hb.2.le (le_trans (zpow_le_zpow_right₀ (by norm_num) (show x.e ≤ -1 by omega)) ?_)
              norm_num
            linarith
        calc |Z| * (1 + 1 / 2 ^ 40) ≤ 1 / 4 * 2 := mul_le_mul hZ4 (by norm_num) (by norm_num) (by norm_num)
          _ = _ := by norm_num
    · rw [if_neg hn]
      have hn0 : n = 0 := by omega
      rw [hn0, pow_zero, mul_one] at hZX
      refine ⟨y, rfl, ?_, ?_⟩
      · have ry : Rl δ P L 0 y.toK y := Rl.of_exact y2 hyl (by rw [y4, ← hZX]; exact hZl)
        rw [y4, ← hZX] at ry
        exact ry.mono hd (by omega) le_rfl
      · rw [y4]
        refine le_trans hb.2.le (le_trans (zpow_le_zpow_right₀ (by norm_num) (show x.e ≤ -1 by omega)) ?_)
        norm_num
  obtain ⟨a, a1, a2, a3⟩ := hred
  rw [a1]
  dsimp only
  have hniter : 6 * niter ≤ P₀ := by
    have : 2 * niter * 3 ≤ 2 * niter * (meff + 3) := Nat.mul_le_mul_left _ (by omega)
    omega
  obtain ⟨xs, xf, v, s1, f1, v1, v2⟩ := sin_core hd hp hpa hpp g2 a2 a3 (niter := niter) (by omega) (by omega) (by
      have e1 : (2 * (L + 1) + 80) * (4 * niter) = 8 * (2 * niter * (meff + 3)) + 328 * niter := by rw [hL]; ring
      rw [e1]
      omega)
  rw [s1]; dsimp only
  rw [f1]; dsimp only
  rw [v1]; dsimp only
  have hmv : v.m.maxBitLen = P := by
    have := v2.len
    unfold Mantissa.maxBitLen; omega
  rw [hmv]
  obtain ⟨w, w1, w2⟩ := sinRestoreLoop_spec hd hpp (by omega) (ℓ := L) (by omega) n (2 ^ 56) Z v v2 (by omega) (by rw [hZX']; exact hx1) hZl
  rw [hZX] at w2
  refine ⟨w, P, ?_, w2.mono hd (by omega), hPP⟩
  by_cases hn : n > 0
  · rw [if_pos hn]; exact w1
  · rw [if_neg hn]
    have hn0 : n = 0 := by omega
    rw [hn0] at w1
    exact w1

end AF
