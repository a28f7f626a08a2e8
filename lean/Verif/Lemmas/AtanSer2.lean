import Verif.Lemmas.AtanArg
/-!
# The arctangent of a number at most one: the series on a reduced argument
-/

namespace AF

variable {δ : ℝ} {P : Nat}

/-- `atan_series` once the argument has been reduced. -/
theorem atanSeriesArg_spec (hd : DOk δ) {p : Nat} (hp : PrecOk δ p P) (hpP : PrecOk δ P P) {arg : Num} (hw : arg.WF)
    (hl : 64 * arg.m.m.length = P) {a n niter : Nat} {g : AtanGen} (hb : (2 : ℝ) ^ (-(a : ℤ)) ≤ |(arg.toK : ℝ)|)
    (h1 : (arg.toK : ℝ) * arg.toK ≤ 1 / 32) (hr : AtanRep 0 g) (hP1 : 64 ≤ P)
    (hn2 : 108 ≤ niter → 16 * niter ≤ P) (hn3 : 108 ≤ niter → a * niter ≤ P) (hP : P ≤ 2 ^ 21) (ha2 : a ≤ 700000000) (hn : n ≤ 2 ^ 29) :
    ∃ v, arg.atanSeriesArg p g n niter = .ok v ∧ v.WF ∧ 64 * v.m.m.length = P ∧ v.inexact = true ∧
      ∃ θ, (v.toK : ℝ) = Real.arctan arg.toK * 2 ^ n * (1 + θ) ∧ |θ| ≤ ((2 ^ 53 : ℕ) : ℝ) * δ := by
  have hA0 : 0 < |(arg.toK : ℝ)| := lt_of_lt_of_le (by positivity) hb
  have hA1 : |(arg.toK : ℝ)| ≤ 1 / 2 := by
    have := abs_mul_abs_self (arg.toK : ℝ)
    nlinarith
  obtain ⟨xs, s1, s2⟩ := square_lo hd hp hw hb (by linarith) (by omega)
  have hX0 := s2.Xpos
  obtain ⟨xf, f1, f2⟩ := (Rl.of_exact (δ := δ) hw hl hb).mul (ℓ := 3 * a) hd hp (Rl.of_lo hd s2) (by
      rw [abs_mul, abs_of_pos hX0, show (-((3 * a : ℕ) : ℤ)) = -(a : ℤ) + -((2 * a : ℕ) : ℤ) by push_cast; ring, zpow_add₀ (by norm_num)]
      exact mul_le_mul hb s2.lb (by positivity) (abs_nonneg _)) (by omega) (by norm_num) (by norm_num) (by
      rw [abs_mul, abs_of_pos hX0]
      have := mul_le_mul hA1 h1 hX0.le (by norm_num)
      exact le_trans this (by norm_num))
  obtain ⟨r, r1, r2, r3, r4, r5⟩ := seriesRun_atan hd hpP rfl hb hw hl rfl f2 s2 hr h1 hP1 hn2 hn3 hP ha2
  -- relative error
  have g1 := abs_arctan_half (show |(arg.toK : ℝ)| ≤ 1 by linarith)
  have g2 : 0 < |Real.arctan (arg.toK : ℝ)| := by linarith
  have g3 : Real.arctan (arg.toK : ℝ) ≠ 0 := abs_pos.1 g2
  obtain ⟨θ, t1, t2⟩ : ∃ θ, (r.toK : ℝ) = Real.arctan arg.toK * (1 + θ) ∧ |θ| ≤ ((2 ^ 53 : ℕ) : ℝ) * δ := by
    refine ⟨r.toK / Real.arctan arg.toK - 1, by field_simp; ring, ?_⟩
    rw [show (r.toK : ℝ) / Real.arctan arg.toK - 1 = (r.toK - Real.arctan arg.toK) / Real.arctan arg.toK by field_simp, abs_div,
      div_le_iff₀ g2]
    refine le_trans r5 ?_
    have := mul_le_mul_of_nonneg_right (show |(arg.toK : ℝ)| ≤ 2 * |Real.arctan (arg.toK : ℝ)| by linarith)
      (show 0 ≤ ((2 ^ 52 : ℕ) : ℝ) * δ from mul_nonneg (Nat.cast_nonneg _) hd.nonneg)
    refine le_trans this (le_of_eq ?_)
    push_cast; ring
  have t3 := rel_half hd (N := 2 ^ 53) (by norm_num) t2
  have t4 := abs_le.1 t3
  have t5 : (1 : ℝ) / 2 ^ 40 ≤ 1 / 2 := by norm_num
  have t6 : |1 + θ| = 1 + θ := abs_of_nonneg (by linarith)
  have hrm : |(r.toK : ℝ)| = |Real.arctan (arg.toK : ℝ)| * (1 + θ) := by rw [t1, abs_mul, t6]
  have g4 := abs_arctan_le (arg.toK : ℝ)
  have hrl : (2 : ℝ) ^ (-((a + 2 : ℕ) : ℤ)) ≤ |(r.toK : ℝ)| := by
    rw [hrm, show (-((a + 2 : ℕ) : ℤ)) = -(a : ℤ) + -2 by push_cast; ring, zpow_add₀ (by norm_num),
      show (2 : ℝ) ^ (-2 : ℤ) = 1 / 4 by norm_num]
    have := mul_le_mul g1 (show 1 / 2 ≤ 1 + θ by linarith) (by norm_num) (abs_nonneg _)
    linarith
  have hru : |(r.toK : ℝ)| ≤ 1 := by
    rw [hrm]
    have := mul_le_mul (le_trans g4 hA1) (show 1 + θ ≤ 3 / 2 by linarith) (by linarith) (by norm_num)
    linarith
  unfold Num.atanSeriesArg
  rw [s1]
  dsimp only
  rw [f1]
  dsimp only
  rw [r1]
  dsimp only
  by_cases hn0 : n > 0
  · rw [if_pos hn0]
    obtain ⟨e1, e2⟩ := exp_bounds_abs r2 (le_trans (zpow_le_zpow_right₀ (by norm_num) (by unfold EMIN; omega)) hrl)
    have e3 : r.e ≤ 1 := by
      by_contra h
      have : (2 : ℝ) ^ (1 : ℤ) ≤ 2 ^ (r.e - 1) := zpow_le_zpow_right₀ (by norm_num) (by omega)
      norm_num at this
      linarith
    have e4 : -((a + 2 : ℕ) : ℤ) < r.e := (zpow_lt_zpow_iff_right₀ (by norm_num : (1 : ℝ) < 2)).1 (lt_of_le_of_lt hrl e2)
    have hz : r.isZero = false := by
      rw [← Bool.not_eq_true, ← r2.toK_eq_zero (K := ℝ)]
      exact abs_pos.1 (lt_of_lt_of_le (by positivity) hrl)
    obtain ⟨k1, k2, k3, k4, -⟩ := setExponent_normal r2 hz (by unfold EMIN; omega) (e := r.e + n) (by unfold EMIN; omega) (by unfold EMAX; omega)
    refine ⟨_, rfl, k1, by rw [k3]; exact r3, by rw [k4]; exact r4, θ, ?_, t2⟩
    rw [k2, t1, show r.e + (n : ℤ) - r.e = n by ring, zpow_natCast]; ring
  · rw [if_neg hn0]
    have : n = 0 := by omega
    subst this
    exact ⟨r, rfl, r2, r3, r4, θ, by rw [t1]; ring, t2⟩

/-- The magnitude of a normal number. -/
theorem Num.WF.mag_normal {x : Num} (hx : x.WF) (hz : x.isZero = false) (he : EMIN < x.e) :
    (2 : ℝ) ^ (x.e - 1) ≤ |(x.toK : ℝ)| ∧ |(x.toK : ℝ)| < 2 ^ x.e := by
  obtain ⟨q, q1, q2, q3, -⟩ := hx.mag (K := ℝ) hz
  have : q = x.e := by omega
  rw [← this]
  exact ⟨q1, q2⟩

theorem roundP_mul {n : Nat} (h : 64 * n ≤ 2 ^ 30) : roundP (64 * n) = 64 * n := by unfold roundP USIZE_MAX; omega

theorem roundP_word {q : Nat} (h : q ≤ 2 ^ 30) : roundP q = 64 * wordLen q := by unfold roundP wordLen USIZE_MAX; omega

theorem lt_PMAX {q : Nat} (h : q ≤ 2 ^ 30) : q < PMAX := by unfold PMAX; omega

/-- `atan_series` of a number at most one. -/
theorem atanSeries_spec (hP1 : 128 ≤ P) (hP2 : P ≤ 2 ^ 17) {x : Num} (hx : x.WF) (hl : 64 * x.m.m.length = P)
    (hz : x.isZero = false) (h1 : |(x.toK : ℝ)| ≤ 1) (he : -690000000 ≤ x.e) :
    ∃ r, x.atanSeries = .ok r ∧ r.WF ∧ P ≤ 64 * r.m.m.length ∧ r.inexact = true ∧
      ∃ θ, (r.toK : ℝ) = Real.arctan x.toK * (1 + θ) ∧ |θ| ≤ 2 ^ 54 * 2 ^ (1 - (P : ℤ)) := by
  have m1 : x.m.maxBitLen = P := by unfold Mantissa.maxBitLen; omega
  obtain ⟨b1, b2⟩ := hx.mag_normal hz (by unfold EMIN; omega)
  have he1 : x.e ≤ 1 := by
    by_contra h
    have : (2 : ℝ) ^ (1 : ℤ) ≤ 2 ^ (x.e - 1) := zpow_le_zpow_right₀ (by norm_num) (by omega)
    norm_num at this
    linarith
  obtain ⟨g, g1, g2, g3⟩ := atanGenNew_spec
  obtain ⟨n, niter, meff, c1, c2, c3, c4, c5, c6⟩ := atanCost_spec (p := P) (m := -x.e) hP1 (by omega)
  unfold Num.atanSeries
  dsimp only
  rw [m1, g1]
  dsimp only
  rw [g3, c1]
  dsimp only
  rw [if_neg (by omega : ¬ meff < 3)]
  obtain ⟨q, hq, hq1, hq2⟩ : ∃ q, q = P + (if ((n : ℤ) * 8 + 2 - (meff : ℤ)) > 0 then ((n : ℤ) * 8 + 2 - (meff : ℤ)).toNat else 0) ∧ P ≤ q ∧
      q ≤ 2 ^ 21 - 64 := by
    refine ⟨_, rfl, ?_, ?_⟩ <;> split <;> omega
  rw [← hq]
  obtain ⟨y, y1, y2, y3, y4, -⟩ := setPrecision_extendN hx (p := q) (by omega) (lt_PMAX (by omega))
    (by unfold wordLen; omega)
  rw [y1]
  dsimp only
  obtain ⟨Q, hQ, hQ1, hQ2⟩ : ∃ Q, Q = 64 * y.m.m.length ∧ P ≤ Q ∧ Q ≤ 2 ^ 21 := ⟨_, rfl, by rw [y3]; unfold wordLen; omega, by
    rw [y3]; unfold wordLen; omega⟩
  have hm : y.m.maxBitLen = Q := by unfold Mantissa.maxBitLen; omega
  rw [hm]
  have hQm : Q < PMAX := lt_PMAX (by omega)
  obtain ⟨δ, hδ⟩ : ∃ δ : ℝ, δ = 2 ^ (1 - (Q : ℤ)) := ⟨_, rfl⟩
  have hd : DOk δ := by
    refine ⟨by rw [hδ]; positivity, ?_⟩
    rw [hδ, show (1 / 2 ^ 100 : ℝ) = 2 ^ (-100 : ℤ) by norm_num]
    exact zpow_le_zpow_right₀ (by norm_num) (by omega)
  have hrP : roundP Q = Q := by rw [hQ]; exact roundP_mul (by omega)
  have hrq : roundP q = Q := by
    rw [hQ, y3]; exact roundP_word (by omega)
  have hpP : PrecOk δ Q Q := ⟨by omega, hrP, hQm, by rw [hδ]⟩
  have hp : PrecOk δ q Q := ⟨by omega, hrq, hQm, by rw [hδ]⟩
  have hif : (if n > 0 then y.atanArgReduce Q n else Except.ok y) = y.atanArgReduce Q n := by
    by_cases h : n > 0
    · rw [if_pos h]
    · rw [if_neg h]
      have : n = 0 := by omega
      subst this; rfl
  rw [hif]
  rw [← y4] at b1 b2 h1
  obtain ⟨L, hL⟩ : ∃ L : ℕ, (L : ℤ) = 1 - x.e := ⟨(1 - x.e).toNat, by omega⟩
  have b1' : (2 : ℝ) ^ (-(L : ℤ)) ≤ |(y.toK : ℝ)| := by rw [hL, neg_sub]; exact b1
  obtain ⟨arg, a1, a2, a3, a4, θ, a5, a6⟩ := atanArgReduce_spec hd hpP n L y y2 hQ.symm b1' h1 (by omega) (by omega)
  rw [a1]
  dsimp only
  have t3 := rel_half hd (N := 16 * n) (by omega) a6
  have t4 := abs_le.1 t3
  have t5 : (1 : ℝ) / 2 ^ 40 ≤ 1 / 1000 := by norm_num
  have t6 : |1 + θ| = 1 + θ := abs_of_nonneg (by linarith)
  have t7 : |Real.arctan (arg.toK : ℝ)| * 2 ^ n = |Real.arctan (y.toK : ℝ)| * (1 + θ) := by
    have := congrArg abs a5
    rwa [abs_mul, abs_mul, t6, abs_of_pos (show (0 : ℝ) < 2 ^ n by positivity)] at this
  have hy2 := abs_arctan_le (y.toK : ℝ)
  have hy1 := abs_arctan_half h1
  have h2n : (0 : ℝ) < 2 ^ n := by positivity
  -- bounds of the reduced argument
  have hlow : (2 : ℝ) ^ (-((L + n + 2 : ℕ) : ℤ)) ≤ |(arg.toK : ℝ)| := by
    have k1 := abs_arctan_le (arg.toK : ℝ)
    have k2 : (2 : ℝ) ^ (-(L : ℤ)) * (1 / 4) ≤ |(arg.toK : ℝ)| * 2 ^ n := by
      have := mul_le_mul hy1 (show 1 / 2 ≤ 1 + θ by linarith) (by norm_num) (abs_nonneg _)
      have := mul_le_mul_of_nonneg_right k1 h2n.le
      linarith
    rw [show (-((L + n + 2 : ℕ) : ℤ)) = -(L : ℤ) + -2 - (n : ℤ) by push_cast; ring, zpow_sub₀ (by norm_num), zpow_add₀ (by norm_num),
      show (2 : ℝ) ^ (-2 : ℤ) = 1 / 4 by norm_num, zpow_natCast, div_le_iff₀ h2n]
    exact k2
  have h8 : (2 : ℝ) ^ x.e ≤ 1 / 8 * 2 ^ n := by
    rw [show (1 / 8 : ℝ) = 2 ^ (-3 : ℤ) by norm_num, ← zpow_natCast, ← zpow_add₀ (by norm_num)]
    exact zpow_le_zpow_right₀ (by norm_num) (by omega)
  have hat : |Real.arctan (arg.toK : ℝ)| ≤ 1001 / 8000 := by
    have : |Real.arctan (arg.toK : ℝ)| * 2 ^ n ≤ 1001 / 8000 * 2 ^ n := by
      rw [t7]
      have := mul_le_mul (show |Real.arctan (y.toK : ℝ)| ≤ 1 / 8 * 2 ^ n by linarith) (show 1 + θ ≤ 1001 / 1000 by linarith) (by linarith)
        (by positivity)
      linarith
    exact le_of_mul_le_mul_right this h2n
  have hA : (arg.toK : ℝ) * arg.toK ≤ 1 / 32 := by
    have k1 := abs_arctan_half a4
    have k2 := abs_arctan_ge (y := (arg.toK : ℝ))
    have k3 := abs_nonneg (arg.toK : ℝ)
    rw [← sq_abs, div_le_iff₀ (by positivity)] at k2
    rw [← abs_mul_abs_self]
    generalize |(arg.toK : ℝ)| = A at *
    have k4 : A ≤ 1001 / 4000 := by linarith
    have k5 : A ≤ 1001 / 8000 * (1 + A ^ 2) := le_trans k2 (mul_le_mul_of_nonneg_right hat (by positivity))
    have k6 : A ^ 2 ≤ (1001 / 4000) ^ 2 := pow_le_pow_left₀ k3 k4 2
    have k7 : A ≤ 14 / 100 := by
      refine le_trans k5 ?_
      norm_num at k6 ⊢; linarith
    nlinarith
  have hni : (L + n + 2) * niter ≤ Q := by
    have k1 : (L + n + 2) * niter ≤ 2 * niter * (meff + 3) := by
      rw [mul_comm, show 2 * niter * (meff + 3) = niter * (2 * (meff + 3)) by ring]
      exact Nat.mul_le_mul_left _ (by omega)
    omega
  have hni2 : 16 * niter ≤ Q := by
    have k1 : 16 * niter ≤ 2 * niter * (meff + 3) := by
      rw [show 2 * niter * (meff + 3) = 2 * (meff + 3) * niter by ring]
      exact Nat.mul_le_mul_right _ (by omega)
    omega
  obtain ⟨r, r1, r2, r3, r4, φ, r5, r6⟩ := atanSeriesArg_spec (n := n) (niter := niter) hd hp hpP a2 a3 (a := L + n + 2) hlow hA g2 (by omega)
    (fun _ => hni2) (fun _ => hni) hQ2 (by omega) (by omega)
  obtain ⟨w, w1, w2⟩ := rel_comp_wide hd (by norm_num) (by omega) r6 a6
  refine ⟨r, r1, r2, by omega, r4, w, ?_, ?_⟩
  · rw [r5, a5, y4, ← w1]; ring
  · refine le_trans w2 ?_
    have k1 : ((2 ^ 53 + 16 * n + 1 : ℕ) : ℝ) ≤ 2 ^ 54 := by exact_mod_cast (by omega : 2 ^ 53 + 16 * n + 1 ≤ 2 ^ 54)
    refine mul_le_mul k1 ?_ hd.nonneg (by positivity)
    rw [hδ]
    exact zpow_le_zpow_right₀ (by norm_num) (by omega)

end AF
