import Verif.Lemmas.Cosh
/-!
# The hyperbolic sine
-/

namespace AF

open Num

theorem sinh_cube {t : ℝ} (h0 : 0 < t) (h1 : t ≤ 1) : 0 < Real.sinh t - t ∧ Real.sinh t - t < t ^ 3 / 4 := by
  refine ⟨by linarith [Real.self_lt_sinh_iff.2 h0], ?_⟩
  have h := (sinh_partial h0 h1 1).2
  have e1 : serSum sinhCoef (t * t) 1 1 = 1 / 6 := by
    rw [serSum_succ, serSum_zero]
    unfold sinhCoef
    norm_num [Nat.factorial]
  have e2 : sinhCoef (1 + 1) = 1 / 120 := by unfold sinhCoef; norm_num [Nat.factorial]
  rw [e1, e2] at h
  have h3 : 0 < t ^ 3 := by positivity
  have h5 : t ^ 3 * t ^ 2 ≤ t ^ 3 * 1 := mul_le_mul_of_nonneg_left (pow_le_one₀ h0.le h1) h3.le
  nlinarith

/-- The hyperbolic sine of a slightly smaller argument. -/
theorem sinh_shrink {X c : ℝ} (h0 : 0 < X) (h1 : X ≤ 1) (hc0 : 0 ≤ c) (hc1 : c ≤ 1) :
    Real.sinh X * (1 - 4 * (1 - c)) ≤ Real.sinh (X * c) := by
  obtain ⟨u, hu⟩ : ∃ u, u = X * (1 - c) := ⟨_, rfl⟩
  have hu0 : 0 ≤ u := by rw [hu]; exact mul_nonneg h0.le (by linarith)
  have hu1 : u ≤ 1 := by rw [hu]; exact mul_le_one₀ h1 (by linarith) (by linarith)
  have e : X * c = X - u := by rw [hu]; ring
  rw [e, Real.sinh_sub]
  have a1 : Real.sinh u ≤ 2 * u := by
    have := sinh_scale hu0 hu1 (show (0 : ℝ) ≤ 1 by norm_num)
    rw [one_mul] at this
    refine le_trans this (mul_le_mul_of_nonneg_right (sinh_lt_two le_rfl).le hu0)
  have a2 : Real.cosh X ≤ 2 := by
    have := (one_lt_cosh_bound h0.ne' (by rw [abs_of_pos h0]; exact h1)).2
    have : X ^ 2 ≤ 1 := pow_le_one₀ h0.le h1
    linarith
  have a3 := Real.one_le_cosh u
  have a4 : X ≤ Real.sinh X := Real.self_le_sinh_iff.2 h0.le
  have a5 : Real.cosh X * Real.sinh u ≤ 2 * (2 * u) :=
    mul_le_mul a2 a1 (Real.sinh_nonneg_iff.2 hu0) (by norm_num)
  have a6 : Real.sinh X * 1 ≤ Real.sinh X * Real.cosh u := mul_le_mul_of_nonneg_left a3 (by linarith)
  have a7 : u ≤ Real.sinh X * (1 - c) := by rw [hu]; exact mul_le_mul_of_nonneg_right a4 (by linarith)
  linarith

/-- The series in the loop of `sinh`. -/
theorem sinhSer_spec {x : Num} (hx : x.WF) (h0 : (0 : ℝ) < x.toK) (h1 : (x.toK : ℝ) < 1) {w : Nat} (hd : 64 ∣ w)
    (hw : 128 ≤ w) (hw2 : w + 128 ≤ 2 ^ 22) (hl : 64 * x.m.m.length = w + 64) (hlow : (2 : ℝ) ^ (-(w : ℤ)) ≤ x.toK) :
    ∃ v, x.sinhSeries (w + 4) .none = .ok v ∧ v.WF ∧ w ≤ 64 * v.m.m.length ∧ v.inexact = true ∧
      Real.sinh x.toK * (1 - 2 ^ 53 * wUnit w) ≤ v.toK ∧ (v.toK : ℝ) ≤ Real.sinh x.toK := by
  have hdk := wUnit_DOk hw
  obtain ⟨v, P, M, a1, a2, a3, a4⟩ := sinhSeries_spec hdk
    (wUnit_PrecOk hd (by omega) (k := 64) (by norm_num) (by norm_num) : PrecOk (wUnit w) (w + 64) (w + 64))
    (wUnit_PrecOk hd (by omega) (k := 4) (by norm_num) (by norm_num)) (by omega) (by omega) (by omega) hx hl h0 h1 (by
      refine le_trans (zpow_le_zpow_right₀ (by norm_num) ?_) hlow
      push_cast; omega)
  refine ⟨v, a1, a2.wf, by rw [a2.len]; omega, a2.ix, le_trans ?_ a2.ge, a2.le⟩
  have hc0 := hdk.pow_pos M
  have hc1 := hdk.pow_le M
  have hb := one_add_mul_le_pow (a := -wUnit w) (by have := hdk.base; linarith) M
  refine le_trans ?_ (sinh_shrink h0 h1.le hc0.le hc1)
  have hs : 0 ≤ Real.sinh (x.toK : ℝ) := Real.sinh_nonneg_iff.2 h0.le
  refine mul_le_mul_of_nonneg_left ?_ hs
  have hM : (M : ℝ) ≤ 2 ^ 51 := by exact_mod_cast a3
  have hδ := wUnit_pos w
  have hMd : (M : ℝ) * wUnit w ≤ 2 ^ 51 * wUnit w := mul_le_mul_of_nonneg_right hM hδ.le
  rw [← sub_eq_add_neg] at hb
  generalize (1 - wUnit w) ^ M = t at *
  generalize wUnit w = δ at *
  linarith

theorem small_d {a b D δ : ℝ} (hδ : 0 < δ) (hD : 0 < D) (h1 : D * (1 - 4 * δ) ≤ a) (h2 : a * (1 - δ) ≤ b) (hδ1 : δ ≤ 1 / 1024) :
    D * (1 - 6 * δ) ≤ b := by
  have : D * (1 - 4 * δ) * (1 - δ) ≤ a * (1 - δ) := mul_le_mul_of_nonneg_right h1 (by linarith)
  have h3 : 0 < D * (δ * δ) := by positivity
  have h4 : 0 < D * δ := by positivity
  nlinarith

/-- The difference in the loop of `sinh`. -/
theorem sinhDiff_spec {x : Num} (hx : x.WF) (h1 : (1 : ℝ) ≤ x.toK) (htop : Real.exp |(x.toK : ℝ)| ≤ 2 ^ (EMAX - 4))
    (hs : x.s = .pos) (σ : Sign) {eth : Nat} (heth : eth ≤ 126) {w : Nat} (hd : 64 ∣ w) (hw : 128 ≤ w) (h2 : w + 128 ≤ 2 ^ 22)
    (hl : 64 * x.m.m.length = w + 64) {c : ConstCache (Num × Num)} (hc : CacheOk ERep EValOk c) (f : Nat) :
    ∃ v c', x.sinhDiff σ eth (w + 4) (f + 1) c = some (.ok v, c') ∧ CacheOk ERep EValOk c' ∧ v.WF ∧
      64 * v.m.m.length = w + 64 ∧ v.inexact = true ∧ 2 * Real.sinh |(x.toK : ℝ)| * (1 - 6 * wUnit w) ≤ v.toK ∧
      (v.toK : ℝ) ≤ 2 * Real.sinh |(x.toK : ℝ)| * (1 + 6 * wUnit w) := by
  have hz : x.isZero = false := by
    rw [← Bool.not_eq_true, ← hx.toK_eq_zero (K := ℝ)]; linarith
  obtain ⟨ex, c', w', a1, a2, a3, a4, a5, a6, a7⟩ := exp_none hx hz htop hs hd (by omega) h2 (by omega) hc f
  obtain ⟨hδ0, hδ, -⟩ := wUnit_tiny hw
  have hE1 : 2 ≤ Real.exp |(x.toK : ℝ)| := by
    rw [abs_of_pos (by linarith)]
    have := Real.add_one_le_exp (x.toK : ℝ)
    linarith
  have hC : 2 * Real.sinh |(x.toK : ℝ)| = Real.exp |(x.toK : ℝ)| - (Real.exp |(x.toK : ℝ)|)⁻¹ := by
    rw [Real.sinh_eq, ← Real.exp_neg]; ring
  rw [hC]
  have hp4 := wUnit_PrecOk (w := w) hd (by omega) (k := 4) (by norm_num) (by norm_num)
  have hpe := wUnit_eq w
  obtain ⟨E, hE⟩ : ∃ E, E = Real.exp |(x.toK : ℝ)| := ⟨_, rfl⟩
  obtain ⟨δ, hδe⟩ : ∃ δ, δ = wUnit w := ⟨_, rfl⟩
  rw [← hE, ← hδe] at a6 a7
  rw [← hδe] at hδ0 hδ hpe
  rw [← hE] at htop hE1
  rw [← hE, ← hδe]
  obtain ⟨b0, b1, b2, b3, b4⟩ := exp_recip_range (by linarith) htop hδ0 hδ a6 a7
  have hδs : δ ≤ 1 / 1024 := le_trans hδ (by norm_num)
  have hez : ex.isZero = false := by
    rw [← Bool.not_eq_true, ← a3.toK_eq_zero (K := ℝ)]
    exact b0.ne'
  obtain ⟨big1, big2⟩ := pow_EMAX_big
  have hEi : 0 < E⁻¹ := inv_pos.2 (by linarith)
  have hEi2 : E⁻¹ ≤ E / 4 := by
    rw [inv_eq_one_div, div_le_div_iff₀ (by linarith) (by norm_num)]
    nlinarith only [hE1]
  have hdv := div_spec (K := ℝ) ONE_WF a3 hez hp4.pos (by rw [hp4.eq]; exact hp4.lt) .none
  rw [hp4.eq, ONE_toK] at hdv
  obtain ⟨xe, x1, x2, x3, x4, x5, x6⟩ := tr_step hdv b3 (by linarith)
  rw [hpe] at x4
  have x7 : E⁻¹ * (1 - 3 * δ) ≤ xe.toK := by
    refine le_trans ?_ x4
    refine le_trans ?_ (mul_le_mul_of_nonneg_right b1 (by linarith))
    rw [mul_assoc]
    refine mul_le_mul_of_nonneg_left ?_ hEi.le
    exact small_b2 hδ0
  have x8 : (xe.toK : ℝ) ≤ E⁻¹ * (1 + 4 * δ) := le_trans x5 b2
  have hxe0 : (0 : ℝ) < xe.toK := lt_of_lt_of_le (mul_pos hEi (by linarith)) x7
  have had := addSub_spec (K := ℝ) a3 x2 hp4.pos (by rw [hp4.eq]; exact hp4.lt) false .none
  rw [hp4.eq, if_neg (by simp)] at had
  have hED : 0 < E * δ := mul_pos (by linarith) hδ0
  have hEid : E⁻¹ * δ ≤ E * δ / 4 := by
    have := mul_le_mul_of_nonneg_right hEi2 hδ0.le
    linarith
  have hS1 : (E - E⁻¹) * (1 - 4 * δ) ≤ ex.toK + -xe.toK := by linarith
  have hS2 : ex.toK + -xe.toK ≤ (E - E⁻¹) * (1 + 6 * δ) := by linarith
  have hS0 : 3 / 2 ≤ E - E⁻¹ := by linarith
  obtain ⟨v, v1, v2, v3, v4, v5, v6⟩ := tr_step had (by
      have h3 : (2 : ℝ) ^ (EMIN - 1) ≤ 1 / 2 := by
        rw [show (1 / 2 : ℝ) = 2 ^ (-1 : ℤ) by norm_num]
        exact zpow_le_zpow_right₀ (by norm_num) (by unfold EMIN; norm_num)
      refine le_trans h3 (le_trans ?_ hS1)
      have : (1 : ℝ) * (1 / 2) ≤ (E - E⁻¹) * (1 - 4 * δ) := mul_le_mul (by linarith) (by linarith) (by norm_num) (by linarith)
      linarith) (by
      refine le_trans hS2 ?_
      have : (E - E⁻¹) * (1 + 6 * δ) ≤ 2 ^ (EMAX - 4) * 2 := mul_le_mul (by linarith) (by linarith) (by linarith) (by positivity)
      linarith)
  have hvi : v.inexact = true := v6 (by
    unfold addIx
    rw [hez]
    have : xe.isZero = false := by
      rw [← Bool.not_eq_true, ← x2.toK_eq_zero (K := ℝ)]; exact hxe0.ne'
    rw [this, a5]; simp)
  rw [hpe] at v4
  refine ⟨v, c', ?_, a2, v2, v3, hvi, small_d hδ0 (by linarith) hS1 v4 hδs, le_trans v5 hS2⟩
  unfold Num.sinhDiff
  rw [a1]
  dsimp only
  have hmb : x.m.maxBitLen = w + 64 := by unfold Mantissa.maxBitLen; omega
  rw [hmb, if_neg (by omega)]
  have x1' : ex.reciprocal (w + 4) .none = .ok xe := x1
  rw [x1']
  dsimp only
  have v1' : ex.sub xe (w + 4) .none = .ok v := v1
  rw [v1']

theorem TestOk.setSign {w : Nat} {Y : ℝ} {v : Num} (h : TestOk w Y v) (hY : 0 < Y) (hw : 2 ≤ w) (σ : Sign) :
    TestOk w (σ.toK * Y) (v.setSign σ) := by
  obtain ⟨k, k1, k2⟩ := h.err
  have hwf := h.wf
  have h1 : (2 : ℝ) ^ (-(w : ℤ)) ≤ 1 := zpow_le_one_of_nonpos₀ (by norm_num) (by omega)
  have hk : 0 ≤ k := by
    have := (abs_le.1 k2).1
    linarith
  refine ⟨⟨hwf.wf, hwf.bits, hwf.emin, hwf.emax, hwf.norm, hwf.sized⟩, h.inexact, h.len, k, ?_, k2⟩
  rw [setSign_toK, k1, abs_of_nonneg (mul_nonneg hY.le hk), mul_assoc]

theorem sign_sinh (x : Num) : Real.sinh (x.toK : ℝ) = x.s.toK * Real.sinh |(x.toK : ℝ)| := by
  conv_lhs => rw [Num.toK_eq (K := ℝ) x]
  cases x.s <;> simp [Sign.toK]

/-- The state of the loop of `sinh`. -/
structure SinhInv (x : Num) (w : Nat) (s : HypState) : Prop extends HypInv x w s where
  sgn : s.1.s = .pos

/-- A round of the loop of `sinh`. -/
theorem sinhStep_spec {x : Num} (hx : x.WF) (hz : x.isZero = false) (htop : Real.exp |(x.toK : ℝ)| ≤ 2 ^ (EMAX - 4)) {w : Nat} (hd : 64 ∣ w) (h1 : 128 ≤ w)
    (h2 : w + 128 ≤ 2 ^ 22) (hlow : (2 : ℝ) ^ (-(w : ℤ)) ≤ |(x.toK : ℝ)|) {s : HypState} (hs : SinhInv x w s) (f : Nat) :
    ∃ v s', sinhStep x.s ((max x.e.natAbs 1 - 1) * 2) (f + 1) w s = some (.tst v, s') ∧
      (∀ w', w + 64 ≤ w' → SinhInv x w' s') ∧ TestOk w (Real.sinh x.toK) v := by
  obtain ⟨y, y1, y2, y3, y4, y5, y6, y7⟩ := hyp_extend hs.wf hs.nz hs.abs hd (by omega) (by omega) hs.len (k := 4) (by norm_num) (by norm_num)
  have ysgn : y.s = .pos := by rw [y6, hs.sgn]
  have yK : (y.toK : ℝ) = |(x.toK : ℝ)| := by
    rw [← y4, Num.toK_eq (K := ℝ) y, ysgn]; simp [Sign.toK]
  obtain ⟨X, hX⟩ : ∃ X, X = |(x.toK : ℝ)| := ⟨_, rfl⟩
  have hX0 : 0 < X := by rw [hX]; exact lt_of_lt_of_le (by positivity) hlow
  have hS0 : 0 < Real.sinh X := Real.sinh_pos_iff.2 hX0
  obtain ⟨hδ0, hδ, hδ2⟩ := wUnit_tiny h1
  have inv : ∀ {c'}, CacheOk ERep EValOk c' → ∀ w', w + 64 ≤ w' → SinhInv x w' (y, c') := by
    intro c' hc' w' hw'
    exact ⟨⟨y2, y3, y4, by dsimp only; omega, hc'⟩, ysgn⟩
  rw [sign_sinh, ← hX]
  unfold sinhStep
  dsimp only
  rw [y1]
  dsimp only
  by_cases he : y.e ≤ 0
  · rw [if_pos he]
    have hlt : (y.toK : ℝ) < 1 := by
      rw [yK, ← y4]
      refine lt_of_lt_of_le (y2.abs_lt_zpow (K := ℝ)) ?_
      exact zpow_le_one_of_nonpos₀ (by norm_num) he
    obtain ⟨v, v1, v2, v3, v4, v5, v6⟩ := sinhSer_spec y2 (by rw [yK, ← hX]; exact hX0) hlt hd h1 h2 y5 (by rw [yK]; exact hlow)
    rw [v1]
    rw [yK, ← hX] at v5 v6
    refine ⟨_, _, rfl, inv hs.cache, TestOk.setSign ?_ hS0 (by omega) _⟩
    refine TestOk.of_rel v2 v4 v3 hS0.ne' (δ := 2 ^ 53 * wUnit w) ?_ ?_
    · rw [hδ2]
      exact mul_le_mul_of_nonneg_right (by norm_num) hδ0.le
    · rw [abs_of_pos hS0, abs_le]
      have : 0 ≤ Real.sinh X * (2 ^ 53 * wUnit w) := by positivity
      constructor <;> linarith
  · rw [if_neg he]
    have hge : (1 : ℝ) ≤ y.toK := by
      obtain ⟨q, q1, -, q3, -⟩ := y2.mag (K := ℝ) y3
      rw [yK, ← y4]
      refine le_trans (one_le_zpow₀ (by norm_num) ?_) q1
      unfold EMIN at q3; omega
    have hxe : 0 < x.e := hx.e_of_abs (k := 0) (by rw [zpow_zero, ← yK]; exact hge)
    have hxe2 := e_le_of_top hx hz htop
    obtain ⟨r, c', r1, r2, r3, r4, r5, r6, r7⟩ := sinhDiff_spec y2 hge (by rw [y4]; exact htop) ysgn x.s (eth := (max x.e.natAbs 1 - 1) * 2)
      (by omega) hd h1 h2 y5 hs.cache f
    rw [y4, ← hX] at r6 r7
    rw [r1]
    have hX1 : 1 ≤ X := by rw [hX, ← yK]; exact hge
    have hS1 : 1 ≤ Real.sinh X := le_trans hX1 (Real.self_le_sinh_iff.2 hX0.le)
    have hr0 : (1 : ℝ) ≤ r.toK := by
      refine le_trans ?_ r6
      exact small_c hS1 (le_trans hδ (by norm_num))
    obtain ⟨d1, d2, d3, d4⟩ := divBy2_spec r3 (by
      rw [abs_of_pos (lt_of_lt_of_le one_pos hr0)]
      refine le_trans (zpow_le_one_of_nonpos₀ (by norm_num) ?_) hr0
      unfold EMIN; norm_num) .none
    refine ⟨_, _, rfl, inv r2, TestOk.setSign ?_ hS0 (by omega) _⟩
    refine TestOk.of_rel d1 (by rw [d4, r5]) (by rw [d3]; omega) hS0.ne' (δ := 6 * wUnit w) ?_ ?_
    · rw [hδ2]
      exact mul_le_mul_of_nonneg_right (by norm_num) hδ0.le
    · rw [d2, abs_of_pos hS0, abs_le]
      constructor <;> linarith

theorem abs_sinh_bounds (x : ℝ) : |x| ≤ |Real.sinh x| ∧ |Real.sinh x| ≤ Real.exp |x| := by
  have h : |Real.sinh x| = Real.sinh |x| := Real.abs_sinh x
  rw [h]
  refine ⟨Real.self_le_sinh_iff.2 (abs_nonneg _), ?_⟩
  rw [Real.sinh_eq]
  have := Real.exp_pos |x|
  have := Real.exp_pos (-|x|)
  linarith

theorem sinh_mid {x : ℝ} (htop : Real.exp |x| ≤ 2 ^ (EMAX - 4)) {w : Nat} (hw : w ≤ 2 ^ 22)
    (hlow : (2 : ℝ) ^ (-(w : ℤ)) ≤ |x|) : MidRange (Real.sinh x) := by
  obtain ⟨h1, h2⟩ := abs_sinh_bounds x
  refine MidRange.of_bounds ?_ ?_
  · refine le_trans (zpow_le_zpow_right₀ (by norm_num) ?_) (le_trans hlow h1)
    unfold EMIN; omega
  · refine lt_of_le_of_lt (le_trans h2 htop) ?_
    exact zpow_lt_zpow_right₀ (by norm_num) (by omega)

/-- An argument as a multiple of a unit. -/
theorem Num.toK_grid (x : Num) {G : Nat} (hG : 64 * x.m.m.length ≤ G) :
    ∃ k : ℤ, (x.toK : ℝ) = k * 2 ^ (x.e - (G : ℤ)) := by
  refine ⟨x.s.toInt * (val x.m.m * 2 ^ (G - 64 * x.m.m.length) : ℕ), ?_⟩
  unfold Num.toK
  have e1 : (2 : ℝ) ^ (x.e - ((64 * x.m.m.length : ℕ) : ℤ)) = 2 ^ (G - 64 * x.m.m.length) * 2 ^ (x.e - (G : ℤ)) := by
    rw [← zpow_natCast, ← zpow_add₀ (by norm_num)]
    congr 1
    omega
  rw [e1]
  have e2 : (x.s.toInt : ℝ) = x.s.toK := by cases x.s <;> simp [Sign.toInt, Sign.toK]
  push_cast
  rw [e2]
  ring

/-- `sinh` next to zero. -/
theorem sinh_small {x : Num} (hx : x.WF) (hz : x.isZero = false) (hlo : EMIN + 2 ≤ x.e) {pw : Nat} (hp : 0 < pw)
    (he : ((max (64 * pw) (64 * x.m.m.length) : ℕ) : ℤ) + 1 < -(x.e * 2 - 2)) (rm : RM) :
    ∃ v, x.smallExp false (64 * pw) rm = .ok v ∧ RoundsFmt rm (64 * pw) (Real.sinh x.toK) v.toK ∧
      FunRounded rm (64 * pw) (Real.sinh x.toK) v := by
  have hem := hx.emin
  have hE : EMIN = -2 ^ 31 := rfl
  have hEX : EMAX = 2 ^ 31 - 1 := rfl
  have hPM : PMAX = 2 ^ 62 - 2 ^ 31 - 1 := rfl
  obtain ⟨q, q1, q2, q3, -⟩ := hx.mag (K := ℝ) hz
  have hqe : q = x.e := by omega
  rw [hqe] at q1 q2
  obtain ⟨X, hX⟩ : ∃ X, X = |(x.toK : ℝ)| := ⟨_, rfl⟩
  rw [← hX] at q1 q2
  have hX0 : 0 < X := lt_of_lt_of_le (by positivity) q1
  obtain ⟨G, hG⟩ : ∃ G, G = max (64 * pw) (64 * x.m.m.length) := ⟨_, rfl⟩
  rw [← hG] at he
  have hX1 : X ≤ 1 := by
    refine le_trans q2.le ?_
    exact zpow_le_one_of_nonpos₀ (by norm_num) (by omega)
  obtain ⟨c1, c2⟩ := sinh_cube hX0 hX1
  obtain ⟨k, hk⟩ := x.toK_grid (G := G) (by omega)
  have hcube : X ^ 3 / 4 ≤ 2 ^ (x.e - (G : ℤ) - 2) := by
    have h3 : X ^ 3 ≤ ((2 : ℝ) ^ x.e) ^ 3 := pow_le_pow_left₀ hX0.le q2.le 3
    have h4 : ((2 : ℝ) ^ x.e) ^ 3 ≤ 2 ^ (x.e - (G : ℤ)) := by
      rw [← zpow_natCast, ← zpow_mul]
      exact zpow_le_zpow_right₀ (by norm_num) (by push_cast; omega)
    rw [zpow_sub₀ (by norm_num)]
    have h5 : (2 : ℝ) ^ (2 : ℤ) = 4 := by norm_num
    rw [h5]
    exact div_le_div_of_nonneg_right (le_trans h3 h4) (by norm_num)
  have hsx : Real.sinh (x.toK : ℝ) = x.toK + (corrSign x false).toK * (Real.sinh X - X) := by
    have : corrSign x false = x.s := rfl
    rw [this, sign_sinh, ← hX]
    have h6 := Num.toK_eq (K := ℝ) x
    rw [← hX] at h6
    rw [h6]; ring
  obtain ⟨v, v1, v2, v3, v4, v5, v6⟩ := smallExp_rounds hx hz hlo (by omega) hp (by omega) (by omega) false rm
    (G := G) (by omega) (by omega) hk c1 (lt_of_lt_of_le c2 hcube) hsx
  refine ⟨v, v1, v6, ?_⟩
  obtain ⟨a1, -⟩ := abs_sinh_bounds (x.toK : ℝ)
  refine FunRounded.of_fmt ?_ v2 (by rw [v3]) ?_ ?_ v5 v6
  · refine le_trans ?_ a1
    rw [← hX]
    refine le_trans (zpow_le_zpow_right₀ (by norm_num) ?_) q1
    omega
  · intro h
    rw [v4]
    exact toK_sign_pos (K := ℝ) (Real.sinh_pos_iff.1 h)
  · intro h
    rw [v4]
    exact toK_sign_neg (K := ℝ) (Real.sinh_neg_iff.1 h)

theorem sinh_init {x : Num} (hx : x.WF) (hz : x.isZero = false) {w : Nat} (hw : 64 * x.m.m.length ≤ w)
    {c : ConstCache (Num × Num)} (hc : CacheOk ERep EValOk c) :
    SinhInv x w (({ x with inexact := false } : Num).setSign .pos, c) :=
  ⟨⟨⟨hx.wf, hx.bits, hx.emin, hx.emax, hx.norm, hx.sized⟩, hz, by
    dsimp only
    rw [setSign_toK]
    have : (({ x with inexact := false } : Num).toK : ℝ) = x.toK := rfl
    rw [this]
    simp [Sign.toK], hw, hc⟩, rfl⟩

/-- Arguments that do not take the path for small ones. -/
theorem low_of_not_small {x : Num} (hx : x.WF) (hz : x.isZero = false) {n : Nat} (hn : 64 ≤ n) (h : ¬ (n : ℤ) + 1 < -(x.e * 2 - 2)) :
    (2 : ℝ) ^ (-(n : ℤ)) ≤ |(x.toK : ℝ)| ∨ x.e = EMIN := by
  by_cases he : EMIN < x.e
  · obtain ⟨q, q1, -, q3, -⟩ := hx.mag (K := ℝ) hz
    left
    refine le_trans (zpow_le_zpow_right₀ (by norm_num) ?_) q1
    omega
  · right
    have := hx.emin
    omega

/-- What `sinh` returns, for arguments other than zero whose exponential is in range. -/
theorem sinh_spec {x : Num} (hx : x.WF) (hz : x.isZero = false) (hlo : EMIN + 2 ≤ x.e) (htop : Real.exp |(x.toK : ℝ)| ≤ 2 ^ (EMAX - 4))
    {p : Nat} (hp : ValidP p) (rm : RM) {f : Nat} {c c' : ConstCache (Num × Num)} (hc : CacheOk ERep EValOk c)
    {r : Except Err Num} {w : Nat} (h : x.sinh p rm f c = some (r, c', w)) (hw : w ≤ 2 ^ 21) :
    CacheOk ERep EValOk c' ∧ ∃ v, r = .ok v ∧ FunRounded rm (precBits p) (Real.sinh x.toK) v := by
  have hp0 := hp.pos
  have hlt := hp.lt
  have hPM : PMAX = 2 ^ 62 - 2 ^ 31 - 1 := rfl
  obtain ⟨pw, hpw⟩ : ∃ pw, precBits p = 64 * pw := ⟨(p + 63) / 64, rfl⟩
  have hpw0 : 0 < pw := by unfold precBits at hpw; omega
  have hmb : x.m.maxBitLen = 64 * x.m.m.length := by unfold Mantissa.maxBitLen; omega
  unfold Num.sinh at h
  rw [hp.roundP, hpw, hmb] at h
  dsimp only at h
  rw [if_neg (by simp [hz])] at h
  rw [hpw] at hlt ⊢
  by_cases hs : ((max (64 * pw) (64 * x.m.m.length) : ℕ) : ℤ) + 1 < -(x.e * 2 - 2)
  · rw [if_pos hs] at h
    obtain ⟨v, v1, -, v3⟩ := sinh_small hx hz hlo hpw0 hs rm
    injection h with h
    injection h with h h'
    injection h' with h' _
    rw [← h', ← h]
    exact ⟨hc, v, v1, v3⟩
  · rw [if_neg hs] at h
    cases f with
    | zero => simp [roundLoop] at h
    | succ f =>
      split at h
      · cases h
      · rename_i r' s' w' hl
        injection h with h
        injection h with h h'
        injection h' with h' h''
        rw [← h, ← h']
        rw [← h''] at hw
        have hge := roundLoop_ge hl
        have hlow := (low_of_not_small hx hz (by omega) hs).resolve_right (by omega)
        have := roundLoop_spec (Inv := SinhInv x) (Good := fun _ => True) (sinh_mid htop (by omega) hlow) (W := 2 ^ 21)
          (w0 := max (64 * pw) (64 * x.m.m.length) + 64) hpw0 (by omega) (by omega) (by
            intro w s o s' hd hw1 hw2 hi hst _
            obtain ⟨v, s1, a1, a2, a3⟩ := sinhStep_spec hx hz htop hd (by omega) (by omega) (le_trans (zpow_le_zpow_right₀ (by norm_num) (by omega)) hlow) hi f
            rw [a1] at hst
            injection hst with hst
            injection hst with hst1 hst2
            rw [← hst1, ← hst2]
            exact ⟨a2, a3⟩) (fun _ _ _ _ _ _ => trivial)
          (sinh_init hx hz (by omega) hc) (by omega) (by norm_num) (by norm_num) le_rfl hl hw (by norm_num) trivial
        exact ⟨(this.1 _ le_rfl).cache, this.2⟩

/-- The first round returns in mode `None`, and in the directed modes unless the digits are exceptional. -/
theorem sinh_number {x : Num} (hx : x.WF) (hz : x.isZero = false) (hlo : EMIN + 2 ≤ x.e) (htop : Real.exp |(x.toK : ℝ)| ≤ 2 ^ (EMAX - 4))
    {p : Nat} (hp : ValidP p) {rm : RM} {f : Nat} {c : ConstCache (Num × Num)} (hc : CacheOk ERep EValOk c)
    (hw : max (precBits p) (64 * x.m.m.length) + 64 ≤ 2 ^ 21)
    (hs : rm = .none ∨ rm.directed = true ∧ ¬ NearGrid (precBits p) 63 |Real.sinh x.toK|) :
    ∃ r c' w, x.sinh p rm (f + 1) c = some (r, c', w) ∧ w ≤ 2 ^ 21 := by
  have hp0 := hp.pos
  have hlt := hp.lt
  have hPM : PMAX = 2 ^ 62 - 2 ^ 31 - 1 := rfl
  obtain ⟨pw, hpw⟩ : ∃ pw, precBits p = 64 * pw := ⟨(p + 63) / 64, rfl⟩
  have hpw0 : 0 < pw := by unfold precBits at hpw; omega
  have hmb : x.m.maxBitLen = 64 * x.m.m.length := by unfold Mantissa.maxBitLen; omega
  rw [hpw] at hw hs hlt
  unfold Num.sinh
  rw [hp.roundP, hpw, hmb]
  dsimp only
  rw [if_neg (by simp [hz])]
  by_cases h : ((max (64 * pw) (64 * x.m.m.length) : ℕ) : ℤ) + 1 < -(x.e * 2 - 2)
  · rw [if_pos h]
    exact ⟨_, _, _, rfl, by norm_num⟩
  · rw [if_neg h]
    have hlow := (low_of_not_small hx hz (by omega) h).resolve_right (by omega)
    obtain ⟨v, s1, a1, a2, a3⟩ := sinhStep_spec hx hz htop (w := max (64 * pw) (64 * x.m.m.length) + 64) (by omega) (by omega) (by omega)
      (le_trans (zpow_le_zpow_right₀ (by norm_num) (by omega)) hlow) (sinh_init hx hz (by omega) hc) f
    obtain ⟨r, hr⟩ := roundLoop_number (ix := x.inexact) (sinh_mid htop (by omega) hlow) hpw0 (by omega) (by omega) (by omega) a1 a3 hs f 64
    rw [hr]
    exact ⟨_, _, _, rfl, hw⟩

end AF
