import Verif.Lemmas.HypArith
import Mathlib.Analysis.SpecialFunctions.Trigonometric.DerivHyp
/-!
# The hyperbolic cosine
-/

namespace AF

open Num

theorem small_a {δ t : ℝ} (h : 0 < δ) (ht : t ≤ 1) : δ * (1 + t) ≤ 2 * δ := by nlinarith
theorem small_b2 {δ : ℝ} (h : 0 < δ) : 1 - 3 * δ ≤ (1 - 2 * δ) * (1 - δ) := by nlinarith [mul_pos h h]
theorem small_b3 {δ : ℝ} (h : 0 < δ) : 1 - 6 * δ ≤ (1 - 3 * δ) * (1 - δ) := by nlinarith [mul_pos h h]
theorem small_c {C δ : ℝ} (h : 1 ≤ C) (hδ : δ ≤ 1 / 1024) : 1 ≤ 2 * C * (1 - 6 * δ) := by nlinarith

/-- The exponential function in mode `None` at the working precision of a hyperbolic function. -/
theorem exp_none {x : Num} (hx : x.WF) (hz : x.isZero = false) (htop : Real.exp |(x.toK : ℝ)| ≤ 2 ^ (EMAX - 4))
    (hs : x.s = .pos) {w : Nat} (hd : 64 ∣ w) (h1 : 64 ≤ w) (h2 : w + 128 ≤ 2 ^ 22) (hl : 64 * x.m.m.length ≤ w + 64)
    {c : ConstCache (Num × Num)} (hc : CacheOk ERep EValOk c) (f : Nat) :
    ∃ v c' w', x.exp (w + 4) .none (f + 1) c = some (.ok v, c', w') ∧ CacheOk ERep EValOk c' ∧ v.WF ∧
      64 * v.m.m.length = w + 64 ∧ v.inexact = true ∧ Real.exp |(x.toK : ℝ)| * (1 - 2 * wUnit w) ≤ v.toK ∧
      (v.toK : ℝ) ≤ Real.exp |(x.toK : ℝ)| * (1 + 2 * wUnit w) := by
  have hv := validP_w (w := w) (k := 4) (by omega) (by norm_num) (by norm_num)
  have hpb := precBits_w (w := w) (k := 4) hd (by norm_num) (by norm_num)
  obtain ⟨r, c', w', a1, a2⟩ := exp_number (rm := .none) (f := f) hx hz htop hv hc (by rw [hpb]; omega) (Or.inl rfl)
  obtain ⟨b1, v, rfl, b2⟩ := exp_spec hx hz htop hv .none hc a1 a2
  rw [hpb] at b2
  have hxp : (x.toK : ℝ) = |(x.toK : ℝ)| := by
    rw [Num.toK_eq (K := ℝ) x, hs]; simp [Sign.toK]
  rw [hxp, ] at b2
  have hE := Real.exp_pos |(x.toK : ℝ)|
  have h3 := b2.none rfl
  rw [wUnit_eq, abs_of_pos hE] at h3
  have hδ := wUnit_pos w
  have h4 : wUnit w * (1 + 2 ^ (-60 : ℤ)) ≤ 2 * wUnit w := by
    have : (2 : ℝ) ^ (-60 : ℤ) ≤ 1 := zpow_le_one_of_nonpos₀ (by norm_num) (by norm_num)
    exact small_a hδ this
  have h5 := le_trans h3 (mul_le_mul_of_nonneg_left h4 hE.le)
  obtain ⟨h6, h7⟩ := abs_le.1 h5
  exact ⟨v, c', w', a1, b1, b2.wf, b2.prec, b2.inexact, by linarith, by linarith⟩

/-- The state of the loops of `cosh` before the round with working precision `w`. -/
structure HypInv (x : Num) (w : Nat) (s : HypState) : Prop where
  wf : s.1.WF
  nz : s.1.isZero = false
  abs : |(s.1.toK : ℝ)| = |(x.toK : ℝ)|
  len : 64 * s.1.m.m.length ≤ w
  cache : CacheOk ERep EValOk s.2

/-- The extended argument. -/
theorem hyp_extend {x y : Num} (hy : y.WF) (hz : y.isZero = false) (ha : |(y.toK : ℝ)| = |(x.toK : ℝ)|) {w : Nat}
    (hd : 64 ∣ w) (h1 : 64 ≤ w) (h2 : w ≤ 2 ^ 22) (hl : 64 * y.m.m.length ≤ w) {k : Nat} (hk : 1 ≤ k) (hk' : k ≤ 64) :
    ∃ v, y.setPrecision (w + k) .none = .ok v ∧ v.WF ∧ v.isZero = false ∧ |(v.toK : ℝ)| = |(x.toK : ℝ)| ∧
      64 * v.m.m.length = w + 64 ∧ v.s = y.s ∧ (v.toK : ℝ) = y.toK := by
  obtain ⟨v, v1, v2, v3, v4, v5⟩ := setPrecision_extend hy (p := w + k) (by omega) (by unfold PMAX; omega) (by omega) .none
  refine ⟨v, v1, v2, ?_, by rw [v4, ha], ?_, v5, v4⟩
  · rw [← Bool.not_eq_true, ← v2.toK_eq_zero (K := ℝ), v4, hy.toK_eq_zero (K := ℝ), hz]; simp
  · rw [v3]; unfold wordLen; omega

theorem wUnit_tiny {w : Nat} (hw : 128 ≤ w) : 0 < wUnit w ∧ wUnit w ≤ 1 / 2 ^ 190 ∧
    (2 : ℝ) ^ (-(w : ℤ) - 2) = 2 ^ 61 * wUnit w := by
  refine ⟨wUnit_pos w, wUnit_le hw, ?_⟩
  unfold wUnit
  rw [← zpow_natCast, ← zpow_add₀ (by norm_num)]; congr 1; push_cast; ring

/-- The exponent of an argument in range is small. -/
theorem e_le_of_top {x : Num} (hx : x.WF) (hz : x.isZero = false) (htop : Real.exp |(x.toK : ℝ)| ≤ 2 ^ (EMAX - 4)) : x.e ≤ 64 := by
  by_cases h : EMIN < x.e
  · obtain ⟨w, hw⟩ : ∃ w, w = 64 * (x.m.m.length + 2) := ⟨_, rfl⟩
    obtain ⟨q, q1, -, q3, -⟩ := hx.mag (K := ℝ) hz
    by_contra hc
    push Not at hc
    have hq : q = x.e := by unfold EMIN at *; omega
    have h1 : (2 : ℝ) ^ (64 : ℤ) ≤ |(x.toK : ℝ)| := le_trans (zpow_le_zpow_right₀ (by norm_num) (by omega)) q1
    obtain ⟨n, hn⟩ : ∃ n : ℕ, n = 2 ^ 31 := ⟨_, rfl⟩
    have hnR : (n : ℝ) = 2 ^ 31 := by rw [hn]; norm_num
    have h2 : Real.exp (n : ℝ) ≤ Real.exp |(x.toK : ℝ)| := Real.exp_le_exp.2 (by
      rw [hnR]; refine le_trans ?_ h1; norm_num)
    have h3 : (2 : ℝ) ^ n ≤ Real.exp (n : ℝ) := by
      rw [show (n : ℝ) = (n : ℝ) * 1 by ring, Real.exp_nat_mul]
      refine pow_le_pow_left₀ (by norm_num) ?_ _
      linarith [Real.add_one_le_exp (1 : ℝ)]
    have h4 : (2 : ℝ) ^ (EMAX - 4) < 2 ^ n := by
      rw [← zpow_natCast]
      refine zpow_lt_zpow_right₀ (by norm_num) ?_
      rw [hn]; unfold EMAX; norm_num
    linarith
  · unfold EMIN at h; omega

theorem exp_recip_range {E e δ : ℝ} (hE1 : 1 ≤ E) (htop : E ≤ 2 ^ (EMAX - 4)) (hδ0 : 0 < δ) (hδ : δ ≤ 1 / 2 ^ 190)
    (he1 : E * (1 - 2 * δ) ≤ e) (he2 : e ≤ E * (1 + 2 * δ)) :
    0 < e ∧ E⁻¹ * (1 - 2 * δ) ≤ 1 / e ∧ 1 / e ≤ E⁻¹ * (1 + 4 * δ) ∧ (2 : ℝ) ^ (EMIN - 1) ≤ 1 / e ∧ 1 / e ≤ 2 := by
  have hE0 : 0 < E := by linarith
  have hd : δ ≤ 1 / 16 := le_trans hδ (by norm_num)
  have he0 : 0 < e := lt_of_lt_of_le (mul_pos hE0 (by linarith)) he1
  have a1 : E⁻¹ * (1 - 2 * δ) ≤ 1 / e := by
    rw [le_div_iff₀ he0, inv_mul_eq_div, div_mul_eq_mul_div, div_le_one hE0]
    refine le_trans (mul_le_mul_of_nonneg_left he2 (by linarith)) ?_
    nlinarith [mul_pos hδ0 hδ0]
  have a2 : 1 / e ≤ E⁻¹ * (1 + 4 * δ) := by
    rw [div_le_iff₀ he0, inv_mul_eq_div, div_mul_eq_mul_div, one_le_div hE0]
    refine le_trans ?_ (mul_le_mul_of_nonneg_left he1 (by linarith))
    have : 0 ≤ 2 * δ * (1 - 4 * δ) := mul_nonneg (by linarith) (by linarith)
    nlinarith
  have hEi : 0 < E⁻¹ := inv_pos.2 hE0
  have hEi1 : E⁻¹ ≤ 1 := inv_le_one_of_one_le₀ hE1
  have hEilo : (2 : ℝ) ^ (-(EMAX - 4)) ≤ E⁻¹ := by
    rw [zpow_neg]
    exact inv_anti₀ hE0 htop
  refine ⟨he0, a1, a2, ?_, by nlinarith⟩
  refine le_trans ?_ a1
  refine le_trans ?_ (mul_le_mul hEilo (show (1 / 2 : ℝ) ≤ 1 - 2 * δ by linarith) (by norm_num) hEi.le)
  rw [show (1 / 2 : ℝ) = 2 ^ (-1 : ℤ) by norm_num, ← zpow_add₀ (by norm_num)]
  exact zpow_le_zpow_right₀ (by norm_num) (by unfold EMIN EMAX; norm_num)

theorem pow_EMAX_big : (2 : ℝ) ^ (EMAX - 2) = 4 * 2 ^ (EMAX - 4) ∧ (4 : ℝ) ≤ 2 ^ (EMAX - 4) := by
  constructor
  · rw [show EMAX - 2 = 2 + (EMAX - 4) by ring, zpow_add₀ (by norm_num)]; norm_num
  · rw [show (4 : ℝ) = 2 ^ (2 : ℤ) by norm_num]
    exact zpow_le_zpow_right₀ (by norm_num) (by unfold EMAX; norm_num)

/-- The sum. -/
theorem coshSum_spec {x : Num} (hx : x.WF) (hz : x.isZero = false) (htop : Real.exp |(x.toK : ℝ)| ≤ 2 ^ (EMAX - 4))
    (hs : x.s = .pos) {w : Nat} (hd : 64 ∣ w) (h1 : 128 ≤ w) (h2 : w + 128 ≤ 2 ^ 22) (hl : 64 * x.m.m.length = w + 64)
    {c : ConstCache (Num × Num)} (hc : CacheOk ERep EValOk c) (f : Nat) :
    ∃ v c', x.coshSum (w + 4) (f + 1) c = some (.ok v, c') ∧ CacheOk ERep EValOk c' ∧ v.WF ∧
      64 * v.m.m.length = w + 64 ∧ v.inexact = true ∧ 2 * Real.cosh |(x.toK : ℝ)| * (1 - 6 * wUnit w) ≤ v.toK ∧
      (v.toK : ℝ) ≤ 2 * Real.cosh |(x.toK : ℝ)| * (1 + 6 * wUnit w) := by
  obtain ⟨ex, c', w', a1, a2, a3, a4, a5, a6, a7⟩ := exp_none hx hz htop hs hd (by omega) h2 (by omega) hc f
  obtain ⟨hδ0, hδ, -⟩ := wUnit_tiny h1
  have hE1 : 1 ≤ Real.exp |(x.toK : ℝ)| := Real.one_le_exp (abs_nonneg _)
  have hC : 2 * Real.cosh |(x.toK : ℝ)| = Real.exp |(x.toK : ℝ)| + (Real.exp |(x.toK : ℝ)|)⁻¹ := by
    rw [Real.cosh_eq, ← Real.exp_neg]; ring
  rw [hC]
  have hp4 := wUnit_PrecOk (w := w) hd (by omega) (k := 4) (by norm_num) (by norm_num)
  have hpe := wUnit_eq w
  have hee := e_le_of_top hx hz htop
  obtain ⟨E, hE⟩ : ∃ E, E = Real.exp |(x.toK : ℝ)| := ⟨_, rfl⟩
  obtain ⟨δ, hδe⟩ : ∃ δ, δ = wUnit w := ⟨_, rfl⟩
  rw [← hE, ← hδe] at a6 a7
  rw [← hδe] at hδ0 hδ hpe
  rw [← hE] at htop hE1
  rw [← hE, ← hδe]
  obtain ⟨b0, b1, b2, b3, b4⟩ := exp_recip_range hE1 htop hδ0 hδ a6 a7
  have hδs : δ ≤ 1 / 1024 := le_trans hδ (by norm_num)
  have hez : ex.isZero = false := by
    rw [← Bool.not_eq_true, ← a3.toK_eq_zero (K := ℝ)]
    exact b0.ne'
  obtain ⟨big1, big2⟩ := pow_EMAX_big
  have hEi : 0 < E⁻¹ := inv_pos.2 (by linarith)
  have hdv := div_spec (K := ℝ) ONE_WF a3 hez hp4.pos (by rw [hp4.eq]; exact hp4.lt) .none
  rw [hp4.eq, ONE_toK] at hdv
  obtain ⟨xe, x1, x2, x3, x4, x5, x6⟩ := tr_step hdv b3 (by linarith)
  have hxi : xe.inexact = true := x6 (by unfold divIx; rw [ONE_nz, a5]; simp)
  rw [hpe] at x4
  have x7 : E⁻¹ * (1 - 3 * δ) ≤ xe.toK := by
    refine le_trans ?_ x4
    refine le_trans ?_ (mul_le_mul_of_nonneg_right b1 (by linarith))
    rw [mul_assoc]
    refine mul_le_mul_of_nonneg_left ?_ hEi.le
    exact small_b2 hδ0
  have x8 : (xe.toK : ℝ) ≤ E⁻¹ * (1 + 4 * δ) := le_trans x5 b2
  have hxe0 : (0 : ℝ) < xe.toK := lt_of_lt_of_le (mul_pos hEi (by linarith)) x7
  have had := addSub_spec (K := ℝ) a3 x2 hp4.pos (by rw [hp4.eq]; exact hp4.lt) true .none
  rw [hp4.eq, if_pos rfl] at had
  have hS1 : (E + E⁻¹) * (1 - 3 * δ) ≤ ex.toK + xe.toK := by
    have : E * (1 - 3 * δ) ≤ E * (1 - 2 * δ) := mul_le_mul_of_nonneg_left (by linarith) (by linarith)
    linarith
  have hS2 : ex.toK + xe.toK ≤ (E + E⁻¹) * (1 + 4 * δ) := by
    have : E * (1 + 2 * δ) ≤ E * (1 + 4 * δ) := mul_le_mul_of_nonneg_left (by linarith) (by linarith)
    linarith
  have hEi1 : E⁻¹ ≤ 1 := inv_le_one_of_one_le₀ hE1
  have hS0 : 0 < E + E⁻¹ := by linarith
  obtain ⟨v, v1, v2, v3, v4, v5, v6⟩ := tr_step had (by
      have h3 : (2 : ℝ) ^ (EMIN - 1) ≤ 1 / 2 := by
        rw [show (1 / 2 : ℝ) = 2 ^ (-1 : ℤ) by norm_num]
        exact zpow_le_zpow_right₀ (by norm_num) (by unfold EMIN; norm_num)
      refine le_trans h3 (le_trans ?_ hS1)
      have : (1 : ℝ) * (1 / 2) ≤ (E + E⁻¹) * (1 - 3 * δ) := mul_le_mul (by linarith) (by linarith) (by norm_num) hS0.le
      linarith) (by
      refine le_trans hS2 ?_
      have : (E + E⁻¹) * (1 + 4 * δ) ≤ (2 ^ (EMAX - 4) + 1) * 2 := mul_le_mul (by linarith) (by linarith) (by linarith) (by linarith)
      linarith)
  have hvi : v.inexact = true := v6 (by
    unfold addIx
    rw [hez]
    have : xe.isZero = false := by
      rw [← Bool.not_eq_true, ← x2.toK_eq_zero (K := ℝ)]; exact hxe0.ne'
    rw [this, a5]; simp)
  rw [hpe] at v4
  refine ⟨v, c', ?_, a2, v2, v3, hvi, ?_, ?_⟩
  · unfold Num.coshSum
    rw [a1]
    dsimp only
    have hmb : x.m.maxBitLen = w + 64 := by unfold Mantissa.maxBitLen; omega
    rw [hmb, if_neg (by push_cast; omega)]
    have x1' : ex.reciprocal (w + 4) .none = .ok xe := x1
    rw [x1']
    dsimp only
    have v1' : ex.add xe (w + 4) .none = .ok v := v1
    rw [v1']
  · refine le_trans ?_ v4
    refine le_trans ?_ (mul_le_mul_of_nonneg_right hS1 (by linarith))
    rw [mul_assoc]
    refine mul_le_mul_of_nonneg_left ?_ hS0.le
    exact small_b3 hδ0
  · refine le_trans v5 (le_trans hS2 ?_)
    exact mul_le_mul_of_nonneg_left (by linarith) hS0.le

theorem one_le_cosh_abs (x : ℝ) : 1 ≤ Real.cosh x ∧ Real.cosh x ≤ Real.exp |x| := by
  refine ⟨Real.one_le_cosh x, ?_⟩
  rw [← Real.cosh_abs, Real.cosh_eq]
  have : Real.exp (-|x|) ≤ Real.exp |x| := Real.exp_le_exp.2 (by linarith [abs_nonneg x])
  linarith

/-- A relative error, as `TestOk` wants it. -/
theorem TestOk.of_rel {w : Nat} {y δ : ℝ} {t : Num} (h1 : t.WF) (h2 : t.inexact = true) (h3 : w ≤ 64 * t.m.m.length)
    (hy : y ≠ 0) (hδ : δ ≤ 2 ^ (-(w : ℤ) - 2)) (h4 : |t.toK - y| ≤ |y| * δ) : TestOk w y t := by
  refine ⟨h1, h2, h3, t.toK / y, by field_simp, ?_⟩
  have hy0 : 0 < |y| := abs_pos.2 hy
  rw [show t.toK / y - 1 = (t.toK - y) / y by field_simp, abs_div, div_le_iff₀ hy0, mul_comm]
  refine le_trans h4 (mul_le_mul_of_nonneg_left (le_trans hδ ?_) hy0.le)
  rw [zpow_sub₀ (by norm_num), div_eq_mul_inv]
  refine mul_le_mul_of_nonneg_left ?_ (by positivity)
  norm_num

/-- A round of the loop of `cosh`. -/
theorem coshStep_spec {x : Num} (htop : Real.exp |(x.toK : ℝ)| ≤ 2 ^ (EMAX - 4)) {w : Nat} (hd : 64 ∣ w) (h1 : 128 ≤ w)
    (h2 : w + 128 ≤ 2 ^ 22) {s : HypState} (hs : HypInv x w s) (f : Nat) :
    ∃ v s', coshStep (f + 1) w s = some (.tst v, s') ∧ (∀ w', w + 64 ≤ w' → HypInv x w' s') ∧
      TestOk w (Real.cosh x.toK) v := by
  obtain ⟨y, y1, y2, y3, y4, y5, -⟩ := hyp_extend hs.wf hs.nz hs.abs hd (by omega) (by omega) hs.len (k := 4) (by norm_num) (by norm_num)
  obtain ⟨z, hz⟩ : ∃ z, z = y.setSign .pos := ⟨_, rfl⟩
  have z1 : z.WF := by rw [hz]; exact ⟨y2.wf, y2.bits, y2.emin, y2.emax, y2.norm, y2.sized⟩
  have z2 : z.isZero = false := by rw [hz]; exact y3
  have z3 : (z.toK : ℝ) = |(x.toK : ℝ)| := by rw [hz, setSign_toK, y4]; simp [Sign.toK]
  have z4 : 64 * z.m.m.length = w + 64 := by rw [hz]; exact y5
  have z5 : |(z.toK : ℝ)| = |(x.toK : ℝ)| := by rw [z3, abs_abs]
  obtain ⟨r, c', r1, r2, r3, r4, r5, r6, r7⟩ := coshSum_spec z1 z2 (by rw [z5]; exact htop) (by rw [hz]; rfl) hd h1 h2 z4 hs.cache f
  rw [z5, Real.cosh_abs] at r6 r7
  obtain ⟨hδ0, hδ, hδ2⟩ := wUnit_tiny h1
  have hδs : wUnit w ≤ 1 / 1024 := le_trans hδ (by norm_num)
  obtain ⟨hC1, -⟩ := one_le_cosh_abs (x.toK : ℝ)
  obtain ⟨C, hC⟩ : ∃ C, C = Real.cosh (x.toK : ℝ) := ⟨_, rfl⟩
  rw [← hC] at r6 r7 hC1 ⊢
  have hr0 : (1 : ℝ) ≤ r.toK := by
    refine le_trans ?_ r6
    exact small_c hC1 hδs
  obtain ⟨d1, d2, d3, d4⟩ := divBy2_spec r3 (by
    rw [abs_of_pos (by linarith)]
    refine le_trans (zpow_le_one_of_nonpos₀ (by norm_num) ?_) hr0
    unfold EMIN; norm_num) .none
  refine ⟨r.divBy2 .none, (z, c'), ?_, ?_, ?_⟩
  · unfold coshStep
    dsimp only
    rw [y1]
    dsimp only
    rw [← hz, r1]
  · intro w' hw'
    exact ⟨z1, z2, z5, by dsimp only; omega, r2⟩
  · refine TestOk.of_rel d1 (by rw [d4, r5]) (by rw [d3]; omega) (by linarith) (δ := 6 * wUnit w) ?_ ?_
    · rw [hδ2]
      exact mul_le_mul_of_nonneg_right (by norm_num) hδ0.le
    · rw [d2, abs_of_pos (show 0 < C by linarith), abs_le]
      constructor <;> linarith

theorem cosh_mid {x : ℝ} (htop : Real.exp |x| ≤ 2 ^ (EMAX - 4)) : MidRange (Real.cosh x) := by
  obtain ⟨h1, h2⟩ := one_le_cosh_abs x
  refine MidRange.of_bounds ?_ ?_
  · rw [abs_of_pos (by linarith)]
    refine le_trans (zpow_le_one_of_nonpos₀ (by norm_num) ?_) h1
    unfold EMIN; norm_num
  · rw [abs_of_pos (by linarith)]
    refine lt_of_le_of_lt (le_trans h2 htop) ?_
    exact zpow_lt_zpow_right₀ (by norm_num) (by omega)

theorem one_lt_cosh_bound {t : ℝ} (h0 : t ≠ 0) (h1 : |t| ≤ 1) : 0 < Real.cosh t - 1 ∧ Real.cosh t - 1 < t ^ 2 := by
  refine ⟨by linarith [Real.one_lt_cosh.2 h0], ?_⟩
  have ht : 0 < t ^ 2 := by positivity
  have ht1 : t ^ 2 ≤ 1 := by
    rw [← sq_abs]; exact pow_le_one₀ (abs_nonneg _) h1
  have a := Real.cosh_le_exp_half_sq t
  have b := Real.abs_exp_sub_one_sub_id_le (x := t ^ 2 / 2) (by rw [abs_of_pos (by positivity)]; linarith)
  have b2 := (abs_le.1 b).2
  nlinarith

/-- `cosh` next to zero. -/
theorem cosh_small {x : Num} (hx : x.WF) (hz : x.isZero = false) {pw : Nat} (hp : 0 < pw)
    (he : (64 * pw : ℤ) + 1 < -(x.e * 2 - 1)) (rm : RM) :
    ∃ v, ONE.smallExp false (64 * pw) rm = .ok v ∧ RoundsFmt rm (64 * pw) (Real.cosh x.toK) v.toK ∧
      FunRounded rm (64 * pw) (Real.cosh x.toK) v := by
  have hem := hx.emin
  have hE : EMIN = -2 ^ 31 := rfl
  have hPM : PMAX = 2 ^ 62 - 2 ^ 31 - 1 := rfl
  obtain ⟨q, q1, q2, q3, -⟩ := hx.mag (K := ℝ) hz
  have hx0 : 0 < |(x.toK : ℝ)| := lt_of_lt_of_le (by positivity) q1
  have hxlt : |(x.toK : ℝ)| ^ 2 < 2 ^ (-(64 * pw : ℤ) - 1) := by
    refine lt_of_lt_of_le (pow_lt_pow_left₀ q2 hx0.le (by norm_num)) ?_
    rw [← zpow_natCast, ← zpow_mul]
    exact zpow_le_zpow_right₀ (by norm_num) (by push_cast; omega)
  have hx1 : |(x.toK : ℝ)| ≤ 1 := by
    refine le_trans q2.le ?_
    exact zpow_le_one_of_nonpos₀ (by norm_num) (by omega)
  rw [sq_abs] at hxlt
  obtain ⟨c1, c2⟩ := one_lt_cosh_bound (abs_pos.1 hx0) hx1
  have hONE : ONE.e = 1 := rfl
  have hOl : ONE.m.m.length = 2 := rfl
  obtain ⟨v, v1, v2, v3, v4, v5, v6⟩ := smallExp_rounds ONE_WF ONE_nz (by rw [hONE, hE]; norm_num)
    (by rw [hONE]; unfold EMAX; norm_num) hp (by omega) (by rw [hOl]; unfold PMAX; norm_num) false rm
    (G := 64 * pw) le_rfl (by omega) (k := 2 ^ (64 * pw - 1)) (by
      rw [ONE_toK, hONE]
      push_cast
      rw [← zpow_natCast, ← zpow_add₀ (by norm_num)]
      rw [show (((64 * pw - 1 : ℕ) : ℤ) + (1 - 64 * (pw : ℤ))) = 0 by omega, zpow_zero]) c1
    (by
      refine lt_trans c2 (lt_of_lt_of_le hxlt ?_)
      rw [hONE]
      exact zpow_le_zpow_right₀ (by norm_num) (by push_cast; omega))
    (y := Real.cosh x.toK) (by
      have : (corrSign ONE false).toK (K := ℝ) = 1 := by
        have : corrSign ONE false = .pos := rfl
        rw [this]; simp [Sign.toK]
      rw [this, ONE_toK]; ring)
  refine ⟨v, v1, v6, ?_⟩
  refine FunRounded.of_fmt ?_ v2 (by rw [v3]) ?_ ?_ v5 v6
  · rw [abs_of_pos (by linarith)]
    refine le_trans (zpow_le_one_of_nonpos₀ (by norm_num) (by unfold EMIN; norm_num)) (by linarith : (1 : ℝ) ≤ _)
  · intro _; rw [v4]; rfl
  · intro h; linarith

theorem cosh_init {x : Num} (hx : x.WF) (hz : x.isZero = false) {w : Nat} (hw : 64 * x.m.m.length ≤ w)
    {c : ConstCache (Num × Num)} (hc : CacheOk ERep EValOk c) : HypInv x w ({ x with inexact := false }, c) :=
  ⟨⟨hx.wf, hx.bits, hx.emin, hx.emax, hx.norm, hx.sized⟩, hz, rfl, hw, hc⟩

/-- What `cosh` returns, for arguments other than zero whose exponential is in range. -/
theorem cosh_spec {x : Num} (hx : x.WF) (hz : x.isZero = false) (htop : Real.exp |(x.toK : ℝ)| ≤ 2 ^ (EMAX - 4))
    {p : Nat} (hp : ValidP p) (rm : RM) {f : Nat} {c c' : ConstCache (Num × Num)} (hc : CacheOk ERep EValOk c)
    {r : Except Err Num} {w : Nat} (h : x.cosh p rm f c = some (r, c', w)) (hw : w ≤ 2 ^ 21) :
    CacheOk ERep EValOk c' ∧ ∃ v, r = .ok v ∧ FunRounded rm (precBits p) (Real.cosh x.toK) v := by
  have hp0 := hp.pos
  have hlt := hp.lt
  have hPM : PMAX = 2 ^ 62 - 2 ^ 31 - 1 := rfl
  obtain ⟨pw, hpw⟩ : ∃ pw, precBits p = 64 * pw := ⟨(p + 63) / 64, rfl⟩
  have hpw0 : 0 < pw := by unfold precBits at hpw; omega
  have hmb : x.m.maxBitLen = 64 * x.m.m.length := by unfold Mantissa.maxBitLen; omega
  unfold Num.cosh at h
  rw [hp.roundP, hpw, hmb] at h
  dsimp only at h
  rw [if_neg (by simp [hz])] at h
  rw [hpw] at hlt ⊢
  by_cases hs : ((max (64 * pw) (64 * x.m.m.length) : ℕ) : ℤ) + 1 < -(x.e * 2 - 1)
  · rw [if_pos hs] at h
    obtain ⟨v, v1, -, v3⟩ := cosh_small hx hz hpw0 (by push_cast at hs; omega) rm
    injection h with h
    injection h with h h'
    injection h' with h' _
    rw [← h', ← h]
    exact ⟨hc, v, v1, v3⟩
  · rw [if_neg hs] at h
    cases f with
    | zero => simp [roundLoop] at h
    | succ f =>
      split at h
      · cases h
      · rename_i r' s' w' hl
        injection h with h
        injection h with h h'
        injection h' with h' h''
        rw [← h, ← h']
        rw [← h''] at hw
        have := roundLoop_spec (Inv := HypInv x) (Good := fun _ => True) (cosh_mid htop) (W := 2 ^ 21)
          (w0 := max (64 * pw) (64 * x.m.m.length) + 64) hpw0 (by omega) (by omega) (by
            intro w s o s' hd hw1 hw2 hi hst _
            obtain ⟨v, s1, a1, a2, a3⟩ := coshStep_spec htop hd (by omega) (by omega) hi f
            rw [a1] at hst
            injection hst with hst
            injection hst with hst1 hst2
            rw [← hst1, ← hst2]
            exact ⟨a2, a3⟩) (fun _ _ _ _ _ _ => trivial)
          (cosh_init hx hz (by omega) hc) (by omega) (by norm_num) (by norm_num) le_rfl hl hw (by norm_num) trivial
        exact ⟨(this.1 _ le_rfl).cache, this.2⟩

/-- The first round returns in mode `None`, and in the directed modes unless the digits are exceptional. -/
theorem cosh_number {x : Num} (hx : x.WF) (hz : x.isZero = false) (htop : Real.exp |(x.toK : ℝ)| ≤ 2 ^ (EMAX - 4))
    {p : Nat} (hp : ValidP p) {rm : RM} {f : Nat} {c : ConstCache (Num × Num)} (hc : CacheOk ERep EValOk c)
    (hw : max (precBits p) (64 * x.m.m.length) + 64 ≤ 2 ^ 21)
    (hs : rm = .none ∨ rm.directed = true ∧ ¬ NearGrid (precBits p) 63 (Real.cosh x.toK)) :
    ∃ r c' w, x.cosh p rm (f + 1) c = some (r, c', w) ∧ w ≤ 2 ^ 21 := by
  have hp0 := hp.pos
  have hlt := hp.lt
  have hPM : PMAX = 2 ^ 62 - 2 ^ 31 - 1 := rfl
  obtain ⟨pw, hpw⟩ : ∃ pw, precBits p = 64 * pw := ⟨(p + 63) / 64, rfl⟩
  have hpw0 : 0 < pw := by unfold precBits at hpw; omega
  have hmb : x.m.maxBitLen = 64 * x.m.m.length := by unfold Mantissa.maxBitLen; omega
  rw [hpw] at hw hs hlt
  unfold Num.cosh
  rw [hp.roundP, hpw, hmb]
  dsimp only
  rw [if_neg (by simp [hz])]
  by_cases h : ((max (64 * pw) (64 * x.m.m.length) : ℕ) : ℤ) + 1 < -(x.e * 2 - 1)
  · rw [if_pos h]
    exact ⟨_, _, _, rfl, by norm_num⟩
  · rw [if_neg h]
    obtain ⟨v, s1, a1, a2, a3⟩ := coshStep_spec htop (w := max (64 * pw) (64 * x.m.m.length) + 64) (by omega) (by omega) (by omega)
      (cosh_init hx hz (by omega) hc) f
    obtain ⟨r, hr⟩ := roundLoop_number (ix := x.inexact) (cosh_mid htop) hpw0 (by omega) (by omega) (by omega) a1 a3 (by
      rw [abs_of_pos (Real.cosh_pos _)]; exact hs) f 64
    rw [hr]
    exact ⟨_, _, _, rfl, hw⟩

end AF
