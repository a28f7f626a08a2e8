import Verif.Lemmas.Atanh
import Verif.Lemmas.InvReal
import Verif.Lemmas.ExpF
/-!
# The two branches of the inverse hyperbolic sine and cosine
-/

namespace AF

open Num

set_option linter.unusedSectionVars false

variable {x : Num}

/-- `ln(x + sqrt(x * x ± 1))`. -/
theorem lnRoot_spec (hx : x.WF) {X T κ sg : ℝ} (hxX : x.toK = X) (hX : 0 < X) {add : Bool}
    (hsg : sg = if add then 1 else -1) (hTe : T = X * X + sg) {N : Nat} (hN : N ≤ 2 ^ 18) (hX1 : (2 : ℝ) ^ (-(N : ℤ)) ≤ X)
    (hX2 : X ≤ 2 ^ (N : ℤ)) (hT1 : (2 : ℝ) ^ (-(N : ℤ)) ≤ T) (hκ0 : 0 ≤ κ) (hκ : X * X ≤ κ * T)
    {px P w f : Nat} (hp0 : 0 < px) (hPe : P = 64 * wordLen px) (hP2 : 2 * P + 69 ≤ 2 ^ 17) (hwP : w + 4 ≤ P)
    (hδ : (κ + 1) * 2 ^ (1 - (P : ℤ)) ≤ 1 / 64) {y : ℝ} (hy : y = Real.log (X + √T)) (hy0 : 0 < y)
    (h1 : (2 : ℝ) ^ (1 - (P : ℤ)) ≤ y * (2 ^ (-(w : ℤ)) * (5 / 8)))
    (h2 : √T / (X + √T) * (((κ + 1) * (9 / 16) + 1) * 2 ^ (1 - (P : ℤ))) ≤ y * (2 ^ (-(w : ℤ)) * (5 / 8)))
    {c : Ln2Cache} (hc : Ln2Ok c) :
    ∃ t c', x.lnRoot add px (f + 1) c = some (.tst t, c') ∧ Ln2Ok c' ∧ TestOk w y t := by
  have hE : EMIN = -2 ^ 31 := rfl
  have hEX : EMAX = 2 ^ 31 - 1 := rfl
  have hpP : px ≤ P := by rw [hPe]; unfold wordLen; omega
  have hP : roundP px = P := by rw [hPe]; exact roundP_wordLen (by omega)
  have hPb : precBits px = P := by rw [hPe]; unfold precBits wordLen; rfl
  have hP0 : roundP px < PMAX := by rw [hP]; exact lt_PMAX_of_small (by omega)
  have hpv : ValidP px := ⟨hp0, by rw [hPb]; exact lt_PMAX_of_small (by omega)⟩
  obtain ⟨δ, hδe⟩ : ∃ δ : ℝ, δ = 2 ^ (1 - (P : ℤ)) := ⟨_, rfl⟩
  have hδ0 : 0 < δ := by rw [hδe]; positivity
  rw [← hδe] at hδ h1 h2
  have hδ1 : δ ≤ 1 / 64 := by
    have : 0 ≤ κ * δ := by positivity
    linarith
  -- the range
  have hn0 : (0 : ℝ) < 2 ^ (-(N : ℤ)) := by positivity
  have hlow : (2 : ℝ) ^ (EMIN - 1) ≤ 2 ^ (-(N : ℤ)) * 2 ^ (-(N : ℤ)) / 4 := by
    rw [show (4 : ℝ) = 2 ^ (2 : ℤ) by norm_num, ← zpow_add₀ (by norm_num), ← zpow_sub₀ (by norm_num)]
    exact zpow_le_zpow_right₀ (by norm_num) (by omega)
  have hn1 : (2 : ℝ) ^ (-(N : ℤ)) ≤ 1 := zpow_le_one_of_nonpos₀ (by norm_num) (by omega)
  have htop : (2 : ℝ) ^ (N : ℤ) * 2 ^ (N : ℤ) * 8 ≤ 2 ^ (EMAX - 2) := by
    rw [show (8 : ℝ) = 2 ^ (3 : ℤ) by norm_num, ← zpow_add₀ (by norm_num), ← zpow_add₀ (by norm_num)]
    exact zpow_le_zpow_right₀ (by norm_num) (by omega)
  have hM1 : (1 : ℝ) ≤ 2 ^ (N : ℤ) := one_le_zpow₀ (by norm_num) (by omega)
  obtain ⟨n, hn⟩ : ∃ n : ℝ, n = 2 ^ (-(N : ℤ)) := ⟨_, rfl⟩
  obtain ⟨M, hM⟩ : ∃ M : ℝ, M = 2 ^ (N : ℤ) := ⟨_, rfl⟩
  rw [← hn] at hX1 hT1 hn0 hlow hn1
  rw [← hM] at hX2 htop hM1
  have hT0 : 0 < T := lt_of_lt_of_le hn0 hT1
  have hXX : n * n ≤ X * X := mul_le_mul hX1 hX1 hn0.le hX.le
  have hXM : X * X ≤ M * M := mul_le_mul hX2 hX2 hX.le (by linarith)
  have hMM : M ≤ M * M := le_mul_of_one_le_left (by linarith) hM1
  have hnn : n * n ≤ n := mul_le_of_le_one_left hn0.le hn1
  have hsg1 : sg ≤ 1 := by rw [hsg]; split <;> norm_num
  have s1 := mulGeneral_spec (K := ℝ) hx hx hp0 hP0 .none
  rw [hP, hxX] at s1
  have hnn0 : 0 < n * n := mul_pos hn0 hn0
  obtain ⟨xx, a0, a1, a2, a3, a4, -⟩ := tr_step s1 (by linarith) (by linarith)
  rw [← hδe] at a3
  have l1 : T * (7 / 8) ≤ xx.toK + sg := by
    have g1 := mul_le_mul_of_nonneg_right hκ hδ0.le
    have g2 : T * (κ * δ) ≤ T * (1 / 8) := mul_le_mul_of_nonneg_left (by linarith) hT0.le
    linarith
  have s2 : Delivers .none P ((xx.toK : ℝ) + sg) (addIx xx ONE)
      (if add then xx.add ONE px .none else xx.sub ONE px .none) := by
    have g := addSub_spec (K := ℝ) a1 ONE_WF hp0 hP0 add .none
    rw [hP, ONE_toK] at g
    cases add with
    | true => rw [hsg]; exact g
    | false => rw [hsg]; exact g
  obtain ⟨d1, b0, b1, b2, b3, b4, -⟩ := tr_step s2 (by linarith) (by linarith)
  rw [← hδe] at b3
  have d1l : n / 2 ≤ (d1.toK : ℝ) := by
    refine le_trans ?_ b3
    have : n * (7 / 8) * (63 / 64) ≤ (xx.toK + sg) * (1 - δ) := mul_le_mul (by linarith) (by linarith) (by norm_num) (by linarith)
    linarith
  have d1p : (0 : ℝ) < d1.toK := by linarith
  have s3 := sqrt_spec (K := ℝ) b1 (Or.inl (toK_sign_pos (K := ℝ) d1p)) hp0 hP0 .none (Real.sqrt_nonneg d1.toK)
    (Real.mul_self_sqrt d1p.le)
  rw [hP] at s3
  have hsq1 : n / 2 ≤ √(d1.toK : ℝ) := by
    apply Real.le_sqrt_of_sq_le
    have : (n / 2) ^ 2 ≤ n / 2 := by nlinarith
    linarith
  have hsq2 : √(d1.toK : ℝ) ≤ M * M + 1 := by
    apply Real.sqrt_le_iff.2
    constructor
    · positivity
    · nlinarith
  obtain ⟨d2, c0, c1, c2, c3, c4, -⟩ := tr_step s3 (by linarith) (by linarith)
  rw [← hδe] at c3
  have d2p : (0 : ℝ) ≤ d2.toK := le_trans (mul_nonneg (Real.sqrt_nonneg _) (by linarith)) c3
  have s4 := addSub_spec (K := ℝ) c1 hx hp0 hP0 true .fromZero
  rw [hP, if_pos rfl, hxX] at s4
  obtain ⟨d3, e0, e1, e2, e3, e4, -⟩ := fz_step s4 (by linarith) (by linarith) (by omega)
  rw [← hδe] at e4
  obtain ⟨r1, r2⟩ := root_bounds hX hT0 hTe hδ0 hκ0 hκ (by linarith) a3 a4 b3 b4 c3 c4 e3 e4
  have hS : 0 < √T := Real.sqrt_pos.2 hT0
  obtain ⟨D, hD⟩ : ∃ D, D = X + √T := ⟨_, rfl⟩
  have hD0 : 0 < D := by rw [hD]; positivity
  rw [← hD] at r1 r2 h2 hy
  obtain ⟨μ, hμ⟩ : ∃ μ, μ = √T / D * (((κ + 1) * (9 / 16) + 1) * δ) := ⟨_, rfl⟩
  have hDμ : √T * (((κ + 1) * (9 / 16) + 1) * δ) = D * μ := by rw [hμ]; field_simp
  have hμ1 : μ ≤ 1 / 32 := by
    rw [hμ]
    have g1 : √T / D ≤ 1 := by rw [div_le_one hD0, hD]; linarith
    have g2 : ((κ + 1) * (9 / 16) + 1) * δ ≤ 1 / 32 := by
      have : ((κ + 1) * (9 / 16) + 1) * δ = (κ + 1) * δ * (9 / 16) + δ := by ring
      linarith
    have g3 : 0 ≤ ((κ + 1) * (9 / 16) + 1) * δ := by positivity
    calc _ ≤ 1 * (((κ + 1) * (9 / 16) + 1) * δ) := mul_le_mul_of_nonneg_right g1 g3
      _ ≤ _ := by linarith
  rw [hDμ] at r1
  rw [← hμ] at h2
  have hclose : |d3.toK - D| ≤ D * max δ μ := by
    have g1 : D * δ ≤ D * max δ μ := mul_le_mul_of_nonneg_left (le_max_left _ _) hD0.le
    have g2 : D * μ ≤ D * max δ μ := mul_le_mul_of_nonneg_left (le_max_right _ _) hD0.le
    rw [abs_le]
    constructor <;> linarith
  have hya : |Real.log D| = y := by rw [← hy, abs_of_pos hy0]
  obtain ⟨t, c', w', t1, t2, t3, -⟩ := lnTest e1 hD0 (max_le (by linarith) hμ1) hclose (w := w)
    (by rw [hya]; exact max_le h1 h2) (by rw [hya]; exact hy0) hpv (by rw [hPb]; exact hwP) (f := f) hc (by rw [hPb, e2]; omega)
  rw [← hy] at t3
  refine ⟨t, c', ?_, t2, t3⟩
  unfold lnRoot
  rw [show x.mul x px .none = .ok xx from a0]
  dsimp only
  rw [b0]
  dsimp only
  rw [c0]
  dsimp only
  rw [show d2.add x px .fromZero = .ok d3 from e0]
  dsimp only
  rw [t1]

/-- The difference between the function and `ln(2 * x)`. -/
theorem log_twice {X D sg y : ℝ} {k : Nat} (hk : 2 ≤ k) (hX : (2 : ℝ) ^ k ≤ X) (hsg : |sg| ≤ 1) (hD : D = X + √(X * X + sg))
    (hy : y = Real.log D) : |y - Real.log (2 * X)| ≤ 2 ^ (-(2 * k : ℤ) + 1) ∧ (k : ℝ) / 2 ≤ y ∧ 1 ≤ Real.log (2 * X) := by
  have h4 : (4 : ℝ) ≤ 2 ^ k := by
    calc (4 : ℝ) = 2 ^ 2 := by norm_num
      _ ≤ 2 ^ k := pow_le_pow_right₀ (by norm_num) hk
  have hX4 : 4 ≤ X := by linarith
  have hX0 : 0 < X := by linarith
  have hd := large_root hX4 hsg
  rw [← hD] at hd
  have hXX : (2 : ℝ) ^ (2 * k : ℤ) ≤ X * X := by
    rw [show (2 * k : ℤ) = (k : ℤ) + k by ring, zpow_add₀ (by norm_num), zpow_natCast]
    exact mul_le_mul hX hX (by positivity) hX0.le
  have hη : 1 / (X * X) ≤ 2 ^ (-(2 * k : ℤ)) := by
    rw [zpow_neg, one_div]
    exact inv_anti₀ (by positivity) hXX
  have hη1 : (2 : ℝ) ^ (-(2 * k : ℤ)) ≤ 1 / 16 := by
    rw [show (1 / 16 : ℝ) = 2 ^ (-4 : ℤ) by norm_num]
    exact zpow_le_zpow_right₀ (by norm_num) (by omega)
  have hDX : X ≤ D := by rw [hD]; linarith [Real.sqrt_nonneg (X * X + sg)]
  have hl2 := Real.log_two_gt_d9
  have hyk : (k : ℝ) * Real.log 2 ≤ y := by
    rw [hy, ← Real.log_pow]
    exact Real.log_le_log (by positivity) (le_trans hX hDX)
  have hk0 : (0 : ℝ) ≤ k := Nat.cast_nonneg k
  refine ⟨?_, by nlinarith, ?_⟩
  · have h16 : 1 / (X * X) ≤ 1 / 16 := by linarith
    -- the logarithms of two numbers whose quotient is close to one
    have hD0 : 0 < D := by linarith
    obtain ⟨d1, d2⟩ := abs_le.1 hd
    obtain ⟨η, hηe⟩ : ∃ η, η = 1 / (X * X) := ⟨_, rfl⟩
    rw [← hηe] at hη h16 d1 d2
    have hη0 : 0 < η := by rw [hηe]; positivity
    have hr : 0 < D / (2 * X) := by positivity
    have r1 : D / (2 * X) ≤ 1 + η := by rw [div_le_iff₀ (by positivity)]; linarith
    have r2 : 1 - η ≤ D / (2 * X) := by rw [le_div_iff₀ (by positivity)]; linarith
    rw [hy, ← Real.log_div hD0.ne' (by positivity)]
    have u1 := Real.log_le_sub_one_of_pos hr
    have u2 := Real.one_sub_inv_le_log_of_pos hr
    have h3 : (D / (2 * X))⁻¹ ≤ 1 + 2 * η := by
      rw [inv_le_comm₀ hr (by linarith)]
      refine le_trans ?_ r2
      rw [inv_le_iff_one_le_mul₀ (by linarith)]
      nlinarith
    rw [zpow_add_one₀ (by norm_num), abs_le]
    constructor <;> linarith
  · have : Real.log 4 ≤ Real.log (2 * X) := Real.log_le_log (by norm_num) (by linarith)
    have h5 : Real.log 4 = 2 * Real.log 2 := by
      rw [show (4 : ℝ) = 2 ^ 2 by norm_num, Real.log_pow]; norm_num
    linarith

/-- `ln(2 * x)` with the exponent changed. -/
theorem lnTwice_trunc (hx : x.WF) (hz : x.isZero = false) {X y : ℝ} (hxX : x.toK = X) (hX : 0 < X) (he0 : EMIN < x.e)
    (he : x.e < EMAX) {w f : Nat} (hw : 128 ≤ w) (hw64 : 64 ∣ w) (hl : 64 * x.m.m.length ≤ w) (hW : w ≤ 2 ^ 14)
    (h1 : |y - Real.log (2 * X)| ≤ 2 ^ (-(w : ℤ) - 8)) (h2 : 1 ≤ Real.log (2 * X)) (hy : 0 < y) {c : Ln2Cache} (hc : Ln2Ok c) :
    ∃ t c', x.lnTwice w (f + 1) c = some (.tst t, c') ∧ Ln2Ok c' ∧ TruncOk w y t := by
  obtain ⟨g1, g2, g3, -, -, -⟩ := setExponent_normal hx hz he0 (e := x.e + 1) (by omega) (by omega)
  rw [hxX, show x.e + 1 - x.e = 1 by ring, zpow_one, mul_comm] at g2
  have hPb : precBits w = w := by unfold precBits; omega
  have hpv : ValidP w := ⟨by omega, by rw [hPb]; exact lt_PMAX_of_small (by omega)⟩
  obtain ⟨v, c', w', a1, a2, a3, a4, a5⟩ := ln_none g1 (by rw [g2]; linarith) (by
    rw [g2]; intro h; rw [h, Real.log_one] at h2; linarith) hpv (f := f) hc (by rw [hPb, g3]; omega)
  rw [hPb, g2] at a4 a5
  rw [hPb, g2] at a3
  have hL0 : 0 < Real.log (2 * X) := by linarith
  rw [abs_of_pos hL0] at a4 a5
  refine ⟨v, c', ?_, a2, ?_⟩
  · unfold lnTwice
    rw [if_neg (by omega), a1]
  · have hlt := a3.wf.abs_lt_zpow (K := ℝ)
    obtain ⟨Y, hY⟩ : ∃ Y, Y = Real.log (2 * X) := ⟨_, rfl⟩
    rw [← hY] at a3 a4 a5 h1 h2 hL0
    obtain ⟨E, hE⟩ : ∃ E : ℝ, E = 2 ^ v.e := ⟨_, rfl⟩
    obtain ⟨W, hWe⟩ : ∃ W : ℝ, W = 2 ^ (-(w : ℤ)) := ⟨_, rfl⟩
    have hW0 : 0 < W := by rw [hWe]; positivity
    have hW1 : W ≤ 1 / 16 := by
      rw [hWe, show (1 / 16 : ℝ) = 2 ^ (-4 : ℤ) by norm_num]
      exact zpow_le_zpow_right₀ (by norm_num) (by omega)
    have hu : (2 : ℝ) ^ (v.e - (w : ℤ)) = E * W := by rw [hE, hWe, ← zpow_add₀ (by norm_num)]; rfl
    have hε : (2 : ℝ) ^ (-(w : ℤ) - 64) ≤ W * (1 / 64) := by
      rw [hWe, show (1 / 64 : ℝ) = 2 ^ (-6 : ℤ) by norm_num, ← zpow_add₀ (by norm_num)]
      exact zpow_le_zpow_right₀ (by norm_num) (by omega)
    have h8 : (2 : ℝ) ^ (-(w : ℤ) - 8) = W * (1 / 256) := by
      rw [hWe, show (1 / 256 : ℝ) = 2 ^ (-8 : ℤ) by norm_num, ← zpow_add₀ (by norm_num)]; rfl
    have hε0 : (0 : ℝ) < 2 ^ (-(w : ℤ) - 64) := by positivity
    rw [← hE] at hlt
    rw [hu] at a5
    obtain ⟨ε, hεe⟩ : ∃ ε : ℝ, ε = 2 ^ (-(w : ℤ) - 64) := ⟨_, rfl⟩
    rw [← hεe] at a4 a5 hε hε0
    rw [h8] at h1
    have hE0 : 0 < E := by rw [hE]; positivity
    have hEW : E * W ≤ E * (1 / 16) := mul_le_mul_of_nonneg_left hW1 hE0.le
    have hYE : Y ≤ E * 2 := by
      have : Y * ε ≤ Y * (1 / 64) := mul_le_mul_of_nonneg_left (by linarith) hL0.le
      linarith
    have hYε : Y * ε ≤ E * W * (1 / 32) := by
      have := mul_le_mul hYE hε hε0.le (by positivity)
      linarith
    have hWE : W ≤ E * W * 2 := by
      have : 1 * W ≤ E * 2 * W := mul_le_mul_of_nonneg_right (by linarith) hW0.le
      linarith
    obtain ⟨k1, k2⟩ := abs_le.1 h1
    have hvs : v.s = .pos := a3.pos hL0
    have hya : |y| = y := abs_of_pos hy
    have hvz : v.isZero = false := by
      rw [← Bool.not_eq_true, ← a3.wf.toK_eq_zero (K := ℝ)]
      intro h0
      rw [h0, abs_zero] at a5
      have hn := a3.none rfl
      rw [h0, zero_sub, abs_neg, abs_of_pos hL0] at hn
      have hd : (2 : ℝ) ^ (1 - (w : ℤ)) * (1 + 2 ^ (-60 : ℤ)) < 1 := by
        have g : (2 : ℝ) ^ (1 - (w : ℤ)) = 2 * W := by rw [hWe, ← zpow_one_add₀ (by norm_num)]; rfl
        have g2 : (2 : ℝ) ^ (-60 : ℤ) ≤ 1 := by norm_num
        rw [g]
        nlinarith
      nlinarith
    refine ⟨a3.wf, hvz, a3.inexact, a3.prec, by rw [hvs, hya, Sign.toK, one_mul], ?_, ?_⟩
    · rw [hu, hya]; linarith
    · rw [hu, hya]; linarith

/-- `ln 2 + ln x` for the largest exponent. -/
theorem lnTwice_top (hx : x.WF) {X y : ℝ} (hxX : x.toK = X) (hX : 4 ≤ X)
    (he : x.e = EMAX) {w f : Nat} (hw : 128 ≤ w) (hw64 : 64 ∣ w) (hl : 64 * x.m.m.length ≤ w) (hW : w ≤ 2 ^ 14)
    (h1 : |y - Real.log (2 * X)| ≤ 2 ^ (-(w : ℤ) - 8)) (h2 : 1 ≤ Real.log (2 * X)) (hmax : Real.log (2 * X) ≤ 2 ^ 62) (hy : 1 / 2 ≤ y)
    {c : Ln2Cache} (hc : Ln2Ok c) :
    ∃ t c', x.lnTwice w (f + 1) c = some (.tst t, c') ∧ Ln2Ok c' ∧ TestOk w y t := by
  have hPb : precBits (w + 2) = w + 64 := by unfold precBits; omega
  have hP : roundP (w + 2) = w + 64 := by rw [roundP_wordLen (by omega)]; unfold wordLen; omega
  have hpv : ValidP (w + 2) := ⟨by omega, by rw [hPb]; exact lt_PMAX_of_small (by omega)⟩
  have hX0 : 0 < X := by linarith
  have hlX : 0 < Real.log X := Real.log_pos (by linarith)
  obtain ⟨v, c1, w', a1, a2, a3, -⟩ := ln_none hx (by rw [hxX]; exact hX0) (by rw [hxX]; linarith) hpv (f := f) hc
    (by rw [hPb]; omega)
  rw [hPb, hxX] at a3
  obtain ⟨pw, hpw⟩ : ∃ pw, w + 64 = 64 * pw := ⟨w / 64 + 1, by omega⟩
  obtain ⟨l, c2, b1, b2, b3, b4, b5, b6⟩ := ln2None_spec (pw := pw) (by omega) (by omega) a2
  rw [← hpw] at b1 b4 b6
  have hn := a3.none rfl
  rw [abs_of_pos hlX] at hn
  have hlog : Real.log (2 * X) = Real.log 2 + Real.log X := Real.log_mul (by norm_num) hX0.ne'
  have hl2 := Real.log_two_gt_d9
  have hl3 := Real.log_two_lt_d9
  obtain ⟨Y, hY⟩ : ∃ Y, Y = Real.log (2 * X) := ⟨_, rfl⟩
  rw [← hY] at h1 h2 hlog hmax
  obtain ⟨W, hWe⟩ : ∃ W : ℝ, W = 2 ^ (-(w : ℤ)) := ⟨_, rfl⟩
  have hW0 : 0 < W := by rw [hWe]; positivity
  have hδ : (2 : ℝ) ^ (1 - ((w + 64 : ℕ) : ℤ)) ≤ W * (1 / 64) := by
    rw [hWe, show (1 / 64 : ℝ) = 2 ^ (-6 : ℤ) by norm_num, ← zpow_add₀ (by norm_num)]
    exact zpow_le_zpow_right₀ (by norm_num) (by push_cast; omega)
  have hW1 : W ≤ 1 / 16 := by
    rw [hWe, show (1 / 16 : ℝ) = 2 ^ (-4 : ℤ) by norm_num]
    exact zpow_le_zpow_right₀ (by norm_num) (by omega)
  have h60 : (2 : ℝ) ^ (-60 : ℤ) ≤ 1 := by norm_num
  have h600 : (0 : ℝ) < 2 ^ (-60 : ℤ) := by positivity
  obtain ⟨δ, hδe⟩ : ∃ δ : ℝ, δ = 2 ^ (1 - ((w + 64 : ℕ) : ℤ)) := ⟨_, rfl⟩
  have hδ0 : 0 < δ := by rw [hδe]; positivity
  rw [← hδe] at hδ hn b6
  have hδ2 : δ * (1 + 2 ^ (-60 : ℤ)) ≤ W * (1 / 32) := by nlinarith
  have k1 : |v.toK - Real.log X| ≤ Real.log X * (W * (1 / 32)) := le_trans hn (mul_le_mul_of_nonneg_left hδ2 hlX.le)
  have k2 : |l.toK - Real.log 2| ≤ Real.log 2 * (W * (1 / 32)) := le_trans b6 (mul_le_mul_of_nonneg_left hδ2 (by linarith))
  have k3 : |(l.toK : ℝ) + v.toK - Y| ≤ Y * (W * (1 / 32)) := by
    rw [hlog, show (l.toK : ℝ) + v.toK - (Real.log 2 + Real.log X) = (l.toK - Real.log 2) + (v.toK - Real.log X) by ring]
    refine le_trans (abs_add_le _ _) ?_
    linarith
  have hYW : Y * (W * (1 / 32)) ≤ Y * (1 / 512) := mul_le_mul_of_nonneg_left (by linarith) (by linarith)
  obtain ⟨k4, k5⟩ := abs_le.1 k3
  have hs0 : (1 : ℝ) / 2 ≤ l.toK + v.toK := by linarith
  have s1 := addSub_spec (K := ℝ) b3 a3.wf hpv.pos (by rw [hP]; exact lt_PMAX_of_small (by omega)) true .none
  rw [hP, if_pos rfl] at s1
  have hEm : (2 : ℝ) ^ (EMIN - 1) ≤ 1 / 2 := by
    rw [show (1 / 2 : ℝ) = 2 ^ (-1 : ℤ) by norm_num]
    exact zpow_le_zpow_right₀ (by norm_num) (by unfold EMIN; norm_num)
  have h64 : (2 : ℝ) ^ 62 * 4 = 2 ^ 64 := by norm_num
  obtain ⟨r, r0, r1, r2, r3, r4⟩ := Delivers.apx s1 (by rw [abs_of_pos (by linarith)]; linarith)
    (by rw [abs_of_pos (by linarith)]; linarith)
  rw [← hδe, abs_of_pos (show (0 : ℝ) < l.toK + v.toK by linarith)] at r3
  have hri : r.inexact = true := by
    apply r4
    have hvz : v.isZero = false := by
      rw [← Bool.not_eq_true, ← a3.wf.toK_eq_zero (K := ℝ)]
      intro h0
      rw [h0, zero_sub, abs_neg, abs_of_pos hlX] at k1
      nlinarith
    have hlz : l.isZero = false := by
      rw [← Bool.not_eq_true, ← b3.toK_eq_zero (K := ℝ)]
      intro h0
      rw [h0, zero_sub, abs_neg, abs_of_pos (show 0 < Real.log 2 by linarith)] at k2
      nlinarith
    unfold addIx
    rw [hvz, hlz, b5]; simp
  refine ⟨r, c2, ?_, b2, ?_⟩
  · unfold lnTwice
    rw [if_pos he]
    dsimp only
    rw [a1]
    dsimp only
    rw [hP, b1]
    dsimp only
    rw [show l.add v (w + 2) .none = .ok r from r0]
  · have h8 : (2 : ℝ) ^ (-(w : ℤ) - 8) = W * (1 / 256) := by
      rw [hWe, show (1 / 256 : ℝ) = 2 ^ (-8 : ℤ) by norm_num, ← zpow_add₀ (by norm_num)]; rfl
    rw [h8] at h1
    refine TestOk.of_rel' r1 hri (by rw [r2]; omega) (by linarith) (δ := y * (W * (15 / 16))) (by rw [abs_of_pos (by linarith), hWe]) ?_
    have hYy : Y ≤ y * 2 := by have := (abs_le.1 h1).1; linarith
    have hyW : y * W ≤ y * (1 / 16) := mul_le_mul_of_nonneg_left hW1 (by linarith)
    have hYW2 : Y * W ≤ y * 2 * W := mul_le_mul_of_nonneg_right hYy hW0.le
    have e1 : (l.toK + v.toK) * δ ≤ Y * W * (1 / 32) := by
      have : (l.toK + v.toK) * δ ≤ (Y * 2) * (W * (1 / 64)) := mul_le_mul (by linarith) hδ hδ0.le (by linarith)
      linarith
    have e2 : |r.toK - y| ≤ |r.toK - (l.toK + v.toK)| + |(l.toK : ℝ) + v.toK - Y| + |y - Y| := by
      have t1 := abs_add_le (r.toK - (l.toK + v.toK) : ℝ) ((l.toK + v.toK) - Y)
      have t2 := abs_add_le (r.toK - Y : ℝ) (Y - y)
      rw [abs_sub_comm Y y] at t2
      simp only [sub_add_sub_cancel] at t1 t2
      linarith
    have e3 : W ≤ y * W * 2 := by
      have : 1 / 2 * W ≤ y * W := mul_le_mul_of_nonneg_right hy hW0.le
      linarith
    have e4 : y * (W * (15 / 16)) = y * W * (15 / 16) := by ring
    have e5 : Y * (W * (1 / 32)) = Y * W * (1 / 32) := by ring
    rw [e4]
    rw [e5] at k3
    linarith

end AF
