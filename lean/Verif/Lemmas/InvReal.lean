import Verif.Lemmas.Sinh
import Mathlib.Analysis.SpecialFunctions.Arsinh
import Mathlib.Analysis.SpecialFunctions.Arcosh
/-!
# Bounds for the inverse hyperbolic sine and cosine
-/

namespace AF

theorem arsinh_ge {t : ℝ} (h0 : 0 < t) : min t 1 / 2 ≤ Real.arsinh t := by
  have key : ∀ t : ℝ, 0 < t → t ≤ 1 → t / 2 ≤ Real.arsinh t := by
    intro t h0 h1
    rw [← Real.sinh_le_sinh, Real.sinh_arsinh]
    have := (sinh_cube (t := t / 2) (by linarith) (by linarith)).2
    have h2 : (t / 2) ^ 3 ≤ t / 2 := by
      have : (t / 2) ^ 2 ≤ 1 := pow_le_one₀ (by linarith) (by linarith)
      have e : (t / 2) ^ 3 = t / 2 * (t / 2) ^ 2 := by ring
      rw [e]
      exact mul_le_of_le_one_right (by linarith) this
    linarith
  rcases le_total t 1 with h | h
  · rw [min_eq_left h]; exact key t h0 h
  · rw [min_eq_right h]
    exact le_trans (key 1 (by norm_num) le_rfl) (Real.arsinh_le_arsinh.2 h)

theorem arsinh_cube {t : ℝ} (h0 : 0 < t) (h1 : t ≤ 1 / 2) : 0 < t - Real.arsinh t ∧ t - Real.arsinh t < t ^ 3 / 4 := by
  have ha : 0 < Real.arsinh t := Real.arsinh_pos_iff.2 h0
  have hlt : Real.arsinh t < t := by
    rw [← Real.sinh_lt_sinh, Real.sinh_arsinh]
    exact Real.self_lt_sinh_iff.2 h0
  refine ⟨by linarith, ?_⟩
  have := (sinh_cube ha (by linarith)).2
  rw [Real.sinh_arsinh] at this
  have h3 : Real.arsinh t ^ 3 < t ^ 3 := pow_lt_pow_left₀ hlt ha.le (by norm_num)
  linarith

/-- `ln(x + sqrt(x^2 - 1))` as an inverse hyperbolic sine. -/
theorem log_root_sub {t : ℝ} (h : 1 ≤ t) : Real.log (t + √(t * t - 1)) = Real.arsinh √(t * t - 1) := by
  have h1 : 0 ≤ t * t - 1 := by nlinarith
  rw [Real.arsinh, Real.sq_sqrt h1, show 1 + (t * t - 1) = t ^ 2 by ring, Real.sqrt_sq (by linarith), add_comm]

theorem arcosh_eq_log {t : ℝ} : Real.arcosh t = Real.log (t + √(t * t - 1)) := by
  rw [Real.arcosh, sq]

theorem arsinh_eq_log {t : ℝ} : Real.arsinh t = Real.log (t + √(t * t + 1)) := by
  rw [Real.arsinh, sq, add_comm (1 : ℝ)]

/-- The computation of the argument of the logarithm, in real numbers. -/
theorem root_bounds {X T κ δ xx d1 d2 d3 sg : ℝ} (hX : 0 < X) (hT : 0 < T) (hTe : T = X * X + sg) (hδ0 : 0 < δ)
    (hκ0 : 0 ≤ κ) (hκ : X * X ≤ κ * T) (hδ : (κ + 1) * δ ≤ 1 / 8)
    (a1 : X * X * (1 - δ) ≤ xx) (a2 : xx ≤ X * X) (b1 : (xx + sg) * (1 - δ) ≤ d1) (b2 : d1 ≤ xx + sg)
    (c1 : √d1 * (1 - δ) ≤ d2) (c2 : d2 ≤ √d1) (e1 : d2 + X ≤ d3) (e2 : d3 ≤ (d2 + X) * (1 + δ)) :
    (X + √T) - √T * (((κ + 1) * (9 / 16) + 1) * δ) ≤ d3 ∧ d3 ≤ (X + √T) * (1 + δ) := by
  have hδ1 : δ ≤ 1 / 8 := by nlinarith
  have hS : 0 < √T := Real.sqrt_pos.2 hT
  obtain ⟨u, hu⟩ : ∃ u, u = (κ + 1) * δ := ⟨_, rfl⟩
  have hu0 : 0 < u := by rw [hu]; positivity
  rw [← hu] at hδ
  have l1 : T * (1 - κ * δ) ≤ xx + sg := by
    have := mul_le_mul_of_nonneg_right hκ hδ0.le
    nlinarith
  have l2 : T * (1 - u) ≤ d1 := by
    refine le_trans ?_ b1
    have h1 : T * (1 - κ * δ) * (1 - δ) ≤ (xx + sg) * (1 - δ) := mul_le_mul_of_nonneg_right l1 (by linarith)
    refine le_trans ?_ h1
    have : T * (1 - κ * δ) * (1 - δ) = T * (1 - u) + T * (κ * δ * δ) := by rw [hu]; ring
    have : 0 ≤ T * (κ * δ * δ) := by positivity
    linarith
  have l3 : 1 - u * (9 / 16) ≤ √(1 - u) := by
    apply Real.le_sqrt_of_sq_le
    nlinarith
  have l4 : √T * (1 - u * (9 / 16)) ≤ √d1 := by
    refine le_trans (mul_le_mul_of_nonneg_left l3 hS.le) ?_
    rw [← Real.sqrt_mul hT.le]
    exact Real.sqrt_le_sqrt l2
  have l5 : √T * (1 - (u * (9 / 16) + δ)) ≤ d2 := by
    refine le_trans ?_ c1
    refine le_trans ?_ (mul_le_mul_of_nonneg_right l4 (by linarith))
    have : √T * (1 - u * (9 / 16)) * (1 - δ) = √T * (1 - (u * (9 / 16) + δ)) + √T * (u * (9 / 16) * δ) := by ring
    have : 0 ≤ √T * (u * (9 / 16) * δ) := by positivity
    linarith
  have u1 : d2 ≤ √T := le_trans c2 (Real.sqrt_le_sqrt (by rw [hTe]; linarith))
  constructor
  · refine le_trans ?_ e1
    have : √T * (1 - (u * (9 / 16) + δ)) = √T - √T * (((κ + 1) * (9 / 16) + 1) * δ) := by rw [hu]; ring
    linarith
  · refine le_trans e2 (mul_le_mul_of_nonneg_right (by linarith) (by linarith))

/-- For a large argument the root is the argument. -/
theorem large_root {X sg : ℝ} (hX : 4 ≤ X) (hsg : |sg| ≤ 1) :
    |(X + √(X * X + sg)) - 2 * X| ≤ 2 * X * (1 / (X * X)) := by
  have hX0 : 0 < X := by linarith
  have hXX : 16 ≤ X * X := by nlinarith
  obtain ⟨s1, s2⟩ := abs_le.1 hsg
  have hi : 1 / X ≤ 1 / 4 := by rw [div_le_div_iff₀ hX0 (by norm_num)]; linarith
  have hip : 0 < 1 / X := by positivity
  have e : 2 * X * (1 / (X * X)) = 2 * (1 / X) := by field_simp
  have hm : X * (1 / X) = 1 := by field_simp
  rw [e]
  have g1 : X - 1 / X ≤ √(X * X + sg) := by
    apply Real.le_sqrt_of_sq_le
    nlinarith
  have g2 : √(X * X + sg) ≤ X + 1 / X := by
    apply Real.sqrt_le_iff.2
    constructor
    · linarith
    · nlinarith
  rw [abs_le]
  constructor <;> linarith

end AF
