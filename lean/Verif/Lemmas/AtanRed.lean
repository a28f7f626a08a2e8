import Verif.Lemmas.AtanSer
import Mathlib.Analysis.SpecialFunctions.Trigonometric.Bounds
/-!
# The argument reduction of the arctangent
-/

namespace AF

variable {δ : ℝ} {P : Nat}

/-! ## The arctangent -/

theorem arctan_le_self {y : ℝ} (h : 0 ≤ y) : Real.arctan y ≤ y := by
  have := Real.le_tan (Real.arctan_nonneg.2 h) (Real.arctan_lt_pi_div_two y)
  rwa [Real.tan_arctan] at this

theorem le_arctan {y : ℝ} (h : 0 ≤ y) : y / (1 + y ^ 2) ≤ Real.arctan y := by
  have h1 := Real.sin_le (x := 2 * Real.arctan y) (by have := Real.arctan_nonneg.2 h; linarith)
  rw [Real.sin_two_mul] at h1
  have h2 : Real.sin (Real.arctan y) * Real.cos (Real.arctan y) = y * Real.cos (Real.arctan y) ^ 2 := by
    rw [Real.sin_arctan, Real.cos_arctan]; ring
  rw [Real.cos_sq_arctan] at h2
  rw [div_eq_mul_one_div]
  linarith

theorem abs_arctan (y : ℝ) : |Real.arctan y| = Real.arctan |y| := by
  rcases le_total 0 y with h | h
  · rw [abs_of_nonneg h, abs_of_nonneg (Real.arctan_nonneg.2 h)]
  · rw [abs_of_nonpos h, abs_of_nonpos (Real.arctan_le_zero.2 h), Real.arctan_neg]

theorem abs_arctan_le (y : ℝ) : |Real.arctan y| ≤ |y| := by
  rw [abs_arctan]; exact arctan_le_self (abs_nonneg y)

theorem abs_arctan_ge {y : ℝ} : |y| / (1 + y ^ 2) ≤ |Real.arctan y| := by
  rw [abs_arctan, ← sq_abs y]; exact le_arctan (abs_nonneg y)

theorem abs_arctan_half {y : ℝ} (h : |y| ≤ 1) : |y| / 2 ≤ |Real.arctan y| := by
  refine le_trans ?_ abs_arctan_ge
  rw [← sq_abs y]
  have := abs_nonneg y
  rw [div_le_div_iff₀ (by norm_num) (by positivity)]
  nlinarith

/-- The arctangent is a contraction. -/
theorem arctan_sub (a b : ℝ) : |Real.arctan a - Real.arctan b| ≤ |a - b| := by
  have h := Convex.norm_image_sub_le_of_norm_deriv_le (f := Real.arctan) (C := 1) (s := Set.univ)
    (fun x _ => Real.differentiableAt_arctan x) (fun x _ => by
      rw [Real.deriv_arctan, Real.norm_eq_abs, abs_of_pos (by positivity), div_le_one (by positivity)]
      nlinarith [sq_nonneg x]) convex_univ (Set.mem_univ b) (Set.mem_univ a)
  simpa [Real.norm_eq_abs] using h

/-- `y / (1 + √(1 + y²))`. -/
noncomputable def atHalf (y : ℝ) : ℝ := y / (1 + Real.sqrt (1 + y ^ 2))

theorem arctan_half (y : ℝ) : Real.arctan y = 2 * Real.arctan (atHalf y) := by
  have hs0 : 0 ≤ 1 + y ^ 2 := by positivity
  have hs1 : Real.sqrt (1 + y ^ 2) ^ 2 = 1 + y ^ 2 := Real.sq_sqrt hs0
  have hs2 : 0 ≤ Real.sqrt (1 + y ^ 2) := Real.sqrt_nonneg _
  have hy : |y| < 1 + Real.sqrt (1 + y ^ 2) := by
    have : |y| ≤ Real.sqrt (1 + y ^ 2) := Real.abs_le_sqrt (by linarith)
    linarith
  have hy2 := abs_lt.1 hy
  unfold atHalf
  generalize Real.sqrt (1 + y ^ 2) = s at *
  have hp : 0 < 1 + s := by linarith
  rw [Real.two_mul_arctan (by rw [lt_div_iff₀ hp]; linarith) (by rw [div_lt_one hp]; linarith)]
  congr 1
  have h1 : 1 - (y / (1 + s)) ^ 2 = 2 / (1 + s) := by
    rw [div_pow]
    have : y ^ 2 = s ^ 2 - 1 := by linarith
    rw [this]
    field_simp; ring
  rw [h1]
  field_simp

theorem atHalf_bounds {y : ℝ} (h : |y| ≤ 1) : |y| / 3 ≤ |atHalf y| ∧ |atHalf y| ≤ |y| / 2 := by
  have hy := abs_nonneg y
  have h2 : y ^ 2 ≤ 1 := by rw [← sq_abs]; nlinarith
  have h3 : Real.sqrt (1 + y ^ 2) ≤ 2 := by
    rw [Real.sqrt_le_left (by norm_num)]; linarith
  have h4 : 1 ≤ Real.sqrt (1 + y ^ 2) := by
    rw [Real.le_sqrt' (by norm_num)]
    have := sq_nonneg y
    linarith
  unfold atHalf
  rw [abs_div, abs_of_pos (show 0 < 1 + Real.sqrt (1 + y ^ 2) by linarith)]
  generalize Real.sqrt (1 + y ^ 2) = s at *
  constructor
  · exact div_le_div_of_nonneg_left hy (by linarith) (by linarith)
  · exact div_le_div_of_nonneg_left hy (by linarith) (by linarith)

end AF
