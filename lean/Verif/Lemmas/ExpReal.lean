import Mathlib.Analysis.SpecialFunctions.Trigonometric.Series
import Mathlib.Analysis.SpecialFunctions.Trigonometric.DerivHyp
import Mathlib.Analysis.SpecialFunctions.Arsinh
import Verif.Lemmas.ExpCost
/-!
# The hyperbolic sine: facts about real numbers
-/

namespace AF

theorem sinh_scale {c y : ℝ} (hc0 : 0 ≤ c) (hc1 : c ≤ 1) (hy : 0 ≤ y) : Real.sinh (y * c) ≤ Real.sinh y * c := by
  refine hasSum_le (fun n => ?_) (Real.hasSum_sinh (y * c)) ((Real.hasSum_sinh y).mul_right c)
  rw [mul_pow, div_mul_eq_mul_div]
  refine div_le_div_of_nonneg_right (mul_le_mul_of_nonneg_left ?_ (pow_nonneg hy _)) (by positivity)
  rw [pow_succ]
  exact mul_le_of_le_one_left hc0 (pow_le_one₀ hc0 hc1)

/-- The partial sums of the series of the hyperbolic sine. -/
theorem sinh_partial {x : ℝ} (hx0 : 0 < x) (hx1 : x ≤ 1) (n : Nat) :
    x + x * (x * x) * serSum sinhCoef (x * x) 1 n ≤ Real.sinh x ∧
      Real.sinh x ≤ x + x * (x * x) * serSum sinhCoef (x * x) 1 n + 2 * (x * (x * x) * (x * x) ^ n * sinhCoef (n + 1)) := by
  have hs := Real.hasSum_sinh x
  have hterm : ∀ i, x ^ (2 * i + 1) / ((2 * i + 1).factorial : ℝ) = x * (x * x) ^ i * sinhCoef i := by
    intro i
    unfold sinhCoef
    rw [pow_succ, pow_mul, sq]; ring
  have hs' : HasSum (fun i => x * (x * x) ^ i * sinhCoef i) (Real.sinh x) := by
    have h : (fun i => x * (x * x) ^ i * sinhCoef i) = fun i : ℕ => x ^ (2 * i + 1) / ((2 * i + 1).factorial : ℝ) :=
      funext fun i => (hterm i).symm
    rw [h]
    exact hs
  have hpos : ∀ i, 0 ≤ x * (x * x) ^ i * sinhCoef i := fun i => by
    have := sinhCoef_pos i
    positivity
  have hpart : ∑ i ∈ Finset.range (n + 1), x * (x * x) ^ i * sinhCoef i = x + x * (x * x) * serSum sinhCoef (x * x) 1 n := by
    rw [Finset.sum_range_succ', pow_zero, mul_one, sinhCoef_zero, mul_one, add_comm]
    congr 1
    unfold serSum
    rw [Finset.mul_sum]
    refine Finset.sum_congr rfl fun i _ => ?_
    rw [pow_succ, add_comm 1 i]; ring
  constructor
  · rw [← hpart]
    exact sum_le_hasSum _ (fun i _ => hpos i) hs'
  · have h1 := (hasSum_nat_add_iff' (n + 1)).2 hs'
    have hg : HasSum (fun i : ℕ => x * (x * x) * (x * x) ^ n * sinhCoef (n + 1) * (1 / 2) ^ i)
        (x * (x * x) * (x * x) ^ n * sinhCoef (n + 1) * 2) := hasSum_geometric_two.mul_left _
    have h2 := hasSum_le (fun i => ?_) h1 hg
    · rw [hpart] at h2
      linarith
    · have hdec : ∀ i, sinhCoef (n + 1 + i) ≤ sinhCoef (n + 1) * (1 / 2) ^ i := by
        intro i
        induction i with
        | zero => simp
        | succ i ih =>
          have h3 := sinhCoef_half (n + 1 + i)
          have h4 := sinhCoef_pos (n + 1 + i)
          rw [pow_succ, ← add_assoc]
          linarith
      have hxx : x * x ≤ 1 := by nlinarith
      have hxi : (x * x) ^ i ≤ 1 := pow_le_one₀ (by positivity) hxx
      have e1 : x * (x * x) ^ (i + (n + 1)) * sinhCoef (i + (n + 1)) =
          x * (x * x) * (x * x) ^ n * ((x * x) ^ i * sinhCoef (n + 1 + i)) := by
        rw [show i + (n + 1) = n + 1 + i by ring, pow_add, pow_succ]; ring
      rw [e1, mul_assoc _ (sinhCoef (n + 1))]
      refine mul_le_mul_of_nonneg_left ?_ (by positivity)
      have h5 := sinhCoef_pos (n + 1 + i)
      exact le_trans (mul_le_of_le_one_left h5.le hxi) (hdec i)

theorem sinh_lt_two {x : ℝ} (hx : x ≤ 1) : Real.sinh x < 2 := by
  rw [Real.sinh_eq]
  have h1 : Real.exp x ≤ Real.exp 1 := Real.exp_le_exp.2 hx
  have h2 := Real.exp_one_lt_three
  have h3 := Real.exp_pos (-x)
  linarith

end AF
