import Mathlib.Analysis.SpecialFunctions.Complex.Arctan
import Mathlib.Analysis.SpecificLimits.Normed
import Mathlib.Tactic.FieldSimp
import Mathlib.Tactic.Positivity
/-!
# Partial sums of the series of the inverse tangent
-/

namespace AF

/-- The sum of the first `n` terms of the series of the inverse tangent. -/
noncomputable def atanPart (x : ℝ) (n : ℕ) : ℝ := ∑ k ∈ Finset.range n, (-1) ^ k * (x ^ (2 * k + 1) / (2 * k + 1))

theorem atan_tendsto {x : ℝ} (h0 : 0 ≤ x) (h1 : x < 1) :
    Filter.Tendsto (fun n => atanPart x n) Filter.atTop (nhds (Real.arctan x)) := by
  have h := (Real.hasSum_arctan (x := x) (by rw [Real.norm_eq_abs, abs_of_nonneg h0]; exact h1)).tendsto_sum_nat
  refine h.congr (fun n => ?_)
  unfold atanPart
  refine Finset.sum_congr rfl (fun k _ => ?_)
  push_cast
  rw [mul_div_assoc]

theorem atan_antitone {x : ℝ} (h0 : 0 ≤ x) (h1 : x < 1) : Antitone (fun k : ℕ => x ^ (2 * k + 1) / (2 * (k : ℝ) + 1)) := by
  refine antitone_nat_of_succ_le (fun k => ?_)
  refine div_le_div₀ (by positivity) ?_ (by positivity) (by push_cast; linarith)
  exact pow_le_pow_of_le_one h0 h1.le (by omega)

/-- The inverse tangent lies between consecutive partial sums. -/
theorem atan_even {x : ℝ} (h0 : 0 ≤ x) (h1 : x < 1) (n : ℕ) : atanPart x (2 * n) ≤ Real.arctan x :=
  (atan_antitone h0 h1).alternating_series_le_tendsto (atan_tendsto h0 h1) n

theorem atan_odd {x : ℝ} (h0 : 0 ≤ x) (h1 : x < 1) (n : ℕ) : Real.arctan x ≤ atanPart x (2 * n + 1) :=
  (atan_antitone h0 h1).tendsto_le_alternating_series (atan_tendsto h0 h1) n

/-- The inverse tangent is close to its partial sums. -/
theorem atan_close {x : ℝ} (h0 : 0 ≤ x) (h1 : x < 1) (n : ℕ) :
    |Real.arctan x - atanPart x n| ≤ x ^ (2 * n + 1) / (2 * n + 1) := by
  have hs : ∀ k, atanPart x (k + 1) = atanPart x k + (-1) ^ k * (x ^ (2 * k + 1) / (2 * k + 1)) :=
    fun k => Finset.sum_range_succ _ k
  rcases Nat.even_or_odd' n with ⟨k, rfl | rfl⟩
  · have a := atan_even h0 h1 k
    have b := atan_odd h0 h1 k
    rw [hs, Even.neg_one_pow (by simp), one_mul] at b
    rw [abs_of_nonneg (by linarith)]
    linarith
  · have a := atan_even h0 h1 (k + 1)
    have b := atan_odd h0 h1 k
    rw [show 2 * (k + 1) = (2 * k + 1) + 1 by ring, hs, Odd.neg_one_pow (by simp)] at a
    rw [abs_of_nonpos (by linarith)]
    linarith

end AF
