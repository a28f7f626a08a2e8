import Verif.Lemmas.LogRect
/-!
# The real function behind `ln_series`
-/

namespace AF

set_option linter.unusedSectionVars false

/-- `2 artanh A`. -/
noncomputable def atanh2 (A : ℝ) : ℝ := Real.log (1 + A) - Real.log (1 - A)

/-- The partial sums of the series, and what they leave. -/
theorem atanh2_series {A : ℝ} (h0 : 0 < A) (h1 : A * A ≤ 1 / 16) (n : Nat) :
    2 * (A + A * (A * A) * serSum atanhCoef (A * A) 1 n) ≤ atanh2 A ∧
    atanh2 A ≤ 2 * (A + A * (A * A) * serSum atanhCoef (A * A) 1 n) +
      2 * (A * (A * A) * (A * A) ^ n * atanhCoef (n + 1)) * (16 / 15) := by
  have hA1 : |A| < 1 := by
    rw [abs_of_pos h0]
    nlinarith
  have hs := Real.hasSum_log_sub_log_of_abs_lt_one hA1
  have hf : ∀ N, ∑ k ∈ Finset.range N, (2 : ℝ) * (1 / (2 * k + 1)) * A ^ (2 * k + 1) =
      2 * A * serSum atanhCoef (A * A) 0 N := by
    intro N
    unfold serSum
    rw [Finset.mul_sum]
    refine Finset.sum_congr rfl fun i _ => ?_
    rw [Nat.zero_add]
    unfold atanhCoef
    rw [pow_succ, pow_mul, sq]
    ring
  have hX0 : 0 ≤ A * A := mul_self_nonneg A
  have e0 : 2 * (A + A * (A * A) * serSum atanhCoef (A * A) 1 n) = 2 * A * serSum atanhCoef (A * A) 0 (n + 1) := by
    rw [serSum_cons]
    have : atanhCoef 0 = 1 := by unfold atanhCoef; norm_num
    rw [this]; ring
  rw [e0]
  constructor
  · rw [← hf]
    exact sum_le_hasSum _ (fun i _ => by positivity) hs
  · refine le_of_tendsto hs.tendsto_sum_nat ?_
    filter_upwards [Filter.eventually_ge_atTop (n + 1)] with N hN
    obtain ⟨j, rfl⟩ : ∃ j, N = n + 1 + j := ⟨N - (n + 1), by omega⟩
    rw [hf, serSum_add, Nat.zero_add, mul_add]
    have h2 := (serSum_atanh hX0 h1 (n + 1) j).2
    have h3 : 0 ≤ 2 * A * (A * A) ^ (n + 1) := by positivity
    have h4 := mul_le_mul_of_nonneg_left h2 h3
    have e1 : 2 * (A * (A * A) * (A * A) ^ n * atanhCoef (n + 1)) * (16 / 15) =
        2 * A * (A * A) ^ (n + 1) * (atanhCoef (n + 1) * (16 / 15)) := by ring
    rw [e1, show 2 * A * ((A * A) ^ (n + 1) * serSum atanhCoef (A * A) (n + 1) j) =
      2 * A * (A * A) ^ (n + 1) * serSum atanhCoef (A * A) (n + 1) j by ring]
    linarith

theorem atanh2_ge {A : ℝ} (h0 : 0 < A) (h1 : A * A ≤ 1 / 16) : 2 * A ≤ atanh2 A := by
  have := (atanh2_series h0 h1 0).1
  rw [serSum_zero] at this
  linarith

theorem atanh2_mono {z A : ℝ} (h0 : 0 < z) (h : z ≤ A) (h1 : A < 1) : atanh2 z ≤ atanh2 A := by
  unfold atanh2
  have := Real.log_le_log (by linarith) (show 1 + z ≤ 1 + A by linarith)
  have := Real.log_le_log (by linarith) (show 1 - A ≤ 1 - z by linarith)
  linarith

theorem atanh2_diff {z A : ℝ} (h0 : 0 < z) (h : z ≤ A) (h1 : A ≤ 1 / 16) :
    atanh2 A - atanh2 z ≤ 2 * (A - z) * (16 / 15) := by
  unfold atanh2
  have e1 : Real.log (1 + A) - Real.log (1 + z) ≤ (A - z) * (16 / 15) := by
    rw [← Real.log_div (by linarith) (by linarith)]
    have := Real.log_le_sub_one_of_pos (show 0 < (1 + A) / (1 + z) from div_pos (by linarith) (by linarith))
    have e : (1 + A) / (1 + z) - 1 = (A - z) / (1 + z) := by
      have : (1 + z) ≠ 0 := by linarith
      field_simp; ring
    rw [e] at this
    refine le_trans this ?_
    rw [div_le_iff₀ (by linarith)]
    nlinarith
  have e2 : Real.log (1 - z) - Real.log (1 - A) ≤ (A - z) * (16 / 15) := by
    rw [← Real.log_div (by linarith) (by linarith)]
    have := Real.log_le_sub_one_of_pos (show 0 < (1 - z) / (1 - A) from div_pos (by linarith) (by linarith))
    have e : (1 - z) / (1 - A) - 1 = (A - z) / (1 - A) := by
      have : (1 - A) ≠ 0 := by linarith
      field_simp; ring
    rw [e] at this
    refine le_trans this ?_
    rw [div_le_iff₀ (by linarith)]
    nlinarith
  linarith

/-- The errors of `ln_series` after the reduction. -/
theorem atanh2_combine {δ : ℝ} (hd : DOk δ) {z A S V t : ℝ} (hz : 0 < z) (hz1 : z ≤ 1 / 17)
    (h1 : z * (1 - δ) ^ 2 ≤ A) (h2 : A * (1 - δ) ≤ z) (h3 : 2 * S ≤ atanh2 A) (h4 : atanh2 A ≤ 2 * S + 2 * t * (16 / 15))
    (h5 : t ≤ S * δ * (101 / 100)) (h6 : V ≤ S) (h7 : S * (1 - δ) ^ 4 ≤ V) :
    atanh2 z * (1 - 15 / 2 * δ) ≤ 2 * V ∧ 2 * V ≤ atanh2 z * (1 + 11 / 10 * δ) := by
  have hd0 := hd.nonneg
  have hd1 : δ ≤ 1 / 2 ^ 20 := le_trans hd.small (by norm_num)
  have hA0 : 0 < A := lt_of_lt_of_le (mul_pos hz (hd.pow_pos 2)) h1
  have hA16 : A ≤ 1 / 16 := by nlinarith
  have hAz : A ≤ z * (1 + 101 / 100 * δ) := by nlinarith
  have hzA : z * (1 - 2 * δ) ≤ A := by nlinarith
  have hzz : z * z ≤ 1 / 16 := by nlinarith
  have hAA : A * A ≤ 1 / 16 := by nlinarith
  have gz := atanh2_ge hz hzz
  have gA := atanh2_ge hA0 hAA
  have hS0 : 0 < S := by
    by_contra hc
    push Not at hc
    have : S * δ ≤ 0 := mul_nonpos_of_nonpos_of_nonneg hc hd0
    linarith
  have hq := one_add_mul_le_pow (a := -δ) (by linarith [hd.base.1]) 4
  rw [← sub_eq_add_neg] at hq
  push_cast at hq
  -- the value at `A`
  have up : atanh2 A ≤ atanh2 z * (1 + 11 / 10 * δ) := by
    rcases le_total z A with h | h
    · have := atanh2_diff hz h hA16
      have e : 2 * z * δ ≤ atanh2 z * δ := mul_le_mul_of_nonneg_right gz hd0
      nlinarith only [this, e, hAz, hd0, hz]
    · have := atanh2_mono hA0 h (by linarith)
      have : 0 ≤ atanh2 z * δ := mul_nonneg (by linarith) hd0
      linarith
  have lo : atanh2 z * (1 - 11 / 5 * δ) ≤ atanh2 A := by
    rcases le_total z A with h | h
    · have := atanh2_mono hz h (by linarith)
      have : 0 ≤ atanh2 z * δ := mul_nonneg (by linarith) hd0
      linarith
    · have := atanh2_diff hA0 h (by linarith)
      have e : 2 * z * δ ≤ atanh2 z * δ := mul_le_mul_of_nonneg_right gz hd0
      nlinarith only [this, e, hzA, hd0, hz]
  refine ⟨?_, by linarith⟩
  have s1 : atanh2 A * (1 - 109 / 100 * δ) ≤ 2 * S := by
    have a1 : atanh2 A ≤ 2 * S * (1 + 108 / 100 * δ) := by nlinarith only [h4, h5, hS0, hd0]
    have : 0 ≤ 1 - 109 / 100 * δ := by linarith
    have a2 := mul_le_mul_of_nonneg_right a1 this
    have a3 : 0 ≤ 2 * S * δ := by positivity
    nlinarith only [a2, a3, hd0, hd1]
  have s2 : S * (1 - 4 * δ) ≤ V := by
    refine le_trans (mul_le_mul_of_nonneg_left ?_ hS0.le) h7
    linarith
  have hT := lt_of_lt_of_le (show 0 < 2 * z by linarith) gz
  have c1 : atanh2 z * (1 - 11 / 5 * δ) * (1 - 109 / 100 * δ) ≤ 2 * S :=
    le_trans (mul_le_mul_of_nonneg_right lo (by linarith)) s1
  have c2 : atanh2 z * (1 - 11 / 5 * δ) * (1 - 109 / 100 * δ) * (1 - 4 * δ) ≤ 2 * V := by
    refine le_trans (mul_le_mul_of_nonneg_right c1 (by linarith)) (by linarith)
  refine le_trans ?_ c2
  rw [mul_assoc, mul_assoc]
  refine mul_le_mul_of_nonneg_left ?_ hT.le
  nlinarith only [hd0, hd1, mul_nonneg hd0 hd0, mul_nonneg hd0 (mul_nonneg hd0 hd0)]

end AF
