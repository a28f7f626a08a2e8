import Verif.Lemmas.TrigCost
/-!
# Partial sums of the series of sine and cosine
-/

namespace AF

theorem trig_partial {s : Nat} (hs : s ≤ 1) {c X S : ℝ} (h0 : 0 ≤ X) (h1 : X ≤ 1) (h : HasSum (fun i => c * X ^ i * trigCoef s i) S) (n : Nat) :
    |S - (c + c * X * serSum (trigCoef s) X 1 n)| ≤ 2 * (|c * X| * X ^ n * |trigCoef s (n + 1)|) := by
  have hz : trigCoef s 0 = 1 := by
    unfold trigCoef
    interval_cases s <;> simp
  have hpart : ∑ i ∈ Finset.range (n + 1), c * X ^ i * trigCoef s i = c + c * X * serSum (trigCoef s) X 1 n := by
    rw [Finset.sum_range_succ', pow_zero, mul_one, hz, mul_one, add_comm]
    congr 1
    unfold serSum
    rw [Finset.mul_sum]
    refine Finset.sum_congr rfl fun i _ => ?_
    rw [pow_succ, add_comm 1 i]; ring
  have h2 := (hasSum_nat_add_iff' (n + 1)).2 h
  rw [hpart] at h2
  have hg : HasSum (fun i : ℕ => |c * X| * X ^ n * |trigCoef s (n + 1)| * (1 / 2) ^ i)
      (|c * X| * X ^ n * |trigCoef s (n + 1)| * 2) := hasSum_geometric_two.mul_left _
  have hdec : ∀ i, |trigCoef s (n + 1 + i)| ≤ |trigCoef s (n + 1)| * (1 / 2) ^ i := by
    intro i
    induction i with
    | zero => simp
    | succ i ih =>
      have h3 := trigCoef_half s (n + 1 + i)
      rw [pow_succ, ← add_assoc]
      linarith
  have h3 := tsum_of_norm_bounded hg (f := fun i => c * X ^ (i + (n + 1)) * trigCoef s (i + (n + 1))) (fun i => by
    rw [Real.norm_eq_abs, abs_mul, show i + (n + 1) = n + 1 + i by ring]
    have e1 : |c * X ^ (n + 1 + i)| = |c * X| * X ^ n * X ^ i := by
      rw [pow_add, pow_succ, show c * (X ^ n * X * X ^ i) = c * X * (X ^ n * X ^ i) by ring, abs_mul, abs_of_nonneg (a := X ^ n * X ^ i) (by positivity)]
      ring
    rw [e1, mul_assoc (|c * X| * X ^ n), mul_assoc (|c * X| * X ^ n)]
    refine mul_le_mul_of_nonneg_left ?_ (by positivity)
    exact le_trans (mul_le_of_le_one_left (abs_nonneg _) (pow_le_one₀ h0 h1)) (hdec i))
  rw [h2.tsum_eq, Real.norm_eq_abs] at h3
  linarith

theorem sin_partial {x : ℝ} (h1 : x * x ≤ 1) (n : Nat) :
    |Real.sin x - (x + x * (x * x) * serSum (trigCoef 1) (x * x) 1 n)| ≤
      2 * (|x * (x * x)| * (x * x) ^ n * |trigCoef 1 (n + 1)|) := by
  refine trig_partial le_rfl (mul_self_nonneg x) h1 ?_ n
  have hs := Real.hasSum_sin x
  have e : (fun i => x * (x * x) ^ i * trigCoef 1 i) = fun i : ℕ => (-1) ^ i * x ^ (2 * i + 1) / ((2 * i + 1).factorial : ℝ) := by
    funext i
    unfold trigCoef
    rw [pow_succ, pow_mul, sq]; ring
  rw [e]
  exact hs

theorem cos_partial {x : ℝ} (h1 : x * x ≤ 1) (n : Nat) :
    |Real.cos x - (1 + x * x * serSum (trigCoef 0) (x * x) 1 n)| ≤
      2 * (|x * x| * (x * x) ^ n * |trigCoef 0 (n + 1)|) := by
  have h := trig_partial (s := 0) (c := 1) (by norm_num) (mul_self_nonneg x) h1 (S := Real.cos x) ?_ n
  · rw [one_mul] at h
    exact h
  have hs := Real.hasSum_cos x
  have e : (fun i => 1 * (x * x) ^ i * trigCoef 0 i) = fun i : ℕ => (-1) ^ i * x ^ (2 * i) / ((2 * i).factorial : ℝ) := by
    funext i
    unfold trigCoef
    rw [pow_mul, sq, add_zero]; ring
  rw [e]
  exact hs

end AF
