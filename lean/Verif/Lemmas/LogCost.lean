import Verif.Model.Log
/-!
# The number of argument reductions of the logarithm

The optimiser depends only on the precision. Its results are evaluated for all precisions up to `2^17` bits.
-/

namespace AF

/-- What the error bounds need: enough reductions for the series, few enough for the extra bits of the argument. -/
def lnCostOk (k : Nat) : Bool :=
  match seriesCostOptimize lnRedCost lnRedEff (64 * k) (64 * k + 64) 0 2 with
  | .ok (n, ni, m) => decide (n ≤ 55) && decide (3 ≤ n) && decide (64 * k ≤ 4 ^ (n + 1)) && decide (7 ≤ m + 1) &&
      (decide (ni < 108) || decide (32 * ni ≤ 64 * k)) && decide (ni ≤ 1100)
  | .error _ => false

/-- `lnCostOk` for `n` values from `k` on. -/
def lnCostAll : Nat → Nat → Bool
  | 0, _ => true
  | n + 1, k => lnCostOk k && lnCostAll n (k + 1)

theorem lnCostAll_get : ∀ {n k j : Nat}, lnCostAll n k = true → k ≤ j → j < k + n → lnCostOk j = true
  | 0, _, _, _, h1, h2 => absurd h2 (by omega)
  | n + 1, k, j, h, h1, h2 => by
    unfold lnCostAll at h
    rw [Bool.and_eq_true] at h
    by_cases hj : j = k
    · rw [hj]; exact h.1
    · exact lnCostAll_get h.2 (by omega) (by omega)

set_option maxRecDepth 100000 in
theorem lnCost_table : lnCostAll 2046 3 = true := by decide +kernel

theorem lnCost_spec {P : Nat} (h1 : 192 ≤ P) (h2 : P ≤ 2 ^ 17) (h3 : 64 ∣ P) :
    ∃ n ni m, seriesCostOptimize lnRedCost lnRedEff P (P + 64) 0 2 = .ok (n, ni, m) ∧ n ≤ 55 ∧ 3 ≤ n ∧
      P ≤ 4 ^ (n + 1) ∧ 6 ≤ m ∧ (108 ≤ ni → 32 * ni ≤ P) ∧ ni ≤ 1100 := by
  obtain ⟨k, rfl⟩ := h3
  have h := lnCostAll_get (j := k) lnCost_table (by omega) (by omega)
  unfold lnCostOk at h
  cases hr : seriesCostOptimize lnRedCost lnRedEff (64 * k) (64 * k + 64) 0 2 with
  | error e => rw [hr] at h; exact absurd h Bool.false_ne_true
  | ok r =>
    obtain ⟨n, ni, m⟩ := r
    rw [hr] at h
    simp only [Bool.and_eq_true, Bool.or_eq_true, decide_eq_true_eq] at h
    exact ⟨n, ni, m, rfl, by omega, by omega, by omega, by omega, by omega, by omega⟩

end AF
