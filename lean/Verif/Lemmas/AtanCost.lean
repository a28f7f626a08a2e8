import Verif.Lemmas.ExpCost
import Verif.Model.Atan
/-!
# The number of argument reductions of the arctangent
-/

namespace AF

/-- The cost of one reduction. -/
def atanCostA (p : Nat) : Nat := 2 * (calcMulCost p + calcAddCost p) + calcSqrtCost p (calcMulCost p) (calcAddCost p)

theorem atanCost_arith {niter p cm sq nt A : Nat} (hp : 128 ≤ p) (hA : 2 * (cm + p) ≤ A) (h1 : sq ≤ niter) (h2 : nt ≤ niter) :
    niter * (cm + p + 64) + sq * cm + nt * (2 * cm + p + 64) ≤ 5 * niter * A := by
  have a1 : niter * (cm + p + 64) ≤ niter * A := Nat.mul_le_mul_left _ (by omega)
  have a2 : sq * cm ≤ niter * A := Nat.mul_le_mul h1 (by omega)
  have a3 : nt * (2 * cm + p + 64) ≤ niter * A := Nat.mul_le_mul h2 (by omega)
  have e1 : 5 * niter * A = niter * A + niter * A + niter * A + 2 * (niter * A) := by ring
  omega

theorem atanSeriesCost_le {niter p : Nat} (hp : 128 ≤ p) : seriesCost niter p 64 ≤ 5 * niter * atanCostA p := by
  have h := atanCost_arith (cm := calcMulCost p) (A := atanCostA p) hp (by unfold atanCostA calcAddCost; omega)
    (show sqrtInt (niter % 2 ^ 32) ≤ niter from le_trans (sqrtIntLoop_le _ _ _ le_rfl) (Nat.mod_le _ _))
    (Nat.div_le_self niter 10)
  unfold seriesCost calcAddCost
  by_cases hn : niter ≥ RECT_ITER
  · rw [if_pos hn]
    exact h
  · rw [if_neg hn]
    exact le_trans (le_trans (Nat.le_add_right _ _) (Nat.le_add_right _ _)) h

theorem atanCostLoop_spec {redEff : Nat → Nat} {p step M n0 : Nat} (hp : 128 ≤ p) (hs : 0 < step) :
    ∀ (f n : Nat) (cost1 : Option Nat), n < M + step → M + step - n < f →
      (cost1 = none → 5 * (p / 6) + n < M ∧ n = n0) →
      (∀ c, cost1 = some c → n0 + step ≤ n ∧ c ≤ M * atanCostA p) →
      ∃ n' niter meff, costLoop atanRedCost redEff p 64 2 step f n cost1 = .ok (n', niter, meff) ∧
        n' < M ∧ n0 ≤ n' ∧ meff = redEff (n' + step) ∧ 2 * niter * (meff + 3) ≤ p
  | 0, n, cost1, _, h, _, _ => absurd h (by omega)
  | f + 1, n, cost1, h1, h2, h3, h4 => by
    unfold costLoop
    dsimp only
    obtain ⟨d, d1, d2⟩ := seriesNiter_spec (p := p) (m := redEff n) hp
    rw [d2]
    dsimp only
    have hni : 2 * (p / (d + redEff n) / 2) * (redEff n + 3) ≤ p := by
      calc 2 * (p / (d + redEff n) / 2) * (redEff n + 3) ≤ p / (d + redEff n) * (d + redEff n) :=
            Nat.mul_le_mul (Nat.mul_div_le _ _) (by omega)
        _ ≤ p := Nat.div_mul_le_self _ _
    have hni2 : p / (d + redEff n) / 2 ≤ p / 6 := by
      rw [show 6 = 3 * 2 by norm_num, ← Nat.div_div_eq_div_mul]
      exact Nat.div_le_div_right (Nat.div_le_div_left (by omega) (by omega))
    have hA : 0 < atanCostA p := by
      unfold atanCostA
      have : calcAddCost p = p := rfl
      omega
    have hrc : atanRedCost n p = n * atanCostA p := rfl
    generalize hcost2 : seriesCost (p / (d + redEff n) / 2) p 64 + atanRedCost n p = cost2
    have go : cost2 ≤ M * atanCostA p → n < M → n0 ≤ n →
        ∃ n' niter meff, costLoop atanRedCost redEff p 64 2 step f (n + step) (some cost2) =
          .ok (n', niter, meff) ∧ n' < M ∧ n0 ≤ n' ∧ meff = redEff (n' + step) ∧ 2 * niter * (meff + 3) ≤ p := by
      intro g1 g2 g3
      exact atanCostLoop_spec hp hs f (n + step) (some cost2) (by omega) (by omega) (fun h => by cases h)
        (fun c hc => by cases hc; exact ⟨by omega, g1⟩)
    cases hc1 : cost1 with
    | none =>
      dsimp only
      rw [if_pos rfl]
      obtain ⟨k1, k1'⟩ := h3 hc1
      refine go ?_ (by omega) (by omega)
      have k2 := atanSeriesCost_le (niter := p / (d + redEff n) / 2) hp
      have k3 : (5 * (p / (d + redEff n) / 2) + n) * atanCostA p ≤ M * atanCostA p := Nat.mul_le_mul_right _ (by omega)
      rw [Nat.add_mul] at k3
      rw [← hcost2, hrc]
      exact le_trans (Nat.add_le_add_right k2 _) k3
    | some c =>
      dsimp only
      obtain ⟨k1, k2⟩ := h4 c hc1
      by_cases hlt : cost2 < c
      · rw [if_pos (by simpa using hlt)]
        refine go (by omega) ?_ (by omega)
        have : n * atanCostA p < M * atanCostA p := by omega
        exact lt_of_mul_lt_mul_right this (Nat.zero_le _)
      · rw [if_neg (by simpa using hlt)]
        refine ⟨n - step, _, _, rfl, by omega, by omega, by rw [Nat.sub_add_cancel (by omega)], hni⟩

/-- `series_cost_optimize` for the arctangent. -/
theorem atanCost_spec {p : Nat} {m : ℤ} (hp : 128 ≤ p) (hm : -1 ≤ m) :
    ∃ n niter meff, seriesCostOptimize atanRedCost (atanRedEff m) p 64 m 2 = .ok (n, niter, meff) ∧ n ≤ p + 32 ∧
      3 ≤ (n : ℤ) + m ∧ (n : ℤ) + m + 3 ≤ meff ∧ (meff : ℤ) ≤ n + m + 32 ∧ 2 * niter * (meff + 3) ≤ p := by
  unfold seriesCostOptimize
  dsimp only
  have hs1 : 3 ≤ log2Floor p / 2 := by
    have : 7 ≤ log2Floor p := le_log2FloorLoop 64 p 7 (by omega) (by omega)
    omega
  have hs2 : log2Floor p / 2 ≤ 32 := by
    have : log2Floor p ≤ 64 := log2FloorLoop_le_fuel _ _
    omega
  generalize log2Floor p / 2 = step at *
  generalize hn0 : (if (step : ℤ) > m then ((step : ℤ) - m).toNat else 0) = n0
  have hn1 : n0 ≤ step + 1 ∧ (step : ℤ) ≤ n0 + m := by
    rw [← hn0]; split <;> omega
  obtain ⟨n, niter, meff, h1, h2, h2', h3, h4⟩ := atanCostLoop_spec (redEff := atanRedEff m) (p := p) (step := step) (n0 := n0)
    (M := 5 * (p / 6) + n0 + 1) hp (by omega) (6 * p + 2) n0 none (by omega) (by omega)
    (fun _ => ⟨by omega, rfl⟩) (fun c hc => by cases hc)
  have : (meff : ℤ) = n + step + m := by rw [h3]; unfold atanRedEff; omega
  exact ⟨n, niter, meff, h1, by omega, by omega, by omega, by omega, h4⟩

end AF
