import Verif.Lemmas.TanSer
import Verif.Lemmas.CosCost
/-!
# The number of argument reductions of the tangent
-/

namespace AF

theorem tanIterCost_le {p : Nat} (hp : 128 ≤ p) : tanIterCost p ≤ 5 * (2 * calcMulCost p + calcAddCost p) := by
  unfold tanIterCost
  have h1 : calcAddCost p = p := rfl
  have h2 : calcAddCost 64 = 64 := rfl
  omega

theorem tanCostLoop_spec {m : ℤ} {p D step M n0 : Nat} (hp : 128 ≤ p) (hs : 0 < step) (hD : D = 2 * calcMulCost p + calcAddCost p) :
    ∀ (f n : Nat) (cost1 : Option Nat), n < M + step → M + step - n < f → n0 ≤ n →
      (cost1 = none → ∀ niter, niter * (tanRedEff m n + 3) ≤ p → 5 * niter + n < M) →
      (∀ c, cost1 = some c → n0 + step ≤ n ∧ c ≤ M * D) →
      ∃ n' niter meff, tanCostLoop m p step f n cost1 = .ok (n', niter, meff) ∧
        n0 ≤ n' ∧ n' < M ∧ meff = tanRedEff m (n' + step)
  | 0, n, cost1, _, h, _, _, _ => absurd h (by omega)
  | f + 1, n, cost1, h1, h2, h0, h3, h4 => by
    unfold tanCostLoop
    dsimp only
    obtain ⟨d, d1, d2⟩ := seriesNiter_spec (p := p) (m := tanRedEff m n) hp
    rw [d2]
    dsimp only
    have hni : p / (d + tanRedEff m n) * (tanRedEff m n + 3) ≤ p := by
      calc p / (d + tanRedEff m n) * (tanRedEff m n + 3) ≤ p / (d + tanRedEff m n) * (d + tanRedEff m n) :=
            Nat.mul_le_mul_left _ (by omega)
        _ ≤ p := Nat.div_mul_le_self _ _
    have hrc : tanRedCost n p = n * D := by rw [hD]; rfl
    have hic := tanIterCost_le hp
    rw [← hD] at hic
    generalize hcost2 : tanIterCost p * (p / (d + tanRedEff m n)) + tanRedCost n p = cost2
    have go : cost2 ≤ M * D → n < M →
        ∃ n' niter meff, tanCostLoop m p step f (n + step) (some cost2) = .ok (n', niter, meff) ∧ n0 ≤ n' ∧ n' < M ∧
          meff = tanRedEff m (n' + step) := by
      intro g1 g2
      exact tanCostLoop_spec hp hs hD f (n + step) (some cost2) (by omega) (by omega) (by omega) (fun h => by cases h)
        (fun c hc => by cases hc; exact ⟨by omega, g1⟩)
    cases hc1 : cost1 with
    | none =>
      dsimp only
      rw [if_pos rfl]
      have k1 := h3 hc1 _ hni
      refine go ?_ (by omega)
      have k2 : tanIterCost p * (p / (d + tanRedEff m n)) ≤ 5 * D * (p / (d + tanRedEff m n)) := Nat.mul_le_mul_right _ hic
      have k3 : (5 * (p / (d + tanRedEff m n)) + n) * D ≤ M * D := Nat.mul_le_mul_right _ (by omega)
      rw [← hcost2, hrc]
      calc tanIterCost p * (p / (d + tanRedEff m n)) + n * D ≤ 5 * D * (p / (d + tanRedEff m n)) + n * D := Nat.add_le_add_right k2 _
        _ = (5 * (p / (d + tanRedEff m n)) + n) * D := by ring
        _ ≤ _ := k3
    | some c =>
      dsimp only
      obtain ⟨k1, k2⟩ := h4 c hc1
      by_cases hlt : cost2 < c
      · rw [if_pos (by simpa using hlt)]
        refine go (by omega) ?_
        have : n * D < M * D := by omega
        exact lt_of_mul_lt_mul_right this (Nat.zero_le _)
      · rw [if_neg (by simpa using hlt)]
        refine ⟨n - step, _, _, rfl, by omega, by omega, by rw [Nat.sub_add_cancel (by omega)]⟩

/-- `series_cost_optimize` for the tangent. -/
theorem tanCost_spec {p : Nat} {m : ℤ} (hp : 128 ≤ p) (hp2 : p ≤ 2 ^ 16) (hm : -3 ≤ m) :
    ∃ n niter meff step : Nat, tanCostOptimize p m = .ok (n, niter, meff) ∧ 6 * n ≤ 5 * p + 72 ∧ 3 ≤ step ∧ step ≤ 8 ∧
      (step : ℤ) - m ≤ n ∧ meff = tanRedEff m (n + step) := by
  unfold tanCostOptimize
  dsimp only
  have hs1 : 3 ≤ log2Floor p / 2 := by
    have : 7 ≤ log2Floor p := le_log2FloorLoop 64 p 7 (by omega) (by omega)
    omega
  have hs2 := log2Floor_step (by omega) hp2
  generalize log2Floor p / 2 = step at *
  generalize hn0 : (if (step : ℤ) > m then ((step : ℤ) - m).toNat else 0) = n0
  have hn1 : n0 ≤ step + 3 ∧ (step : ℤ) - m ≤ n0 := by
    rw [← hn0]; split <;> constructor <;> omega
  have he : tanRedEff m n0 = ((n0 : ℤ) + m).toNat := rfl
  obtain ⟨n, niter, meff, h1, h2, h3, h4⟩ := tanCostLoop_spec (m := m) (p := p) (D := _) (step := step) (n0 := n0)
    (M := 5 * (p / (tanRedEff m n0 + 3)) + n0 + 1) hp (by omega) rfl
    (6 * p + 2) n0 none (by omega) (by
      have : p / (tanRedEff m n0 + 3) ≤ p / 6 := Nat.div_le_div_left (by omega) (by omega)
      omega) le_rfl
    (fun _ niter h => by
      have : niter ≤ p / (tanRedEff m n0 + 3) := (Nat.le_div_iff_mul_le (by omega)).2 h
      omega) (fun c hc => by cases hc)
  have hb : p / (tanRedEff m n0 + 3) ≤ p / 6 := Nat.div_le_div_left (by omega) (by omega)
  refine ⟨n, niter, meff, step, h1, by omega, hs1, hs2, by omega, h4⟩

end AF
