import Verif.Lemmas.TrigGen
/-!
# The number of argument reductions of sine and cosine
-/

namespace AF

theorem cost_arith' {niter p cm sq nt : Nat} (hp : 128 ≤ p) (h1 : sq ≤ niter) (h2 : nt ≤ niter) :
    niter * (cm + p + (cm + p + 64) * 2) + sq * cm + nt * (2 * cm + p + (cm + p + 64) * 2) ≤ 10 * niter * (cm + p) := by
  have a1 : niter * (cm + p + (cm + p + 64) * 2) ≤ niter * (4 * (cm + p)) := Nat.mul_le_mul_left _ (by omega)
  have a2 : sq * cm ≤ niter * (cm + p) := Nat.mul_le_mul h1 (by omega)
  have a3 : nt * (2 * cm + p + (cm + p + 64) * 2) ≤ niter * (5 * (cm + p)) := Nat.mul_le_mul h2 (by omega)
  have e1 : 10 * niter * (cm + p) = niter * (4 * (cm + p)) + niter * (cm + p) + niter * (5 * (cm + p)) := by ring
  rw [e1]
  exact Nat.add_le_add (Nat.add_le_add a1 a2) a3

theorem seriesCost_le' {niter p : Nat} (hp : 128 ≤ p) :
    seriesCost niter p ((calcMulCost p + calcAddCost p + 64) * 2) ≤ 10 * niter * (calcMulCost p + calcAddCost p) := by
  have h := cost_arith' (cm := calcMulCost p) hp
    (show sqrtInt (niter % 2 ^ 32) ≤ niter from le_trans (sqrtIntLoop_le _ _ _ le_rfl) (Nat.mod_le _ _))
    (Nat.div_le_self niter 10)
  unfold seriesCost calcAddCost
  by_cases hn : niter ≥ RECT_ITER
  · rw [if_pos hn]
    exact h
  · rw [if_neg hn]
    exact le_trans (le_trans (Nat.le_add_right _ _) (Nat.le_add_right _ _)) h

/-- The loop of `series_cost_optimize` ends with a number of reductions not below the first one tried. -/
theorem costLoop_from {redEff : Nat → Nat} {p D step M n0 : Nat} (hp : 128 ≤ p) (hs : 0 < step) (hD : 0 < D)
    {redCost : Nat → Nat → Nat} (hc : ∀ n, redCost n p = n * D)
    (hser : ∀ niter, seriesCost niter p ((calcMulCost p + calcAddCost p + 64) * 2) ≤ 10 * niter * D) :
    ∀ (f n : Nat) (cost1 : Option Nat), n < M + step → M + step - n < f → n0 ≤ n →
      (cost1 = none → 10 * (p / 6) + n < M) →
      (∀ c, cost1 = some c → n0 + step ≤ n ∧ c ≤ M * D) →
      ∃ n' niter meff, costLoop redCost redEff p ((calcMulCost p + calcAddCost p + 64) * 2) 2 step f n cost1 = .ok (n', niter, meff) ∧
        n0 ≤ n' ∧ n' < M ∧ meff = redEff (n' + step) ∧ 2 * niter * (meff + 3) ≤ p
  | 0, n, cost1, _, h, _, _, _ => absurd h (by omega)
  | f + 1, n, cost1, h1, h2, h0, h3, h4 => by
    unfold costLoop
    dsimp only
    obtain ⟨d, d1, d2⟩ := seriesNiter_spec (p := p) (m := redEff n) hp
    rw [d2]
    dsimp only
    have hni : 2 * (p / (d + redEff n) / 2) * (redEff n + 3) ≤ p := by
      calc 2 * (p / (d + redEff n) / 2) * (redEff n + 3) ≤ p / (d + redEff n) * (d + redEff n) :=
            Nat.mul_le_mul (Nat.mul_div_le _ _) (by omega)
        _ ≤ p := Nat.div_mul_le_self _ _
    have hni2 : p / (d + redEff n) / 2 ≤ p / 6 := by
      rw [show 6 = 3 * 2 by norm_num, ← Nat.div_div_eq_div_mul]
      exact Nat.div_le_div_right (Nat.div_le_div_left (by omega) (by omega))
    have hrc := hc n
    generalize hcost2 : seriesCost (p / (d + redEff n) / 2) p ((calcMulCost p + calcAddCost p + 64) * 2) + redCost n p = cost2
    -- a round that goes on
    have go : cost2 ≤ M * D → n < M →
        ∃ n' niter meff, costLoop redCost redEff p ((calcMulCost p + calcAddCost p + 64) * 2) 2 step f (n + step) (some cost2) =
          .ok (n', niter, meff) ∧ n0 ≤ n' ∧ n' < M ∧ meff = redEff (n' + step) ∧ 2 * niter * (meff + 3) ≤ p := by
      intro g1 g2
      exact costLoop_from hp hs hD hc hser f (n + step) (some cost2) (by omega) (by omega) (by omega) (fun h => by cases h)
        (fun c hc => by cases hc; exact ⟨by omega, g1⟩)
    cases hc1 : cost1 with
    | none =>
      dsimp only
      rw [if_pos rfl]
      have k1 := h3 hc1
      refine go ?_ (by omega)
      have k2 := hser (p / (d + redEff n) / 2)
      have k3 : (10 * (p / (d + redEff n) / 2) + n) * D ≤ M * D := Nat.mul_le_mul_right _ (by omega)
      rw [Nat.add_mul] at k3
      rw [← hcost2, hrc]
      exact le_trans (Nat.add_le_add_right k2 _) k3
    | some c =>
      dsimp only
      obtain ⟨k1, k2⟩ := h4 c hc1
      by_cases hlt : cost2 < c
      · rw [if_pos (by simpa using hlt)]
        refine go (by omega) ?_
        have : n * D < M * D := by omega
        exact lt_of_mul_lt_mul_right this (Nat.zero_le _)
      · rw [if_neg (by simpa using hlt)]
        refine ⟨n - step, _, _, rfl, by omega, by omega, by rw [Nat.sub_add_cancel (by omega)], hni⟩

/-- `series_cost_optimize` for sine and cosine. -/
theorem trigCost_spec {p D : Nat} {m : ℤ} (hp : 128 ≤ p) (hm : -3 ≤ m) (hD : 0 < D) {redCost : Nat → Nat → Nat} {redEff : Nat → Nat}
    (hc : ∀ n, redCost n p = n * D)
    (hser : ∀ niter, seriesCost niter p ((calcMulCost p + calcAddCost p + 64) * 2) ≤ 10 * niter * D) :
    ∃ n niter meff step : Nat, seriesCostOptimize redCost redEff p ((calcMulCost p + calcAddCost p + 64) * 2) m 2 = .ok (n, niter, meff) ∧
      n ≤ 2 * p + 40 ∧ 2 * niter * (meff + 3) ≤ p ∧ 3 ≤ step ∧ step ≤ 32 ∧ (step : ℤ) - m ≤ n ∧ meff = redEff (n + step) := by
  unfold seriesCostOptimize
  dsimp only
  have hs1 : 3 ≤ log2Floor p / 2 := by
    have : 7 ≤ log2Floor p := le_log2FloorLoop 64 p 7 (by omega) (by omega)
    omega
  have hs2 : log2Floor p / 2 ≤ 32 := by
    have : log2Floor p ≤ 64 := log2FloorLoop_le_fuel _ _
    omega
  generalize log2Floor p / 2 = step at *
  generalize hn0 : (if (step : ℤ) > m then ((step : ℤ) - m).toNat else 0) = n0
  have hn1 : n0 ≤ step + 3 ∧ (step : ℤ) - m ≤ n0 := by
    rw [← hn0]; split <;> constructor <;> omega
  obtain ⟨n, niter, meff, h1, h2, h3, h4, h5⟩ := costLoop_from (redEff := redEff) (p := p) (D := D) (step := step) (n0 := n0)
    (M := 10 * (p / 6) + n0 + 1) hp (by omega) hD hc hser (6 * p + 2) n0 none (by omega) (by omega) le_rfl
    (fun _ => by omega) (fun c hc => by cases hc)
  exact ⟨n, niter, meff, step, h1, by omega, h5, hs1, hs2, by omega, h4⟩

theorem sinCost_spec {p : Nat} {m : ℤ} (hp : 128 ≤ p) (hm : -3 ≤ m) :
    ∃ n niter meff step : Nat, seriesCostOptimize sinRedCost (sinRedEff m) p ((calcMulCost p + calcAddCost p + 64) * 2) m 2 = .ok (n, niter, meff) ∧
      n ≤ 2 * p + 40 ∧ 2 * niter * (meff + 3) ≤ p ∧ 3 ≤ step ∧ step ≤ 32 ∧ (step : ℤ) - m ≤ n ∧ meff = sinRedEff m (n + step) := by
  have ha : calcAddCost p = p := rfl
  refine trigCost_spec hp hm (D := 2 * calcMulCost p + 3 * calcAddCost p + calcMulCost 128) (by omega) (fun n => rfl) (fun niter => ?_)
  refine le_trans (seriesCost_le (c := calcMulCost 128) hp) ?_
  exact Nat.mul_le_mul_right _ (by omega)

theorem cosCost_spec {p : Nat} {m : ℤ} (hp : 128 ≤ p) (hm : -3 ≤ m) :
    ∃ n niter meff step : Nat, seriesCostOptimize cosRedCost (cosRedEff m) p ((calcMulCost p + calcAddCost p + 64) * 2) m 2 = .ok (n, niter, meff) ∧
      n ≤ 2 * p + 40 ∧ 2 * niter * (meff + 3) ≤ p ∧ 3 ≤ step ∧ step ≤ 32 ∧ (step : ℤ) - m ≤ n ∧ meff = cosRedEff m (n + step) := by
  have ha : calcAddCost p = p := rfl
  exact trigCost_spec hp hm (D := calcMulCost p + calcAddCost p) (by omega) (fun n => rfl) (fun niter => seriesCost_le' hp)

end AF
