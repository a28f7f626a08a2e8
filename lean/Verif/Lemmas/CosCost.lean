import Verif.Lemmas.CosSer
/-!
# The number of argument reductions of the cosine
-/

namespace AF

/-- As `costLoop_from`, with the number of terms for the first number of reductions tried. -/
theorem costLoop_first {redEff : Nat → Nat} {p D step M n0 : Nat} (hp : 128 ≤ p) (hs : 0 < step) (hD : 0 < D)
    {redCost : Nat → Nat → Nat} (hc : ∀ n, redCost n p = n * D)
    (hser : ∀ niter, seriesCost niter p ((calcMulCost p + calcAddCost p + 64) * 2) ≤ 10 * niter * D) :
    ∀ (f n : Nat) (cost1 : Option Nat), n < M + step → M + step - n < f → n0 ≤ n →
      (cost1 = none → ∀ niter, 2 * niter * (redEff n + 3) ≤ p → 10 * niter + n < M) →
      (∀ c, cost1 = some c → n0 + step ≤ n ∧ c ≤ M * D) →
      ∃ n' niter meff, costLoop redCost redEff p ((calcMulCost p + calcAddCost p + 64) * 2) 2 step f n cost1 = .ok (n', niter, meff) ∧
        n0 ≤ n' ∧ n' < M ∧ meff = redEff (n' + step) ∧ 2 * niter * (meff + 3) ≤ p
  | 0, n, cost1, _, h, _, _, _ => absurd h (by omega)
  | f + 1, n, cost1, h1, h2, h0, h3, h4 => by
    unfold costLoop
    dsimp only
    obtain ⟨d, d1, d2⟩ := seriesNiter_spec (p := p) (m := redEff n) hp
    rw [d2]
    dsimp only
    have hni : 2 * (p / (d + redEff n) / 2) * (redEff n + 3) ≤ p := by
      calc 2 * (p / (d + redEff n) / 2) * (redEff n + 3) ≤ p / (d + redEff n) * (d + redEff n) :=
            Nat.mul_le_mul (Nat.mul_div_le _ _) (by omega)
        _ ≤ p := Nat.div_mul_le_self _ _
    have hrc := hc n
    generalize hcost2 : seriesCost (p / (d + redEff n) / 2) p ((calcMulCost p + calcAddCost p + 64) * 2) + redCost n p = cost2
    -- a round that goes on
    have go : cost2 ≤ M * D → n < M →
        ∃ n' niter meff, costLoop redCost redEff p ((calcMulCost p + calcAddCost p + 64) * 2) 2 step f (n + step) (some cost2) =
          .ok (n', niter, meff) ∧ n0 ≤ n' ∧ n' < M ∧ meff = redEff (n' + step) ∧ 2 * niter * (meff + 3) ≤ p := by
      intro g1 g2
      exact costLoop_first hp hs hD hc hser f (n + step) (some cost2) (by omega) (by omega) (by omega) (fun h => by cases h)
        (fun c hc => by cases hc; exact ⟨by omega, g1⟩)
    cases hc1 : cost1 with
    | none =>
      dsimp only
      rw [if_pos rfl]
      have k1 := h3 hc1 _ hni
      refine go ?_ (by omega)
      have k2 := hser (p / (d + redEff n) / 2)
      have k3 : (10 * (p / (d + redEff n) / 2) + n) * D ≤ M * D := Nat.mul_le_mul_right _ (by omega)
      rw [Nat.add_mul] at k3
      rw [← hcost2, hrc]
      exact le_trans (Nat.add_le_add_right k2 _) k3
    | some c =>
      dsimp only
      obtain ⟨k1, k2⟩ := h4 c hc1
      by_cases hlt : cost2 < c
      · rw [if_pos (by simpa using hlt)]
        refine go (by omega) ?_
        have : n * D < M * D := by omega
        exact lt_of_mul_lt_mul_right this (Nat.zero_le _)
      · rw [if_neg (by simpa using hlt)]
        refine ⟨n - step, _, _, rfl, by omega, by omega, by rw [Nat.sub_add_cancel (by omega)], hni⟩

theorem log2Floor_step {p : Nat} (h0 : 0 < p) (hp : p ≤ 2 ^ 16) : log2Floor p / 2 ≤ 8 := by
  have h1 : 2 ^ log2Floor p ≤ 2 ^ 16 := le_trans (log2FloorLoop_le 64 p h0) hp
  have := (Nat.pow_le_pow_iff_right (by norm_num)).1 h1
  omega

/-- `series_cost_optimize` for the cosine. -/
theorem cosCost_first {p : Nat} {m : ℤ} (hp : 128 ≤ p) (hp2 : p ≤ 2 ^ 16) (hm : -3 ≤ m) :
    ∃ n niter meff step : Nat, seriesCostOptimize cosRedCost (cosRedEff m) p ((calcMulCost p + calcAddCost p + 64) * 2) m 2 = .ok (n, niter, meff) ∧
      n ≤ 2 * p + 40 ∧ 2 * niter * (meff + 3) ≤ p ∧ 3 ≤ step ∧ step ≤ 8 ∧ (step : ℤ) - m ≤ n ∧ meff = cosRedEff m (n + step) ∧
      ((step : ℤ) ≤ m → (n : ℤ) * (m + 3) ≤ 5 * p) := by
  unfold seriesCostOptimize
  dsimp only
  have ha : calcAddCost p = p := rfl
  have hs1 : 3 ≤ log2Floor p / 2 := by
    have : 7 ≤ log2Floor p := le_log2FloorLoop 64 p 7 (by omega) (by omega)
    omega
  have hs2 := log2Floor_step (by omega) hp2
  generalize log2Floor p / 2 = step at *
  generalize hn0 : (if (step : ℤ) > m then ((step : ℤ) - m).toNat else 0) = n0
  have hn1 : n0 ≤ step + 3 ∧ (step : ℤ) - m ≤ n0 := by
    rw [← hn0]; split <;> constructor <;> omega
  have he : cosRedEff m n0 = ((n0 : ℤ) + m).toNat := rfl
  obtain ⟨n, niter, meff, h1, h2, h3, h4, h5⟩ := costLoop_first (redEff := cosRedEff m) (redCost := cosRedCost) (p := p)
    (D := calcMulCost p + calcAddCost p) (step := step) (n0 := n0)
    (M := 10 * (p / (2 * (cosRedEff m n0 + 3))) + n0 + 1) hp (by omega) (by omega) (fun _ => rfl) (fun _ => seriesCost_le' hp)
    (6 * p + 2) n0 none (by omega) (by
      have : p / (2 * (cosRedEff m n0 + 3)) ≤ p / 6 := Nat.div_le_div_left (by omega) (by omega)
      omega) le_rfl
    (fun _ niter h => by
      have : niter ≤ p / (2 * (cosRedEff m n0 + 3)) := by
        rw [Nat.le_div_iff_mul_le (by omega)]
        calc niter * (2 * (cosRedEff m n0 + 3)) = 2 * niter * (cosRedEff m n0 + 3) := by ring
          _ ≤ p := h
      omega) (fun c hc => by cases hc)
  have hb : p / (2 * (cosRedEff m n0 + 3)) ≤ p / 6 := Nat.div_le_div_left (by omega) (by omega)
  refine ⟨n, niter, meff, step, h1, by omega, h5, hs1, hs2, by omega, h4, fun hsm => ?_⟩
  have hn00 : n0 = 0 := by rw [← hn0, if_neg (by omega)]
  obtain ⟨j, hj⟩ : ∃ j : ℕ, m = j := ⟨m.toNat, by omega⟩
  have he2 : cosRedEff m n0 = j := by rw [he, hn00]; omega
  rw [he2, hn00] at h3
  have h6 : n ≤ 10 * (p / (2 * (j + 3))) := by omega
  have h7 : n * (2 * (j + 3)) ≤ 10 * p := by
    calc n * (2 * (j + 3)) ≤ 10 * (p / (2 * (j + 3))) * (2 * (j + 3)) := Nat.mul_le_mul_right _ h6
      _ = 10 * (p / (2 * (j + 3)) * (2 * (j + 3))) := by ring
      _ ≤ 10 * p := Nat.mul_le_mul_left _ (Nat.div_mul_le_self _ _)
  have h8 : n * (j + 3) ≤ 5 * p := by
    have : n * (2 * (j + 3)) = 2 * (n * (j + 3)) := by ring
    omega
  rw [hj]
  exact_mod_cast h8

end AF
