import Verif.Lemmas.ExpGen
/-!
# The number of argument reductions
-/

namespace AF

theorem seriesNiter_spec {p m : Nat} (hp : 128 ≤ p) :
    ∃ d, 3 ≤ d ∧ seriesNiter p m = .ok (p / (d + m)) := by
  obtain ⟨ln, hln⟩ : ∃ ln, ln = log2Floor p := ⟨_, rfl⟩
  obtain ⟨lln, hlln⟩ : ∃ lln, lln = log2Floor ln := ⟨_, rfl⟩
  have h3 : 7 ≤ ln := by rw [hln]; exact le_log2FloorLoop 64 p 7 (by omega) (by omega)
  have h4 : 2 ^ lln ≤ ln := by rw [hlln]; exact log2FloorLoop_le _ _ (by omega)
  have h5 : lln + 5 ≤ ln := by
    by_cases h : lln ≤ 2
    · omega
    · have : ∀ j, j + 3 + 5 ≤ 2 ^ (j + 3) := by
        intro j
        induction j with
        | zero => norm_num
        | succ j ih => rw [show j + 1 + 3 = (j + 3) + 1 by omega, pow_succ]; omega
      have := this (lln - 3)
      rw [show lln - 3 + 3 = lln by omega] at this
      omega
  refine ⟨ln - lln - 2, by omega, ?_⟩
  unfold seriesNiter
  dsimp only
  rw [← hln, ← hlln, if_neg (by omega)]
  congr 2
  omega

theorem cost_arith {niter p c cm sq nt : Nat} (hp : 128 ≤ p) (h1 : sq ≤ niter) (h2 : nt ≤ niter) :
    niter * (cm + p + (cm + p + 64) * 2) + sq * cm + nt * (2 * cm + p + (cm + p + 64) * 2) ≤ 5 * niter * (2 * cm + 3 * p + c) := by
  have a1 : niter * (cm + p + (cm + p + 64) * 2) ≤ niter * (2 * (2 * cm + 3 * p + c)) := Nat.mul_le_mul_left _ (by omega)
  have a2 : sq * cm ≤ niter * (2 * cm + 3 * p + c) := Nat.mul_le_mul h1 (by omega)
  have a3 : nt * (2 * cm + p + (cm + p + 64) * 2) ≤ niter * (2 * (2 * cm + 3 * p + c)) := Nat.mul_le_mul h2 (by omega)
  have e1 : 5 * niter * (2 * cm + 3 * p + c) = niter * (2 * (2 * cm + 3 * p + c)) + niter * (2 * cm + 3 * p + c) +
      niter * (2 * (2 * cm + 3 * p + c)) := by ring
  rw [e1]
  exact Nat.add_le_add (Nat.add_le_add a1 a2) a3

theorem seriesCost_le {niter p c : Nat} (hp : 128 ≤ p) :
    seriesCost niter p ((calcMulCost p + calcAddCost p + 64) * 2) ≤
      5 * niter * (2 * calcMulCost p + 3 * calcAddCost p + c) := by
  have h := cost_arith (c := c) (cm := calcMulCost p) hp
    (show sqrtInt (niter % 2 ^ 32) ≤ niter from le_trans (sqrtIntLoop_le _ _ _ le_rfl) (Nat.mod_le _ _))
    (Nat.div_le_self niter 10)
  unfold seriesCost calcAddCost
  by_cases hn : niter ≥ RECT_ITER
  · rw [if_pos hn]
    exact h
  · rw [if_neg hn]
    exact le_trans (le_trans (Nat.le_add_right _ _) (Nat.le_add_right _ _)) h

/-- The loop of `series_cost_optimize` ends; the returned number of reductions is one step below the one that the
other results belong to. -/
theorem costLoop_spec {redEff : Nat → Nat} {p c128 step M : Nat} (hp : 128 ≤ p) (hs : 0 < step)
    {redCost : Nat → Nat → Nat} (hc : ∀ n, redCost n p = n * (2 * calcMulCost p + 3 * calcAddCost p + c128)) :
    ∀ (f n : Nat) (cost1 : Option Nat), n < M + step → M + step - n < f →
      (cost1 = none → 5 * (p / 6) + n < M) →
      (∀ c, cost1 = some c → step ≤ n ∧ c ≤ M * (2 * calcMulCost p + 3 * calcAddCost p + c128)) →
      ∃ n' niter meff, costLoop redCost redEff p ((calcMulCost p + calcAddCost p + 64) * 2) 2 step f n cost1 = .ok (n', niter, meff) ∧
        n' < M ∧ meff = redEff (n' + step) ∧ 2 * niter * (meff + 3) ≤ p
  | 0, n, cost1, _, h, _, _ => absurd h (by omega)
  | f + 1, n, cost1, h1, h2, h3, h4 => by
    unfold costLoop
    dsimp only
    obtain ⟨d, d1, d2⟩ := seriesNiter_spec (p := p) (m := redEff n) hp
    rw [d2]
    dsimp only
    have hni : 2 * (p / (d + redEff n) / 2) * (redEff n + 3) ≤ p := by
      calc 2 * (p / (d + redEff n) / 2) * (redEff n + 3) ≤ p / (d + redEff n) * (d + redEff n) :=
            Nat.mul_le_mul (Nat.mul_div_le _ _) (by omega)
        _ ≤ p := Nat.div_mul_le_self _ _
    have hni2 : p / (d + redEff n) / 2 ≤ p / 6 := by
      rw [show 6 = 3 * 2 by norm_num, ← Nat.div_div_eq_div_mul]
      exact Nat.div_le_div_right (Nat.div_le_div_left (by omega) (by omega))
    have hA : 0 < 2 * calcMulCost p + 3 * calcAddCost p + c128 := by
      have : calcAddCost p = p := rfl
      omega
    have hrc := hc n
    generalize hcost2 : seriesCost (p / (d + redEff n) / 2) p ((calcMulCost p + calcAddCost p + 64) * 2) + redCost n p = cost2
    -- a round that goes on
    have go : cost2 ≤ M * (2 * calcMulCost p + 3 * calcAddCost p + c128) → n < M →
        ∃ n' niter meff, costLoop redCost redEff p ((calcMulCost p + calcAddCost p + 64) * 2) 2 step f (n + step) (some cost2) =
          .ok (n', niter, meff) ∧ n' < M ∧ meff = redEff (n' + step) ∧ 2 * niter * (meff + 3) ≤ p := by
      intro g1 g2
      exact costLoop_spec hp hs hc f (n + step) (some cost2) (by omega) (by omega) (fun h => by cases h)
        (fun c hc => by cases hc; exact ⟨by omega, g1⟩)
    cases hc1 : cost1 with
    | none =>
      dsimp only
      rw [if_pos rfl]
      have k1 := h3 hc1
      refine go ?_ (by omega)
      have k2 := seriesCost_le (niter := p / (d + redEff n) / 2) (c := c128) hp
      have k3 : (5 * (p / (d + redEff n) / 2) + n) * (2 * calcMulCost p + 3 * calcAddCost p + c128) ≤
          M * (2 * calcMulCost p + 3 * calcAddCost p + c128) := Nat.mul_le_mul_right _ (by omega)
      rw [Nat.add_mul] at k3
      rw [← hcost2, hrc]
      exact le_trans (Nat.add_le_add_right k2 _) k3
    | some c =>
      dsimp only
      obtain ⟨k1, k2⟩ := h4 c hc1
      by_cases hlt : cost2 < c
      · rw [if_pos (by simpa using hlt)]
        refine go (by omega) ?_
        have : n * (2 * calcMulCost p + 3 * calcAddCost p + c128) < M * (2 * calcMulCost p + 3 * calcAddCost p + c128) := by omega
        exact lt_of_mul_lt_mul_right this (Nat.zero_le _)
      · rw [if_neg (by simpa using hlt)]
        refine ⟨n - step, _, _, rfl, by omega, by rw [Nat.sub_add_cancel k1], hni⟩

/-- `series_cost_optimize` for the hyperbolic sine. -/
theorem seriesCostOptimize_spec {p : Nat} {m : ℤ} (hp : 128 ≤ p) (hm : 0 ≤ m) :
    ∃ n niter meff, seriesCostOptimize sinhRedCost (sinhRedEff m) p ((calcMulCost p + calcAddCost p + 64) * 2) m 2 =
        .ok (n, niter, meff) ∧ n ≤ p + 32 ∧ 2 * niter * (meff + 3) ≤ p ∧
        (n : ℤ) * 3 / 2 + m ≤ meff ∧ (meff : ℤ) ≤ 2 * p + 200 + m := by
  unfold seriesCostOptimize
  dsimp only
  have hs1 : 3 ≤ log2Floor p / 2 := by
    have : 7 ≤ log2Floor p := le_log2FloorLoop 64 p 7 (by omega) (by omega)
    omega
  have hs2 : log2Floor p / 2 ≤ 32 := by
    have : log2Floor p ≤ 64 := log2FloorLoop_le_fuel _ _
    omega
  generalize log2Floor p / 2 = step at *
  generalize hn0 : (if (step : ℤ) > m then ((step : ℤ) - m).toNat else 0) = n0
  have hn1 : n0 ≤ step := by
    rw [← hn0]; split <;> omega
  obtain ⟨n, niter, meff, h1, h2, h3, h4⟩ := costLoop_spec (redEff := sinhRedEff m) (p := p) (c128 := calcMulCost 128) (step := step)
    (M := 5 * (p / 6) + n0 + 1) hp (by omega) (redCost := sinhRedCost) (fun n => rfl) (6 * p + 2) n0 none (by omega) (by omega)
    (fun _ => by omega) (fun c hc => by cases hc)
  refine ⟨n, niter, meff, h1, by omega, h4, ?_, ?_⟩
  · rw [h3]; unfold sinhRedEff; omega
  · rw [h3]; unfold sinhRedEff; omega

end AF
