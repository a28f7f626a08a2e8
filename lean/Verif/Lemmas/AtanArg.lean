import Verif.Lemmas.AtanRed
import Verif.Lemmas.AtanCost
import Verif.Lemmas.HypArith
import Verif.Lemmas.ExpSinh
/-!
# The arctangent of a number at most one
-/

namespace AF

variable {δ : ℝ} {P : Nat}

theorem rel_comp_wide (hd : DOk δ) {N M : Nat} (hN : N ≤ 2 ^ 55) (hM : M ≤ 2 ^ 44) {a b : ℝ} (ha : |a| ≤ N * δ) (hb : |b| ≤ M * δ) :
    ∃ c, (1 + a) * (1 + b) = 1 + c ∧ |c| ≤ (N + M + 1 : ℕ) * δ := by
  refine ⟨a + b + a * b, by ring, ?_⟩
  have hN' : (N : ℝ) ≤ 2 ^ 55 := by exact_mod_cast hN
  have hM' : (M : ℝ) ≤ 2 ^ 44 := by exact_mod_cast hM
  have h0 := hd.nonneg
  have h1 := hd.small
  have h2 : |a * b| ≤ δ := by
    rw [abs_mul]
    refine le_trans (mul_le_mul ha hb (abs_nonneg _) (by positivity)) ?_
    have h3 : (N : ℝ) * M ≤ 2 ^ 55 * 2 ^ 44 := mul_le_mul hN' hM' (Nat.cast_nonneg _) (by positivity)
    have h4 : (N : ℝ) * M * δ ≤ 2 ^ 55 * 2 ^ 44 * (1 / 2 ^ 100) := mul_le_mul h3 h1 h0 (by positivity)
    have h5 : (N : ℝ) * M * δ ≤ 1 := le_trans h4 (by norm_num)
    calc (N : ℝ) * δ * (M * δ) = N * M * δ * δ := by ring
      _ ≤ 1 * δ := mul_le_mul_of_nonneg_right h5 h0
      _ = δ := one_mul δ
  refine le_trans (abs_add_le _ _) ?_
  have h6 := abs_add_le a b
  push_cast
  linarith

/-- The quotient of two numbers with small relative errors. -/
theorem inv_rel (hd : DOk δ) {t : ℝ} (ht : |t| ≤ 3 * δ) : ∃ s, (1 + t)⁻¹ = 1 + s ∧ |s| ≤ 4 * δ := by
  have h1 := hd.small
  have h0 := hd.nonneg
  have h2 := abs_le.1 ht
  have h3 : δ ≤ 1 / 100 := le_trans h1 (by norm_num)
  have hp : 0 < 1 + t := by linarith
  refine ⟨-t / (1 + t), by field_simp; ring, ?_⟩
  rw [abs_div, abs_neg, abs_of_pos hp, div_le_iff₀ hp]
  nlinarith

theorem Rl.of_exact {v : Num} {ℓ : Nat} (hw : v.WF) (hl : 64 * v.m.m.length = P) (hb : (2 : ℝ) ^ (-(ℓ : ℤ)) ≤ |(v.toK : ℝ)|) :
    Rl δ P ℓ 0 v.toK v := ⟨hw, hl, ⟨0, by ring, by simp⟩, hb⟩

/-- A square. -/
theorem square_lo (hd : DOk δ) {p : Nat} (hp : PrecOk δ p P) {x : Num} (hx : x.WF) {ℓ : Nat} (hb : (2 : ℝ) ^ (-(ℓ : ℤ)) ≤ |(x.toK : ℝ)|)
    (h1 : |(x.toK : ℝ)| ≤ 1) (hℓ : 2 * ℓ ≤ 2 ^ 31 - 16) :
    ∃ v, x.mul x p .none = .ok v ∧ Lo δ P (2 * ℓ) 1 (x.toK * x.toK) v := by
  have hs := mulGeneral_spec (K := ℝ) hx hx hp.pos (by rw [hp.eq]; exact hp.lt) .none
  have e : (x.toK : ℝ) * x.toK = |(x.toK : ℝ)| * |(x.toK : ℝ)| := (abs_mul_abs_self _).symm
  obtain ⟨v, v1, v2, -⟩ := Lo.step (N := 0) (ℓ := 2 * ℓ) hd hp hs le_rfl (by simp) (by
    rw [e, show (-((2 * ℓ : ℕ) : ℤ)) = -(ℓ : ℤ) + -(ℓ : ℤ) by push_cast; ring, zpow_add₀ (by norm_num)]
    exact mul_le_mul hb hb (by positivity) (abs_nonneg _)) hℓ (by norm_num) (by
    rw [e]
    have := mul_le_mul h1 h1 (abs_nonneg _) (by norm_num)
    exact le_trans this (by norm_num))
  exact ⟨v, v1, v2⟩

/-- One reduction. -/
theorem atanReduce_step (hd : DOk δ) (hp : PrecOk δ P P) {x : Num} (hx : x.WF) {ℓ : Nat} (hb : (2 : ℝ) ^ (-(ℓ : ℤ)) ≤ |(x.toK : ℝ)|)
    (h1 : |(x.toK : ℝ)| ≤ 1) (hℓ : 2 * ℓ ≤ 2 ^ 31 - 64) :
    ∃ a b c d v, x.mul x P .none = .ok a ∧ a.add Num.ONE P .none = .ok b ∧ b.sqrt P .none = .ok c ∧
      c.add Num.ONE P .none = .ok d ∧ x.div d P .fromZero = .ok v ∧ v.WF ∧ 64 * v.m.m.length = P ∧
      ∃ θ, (v.toK : ℝ) = atHalf x.toK * (1 + θ) ∧ |θ| ≤ 6 * δ := by
  obtain ⟨a, a1, a2⟩ := square_lo hd hp hx hb h1 (by omega)
  have hX0 := a2.Xpos
  have hX1 : (x.toK : ℝ) * x.toK ≤ 1 := by
    rw [← abs_mul_abs_self]; nlinarith [abs_nonneg (x.toK : ℝ)]
  have hone : Lo δ (64 * Num.ONE.m.m.length) 0 0 1 Num.ONE := Lo.exact ONE_WF rfl ONE_toK (by norm_num)
  obtain ⟨b, b1, b2, -⟩ := a2.add hd hp hone (by omega) (by norm_num) (by norm_num; linarith)
  have hS : Real.sqrt (1 + (x.toK : ℝ) ^ 2) * Real.sqrt (1 + (x.toK : ℝ) ^ 2) = x.toK * x.toK + 1 := by
    rw [Real.mul_self_sqrt (by positivity)]; ring
  have hS1 : 1 ≤ Real.sqrt (1 + (x.toK : ℝ) ^ 2) := by
    rw [Real.le_sqrt' (by norm_num)]; nlinarith
  have hS2 : Real.sqrt (1 + (x.toK : ℝ) ^ 2) ≤ 2 := by
    rw [Real.sqrt_le_left (by norm_num)]; nlinarith
  unfold atHalf
  generalize hs : Real.sqrt (1 + (x.toK : ℝ) ^ 2) = s at *
  rw [← hS] at b2
  have b3 := b2.relb (ℓ' := 0) (by norm_num; nlinarith)
  obtain ⟨c, c1, c2, -⟩ := Lo.sqrt (N := 1) hd hp b3 (by linarith) (by norm_num) (by norm_num) (by norm_num; linarith)
    (by norm_num; linarith)
  obtain ⟨d, d1, d2, -⟩ := c2.add hd hp hone (by norm_num) (by norm_num) (by norm_num; linarith)
  obtain ⟨t, t1, t2⟩ := (Rl.of_lo hd d2).err
  have t3 : |t| ≤ 3 * δ := by
    refine le_trans t2 (le_of_eq ?_); norm_num
  obtain ⟨u, u1, u2⟩ := inv_rel hd t3
  have hd0 : d.isZero = false := d2.nz hd
  have hq := div_spec (K := ℝ) hx d2.wf hd0 hp.pos (by rw [hp.eq]; exact hp.lt) .fromZero
  have e1 : (x.toK : ℝ) / d.toK = x.toK / (1 + s) * (1 + u) := by
    rw [t1, ← u1, add_comm s 1]; field_simp
  rw [e1] at hq
  have hδ : 4 * δ ≤ 1 / 100 := by
    have := hd.small
    refine le_trans (mul_le_mul_of_nonneg_left this (by norm_num)) (by norm_num)
  have u3 := abs_le.1 u2
  have hu : |1 + u| = 1 + u := abs_of_nonneg (by linarith)
  have q1 : |(x.toK : ℝ) / (1 + s)| = |(x.toK : ℝ)| / (1 + s) := by rw [abs_div, abs_of_pos (show 0 < 1 + s by linarith)]
  have q2 : |(x.toK : ℝ)| / 3 ≤ |(x.toK : ℝ)| / (1 + s) := div_le_div_of_nonneg_left (abs_nonneg _) (by linarith) (by linarith)
  have q3 : |(x.toK : ℝ)| / (1 + s) ≤ |(x.toK : ℝ)| / 2 := div_le_div_of_nonneg_left (abs_nonneg _) (by linarith) (by linarith)
  have q0 := abs_nonneg (x.toK : ℝ)
  obtain ⟨v, v1, v2, v3, θ, v4, v5⟩ := rel_step_fz hp hq hd (by
    rw [abs_mul, hu, q1]
    have k1 : (2 : ℝ) ^ (EMIN - 1) ≤ 2 ^ (-(ℓ : ℤ)) * (1 / 4) := by
      rw [show (1 / 4 : ℝ) = 2 ^ (-2 : ℤ) by norm_num, ← zpow_add₀ (by norm_num)]
      exact zpow_le_zpow_right₀ (by norm_num) (by unfold EMIN; omega)
    have k2 : |(x.toK : ℝ)| / 3 * (99 / 100) ≤ |(x.toK : ℝ)| / (1 + s) * (1 + u) := mul_le_mul q2 (by linarith) (by norm_num) (by positivity)
    linarith) (by
    rw [abs_mul, hu, q1]
    have k2 : |(x.toK : ℝ)| / (1 + s) * (1 + u) ≤ |(x.toK : ℝ)| / 2 * (101 / 100) := mul_le_mul q3 (by linarith) (by linarith) (by positivity)
    refine le_trans k2 (le_trans ?_ (show (1 : ℝ) ≤ 2 ^ 64 by norm_num))
    linarith)
  obtain ⟨w, w1, w2⟩ := rel_comp (N := 4) (M := 1) hd (by norm_num) (by norm_num) (a := u) (b := θ) (by simpa using u2) (by simpa using v5)
  refine ⟨a, b, c, d, v, a1, b1, c1, d1, v1, v2, v3, w, ?_, by simpa using w2⟩
  rw [v4, mul_assoc, w1]

theorem atanArgReduce_spec (hd : DOk δ) (hp : PrecOk δ P P) : ∀ (n ℓ : Nat) (x : Num), x.WF → 64 * x.m.m.length = P →
    (2 : ℝ) ^ (-(ℓ : ℤ)) ≤ |(x.toK : ℝ)| → |(x.toK : ℝ)| ≤ 1 → ℓ + 2 * n ≤ 2 ^ 30 - 64 → n ≤ 2 ^ 30 →
    ∃ v, x.atanArgReduce P n = .ok v ∧ v.WF ∧ 64 * v.m.m.length = P ∧ |(v.toK : ℝ)| ≤ 1 ∧
      ∃ θ, Real.arctan v.toK * 2 ^ n = Real.arctan x.toK * (1 + θ) ∧ |θ| ≤ ((16 * n : ℕ) : ℝ) * δ
  | 0, ℓ, x, hx, hl, hb, h1, _, _ => ⟨x, rfl, hx, hl, h1, 0, by ring, by simp⟩
  | n + 1, ℓ, x, hx, hl, hb, h1, hℓ, hn => by
    obtain ⟨a, b, c, d, v, a1, b1, c1, d1, v1, v2, v3, θ, v4, v5⟩ := atanReduce_step hd hp hx hb h1 (by omega)
    obtain ⟨h3, h4⟩ := atHalf_bounds h1
    have hδ : 6 * δ ≤ 1 / 100 := by
      have := hd.small
      refine le_trans (mul_le_mul_of_nonneg_left this (by norm_num)) (by norm_num)
    have h5 := abs_le.1 v5
    have h6 : |1 + θ| = 1 + θ := abs_of_nonneg (by linarith)
    have hx0 := abs_nonneg (x.toK : ℝ)
    have hv : |(v.toK : ℝ)| = |atHalf x.toK| * (1 + θ) := by rw [v4, abs_mul, h6]
    have hv1 : |(v.toK : ℝ)| ≤ 1 := by
      rw [hv]
      have := mul_le_mul h4 (show 1 + θ ≤ 101 / 100 by linarith) (by linarith) (by linarith)
      linarith
    have hv2 : (2 : ℝ) ^ (-((ℓ + 2 : ℕ) : ℤ)) ≤ |(v.toK : ℝ)| := by
      rw [hv, show (-((ℓ + 2 : ℕ) : ℤ)) = -(ℓ : ℤ) + -2 by push_cast; ring, zpow_add₀ (by norm_num),
        show (2 : ℝ) ^ (-2 : ℤ) = 1 / 4 by norm_num]
      have := mul_le_mul h3 (show 99 / 100 ≤ 1 + θ by linarith) (by norm_num) (abs_nonneg _)
      linarith
    obtain ⟨r, r1, r2, r3, r4, φ, r5, r6⟩ := atanArgReduce_spec hd hp n (ℓ + 2) v v2 v3 hv2 hv1 (by omega) (by omega)
    -- the step in terms of the arctangent
    have hat : ∃ ψ, 2 * Real.arctan v.toK = Real.arctan x.toK * (1 + ψ) ∧ |ψ| ≤ 15 * δ := by
      have hhalf : |atHalf (x.toK : ℝ)| ≤ 1 := by linarith
      have g1 := abs_arctan_half hhalf
      have hxp : 0 < |(x.toK : ℝ)| := lt_of_lt_of_le (by positivity) hb
      have g2 : 0 < |Real.arctan (atHalf x.toK)| := by linarith
      have g3 : Real.arctan (atHalf x.toK) ≠ 0 := abs_pos.1 g2
      refine ⟨Real.arctan v.toK / Real.arctan (atHalf x.toK) - 1, ?_, ?_⟩
      · rw [arctan_half (x.toK : ℝ)]; field_simp; ring
      · rw [show Real.arctan v.toK / Real.arctan (atHalf x.toK) - 1 = (Real.arctan v.toK - Real.arctan (atHalf x.toK)) / Real.arctan (atHalf x.toK) by
          field_simp, abs_div, div_le_iff₀ g2]
        have g4 := arctan_sub v.toK (atHalf x.toK)
        rw [show (v.toK : ℝ) - atHalf x.toK = atHalf x.toK * θ by rw [v4]; ring, abs_mul] at g4
        have g5 : |atHalf (x.toK : ℝ)| * |θ| ≤ 2 * |Real.arctan (atHalf x.toK)| * (6 * δ) :=
          mul_le_mul (by linarith) v5 (abs_nonneg _) (by linarith)
        have : 0 ≤ δ * |Real.arctan (atHalf x.toK)| := mul_nonneg hd.nonneg g2.le
        linarith
    obtain ⟨ψ, ψ1, ψ2⟩ := hat
    obtain ⟨w, w1, w2⟩ := rel_comp (N := 15) (M := 16 * n) hd (by norm_num) (by omega) (a := ψ) (b := φ) (by simpa using ψ2) r6
    refine ⟨r, ?_, r2, r3, r4, w, ?_, ?_⟩
    · unfold Num.atanArgReduce
      rw [a1]
      dsimp only
      rw [b1]
      dsimp only
      rw [c1]
      dsimp only
      rw [d1]
      dsimp only
      rw [v1]
      exact r1
    · rw [pow_succ, ← w1, ← mul_assoc, r5, ← mul_assoc, ← ψ1]; ring
    · rw [show 16 * (n + 1) = 15 + 16 * n + 1 by ring]; exact w2

end AF
