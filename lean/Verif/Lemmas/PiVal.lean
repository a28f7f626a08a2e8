import Mathlib.NumberTheory.Real.Irrational
import Verif.Lemmas.PiSum
import Verif.Lemmas.ConstLn2
import Verif.Lemmas.NumRoot
import Verif.Lemmas.ExpArg
/-!
# The value of pi kept in the cache
-/

namespace AF

set_option linter.unusedSectionVars false

/-- A truncated operation on a value in range. -/
theorem none_step_wide {P : Nat} {X : ℝ} (h1 : 2 ^ (-64 : ℤ) ≤ X) (h2 : X < 2 ^ EMAX) {ix : Bool} {r : Except Err Num}
    (h : Delivers .none P X ix r) : ∃ v, r = .ok v ∧ v.WF ∧ 64 * v.m.m.length = P ∧ v.toK ≤ X ∧
      X * (1 - 2 ^ (1 - (P : ℤ))) ≤ v.toK ∧ (v.inexact = true ↔ ix = true ∨ (v.toK : ℝ) ≠ X) := by
  have hX : 0 < X := lt_of_lt_of_le (by positivity) h1
  have ha : |X| = X := abs_of_pos hX
  cases r with
  | ok v =>
    have hlo : (2 : ℝ) ^ (EMIN - 1) ≤ |X| := by
      rw [ha]
      exact le_trans (zpow_le_zpow_right₀ (by norm_num) (by unfold EMIN; norm_num)) h1
    obtain ⟨g1, g2, g3⟩ := (h.normal hlo).none_rel
    have hv : (0 : ℝ) ≤ v.toK := by
      by_contra hc
      push Not at hc
      nlinarith
    rw [ha, abs_of_nonneg hv] at g1 g2
    exact ⟨v, rfl, h.1, h.2.1, g1, g2, h.2.2.2.2.1⟩
  | error e =>
    exfalso
    obtain ⟨_, t, h3, h4⟩ := h
    obtain ⟨g1, -, -⟩ := h3.none_rel
    rw [ha] at g1
    linarith

theorem irrational_sqrt_10005 : Irrational (Real.sqrt 10005) := by
  have h : ¬ IsSquare (10005 : ℕ) := by
    rintro ⟨r, hr⟩
    have h1 : r < 101 := by nlinarith
    have h2 : 100 ≤ r := by nlinarith
    interval_cases r; omega
  have := irrational_sqrt_natCast_iff.2 h
  exact_mod_cast this

/-- The last step to the accuracy of the value. -/
theorem pi_value_bound {S T σ δ ε f4 f5 v : ℝ} (hS : 13591400 ≤ S) (hT : 0 < T) (hσ : 0 < σ) (hδ0 : 0 < δ)
    (hδ1 : δ ≤ 1 / 8) (hε : ε ≤ 1 / 8) (hST : |T - S| ≤ S * ε) (h1 : σ * (1 - δ) ≤ f4) (h2 : f4 ≤ σ)
    (h3 : S * f4 * (1 - δ) ≤ f5) (h4 : f5 ≤ S * f4) (h5 : 4270934400 / f5 * (1 - δ) ≤ v) (h6 : v ≤ 4270934400 / f5)
    (hσ2 : σ * σ = 10005) : ∃ c, v = 426880 * σ / T * c ∧ |c - 1| ≤ 4 * δ + 2 * ε := by
  have hS0 : 0 < S := by linarith
  have hf4 : 0 < f4 := lt_of_lt_of_le (mul_pos hσ (by linarith)) h1
  have hf5 : 0 < f5 := lt_of_lt_of_le (mul_pos (mul_pos hS0 hf4) (by linarith)) h3
  have hε0 : 0 ≤ ε := by
    have := le_trans (abs_nonneg _) hST
    by_contra hc
    push Not at hc
    nlinarith
  obtain ⟨t1, t2⟩ := abs_le.1 hST
  -- f5 against S * σ
  have k1 : S * σ * ((1 - δ) * (1 - δ)) ≤ f5 := by
    have e := mul_le_mul_of_nonneg_left h1 hS0.le
    have e2 := mul_le_mul_of_nonneg_right e (show 0 ≤ 1 - δ by linarith)
    calc S * σ * ((1 - δ) * (1 - δ)) = S * (σ * (1 - δ)) * (1 - δ) := by ring
      _ ≤ S * f4 * (1 - δ) := e2
      _ ≤ f5 := h3
  have k2 : f5 ≤ S * σ := le_trans h4 (mul_le_mul_of_nonneg_left h2 hS0.le)
  refine ⟨v * T / (426880 * σ), by field_simp, ?_⟩
  have q0 : (0 : ℝ) < 426880 * σ := by positivity
  -- v * f5 between
  have m1 : 4270934400 * (1 - δ) ≤ v * f5 := by
    have := mul_le_mul_of_nonneg_right h5 hf5.le
    rwa [div_mul_eq_mul_div, div_mul_cancel₀ _ hf5.ne'] at this
  have m2 : v * f5 ≤ 4270934400 := by
    have := mul_le_mul_of_nonneg_right h6 hf5.le
    rwa [div_mul_cancel₀ _ hf5.ne'] at this
  have hv : 0 < v := by
    by_contra hc
    push Not at hc
    nlinarith
  -- v * S * σ
  have n1 : 4270934400 * (1 - δ) ≤ v * (S * σ) := le_trans m1 (mul_le_mul_of_nonneg_left k2 hv.le)
  have n2 : v * (S * σ) * ((1 - δ) * (1 - δ)) ≤ 4270934400 := by
    refine le_trans ?_ m2
    have := mul_le_mul_of_nonneg_left k1 hv.le
    linarith
  obtain ⟨u, hu⟩ : ∃ u, u = v * S / (426880 * σ) := ⟨_, rfl⟩
  have hu' : v * (S * σ) = u * 4270934400 := by
    have : v * S = u * (426880 * σ) := by rw [hu]; field_simp
    calc v * (S * σ) = v * S * σ := by ring
      _ = u * 426880 * (σ * σ) := by rw [this]; ring
      _ = _ := by rw [hσ2]; ring
  rw [hu'] at n1 n2
  have u1 : 1 - δ ≤ u := by linarith
  have u2 : u * ((1 - δ) * (1 - δ)) ≤ 1 := by linarith
  have u3 : u ≤ 1 + 3 * δ := by
    by_contra hc
    push Not at hc
    have d1 : 0 < (1 - δ) * (1 - δ) := by nlinarith
    have d2 := mul_lt_mul_of_pos_right hc d1
    nlinarith
  have hc : v * T / (426880 * σ) = u * (T / S) := by rw [hu]; field_simp
  obtain ⟨ρ, hρ⟩ : ∃ ρ, ρ = T / S := ⟨_, rfl⟩
  have r1 : ρ ≤ 1 + ε := by rw [hρ, div_le_iff₀ hS0]; linarith
  have r2 : 1 - ε ≤ ρ := by rw [hρ, le_div_iff₀ hS0]; linarith
  rw [hc, ← hρ, abs_le]
  constructor <;> nlinarith

/-- What is known of the value kept for `b` terms. -/
def PiValOk (b : Nat) (v : Num) : Prop := 2 ≤ b → v.WF ∧ v.inexact = true ∧ 47 * b ≤ 64 * v.m.m.length ∧
  ∃ c : ℝ, v.toK = chudPi * c ∧ |c - 1| ≤ 2 ^ (40 - (47 * b : ℤ))

theorem IsInt.len64 {x : Num} {z : ℤ} (h : IsInt x z) : 64 * x.m.m.length ≤ 2 ^ 31 + 62 ∧ 0 < x.m.m.length := by
  have h1 := h.len
  have h2 := h.wf.emax
  unfold EMAX at h2
  refine ⟨by omega, ?_⟩
  by_contra hc
  have h3 : x.m.m = [] := List.length_eq_zero_iff.1 (by omega)
  have h4 : (x.toK : ℝ) = 0 := by unfold Num.toK; rw [h3]; simp [val]
  rw [h.eq] at h4
  exact h.ne (by exact_mod_cast h4)

theorem roundP_30 {k : Nat} (hk : k ≤ 2 ^ 30) : roundP k = 64 * ((k + 63) / 64) := by
  unfold roundP USIZE_MAX; omega

theorem pi_err {u A ε δ S T : ℝ} {n : ℕ} (hu : u = 2 ^ (-(47 * n : ℤ))) (hn : 2 ≤ n) (hA0 : 0 ≤ A) (hA : A ≤ 2 ^ 55)
    (hε : ε = u * A / 13591400) (hS : 13591400 ≤ S) (hb : |T - S| ≤ u * A) (hδ : δ ≤ 2 * u) :
    ε ≤ 1 / 8 ∧ |T - S| ≤ S * ε ∧ 4 * δ + 2 * ε ≤ 2 ^ (40 - (47 * n : ℤ)) := by
  have hu0 : 0 < u := by rw [hu]; positivity
  have hu1 : u ≤ 2 ^ (-94 : ℤ) := by
    rw [hu]; exact zpow_le_zpow_right₀ (by norm_num) (by omega)
  have hε1 : ε ≤ u * 2 ^ 32 := by
    rw [hε, div_le_iff₀ (by norm_num)]
    have := mul_le_mul_of_nonneg_left hA hu0.le
    linarith
  have hu2 : u * 2 ^ 32 ≤ 1 / 8 := by
    have h1 : (2 : ℝ) ^ (-94 : ℤ) * 2 ^ 32 ≤ 1 / 8 := by norm_num
    have h2 := mul_le_mul_of_nonneg_right hu1 (show (0 : ℝ) ≤ 2 ^ 32 by norm_num)
    exact le_trans h2 h1
  refine ⟨le_trans hε1 hu2, le_trans hb ?_, ?_⟩
  · rw [hε, mul_div_assoc', le_div_iff₀ (by norm_num), mul_comm S]
    exact mul_le_mul_of_nonneg_left hS (mul_nonneg hu0.le hA0)
  · have : (2 : ℝ) ^ (40 - (47 * n : ℤ)) = 2 ^ 40 * u := by
      rw [hu, sub_eq_add_neg, zpow_add₀ (by norm_num)]; norm_num
    rw [this]
    linarith

set_option maxHeartbeats 1000000 in
theorem pi_calc {t : Num × Num × Num × Nat} {n : Nat} (h : PiRep t 0 n) (hn : n ≤ 2 ^ 24) {k : Nat} (hk0 : 0 < k)
    (hk : k ≤ 2 ^ 30) : ∃ v, piCalc t.1 t.2.1 k = .ok v ∧ v.WF ∧ v.inexact = true ∧ k ≤ 64 * v.m.m.length ∧
      ∃ c : ℝ, v.toK = chudPi * c ∧ (k = n * 47 → 2 ≤ n → |c - 1| ≤ 2 ^ (40 - (47 * n : ℤ))) := by
  have hn0 := h.pos
  obtain ⟨F1, F2, F3⟩ := pi_fits (a := 0) (n := n) (by omega)
  have hP := (piP_lt n 0).1
  have hA0 : chA 0 = 13591409 := by decide
  rw [hA0] at hP
  obtain ⟨Q, hQ⟩ : ∃ Q : ℕ, Q = piQ 0 n := ⟨_, rfl⟩
  have hQ0 : 0 < Q := by rw [hQ]; exact piQ_pos 0 n
  have hq := h.q
  rw [← hQ] at hP F1 F2 F3 hq
  obtain ⟨p1, p2⟩ := abs_lt.1 hP
  -- the integers
  obtain ⟨n0, e1, g1⟩ := IsNat.fromWord (d := 4270934400) (by norm_num) (by unfold B; norm_num)
  obtain ⟨n1, e2, g2⟩ := IsNat.fromWord (d := 13591409) (by norm_num) (by unfold B; norm_num)
  obtain ⟨f3, e3, g3⟩ := IsNat.fromWord (d := 10005) (by norm_num) (by unfold B; norm_num)
  have hQr : (1 : ℝ) ≤ Q := by exact_mod_cast hQ0
  push_cast at F1
  obtain ⟨q0, e4, g4⟩ : ∃ v, t.2.1.mulFullPrec n0 = .ok v ∧ IsInt v (Q * (4270934400 : ℕ)) := by
    rcases hq.mul g1.toInt with ⟨h1, -⟩ | ⟨-, h1⟩
    · exact h1
    · exfalso
      push_cast at h1
      rw [abs_of_nonneg (by positivity)] at h1
      nlinarith
  obtain ⟨q1, e5, g5⟩ : ∃ v, t.2.1.mulFullPrec n1 = .ok v ∧ IsInt v (Q * (13591409 : ℕ)) := by
    rcases hq.mul g2.toInt with ⟨h1, -⟩ | ⟨-, h1⟩
    · exact h1
    · exfalso
      push_cast at h1
      rw [abs_of_nonneg (by positivity)] at h1
      nlinarith
  have hz : 0 < piP 0 n + Q * (13591409 : ℕ) := by push_cast; push_cast at p1; linarith
  have hzr : (0 : ℝ) < (piP 0 n : ℝ) + Q * 13591409 := by exact_mod_cast hz
  have p2r : (piP 0 n : ℝ) < 13591409 * Q := by exact_mod_cast p2
  obtain ⟨p0, e6, g6⟩ : ∃ v, t.1.addFullPrec q1 = .ok v ∧ IsInt v (piP 0 n + Q * (13591409 : ℕ)) := by
    rcases h.p.add g5 hz.ne' with ⟨h1, -⟩ | ⟨-, h1⟩
    · exact h1
    · exfalso
      push_cast at h1
      rw [abs_of_pos hzr] at h1
      nlinarith
  -- the sum
  obtain ⟨S, hS⟩ : ∃ S : ℝ, S = 13591409 + (piP 0 n : ℝ) / Q := ⟨_, rfl⟩
  have hSQ : (piP 0 n : ℝ) + Q * 13591409 = S * Q := by rw [hS]; field_simp; ring
  have hb := chud_bounds n
  rw [← hQ, ← hS] at hb
  have hS1 : (13591400 : ℝ) ≤ S := by
    have c1 := chud_bounds 1
    rw [piP_div_one] at c1
    have d1 : |S - 13591409| ≤ 1 := by
      have hd := (piP_lt (n - 1) 1).1
      have hn1 : n = 1 + (n - 1) := by omega
      have hp : piP 0 n = chS 1 * piQ 1 (n - 1) + chR 1 * piP 1 (n - 1) := by
        have := piP_add 0 1 (n - 1)
        rw [← hn1, piP_one] at this
        rw [this]
        have : piR 0 1 = chR 1 := by simp [piR, serQ]
        rw [this]
      have hq1 : Q = chQ 1 * piQ 1 (n - 1) := by
        have : piQ 0 (1 + (n - 1)) = piQ 0 1 * piQ (0 + 1) (n - 1) := serQ_add _ _ _ _
        rw [← hn1] at this
        rw [hQ, this]
        have : piQ 0 1 = chQ 1 := by simp [piQ, serQ]
        rw [this]
      have v1 : chS 1 = -2793657715 := by decide
      have v2 : chR 1 = 5 := by decide
      have v3 : chQ 1 = 10939058860032000 := by decide
      have v4 : chA 1 = 558731543 := by decide
      rw [v1, v2] at hp
      rw [v3] at hq1
      rw [v4] at hd
      obtain ⟨w1, w2⟩ := abs_lt.1 hd
      have w0 := piQ_pos 1 (n - 1)
      have r1 : (piP 0 n : ℝ) = -2793657715 * piQ 1 (n - 1) + 5 * piP 1 (n - 1) := by
        rw [hp]; push_cast; ring
      have r2 : (Q : ℝ) = 10939058860032000 * piQ 1 (n - 1) := by rw [hq1]; push_cast; ring
      have r3 : -(558731543 * (piQ 1 (n - 1) : ℝ)) < piP 1 (n - 1) := by exact_mod_cast w1
      have r4 : (piP 1 (n - 1) : ℝ) < 558731543 * piQ 1 (n - 1) := by exact_mod_cast w2
      have r5 : (0 : ℝ) < piQ 1 (n - 1) := by exact_mod_cast w0
      have hs : S - 13591409 = (piP 0 n : ℝ) / Q := by rw [hS]; ring
      rw [hs, abs_div, abs_of_pos (show (0 : ℝ) < Q by linarith), div_le_one (by linarith), abs_le]
      constructor <;> linarith
    have := (abs_le.1 d1).1
    linarith
  have hS2 : S ≤ 2 * 13591409 := by
    have : (piP 0 n : ℝ) / Q ≤ 13591409 := by rw [div_le_iff₀ (by linarith)]; linarith
    rw [hS]; linarith
  -- the root
  obtain ⟨σ, hσ⟩ : ∃ σ, σ = Real.sqrt 10005 := ⟨_, rfl⟩
  obtain ⟨s1, s2⟩ := sqrt_10005
  have hir := irrational_sqrt_10005
  have hσ2 : σ * σ = 10005 := by rw [hσ]; exact Real.mul_self_sqrt (by norm_num)
  rw [← hσ] at s1 s2 hir
  have hrk := roundP_30 hk
  obtain ⟨L, hL⟩ : ∃ L, roundP k = 64 * L := ⟨(k + 63) / 64, hrk⟩
  have hL0 : 0 < L ∧ k ≤ 64 * L ∧ 64 * L ≤ 2 ^ 30 + 63 := by
    rw [hrk] at hL
    clear hrk
    omega
  have hsq := sqrt_spec (K := ℝ) g3.wf (Or.inl (toK_sign_pos (K := ℝ) (by rw [g3.eq]; norm_num))) hk0
    (by rw [hL]; exact (roundP_small (L := L) (by omega)).2) .none (y := σ) (by linarith) (by rw [hσ2, g3.eq]; norm_num)
  rw [hL, g3.exact] at hsq
  obtain ⟨f4, k1, k2, k3, k4, k5, k6⟩ := none_step (le_trans (by norm_num) s1)
    (le_trans s2 (by norm_num)) hsq
  have hix4 : f4.inexact = true := by
    rw [k6]; right
    intro he
    refine hir ⟨f4.toK, ?_⟩
    rw [← he]
    exact toK_ratCast f4
  obtain ⟨δ, hδ⟩ : ∃ δ : ℝ, δ = 2 ^ (1 - ((64 * L : ℕ) : ℤ)) := ⟨_, rfl⟩
  have hδ0 : 0 < δ := by rw [hδ]; positivity
  have hδ1 : δ ≤ 1 / 8 := by
    rw [hδ, show (1 / 8 : ℝ) = 2 ^ (-3 : ℤ) by norm_num]
    exact zpow_le_zpow_right₀ (by norm_num) (by push_cast; omega)
  have hδP : ∀ M : ℕ, 64 * L ≤ 64 * M → (2 : ℝ) ^ (1 - ((64 * M : ℕ) : ℤ)) ≤ δ := fun M hM => by
    rw [hδ]; exact zpow_le_zpow_right₀ (by norm_num) (by push_cast; omega)
  rw [← hδ] at k5
  have hf4 : (80 : ℝ) < f4.toK := by nlinarith
  -- the product
  obtain ⟨lp1, lp2⟩ := g6.len64
  obtain ⟨M, hM⟩ : ∃ M, M = max p0.m.m.length L := ⟨_, rfl⟩
  have hmax : max p0.m.maxBitLen f4.m.maxBitLen = 64 * M := by unfold Mantissa.maxBitLen; omega
  obtain ⟨hrM, hpM⟩ := roundP_small (L := M) (by omega)
  have hp0 : (p0.toK : ℝ) = S * Q := by rw [g6.eq, ← hSQ]; push_cast; ring
  have hm := mulGeneral_spec (K := ℝ) g6.wf k2 (p := 64 * M) (by omega) (by rw [hrM]; exact hpM) .none
  rw [hp0, hrM] at hm
  have hSQ1 : (1 : ℝ) ≤ S * Q := by nlinarith
  have hSQ2 : S * Q ≤ 2 * 13591409 * Q := mul_le_mul_of_nonneg_right hS2 (by linarith)
  obtain ⟨f5, m1, m2, m3, m4, m5, m6⟩ := none_step_wide (le_trans (by norm_num) (show (1 : ℝ) ≤ S * Q * f4.toK by nlinarith))
    (lt_of_le_of_lt (show S * Q * (f4.toK : ℝ) ≤ 18446744073709551616 * Q by nlinarith) F1) hm
  have hz4 : f4.isZero = false := by
    rw [← Bool.not_eq_true, ← k2.toK_eq_zero (K := ℝ)]; linarith
  have hix5 : f5.inexact = true := by
    rw [m6]; left
    unfold mulIx
    rw [g6.nz, hz4, hix4]; simp
  have hd5 := hδP M (by omega)
  have m5' : S * Q * f4.toK * (1 - δ) ≤ f5.toK := by
    refine le_trans (mul_le_mul_of_nonneg_left (by linarith) (by nlinarith)) m5
  have hf5 : (1 : ℝ) ≤ f5.toK := by
    have b1 : (80 : ℝ) ≤ S * Q * f4.toK := by
      calc (80 : ℝ) ≤ f4.toK := hf4.le
        _ = 1 * f4.toK := (one_mul _).symm
        _ ≤ S * Q * f4.toK := mul_le_mul_of_nonneg_right hSQ1 (by linarith)
    have b2 : (80 : ℝ) * (7 / 8) ≤ S * Q * f4.toK * (1 - δ) := mul_le_mul b1 (by linarith) (by norm_num) (by linarith)
    linarith
  have hz5 : f5.isZero = false := by
    rw [← Bool.not_eq_true, ← m2.toK_eq_zero (K := ℝ)]; linarith
  -- the quotient
  obtain ⟨lq1, lq2⟩ := g4.len64
  obtain ⟨N, hN⟩ : ∃ N, N = max q0.m.m.length M := ⟨_, rfl⟩
  have hmaxN : max q0.m.maxBitLen f5.m.maxBitLen = 64 * N := by unfold Mantissa.maxBitLen; omega
  obtain ⟨hrN, hpN⟩ := roundP_small (L := N) (by omega)
  have hd := div_spec (K := ℝ) g4.wf m2 hz5 (p := 64 * N) (by omega) (by rw [hrN]; exact hpN) .none
  rw [hrN] at hd
  have hq0 : (q0.toK : ℝ) = 4270934400 * Q := by rw [g4.eq]; push_cast; ring
  rw [hq0] at hd
  obtain ⟨φ, hφ⟩ : ∃ φ : ℝ, φ = f5.toK / Q := ⟨_, rfl⟩
  have hφQ : (f5.toK : ℝ) = φ * Q := by rw [hφ]; field_simp
  have hX : 4270934400 * (Q : ℝ) / f5.toK = 4270934400 / φ := by
    rw [hφQ]
    have : φ ≠ 0 := by rw [hφ]; positivity
    field_simp
  rw [hX] at hd
  have hφ1 : S * f4.toK * (1 - δ) ≤ φ := by
    rw [hφ, le_div_iff₀ (by linarith)]; linarith
  have hφ2 : φ ≤ S * f4.toK := by
    rw [hφ, div_le_iff₀ (by linarith)]; linarith
  have hφ3 : 1 ≤ φ := by nlinarith
  have hφ4 : φ ≤ 2 ^ 32 := by nlinarith
  obtain ⟨v, w1, w2, w3, w4, w5, w6⟩ := none_step
    (show (2 : ℝ) ^ (-64 : ℤ) ≤ 4270934400 / φ by rw [le_div_iff₀ (by linarith)]; norm_num; linarith)
    (show 4270934400 / φ ≤ (2 : ℝ) ^ 64 by rw [div_le_iff₀ (by linarith)]; nlinarith) hd
  have hd6 := hδP N (by omega)
  have w5' : 4270934400 / φ * (1 - δ) ≤ v.toK :=
    le_trans (mul_le_mul_of_nonneg_left (by linarith) (by positivity)) w5
  have hixv : v.inexact = true := by
    rw [w6]; left
    unfold divIx
    rw [g4.nz, hix5]; simp
  refine ⟨v, ?_, w2, hixv, by omega, ?_⟩
  · unfold piCalc
    simp only [e1, e2, e3, e4, e5, e6, k1]
    rw [hmax]
    have m1' : p0.mul f4 (64 * M) .none = .ok f5 := m1
    simp only [m1']
    rw [hmaxN]
    exact w1
  · obtain ⟨T1, T2⟩ := chudSum_small
    by_cases hkn : k = n * 47 ∧ 2 ≤ n
    · obtain ⟨hkn, hn2⟩ := hkn
      obtain ⟨ε, hε⟩ : ∃ ε : ℝ, ε = 2 ^ (-(47 * n : ℤ)) * chA n / 13591400 := ⟨_, rfl⟩
      have hA : (chA n : ℝ) ≤ 2 ^ 55 := by
        have : chA n ≤ 2 ^ 55 := by unfold chA; omega
        exact_mod_cast this
      obtain ⟨u, hu⟩ : ∃ u : ℝ, u = 2 ^ (-(47 * n : ℤ)) := ⟨_, rfl⟩
      rw [← hu] at hε hb
      have hδu : δ ≤ 2 * u := by
        rw [hδ, hu, ← zpow_one_add₀ (by norm_num)]
        exact zpow_le_zpow_right₀ (by norm_num) (by push_cast; omega)
      obtain ⟨r1, r2, r3⟩ := pi_err hu hn2 (by positivity) hA hε hS1 hb hδu
      obtain ⟨c, c1, c2⟩ := pi_value_bound (S := S) (T := chudSum) (σ := σ) (ε := ε) hS1 (by linarith) (by linarith) hδ0 hδ1
        r1 r2 k5 k4 hφ1 hφ2 w5' w4 hσ2
      exact ⟨c, by rw [c1, chudPi_eq, hσ], fun _ _ => le_trans c2 r3⟩
    · refine ⟨v.toK / chudPi, ?_, fun h1 h2 => absurd ⟨h1, h2⟩ hkn⟩
      have := chudPi_small.1
      field_simp

theorem pi_value {t : Num × Num × Num × Nat} {i : Nat} (h : PiRep t 0 (2 ^ i)) :
    ∃ v, piValue t = .ok v ∧ PiValOk (2 ^ i) v := by
  have hb := piSeries.bound h
  have hi : i ≤ 24 := by
    by_contra hc
    have : 2 ^ 25 ≤ 2 ^ i := Nat.pow_le_pow_right (by norm_num) (by omega)
    omega
  obtain ⟨n, hn⟩ : ∃ n, n = 2 ^ i := ⟨_, rfl⟩
  have hn1 : n ≤ 2 ^ 24 := by rw [hn]; exact Nat.pow_le_pow_right (by norm_num) hi
  rw [← hn] at h ⊢
  have hn0 := h.pos
  obtain ⟨v, h1, h2, h3, h4, c, h5, h6⟩ := pi_calc h hn1 (k := n * 47) (by omega) (by omega)
  refine ⟨v, ?_, fun hn2 => ⟨h2, h3, by omega, c, h5, h6 rfl hn2⟩⟩
  unfold piValue
  rw [h.n]; exact h1

/-! ## The loop -/

theorem chudPi_binade : (2 : ℝ) ^ ((2 : ℤ) - 1) ≤ chudPi * (7 / 8) ∧ chudPi * (9 / 8) ≤ (2 : ℝ) ^ (2 : ℤ) := by
  obtain ⟨h1, h2⟩ := chudPi_small
  constructor <;> norm_num <;> linarith

/-- The loop invariant for the precision `k`. -/
def PiInv (k i w b : Nat) : Prop := 64 ∣ i ∧ 64 ∣ w ∧ i ≤ w ∧ k + 64 ≤ w ∧ (b ≤ (k + 46 + 64) / 47 → w = k + 64) ∧
  ((k + 46 + 64) / 47 < b → w + 47 ≤ 47 * b)

theorem pi_inv_start {pw b : Nat} : PiInv (64 * pw) 64 (64 * pw + 64) b :=
  ⟨by norm_num, by omega, by omega, le_refl _, fun _ => rfl, fun h => by omega⟩

theorem pi_loop {pw : Nat} (hp : 0 < pw) (hpm : 64 * pw < PMAX) (rm : RM) :
    LoopOk piValue PiRep (fun _ => (64 * pw + 46 + 64) / 47) (64 * pw) rm PiValOk (PiInv (64 * pw))
      (fun v => DecOk rm (64 * pw) chudPi v ∧ v.inexact = true)
      (rm = .none ∨ rm.directed = true ∧ ¬ NearGrid (64 * pw) 63 chudPi) where
  value := fun h => pi_value h
  test := by
    rintro i w j v ⟨-, hw, -, hwp, -, hacc⟩ hk hv
    obtain ⟨b, hb⟩ : ∃ b, b = 2 ^ j := ⟨_, rfl⟩
    rw [← hb] at hacc hk hv
    have ha := hacc hk
    obtain ⟨v1, v2, v3, c, v4, v5⟩ := hv (by omega)
    refine apx_test v1 v2 (q := 2) (by norm_num) chudPi_binade.1 chudPi_binade.2 v4
      (le_trans v5 (zpow_le_zpow_right₀ (by norm_num) ?_)) hp hpm hwp hw (by omega) rm
    omega
  fail := by
    rintro i w j j' ⟨hi, hw, hiw, hwp, -, hacc⟩ hk hj
    have ha := hacc hk
    have := roundP_le_add ((w + i) / 5)
    exact ⟨roundP_dvd _, by omega, by omega, by omega, fun h => by omega, fun h => by omega⟩
  grow := by
    rintro i w j j' ⟨hi, hw, hiw, hwp, hlow, hacc⟩ hj hj'
    have hwk := hlow hj
    exact ⟨hi, hw, hiw, hwp, fun h => by omega, fun h => by omega⟩

theorem pi_new : ∃ c, piNew = .ok c ∧ CacheOk PiRep PiValOk c := by
  unfold piNew
  rcases piSeries.split 63 0 1 (by norm_num) (by norm_num) (by norm_num) with ⟨t, h1, h2⟩ | ⟨h1, h2⟩
  · rw [Nat.zero_add] at h1
    rw [h1]
    dsimp only
    obtain ⟨v, h3, h4⟩ := pi_calc h2 (by norm_num) (k := 1) (by norm_num) (by norm_num)
    rw [h3]
    exact ⟨_, rfl, h2, ⟨0, rfl⟩, fun h => absurd h (by norm_num)⟩
  · exact absurd h2 (by norm_num)

end AF
