import Verif.Lemmas.AtanApx
import Verif.Lemmas.AtanSum
/-!
# The series of the arctangent term by term
-/

namespace AF

set_option linter.unusedSectionVars false

/-- The coefficients of the series. -/
noncomputable def atCoef (k : Nat) : ℝ := (-1) ^ k / (2 * k + 1)

/-- The sum of the first `n` terms of `arctan A / A` at `X = A * A`. -/
noncomputable def atSum (X : ℝ) (n : Nat) : ℝ := ∑ i ∈ Finset.range n, atCoef i * X ^ i

/-- `arctan A / A` at `X = A * A`. -/
noncomputable def atPhi (X : ℝ) : ℝ := Real.arctan (Real.sqrt X) / Real.sqrt X

theorem atSum_succ (X : ℝ) (n : Nat) : atSum X (n + 1) = atSum X n + atCoef n * X ^ n := Finset.sum_range_succ _ _

theorem abs_atCoef (k : Nat) : |atCoef k| = 1 / (2 * k + 1) := by
  unfold atCoef
  rw [abs_div, abs_pow, abs_neg, abs_one, one_pow, abs_of_pos (by positivity)]

theorem abs_atCoef_le (k : Nat) : |atCoef k| ≤ 1 := by
  rw [abs_atCoef, div_le_one (by positivity)]
  have : (0 : ℝ) ≤ k := Nat.cast_nonneg k
  linarith

theorem atPhi_close {X : ℝ} (h0 : 0 < X) (h1 : X < 1) (n : Nat) : |atPhi X - atSum X n| ≤ X ^ n / (2 * n + 1) := by
  obtain ⟨b, hb⟩ : ∃ b, b = Real.sqrt X := ⟨_, rfl⟩
  have hb0 : 0 < b := by rw [hb]; exact Real.sqrt_pos.2 h0
  have hb2 : b ^ 2 = X := by rw [hb]; exact Real.sq_sqrt h0.le
  have hb1 : b < 1 := by nlinarith
  have h := atan_close hb0.le hb1 n
  have e : atanPart b n = b * atSum X n := by
    unfold atanPart atSum atCoef
    rw [Finset.mul_sum]
    refine Finset.sum_congr rfl (fun k _ => ?_)
    rw [← hb2, ← pow_mul, pow_succ]
    ring
  rw [e] at h
  unfold atPhi
  rw [← hb]
  have e2 : Real.arctan b / b - atSum X n = (Real.arctan b - b * atSum X n) / b := by field_simp
  rw [e2, abs_div, abs_of_pos hb0, div_le_iff₀ hb0]
  refine le_trans h (le_of_eq ?_)
  rw [pow_succ, pow_mul, hb2]
  ring

/-- The arctangent of a number of either sign. -/
theorem arctan_eq_phi {A : ℝ} (hA : A ≠ 0) : Real.arctan A = A * atPhi (A * A) := by
  unfold atPhi
  rw [Real.sqrt_mul_self_eq_abs]
  rcases lt_or_gt_of_ne hA with h | h
  · rw [abs_of_neg h, Real.arctan_neg]; field_simp
  · rw [abs_of_pos h]; field_simp

theorem atSum_near {X : ℝ} (h0 : 0 < X) (h1 : X ≤ 1 / 32) {n : Nat} (hn : 0 < n) : |atSum X n - 1| ≤ 1 / 48 := by
  have a := atPhi_close h0 (by linarith) n
  have b := atPhi_close h0 (by linarith) 1
  have e : atSum X 1 = 1 := by unfold atSum atCoef; simp
  rw [e] at b
  have c : X ^ n / (2 * n + 1) ≤ X / 3 := by
    have hn' : (1 : ℝ) ≤ n := by exact_mod_cast hn
    refine div_le_div₀ h0.le ?_ (by norm_num) (by linarith)
    calc X ^ n ≤ X ^ 1 := pow_le_pow_of_le_one h0.le (by linarith) hn
      _ = X := pow_one X
  norm_num at b
  rw [abs_le] at *
  constructor <;> linarith [a.1, a.2, b.1, b.2]

theorem atPhi_near {X : ℝ} (h0 : 0 < X) (h1 : X ≤ 1 / 32) : |atPhi X - 1| ≤ 1 / 96 := by
  have b := atPhi_close h0 (by linarith) 1
  have e : atSum X 1 = 1 := by unfold atSum atCoef; simp
  rw [e] at b
  norm_num at b
  linarith

variable {δ : ℝ} {P : Nat}

/-- One round: the new sum. -/
theorem lin_real {A s t u acc part E N M : ℝ} (hδ : 0 ≤ δ) (hs : |s + t - 1| ≤ 1 / 48) (h1 : |acc - A * s| ≤ |A| * (E * δ))
    (h2 : |part - A * t| ≤ |A| * (N * δ)) (hE : (E + N) * δ ≤ 1 / 100) (hA : A ≠ 0) :
    |acc + part - A * (s + t)| ≤ |A| * ((E + N) * δ) ∧ |A| * (9 / 10) ≤ |acc + part| ∧ |acc + part| ≤ |A| * (11 / 10) := by
  have hA0 : 0 < |A| := abs_pos.2 hA
  have k1 : |acc + part - A * (s + t)| ≤ |A| * ((E + N) * δ) := by
    rw [show acc + part - A * (s + t) = (acc - A * s) + (part - A * t) by ring]
    refine le_trans (abs_add_le _ _) ?_
    linarith
  have k2 : |acc + part - A| ≤ |A| * (1 / 10) := by
    rw [show acc + part - A = (acc + part - A * (s + t)) + A * (s + t - 1) by ring]
    refine le_trans (abs_add_le _ _) ?_
    rw [abs_mul]
    have := mul_le_mul_of_nonneg_left hs hA0.le
    have := mul_le_mul_of_nonneg_left hE hA0.le
    linarith
  refine ⟨k1, ?_, ?_⟩
  · have := abs_sub_abs_le_abs_sub A (acc + part)
    rw [abs_sub_comm] at this
    linarith
  · have := abs_sub_abs_le_abs_sub (acc + part) A
    linarith

/-- One round: after the rounding. -/
theorem lin_round {A S u v θ K : ℝ} (hδ : 0 ≤ δ) (hδ1 : δ ≤ 1 / 100) (h1 : |u - A * S| ≤ |A| * (K * δ)) (h2 : |A| * (9 / 10) ≤ |u|)
    (h3 : |u| ≤ |A| * (11 / 10)) (hv : v = u * (1 + θ)) (hθ : |θ| ≤ δ) :
    |v - A * S| ≤ |A| * ((K + 2) * δ) ∧ |A| * (4 / 5) ≤ |v| ∧ |v| ≤ |A| * (6 / 5) := by
  have hA0 : 0 ≤ |A| := abs_nonneg A
  have k1 : |v - u| ≤ |A| * (11 / 10) * δ := by
    rw [hv, show u * (1 + θ) - u = u * θ by ring, abs_mul]
    exact mul_le_mul h3 hθ (abs_nonneg _) (by linarith)
  have k2 : |A| * (11 / 10) * δ ≤ |A| * (11 / 1000) := by
    have := mul_le_mul_of_nonneg_left hδ1 (show 0 ≤ |A| * (11 / 10) by positivity)
    linarith
  refine ⟨?_, ?_, ?_⟩
  · rw [show v - A * S = (v - u) + (u - A * S) by ring]
    refine le_trans (abs_add_le _ _) ?_
    have : 0 ≤ |A| * δ := by positivity
    linarith
  · have := abs_sub_abs_le_abs_sub u v
    rw [abs_sub_comm] at this
    linarith
  · have := abs_sub_abs_le_abs_sub v u
    linarith

set_option maxHeartbeats 600000 in
/-- The loop of `series_linear`. -/
theorem linear_atan (hd : DOk δ) (hp : PrecOk δ P P) {A X : ℝ} (hX : X = A * A) {xs : Num} {a Q M : Nat} (hA : (2 : ℝ) ^ (-(a : ℤ)) ≤ |A|)
    (hA1 : X ≤ 1 / 32) (hxs : Lo δ P (2 * a) 1 X xs) (hP : 64 ≤ P) (hQ : P + 16 ≤ Q) (hb : 3 * a + Q + 64 ≤ 2 ^ 31 - 64)
    (hM : M ≤ 2 ^ 39) :
    ∀ (f j N ℓ E : Nat) (acc xp : Num) (g : AtanGen), AtanRep j g → Rl δ P ℓ N (A * X ^ (j + 1)) xp →
      (2 : ℝ) ^ (-(Q : ℤ)) ≤ X ^ j → acc.WF → 64 * acc.m.m.length = P →
      |(acc.toK : ℝ) - A * atSum X (j + 1)| ≤ |A| * (E * δ) → N + 4 * f ≤ M → E + f * (M + 8) ≤ 2 ^ 60 →
      P + 2 ≤ f + j → (j ≤ P ∨ 1 ≤ f) → j + f ≤ 2 ^ 39 →
      ∃ v, linearLoop atanNext true P xs f acc xp g = .ok v ∧ v.WF ∧ 64 * v.m.m.length = P ∧
        |(v.toK : ℝ) - Real.arctan A| ≤ |A| * (((E + f * (M + 8) : ℕ) : ℝ) * δ)
  | 0, j, N, ℓ, E, acc, xp, g, _, _, _, _, _, _, _, _, h1, h2, _ => absurd h1 (by omega)
  | f + 1, j, N, ℓ, E, acc, xp, g, hg, hx, hq, ha1, ha2, ha3, hN, hE, hf1, hf2, hj => by
    have hA0 : A ≠ 0 := abs_pos.1 (lt_of_lt_of_le (by positivity) hA)
    have hAp : 0 < |A| := abs_pos.2 hA0
    have hAle : |A| ≤ 1 := by
      have := abs_mul_abs_self A
      nlinarith
    rw [arctan_eq_phi hA0, ← hX]
    have hX0 : 0 < X := hxs.Xpos
    have hXlb : (2 : ℝ) ^ (-((2 * a : ℕ) : ℤ)) ≤ X := hxs.lb
    unfold linearLoop
    obtain ⟨c, g', c1, c2, c3⟩ := atanNext_spec hg (by omega)
    rw [c1]
    dsimp only
    have hcD : (c.toK : ℝ) = (-1) ^ (j + 1) * (2 * ((j + 1 : ℕ) : ℝ) + 1) := by rw [c3]; exact c2.eq
    have hcw : c.WF := by rw [c3]; exact c2.wf
    have hDp : (0 : ℝ) < 2 * ((j + 1 : ℕ) : ℝ) + 1 := by positivity
    have hDa : |(-1 : ℝ) ^ (j + 1) * (2 * ((j + 1 : ℕ) : ℝ) + 1)| = 2 * ((j + 1 : ℕ) : ℝ) + 1 := by
      rw [abs_mul, abs_pow, abs_neg, abs_one, one_pow, one_mul, abs_of_pos hDp]
    have hD1 : (1 : ℝ) ≤ 2 * ((j + 1 : ℕ) : ℝ) + 1 := by
      have : (0 : ℝ) ≤ ((j + 1 : ℕ) : ℝ) := Nat.cast_nonneg _
      linarith
    have hD2 : 2 * ((j + 1 : ℕ) : ℝ) + 1 ≤ 2 ^ 42 := by exact_mod_cast (by omega : 2 * (j + 1) + 1 ≤ 2 ^ 42)
    have hXj : X ^ (j + 1) ≤ 1 := pow_le_one₀ hX0.le (by linarith)
    have hXjp : 0 < X ^ (j + 1) := pow_pos hX0 _
    have eT : A * X ^ (j + 1) / ((-1) ^ (j + 1) * (2 * ((j + 1 : ℕ) : ℝ) + 1)) = A * (atCoef (j + 1) * X ^ (j + 1)) := by
      unfold atCoef
      rcases neg_one_pow_eq_or ℝ (j + 1) with h | h <;> rw [h]
      · ring
      · rw [neg_one_mul, div_neg]; ring
    -- the magnitude of the term
    obtain ⟨T, hT⟩ : ∃ T, T = |A| * X ^ (j + 1) / (2 * ((j + 1 : ℕ) : ℝ) + 1) := ⟨_, rfl⟩
    have hTa : |A * X ^ (j + 1) / ((-1) ^ (j + 1) * (2 * ((j + 1 : ℕ) : ℝ) + 1))| = T := by
      rw [abs_div, hDa, abs_mul, abs_of_pos hXjp, hT]
    have hTlb : (2 : ℝ) ^ (-((3 * a + Q + 42 : ℕ) : ℤ)) ≤ T := by
      rw [hT, le_div_iff₀ hDp, pow_succ]
      calc (2 : ℝ) ^ (-((3 * a + Q + 42 : ℕ) : ℤ)) * (2 * ((j + 1 : ℕ) : ℝ) + 1)
          ≤ 2 ^ (-((3 * a + Q + 42 : ℕ) : ℤ)) * 2 ^ 42 := mul_le_mul_of_nonneg_left hD2 (by positivity)
        _ = 2 ^ (-(a : ℤ)) * (2 ^ (-(Q : ℤ)) * 2 ^ (-((2 * a : ℕ) : ℤ))) := by
            rw [← zpow_natCast, ← zpow_add₀ (by norm_num), ← zpow_add₀ (by norm_num), ← zpow_add₀ (by norm_num)]
            congr 1; push_cast; ring
        _ ≤ |A| * (X ^ j * X) := by
            refine mul_le_mul hA (mul_le_mul hq hXlb (by positivity) (by positivity)) (by positivity) hAp.le
    have hTub : T ≤ |A| * X ^ (j + 1) := by rw [hT]; exact div_le_self (by positivity) hD1
    have hTA : T ≤ |A| := by
      have := mul_le_mul_of_nonneg_left hXj hAp.le
      linarith
    obtain ⟨part, t1, t2⟩ := hx.div (ℓ := 3 * a + Q + 42) hd hp hcw hcD (by rw [hDa]; exact hD1) (by rw [hTa]; exact hTlb) (by omega) (by omega) (by
      rw [abs_mul, abs_of_pos hXjp]
      have := mul_le_mul hAle hXj hXjp.le (by norm_num)
      norm_num at this ⊢; linarith)
    have t3 : seriesTerm true xp c P = .ok part := t1
    rw [t3]
    dsimp only
    have hpm := t2.mag hd (by omega)
    rw [hTa] at hpm
    have hpe : |(part.toK : ℝ) - A * (atCoef (j + 1) * X ^ (j + 1))| ≤ |A| * (((N + 2 : ℕ) : ℝ) * δ) := by
      obtain ⟨θ, θ1, θ2⟩ := t2.err
      rw [eT] at θ1
      rw [θ1, show A * (atCoef (j + 1) * X ^ (j + 1)) * (1 + θ) - A * (atCoef (j + 1) * X ^ (j + 1)) =
        (A * (atCoef (j + 1) * X ^ (j + 1))) * θ by ring, abs_mul, ← eT, hTa]
      exact mul_le_mul hTA θ2 (abs_nonneg _) hAp.le
    have hn0 := hd.nonneg
    have hsm := hd.small
    have hEN : ((E : ℝ) + ((N + 2 : ℕ) : ℝ)) * δ ≤ 1 / 100 := by
      have e1 : (f + 1) * (M + 8) = f * (M + 8) + (M + 8) := by ring
      have e2 : (E : ℝ) + ((N + 2 : ℕ) : ℝ) ≤ 2 ^ 60 := by exact_mod_cast (by omega : E + (N + 2) ≤ 2 ^ 60)
      refine le_trans (mul_le_mul e2 hsm hn0 (by positivity)) ?_
      norm_num
    have hs := atSum_near hX0 hA1 (n := j + 1 + 1) (by omega)
    rw [atSum_succ] at hs
    obtain ⟨k1, k2, k3⟩ := lin_real (u := 0) (M := 0) hn0 hs ha3 hpe hEN hA0
    rw [← atSum_succ] at k1
    have hlow : (2 : ℝ) ^ EMIN ≤ |A| * (4 / 5) := by
      have : (2 : ℝ) ^ EMIN ≤ 2 ^ (-(a : ℤ)) * (1 / 2) := by
        rw [show (1 / 2 : ℝ) = 2 ^ (-1 : ℤ) by norm_num, ← zpow_add₀ (by norm_num)]
        exact zpow_le_zpow_right₀ (by norm_num) (by unfold EMIN; omega)
      linarith
    have hlow' : (2 : ℝ) ^ (EMIN - 1) ≤ 2 ^ EMIN := zpow_le_zpow_right₀ (by norm_num) (by omega)
    obtain ⟨acc', r1, r2, r3, θ, r4, r5⟩ := rel_add hp ha1 t2.wf (by linarith) (by
      have : (2 : ℝ) ≤ 2 ^ 64 := by norm_num
      linarith)
    rw [r1]
    dsimp only
    have hδ1 : δ ≤ 1 / 100 := by
      have : (1 : ℝ) / 2 ^ 100 ≤ 1 / 100 := by norm_num
      linarith
    obtain ⟨m1, m2, m3⟩ := lin_round hn0 hδ1 k1 k2 k3 r4 r5
    have m4 : |(acc'.toK : ℝ) - A * atSum X (j + 1 + 1)| ≤ |A| * (((E + (M + 4) : ℕ) : ℝ) * δ) := by
      refine le_trans m1 (mul_le_mul_of_nonneg_left (mul_le_mul_of_nonneg_right ?_ hn0) hAp.le)
      exact_mod_cast (by omega : E + (N + 2) + 2 ≤ E + (M + 4))
    obtain ⟨e1, e2⟩ := exp_bounds_abs r2 (le_trans hlow m2)
    have hTlow : (2 : ℝ) ^ EMIN ≤ T * (1 - 1 / 2 ^ 40) := by
      have : (2 : ℝ) ^ EMIN ≤ 2 ^ (-((3 * a + Q + 42 : ℕ) : ℤ)) * (1 / 2) := by
        rw [show (1 / 2 : ℝ) = 2 ^ (-1 : ℤ) by norm_num, ← zpow_add₀ (by norm_num)]
        exact zpow_le_zpow_right₀ (by norm_num) (by unfold EMIN; push_cast; omega)
      have : T * (1 / 2) ≤ T * (1 - 1 / 2 ^ 40) := mul_le_mul_of_nonneg_left (by norm_num) (le_trans (by positivity) hTlb)
      linarith
    have hT0 : 0 < T := lt_of_lt_of_le (by positivity) hTlb
    obtain ⟨e3, e4⟩ := exp_bounds_abs t2.wf (le_trans hTlow hpm.1)
    have hlen : acc'.m.maxBitLen = P := by unfold Mantissa.maxBitLen; omega
    rw [hlen]
    have efM : (f + 1) * (M + 8) = f * (M + 8) + (M + 8) := by ring
    by_cases hstop : part.e ≤ acc'.e - (P : ℤ)
    · rw [if_pos hstop]
      refine ⟨acc', rfl, r2, r3, ?_⟩
      -- the rest of the series
      have q1 : (2 : ℝ) ^ part.e ≤ 2 ^ (acc'.e - 1) * 2 ^ (1 - (P : ℤ)) := by
        rw [← zpow_add₀ (by norm_num)]
        exact zpow_le_zpow_right₀ (by norm_num) (by omega)
      have q2 : (2 : ℝ) ^ (acc'.e - 1) * 2 ^ (1 - (P : ℤ)) ≤ |A| * (6 / 5) * δ :=
        mul_le_mul (by linarith) hp.err (by positivity) (by positivity)
      have q3 : T * (1 / 2) ≤ T * (1 - 1 / 2 ^ 40) := mul_le_mul_of_nonneg_left (by norm_num) hT0.le
      have q4 : T ≤ |A| * (4 * δ) := by
        have q0 : 0 ≤ |A| * δ := mul_nonneg hAp.le hn0
        have q1' := hpm.1
        linarith only [q0, q1', q1, q2, q3, e4]
      have q5 := atPhi_close hX0 (by linarith) (j + 1 + 1)
      have q6 : |A| * (X ^ (j + 1 + 1) / (2 * ((j + 1 + 1 : ℕ) : ℝ) + 1)) ≤ T := by
        rw [hT, mul_div_assoc]
        refine mul_le_mul_of_nonneg_left (div_le_div₀ hXjp.le ?_ hDp (by push_cast; linarith)) hAp.le
        exact pow_le_pow_of_le_one hX0.le (by linarith) (by omega)
      have q7 : |A * atSum X (j + 1 + 1) - A * atPhi X| ≤ |A| * (4 * δ) := by
        rw [← mul_sub, abs_mul, abs_sub_comm]
        refine le_trans (mul_le_mul_of_nonneg_left q5 hAp.le) (le_trans q6 q4)
      have q8 : |(acc'.toK : ℝ) - A * atPhi X| ≤ |A| * (((E + (M + 4) : ℕ) : ℝ) * δ) + |A| * (4 * δ) := by
        rw [show (acc'.toK : ℝ) - A * atPhi X = (acc'.toK - A * atSum X (j + 1 + 1)) + (A * atSum X (j + 1 + 1) - A * atPhi X) by ring]
        exact le_trans (abs_add_le _ _) (add_le_add m4 q7)
      refine le_trans q8 ?_
      rw [← mul_add, ← add_mul]
      refine mul_le_mul_of_nonneg_left (mul_le_mul_of_nonneg_right ?_ hn0) hAp.le
      exact_mod_cast (by omega : E + (M + 4) + 4 ≤ E + (f + 1) * (M + 8))
    · rw [if_neg hstop]
      have q1 : (2 : ℝ) ^ acc'.e * 2 ^ (-(P : ℤ)) ≤ 2 ^ (part.e - 1) := by
        rw [← zpow_add₀ (by norm_num)]
        exact zpow_le_zpow_right₀ (by norm_num) (by omega)
      have q2 : |A| * (4 / 5) * 2 ^ (-(P : ℤ)) ≤ (2 : ℝ) ^ acc'.e * 2 ^ (-(P : ℤ)) :=
        mul_le_mul_of_nonneg_right (by linarith) (by positivity)
      have q3 : T * (1 + 1 / 2 ^ 40) ≤ T * 2 := mul_le_mul_of_nonneg_left (by norm_num) hT0.le
      have q4 : |A| * ((4 / 5) * 2 ^ (-(P : ℤ))) ≤ |A| * (X ^ (j + 1) * 2) := by
        have q2' := hpm.2
        linarith only [q2', q1, q2, q3, e3, hTub]
      have q5 := le_of_mul_le_mul_left q4 hAp
      have q6 : (2 : ℝ) ^ (-((P + 2 : ℕ) : ℤ)) ≤ X ^ (j + 1) := by
        have : (2 : ℝ) ^ (-((P + 2 : ℕ) : ℤ)) = 2 ^ (-(P : ℤ)) * (1 / 4) := by
          rw [show (1 / 4 : ℝ) = 2 ^ (-2 : ℤ) by norm_num, ← zpow_add₀ (by norm_num)]
          congr 1; push_cast; ring
        rw [this]
        have : (0 : ℝ) < 2 ^ (-(P : ℤ)) := by positivity
        linarith
      have q7 : 5 * (j + 1) ≤ P + 2 := by
        have : X ^ (j + 1) ≤ 2 ^ (-((5 * (j + 1) : ℕ) : ℤ)) := by
          calc X ^ (j + 1) ≤ (1 / 32) ^ (j + 1) := pow_le_pow_left₀ hX0.le hA1 _
            _ = 2 ^ (-((5 * (j + 1) : ℕ) : ℤ)) := by
              rw [zpow_neg, zpow_natCast, pow_mul, ← inv_pow]; norm_num
        have := (zpow_le_zpow_iff_right₀ (by norm_num : (1 : ℝ) < 2)).1 (le_trans q6 this)
        omega
      have hyl : (2 : ℝ) ^ (-((3 * a + Q + 42 : ℕ) : ℤ)) ≤ |A * X ^ (j + 1) * X| := by
        rw [abs_mul, abs_mul, abs_of_pos hX0, abs_of_pos hXjp]
        calc (2 : ℝ) ^ (-((3 * a + Q + 42 : ℕ) : ℤ)) ≤ 2 ^ (-(a : ℤ)) * 2 ^ (-((P + 2 : ℕ) : ℤ)) * 2 ^ (-((2 * a : ℕ) : ℤ)) := by
              rw [← zpow_add₀ (by norm_num), ← zpow_add₀ (by norm_num)]
              exact zpow_le_zpow_right₀ (by norm_num) (by push_cast; omega)
          _ ≤ _ := mul_le_mul (mul_le_mul hA q6 (by positivity) hAp.le) hXlb (by positivity) (by positivity)
      obtain ⟨xp', y1, y2⟩ := hx.mul (ℓ := 3 * a + Q + 42) hd hp (Rl.of_lo hd hxs) hyl (by omega) (by omega) (by omega) (by
        rw [abs_mul, abs_mul, abs_of_pos hX0, abs_of_pos hXjp]
        have := mul_le_mul (mul_le_mul hAle hXj hXjp.le (by norm_num)) (show X ≤ 1 by linarith) hX0.le (by norm_num)
        norm_num at this ⊢; linarith)
      rw [y1]
      dsimp only
      rw [show A * X ^ (j + 1) * X = A * X ^ (j + 1 + 1) by rw [pow_succ X (j + 1)]; ring] at y2
      obtain ⟨v, v1, v2, v3, v4⟩ := linear_atan hd hp hX hA hA1 hxs hP hQ hb hM f (j + 1) (N + 1 + 3) (3 * a + Q + 42) (E + (M + 4)) acc' xp' g'
        c2 y2 (le_trans (zpow_le_zpow_right₀ (by norm_num) (by push_cast; omega)) q6) r2 r3 m4 (by omega) (by omega)
        (by omega) (by omega) (by omega)
      refine ⟨v, v1, v2, v3, ?_⟩
      rw [hX, ← arctan_eq_phi hA0]
      refine le_trans v4 (mul_le_mul_of_nonneg_left (mul_le_mul_of_nonneg_right ?_ hn0) hAp.le)
      exact_mod_cast (by omega : E + (M + 4) + f * (M + 8) ≤ E + (f + 1) * (M + 8))

end AF
