import Verif.Lemmas.CosCost
import Verif.Lemmas.TrigProx
/-!
# Restoring the argument of the cosine
-/

namespace AF

set_option linter.unusedSectionVars false

variable {δ : ℝ} {P P₀ p : Nat}

theorem abs_sub_ix_left (hp : PrecOk δ p P) {a b : Num} (ha : a.WF) (hb : b.WF) (hia : a.inexact = true) (haz : a.isZero = false)
    (h2 : |(a.toK : ℝ) - b.toK| ≤ 2 ^ 64) {s : ℝ} (hs : (2 : ℝ) ^ (EMIN - 1) ≤ s * 2 ^ (1 - (P : ℤ))) :
    ∃ v, a.sub b p .none = .ok v ∧ v.WF ∧ 64 * v.m.m.length = P ∧ v.inexact = true ∧
      |(v.toK : ℝ) - (a.toK - b.toK)| ≤ max |(a.toK : ℝ) - b.toK| s * δ := by
  have hd := addSub_spec (K := ℝ) ha hb hp.pos (by rw [hp.eq]; exact hp.lt) false .none
  rw [if_neg (by simp), ← sub_eq_add_neg] at hd
  obtain ⟨v, v1, v2, v3, v4⟩ := abs_step hp hd h2 hs
  refine ⟨v, v1, v2, v3, ?_, v4⟩
  rw [v1] at hd
  refine hd.2.2.2.2.1.2 (Or.inl ?_)
  unfold addIx
  rw [if_neg (by rw [haz]; exact Bool.false_ne_true)]
  split
  · exact hia
  · rw [hia, Bool.true_or]

/-- The number `v` is the cosine of `z` up to an absolute error. -/
structure Cn (P : Nat) (ε z : ℝ) (v : Num) : Prop where
  wf : v.WF
  len : 64 * v.m.m.length = P
  ix : v.inexact = true
  err : |(v.toK : ℝ) - Real.cos z| ≤ ε

/-- One step of `cos_arg_restore`. -/
theorem cosRestore_step (hd : DOk δ) (hp : PrecOk δ P P) (hP : P ≤ 2 ^ 21) {ε z : ℝ} {c : Num} (h : Cn P ε z c)
    (hε : ε ≤ 1 / 2 ^ 70) (hz : 1 / 2 ^ 61 ≤ |Real.cos z|) :
    ∃ c', (∀ n, Num.cosRestoreLoop P (n + 1) c = Num.cosRestoreLoop P n c') ∧ Cn P (4 * ε + 2 * (ε * ε) + 9 * δ) (2 * z) c' := by
  obtain ⟨C, hC⟩ : ∃ C, C = Real.cos z := ⟨_, rfl⟩
  obtain ⟨u, hu⟩ : ∃ u : ℝ, u = c.toK - C := ⟨_, rfl⟩
  have hcC : (c.toK : ℝ) = C + u := by rw [hu]; ring
  have herr : |u| ≤ ε := by rw [hu, hC]; exact h.err
  rw [← hC] at hz
  have hε0 : 0 ≤ ε := le_trans (abs_nonneg _) herr
  have hC1 : |C| ≤ 1 := by rw [hC]; exact Real.abs_cos_le_one z
  have hδ := hd.nonneg
  have hδ1 : δ ≤ 1 / 1000 := le_trans hd.small (by norm_num)
  have hε1 : ε ≤ 1 / 1000 := le_trans hε (by norm_num)
  have hc1 : |(c.toK : ℝ)| ≤ 1 + ε := by
    rw [hcC]; exact le_trans (abs_add_le _ _) (by linarith)
  have hlb : (2 : ℝ) ^ (-((62 : ℕ) : ℤ)) ≤ |(c.toK : ℝ)| := by
    rw [hcC]
    have := abs_sub_abs_le_abs_sub C (-u)
    rw [abs_neg, sub_neg_eq_add] at this
    have h1 : (2 : ℝ) ^ (-((62 : ℕ) : ℤ)) + 1 / 2 ^ 70 ≤ 1 / 2 ^ 61 := by norm_num
    generalize (2 : ℝ) ^ (-((62 : ℕ) : ℤ)) = q at h1 ⊢
    linarith only [this, h1, hz, herr, hε]
  have r0 : Rl δ P 62 0 c.toK c := Rl.of_exact h.wf h.len hlb
  have hc0 := abs_nonneg (c.toK : ℝ)
  have hss : |(c.toK : ℝ) * c.toK| ≤ 101 / 100 := by
    rw [abs_mul]
    calc |(c.toK : ℝ)| * |(c.toK : ℝ)| ≤ 1001 / 1000 * (1001 / 1000) := mul_le_mul (by linarith) (by linarith) hc0 (by norm_num)
      _ ≤ _ := by norm_num
  have l2 : (2 : ℝ) ^ (-((124 : ℕ) : ℤ)) ≤ |(c.toK : ℝ) * c.toK| := by
    rw [abs_mul, show (-((124 : ℕ) : ℤ)) = -((62 : ℕ) : ℤ) + -((62 : ℕ) : ℤ) by norm_num, zpow_add₀ (by norm_num)]
    exact mul_le_mul hlb hlb (by positivity) hc0
  obtain ⟨s, s1, s2⟩ := r0.mul hd hp r0 l2 (by omega) (by norm_num) (by norm_num) (le_trans hss (by norm_num))
  have z0 := r0.nz hd (by norm_num)
  have sz := s2.nz hd (by norm_num)
  have is : s.inexact = true := mul_ix hp h.wf h.wf s1 h.ix z0 z0
  obtain ⟨a, a1, a2⟩ := s2.err
  have a2' : |a| ≤ 3 * δ := by push_cast at a2; linarith
  have m1 := s2.mag hd (by norm_num)
  have hE : EMIN = -2 ^ 31 := rfl
  have hs2 : |(s.toK : ℝ)| ≤ 102 / 100 := by
    refine le_trans m1.2 ?_
    calc |(c.toK : ℝ) * c.toK| * (1 + 1 / 2 ^ 40) ≤ 101 / 100 * (1 + 1 / 2 ^ 40) := mul_le_mul_of_nonneg_right hss (by norm_num)
      _ ≤ _ := by norm_num
  have hsl : (2 : ℝ) ^ (-125 : ℤ) ≤ |(s.toK : ℝ)| := by
    refine le_trans ?_ m1.1
    rw [show (2 : ℝ) ^ (-125 : ℤ) = 2 ^ (-((124 : ℕ) : ℤ)) * (1 / 2) by norm_num]
    exact mul_le_mul l2 (by norm_num) (by norm_num) (abs_nonneg _)
  have hse := s2.wf.e_of_abs hsl
  have hsb := exp_bounds_abs s2.wf (le_trans (zpow_le_zpow_right₀ (by norm_num) (by omega)) hsl)
  have hse2 : s.e ≤ 1 := by
    have := (zpow_lt_zpow_iff_right₀ (by norm_num : (1 : ℝ) < 2)).1 (lt_of_le_of_lt (le_trans hsb.1 hs2) (show (102 / 100 : ℝ) < 2 ^ (1 : ℤ) by norm_num))
    omega
  obtain ⟨t1, t2, t3, t4, -, -⟩ := setExponent_normal s2.wf sz (by omega) (e := s.e + 1) (by omega) (by unfold EMAX; omega)
  rw [show s.e + 1 - s.e = 1 by ring, zpow_one] at t2
  rw [is] at t4
  obtain ⟨d, hd'⟩ : ∃ d, d = s.setExponent (s.e + 1) := ⟨_, rfl⟩
  rw [← hd'] at t1 t2 t3 t4
  have dz : d.isZero = false := by
    rw [← Bool.not_eq_true, ← t1.toK_eq_zero (K := ℝ), t2]
    have : (s.toK : ℝ) ≠ 0 := by
      rw [Ne, s2.wf.toK_eq_zero (K := ℝ), sz]; exact Bool.false_ne_true
    exact mul_ne_zero this (by norm_num)
  -- the square
  have hcc : 0 ≤ (c.toK : ℝ) * c.toK := mul_self_nonneg _
  rw [abs_of_nonneg hcc] at hss m1
  have hpos : 0 ≤ (s.toK : ℝ) := by
    rw [a1]
    refine mul_nonneg hcc ?_
    have := (abs_le.1 a2').1
    linarith
  rw [abs_of_nonneg hpos] at hs2
  have hdif : |(d.toK : ℝ) - (Num.ONE.toK : ℝ)| ≤ 105 / 100 := by
    rw [t2, ONE_toK, abs_le]; constructor <;> linarith
  obtain ⟨v, v1, v2, v3, v4, v5⟩ := abs_sub_ix_left hp t1 ONE_WF t4 dz (le_trans hdif (by norm_num)) (s := 1) (by
    rw [one_mul]
    exact zpow_le_zpow_right₀ (by norm_num) (by omega))
  refine ⟨v, fun n => ?_, v2, v3, v4, ?_⟩
  · conv_lhs => unfold Num.cosRestoreLoop
    rw [s1]; dsimp only
    rw [← hd', v1]
  · have w1 : |(v.toK : ℝ) - (d.toK - 1)| ≤ 105 / 100 * δ := by
      rw [ONE_toK] at v5 hdif
      exact le_trans v5 (mul_le_mul_of_nonneg_right (max_le hdif (by norm_num)) hδ)
    have w2 : |2 * ((c.toK : ℝ) * c.toK * a)| ≤ 7 * δ := by
      rw [abs_mul, abs_mul, abs_of_nonneg hcc, abs_of_pos (show (0 : ℝ) < 2 by norm_num)]
      calc 2 * ((c.toK : ℝ) * c.toK * |a|) ≤ 2 * (101 / 100 * (3 * δ)) :=
            mul_le_mul_of_nonneg_left (mul_le_mul hss a2' (abs_nonneg _) (by norm_num)) (by norm_num)
        _ ≤ _ := by linarith
    have w3 : |4 * (C * u)| ≤ 4 * ε := by
      rw [abs_mul, abs_mul, abs_of_pos (show (0 : ℝ) < 4 by norm_num)]
      refine mul_le_mul_of_nonneg_left (le_trans (mul_le_of_le_one_left (abs_nonneg _) hC1) herr) (by norm_num)
    have w4 : |2 * (u * u)| ≤ 2 * (ε * ε) := by
      rw [abs_mul, abs_mul, abs_of_pos (show (0 : ℝ) < 2 by norm_num)]
      exact mul_le_mul_of_nonneg_left (mul_le_mul herr herr (abs_nonneg _) hε0) (by norm_num)
    have e5 : (v.toK : ℝ) - Real.cos (2 * z) = (v.toK - (d.toK - 1)) + 2 * (c.toK * c.toK * a) + 4 * (C * u) + 2 * (u * u) := by
      rw [Real.cos_two_mul, ← hC, t2, a1, hcC]; ring
    rw [e5]
    refine le_trans (abs_add_le _ _) (le_trans (add_le_add (le_trans (abs_add_le _ _) (add_le_add (abs_add_le _ _) le_rfl)) le_rfl) ?_)
    linarith

/-- `cos_arg_restore`. -/
theorem cosRestoreLoop_spec (hd : DOk δ) (hp : PrecOk δ P P) (hP : P ≤ 2 ^ 21) :
    ∀ (n : Nat) (t z : ℝ) (c : Num), Cn P (t + t * t - 3 * δ) z c → 0 ≤ t → 4 ^ n * t ≤ 1 / 2 ^ 80 →
      (∀ k < n, 1 / 2 ^ 61 ≤ |Real.cos (z * 2 ^ k)|) →
      ∃ v, Num.cosRestoreLoop P n c = .ok v ∧ Cn P (2 * (4 ^ n * t)) (z * 2 ^ n) v
  | 0, t, z, c, h, h0, ht, _ => by
    rw [pow_zero, one_mul] at ht
    have hδ := hd.nonneg
    have ht1 : t ≤ 1 := le_trans ht (by norm_num)
    refine ⟨c, rfl, h.wf, h.len, h.ix, ?_⟩
    rw [pow_zero, mul_one, pow_zero, one_mul]
    refine le_trans h.err ?_
    have : t * t ≤ t := mul_le_of_le_one_left h0 ht1
    linarith
  | n + 1, t, z, c, h, h0, ht, hc => by
    have hδ := hd.nonneg
    have h4 : (1 : ℝ) ≤ 4 ^ n := one_le_pow₀ (by norm_num)
    have ht4 : t ≤ 1 / 2 ^ 80 := by
      refine le_trans ?_ ht
      exact le_mul_of_one_le_left h0 (one_le_pow₀ (by norm_num))
    have ht1 : t ≤ 1 / 1000 := le_trans ht4 (by norm_num)
    have htt : t * t ≤ t := mul_le_of_le_one_left h0 (by linarith)
    have hc0 := hc 0 (by omega)
    rw [pow_zero, mul_one] at hc0
    have hsm : t + t * t - 3 * δ ≤ 1 / 2 ^ 70 := by
      have : (1 : ℝ) / 2 ^ 80 + 1 / 2 ^ 80 ≤ 1 / 2 ^ 70 := by norm_num
      linarith only [this, ht4, htt, hδ]
    obtain ⟨c', a1, a2⟩ := cosRestore_step hd hp hP h hsm hc0
    have hnn := le_trans (abs_nonneg _) h.err
    have hnew : Cn P (4 * t + 4 * t * (4 * t) - 3 * δ) (2 * z) c' := by
      refine ⟨a2.wf, a2.len, a2.ix, le_trans a2.err ?_⟩
      have h5 : (t + t * t - 3 * δ) * (t + t * t - 3 * δ) ≤ (101 / 100 * t) * (101 / 100 * t) := by
        have : t + t * t - 3 * δ ≤ 101 / 100 * t := by
          have : t * t ≤ 1 / 1000 * t := mul_le_mul_of_nonneg_right ht1 h0
          linarith
        exact mul_le_mul this this hnn (by linarith)
      have h6 : 0 ≤ t * t := mul_self_nonneg t
      linarith
    obtain ⟨v, v1, v2⟩ := cosRestoreLoop_spec hd hp hP n (4 * t) (2 * z) c' hnew (by linarith) (by
      refine le_trans (le_of_eq ?_) ht
      rw [pow_succ]; ring) (by
      intro k hk
      have := hc (k + 1) (by omega)
      rw [show 2 * z * 2 ^ k = z * 2 ^ (k + 1) by rw [pow_succ]; ring]
      exact this)
    refine ⟨v, by rw [a1]; exact v1, ?_⟩
    rw [show z * 2 ^ (n + 1) = 2 * z * 2 ^ n by rw [pow_succ]; ring, show (4 : ℝ) ^ (n + 1) * t = 4 ^ n * (4 * t) by rw [pow_succ]; ring]
    exact v2

end AF
