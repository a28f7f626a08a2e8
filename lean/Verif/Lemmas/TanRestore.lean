import Verif.Lemmas.TanCost
import Verif.Lemmas.AtanRed
/-!
# Restoring the argument of the tangent

The error is followed as a change of the angle.
-/

namespace AF

set_option linter.unusedSectionVars false

/-- A relative change of a tangent as a change of the angle. -/
theorem tan_shift {ψ g : ℝ} (hc : Real.cos ψ ≠ 0) (hg : |g| ≤ 1 / 2) :
    ∃ η, Real.cos (ψ + η) ≠ 0 ∧ Real.tan (ψ + η) = Real.tan ψ * (1 + g) ∧ |η| ≤ 2 * |g| * (|Real.sin ψ| * |Real.cos ψ|) := by
  have hg' := abs_le.1 hg
  obtain ⟨T, hT⟩ : ∃ T, T = Real.tan ψ := ⟨_, rfl⟩
  have hTT : 0 ≤ T * T := mul_self_nonneg T
  have hTg : 0 ≤ T * T * (1 / 2 + g) := mul_nonneg hTT (by linarith)
  have hden : 0 < 1 + T * T * (1 + g) := by linarith
  obtain ⟨τ, hτ⟩ : ∃ τ, τ = g * T / (1 + T * T * (1 + g)) := ⟨_, rfl⟩
  have hη : Real.tan (Real.arctan τ) = τ := Real.tan_arctan τ
  have hce : Real.cos (Real.arctan τ) ≠ 0 := (Real.cos_arctan_pos τ).ne'
  have hsη : Real.sin (Real.arctan τ) = τ * Real.cos (Real.arctan τ) := by
    rw [← Real.tan_mul_cos hce, hη]
  have hsψ : Real.sin ψ = T * Real.cos ψ := by rw [hT, Real.tan_mul_cos hc]
  have h1 : 1 - T * τ = (1 + T * T) / (1 + T * T * (1 + g)) := by
    rw [hτ, eq_div_iff hden.ne', sub_mul, mul_div_assoc', div_mul_cancel₀ _ hden.ne']; ring
  have h2 : Real.cos (ψ + Real.arctan τ) = Real.cos ψ * Real.cos (Real.arctan τ) * (1 - T * τ) := by
    rw [Real.cos_add, hsη, hsψ]; ring
  have h3 : Real.sin (ψ + Real.arctan τ) = Real.cos ψ * Real.cos (Real.arctan τ) * (T + τ) := by
    rw [Real.sin_add, hsη, hsψ]; ring
  have h1n : 1 - T * τ ≠ 0 := by rw [h1]; positivity
  have hcn : Real.cos (ψ + Real.arctan τ) ≠ 0 := by
    rw [h2]; exact mul_ne_zero (mul_ne_zero hc hce) h1n
  refine ⟨Real.arctan τ, hcn, ?_, ?_⟩
  · rw [Real.tan_eq_sin_div_cos, h2, h3, mul_div_mul_left _ _ (mul_ne_zero hc hce), ← hT, div_eq_iff h1n, h1, hτ, mul_div_assoc', eq_div_iff hden.ne', add_mul,
      div_mul_cancel₀ _ hden.ne']
    ring
  · refine le_trans (abs_arctan_le τ) ?_
    have h4 : |Real.sin ψ| * |Real.cos ψ| = |T| / (1 + T * T) := by
      have hcc : Real.cos ψ * Real.cos ψ * (1 + T * T) = 1 := by
        have := Real.sin_sq_add_cos_sq ψ
        rw [hsψ] at this
        linarith
      rw [eq_div_iff (by positivity), hsψ, abs_mul]
      have : |T| * |Real.cos ψ| * |Real.cos ψ| * (1 + T * T) = |T| * (|Real.cos ψ| * |Real.cos ψ| * (1 + T * T)) := by ring
      rw [this, abs_mul_abs_self, hcc, mul_one]
    rw [h4, hτ, abs_div, abs_mul, abs_of_pos hden, ← mul_div_assoc, div_le_div_iff₀ hden (by positivity)]
    have h5 : 0 ≤ |g| * |T| := by positivity
    have h6 := mul_le_mul_of_nonneg_left (show 1 + T * T ≤ 2 * (1 + T * T * (1 + g)) by linarith) h5
    linarith

variable {δ : ℝ} {P p M L : Nat} {x y v : Num}

theorem big_sub (hp : PrecOk δ p P) (hx : x.WF) (hy : y.WF) (hm : Mg M ((x.toK : ℝ) - y.toK)) (hM : M ≤ 2 ^ 30) :
    ∃ v, x.sub y p .none = .ok v ∧ v.WF ∧ 64 * v.m.m.length = P ∧ ∃ θ, (v.toK : ℝ) = (x.toK - y.toK) * (1 + θ) ∧ |θ| ≤ δ := by
  have hs := addSub_spec (K := ℝ) hx hy hp.pos (by rw [hp.eq]; exact hp.lt) false .none
  rw [if_neg (by simp), ← sub_eq_add_neg] at hs
  obtain ⟨v, v1, v2, v3, v4, -⟩ := big_step hp hs hm hM
  exact ⟨v, v1, v2, v3, v4⟩

/-- The number `v` is the tangent of an angle close to `z`. -/
structure Tn (P : Nat) (ε z : ℝ) (v : Num) : Prop where
  wf : v.WF
  len : 64 * v.m.m.length = P
  ix : v.inexact = true
  err : ∃ η, Real.cos (z + η) ≠ 0 ∧ (v.toK : ℝ) = Real.tan (z + η) ∧ |η| ≤ ε * |z|

/-- The angle is far from the zeros and the poles of the tangent. -/
structure TanFar (z : ℝ) : Prop where
  c : 1 / 2 ^ 60 ≤ |Real.cos z|
  s : 1 / 2 ^ 60 * |z| ≤ |Real.sin z|

theorem TanFar.half {z : ℝ} (hz : z ≠ 0) (h : TanFar (2 * z)) : TanFar z := by
  have h1 := h.s
  rw [Real.sin_two_mul, abs_mul, abs_mul, abs_mul, abs_of_pos (show (0 : ℝ) < 2 by norm_num)] at h1
  have hz0 := abs_pos.2 hz
  have h2 := Real.abs_sin_le_one z
  have h3 := Real.abs_cos_le_one z
  have h4 : |Real.sin z| ≤ |z| := Real.abs_sin_le_abs
  have hs := abs_nonneg (Real.sin z)
  have hc := abs_nonneg (Real.cos z)
  constructor
  · have h5 := mul_le_mul_of_nonneg_right h4 hc
    have h6 : 1 / 2 ^ 60 * |z| ≤ |Real.cos z| * |z| := by linarith
    exact le_of_mul_le_mul_right h6 hz0
  · have h5 := mul_le_mul_of_nonneg_left h3 hs
    linarith

theorem TanFar.halves {z : ℝ} (hz : z ≠ 0) : ∀ n : Nat, TanFar (z * 2 ^ n) → ∀ k ≤ n, TanFar (z * 2 ^ k)
  | 0, h, k, hk => by
    have : k = 0 := by omega
    rw [this]; exact h
  | n + 1, h, k, hk => by
    rcases Nat.lt_or_ge n k with h1 | h1
    · have : k = n + 1 := by omega
      rw [this]; exact h
    · refine TanFar.halves hz n (TanFar.half (mul_ne_zero hz (by positivity)) ?_) k h1
      rw [show 2 * (z * 2 ^ n) = z * 2 ^ (n + 1) by rw [pow_succ]; ring]
      exact h

/-- The bounds at a perturbed angle. -/
theorem TanFar.pert {z η ε : ℝ} (h : TanFar z) (hη : |η| ≤ ε * |z|) (hε : ε ≤ 1 / 2 ^ 70) (hz : |z| ≤ 63 / 10) :
    1 / 2 ^ 61 ≤ |Real.cos (z + η)| ∧ 1 / 2 ^ 61 * |z| ≤ |Real.sin (z + η)| := by
  have hz0 := abs_nonneg z
  have h1 : |η| ≤ 1 / 2 ^ 70 * |z| := le_trans hη (mul_le_mul_of_nonneg_right hε hz0)
  constructor
  · have h2 := cos_sub_le z (z + η)
    rw [show z - (z + η) = -η by ring, abs_neg] at h2
    have h3 := abs_sub_abs_le_abs_sub (Real.cos z) (Real.cos (z + η))
    have h4 := h.c
    have h5 : (1 : ℝ) / 2 ^ 61 + 1 / 2 ^ 70 * (63 / 10) ≤ 1 / 2 ^ 60 := by norm_num
    have h6 : (1 : ℝ) / 2 ^ 70 * |z| ≤ 1 / 2 ^ 70 * (63 / 10) := mul_le_mul_of_nonneg_left hz (by norm_num)
    linarith only [h1, h2, h3, h4, h5, h6]
  · have h2 := sin_sub_le z (z + η)
    rw [show z - (z + η) = -η by ring, abs_neg] at h2
    have h3 := abs_sub_abs_le_abs_sub (Real.sin z) (Real.sin (z + η))
    have h4 := h.s
    have h5 : ((1 : ℝ) / 2 ^ 61 + 1 / 2 ^ 70) * |z| ≤ 1 / 2 ^ 60 * |z| := mul_le_mul_of_nonneg_right (by norm_num) hz0
    linarith only [h1, h2, h3, h4, h5]

/-- One step of `tan_arg_restore`. -/
theorem tanRestore_step (hd : DOk δ) (hp : PrecOk δ P P) {ε z : ℝ} (h : Tn P ε z v) (hε0 : 0 ≤ ε) (hε : ε ≤ 1 / 2 ^ 70)
    (hz1 : (2 : ℝ) ^ (-(L : ℤ)) ≤ |z|) (hz2 : |2 * z| ≤ 63 / 10) (hf : TanFar z) (hf2 : TanFar (2 * z)) (hL : L ≤ 2 ^ 20) :
    ∃ v', (∀ n, Num.tanRestoreLoop P (n + 1) v = Num.tanRestoreLoop P n v') ∧ Tn P (ε + 32 * δ) (2 * z) v' := by
  obtain ⟨η, e1, e2, e3⟩ := h.err
  have hδ := hd.nonneg
  have hz0 : 0 < |z| := lt_of_lt_of_le (by positivity) hz1
  have h2z : |2 * z| = 2 * |z| := by rw [abs_mul, abs_of_pos (show (0 : ℝ) < 2 by norm_num)]
  obtain ⟨c1, s1⟩ := hf.pert e3 hε (by linarith)
  obtain ⟨c2, -⟩ := hf2.pert (η := 2 * η) (ε := ε) (by
    rw [h2z, abs_mul, abs_of_pos (show (0 : ℝ) < 2 by norm_num)]; linarith) hε hz2
  rw [show 2 * z + 2 * η = 2 * (z + η) by ring] at c2
  have hηz : |η| ≤ |z| := le_trans e3 (mul_le_of_le_one_left hz0.le (le_trans hε (by norm_num)))
  obtain ⟨φ, hφ⟩ : ∃ φ, φ = z + η := ⟨_, rfl⟩
  rw [← hφ] at e1 e2 c1 s1 c2
  have hφz : |φ| ≤ 2 * |z| := by rw [hφ]; exact le_trans (abs_add_le _ _) (by linarith)
  obtain ⟨t, ht⟩ : ∃ t, t = Real.tan φ := ⟨_, rfl⟩
  rw [← ht] at e2
  have hst : Real.sin φ = t * Real.cos φ := by rw [ht, Real.tan_mul_cos e1]
  have hC0 : 0 < |Real.cos φ| := abs_pos.2 e1
  have hC1 := Real.abs_cos_le_one φ
  have hS1 := Real.abs_sin_le_one φ
  have habs : |t| * |Real.cos φ| = |Real.sin φ| := by rw [hst, abs_mul]
  have ht0 := abs_nonneg t
  have k61 : (1 : ℝ) / 2 ^ 61 = 2 ^ (-(61 : ℤ)) := by rw [zpow_neg]; norm_num
  have mt : Mg (L + 61) t := by
    constructor
    · rw [show -((L + 61 : ℕ) : ℤ) = -(61 : ℤ) + -(L : ℤ) by push_cast; ring, zpow_add₀ (by norm_num), ← k61]
      have q1 := mul_le_mul_of_nonneg_left hz1 (show (0 : ℝ) ≤ 1 / 2 ^ 61 by positivity)
      have q2 := mul_le_of_le_one_right ht0 hC1
      exact le_trans q1 (le_trans s1 (le_trans habs.ge q2))
    · refine le_trans (b := (2 : ℝ) ^ (61 : ℤ)) ?_ (zpow_le_zpow_right₀ (by norm_num) (by push_cast; omega))
      have q1 := mul_le_mul_of_nonneg_left c1 ht0
      rw [habs] at q1
      have q2 : |t| * (1 / 2 ^ 61) ≤ 1 := le_trans q1 hS1
      rw [mul_one_div, div_le_one (by positivity)] at q2
      exact_mod_cast q2
  -- the square
  obtain ⟨sq, q1, q2, -, a, q4, q5⟩ := big_mul hp h.wf h.wf (M := (L + 61) + (L + 61)) (by rw [e2]; exact mt.mul mt) (by omega)
  rw [e2] at q4
  have hcos2 : Real.cos (2 * φ) = Real.cos φ * Real.cos φ * (1 - t * t) := by
    rw [Real.cos_two_mul', hst]; ring
  have hc20 : Real.cos (2 * φ) ≠ 0 := by
    intro hc
    rw [hc, abs_zero] at c2
    exact absurd c2 (by norm_num)
  have hcc : Real.cos φ * Real.cos φ ≠ 0 := mul_ne_zero e1 e1
  have hK : 1 - t * t ≠ 0 := by
    intro hc
    rw [hc, mul_zero] at hcos2
    exact hc20 hcos2
  obtain ⟨u, hu⟩ : ∃ u, u = a * (Real.sin φ * Real.sin φ) / Real.cos (2 * φ) := ⟨_, rfl⟩
  have hSS : |Real.sin φ * Real.sin φ| ≤ 1 := by
    rw [abs_mul]; exact mul_le_one₀ hS1 (abs_nonneg _) hS1
  have huc : |u| * |Real.cos (2 * φ)| ≤ δ := by
    rw [← abs_mul, hu, div_mul_cancel₀ _ hc20, abs_mul]
    exact le_trans (mul_le_of_le_one_right (abs_nonneg _) hSS) q5
  have hu1 : |u| ≤ 1 / 16 := by
    have w1 := le_trans (mul_le_mul_of_nonneg_left c2 (abs_nonneg u)) (le_trans huc hd.small)
    have w2 : (1 : ℝ) / 2 ^ 100 ≤ 1 / 16 * (1 / 2 ^ 61) := by norm_num
    have w3 : |u| * (1 / 2 ^ 61) ≤ 1 / 16 * (1 / 2 ^ 61) := by
      refine le_trans w1 ?_
      norm_num
    exact le_of_mul_le_mul_right w3 (by positivity)
  have hsub : 1 - (sq.toK : ℝ) = (1 - t * t) * (1 + -u) := by
    have h1 : u * (1 - t * t) = a * (t * t) := by
      rw [hu, div_mul_eq_mul_div, div_eq_iff hc20, hcos2, hst]
      ring
    rw [q4]
    have : (1 - t * t) * (1 + -u) = (1 - t * t) - u * (1 - t * t) := by ring
    rw [this, h1]; ring
  have mK : Mg 122 (1 - t * t) := by
    have w1 : |Real.cos (2 * φ)| = |Real.cos φ| * |Real.cos φ| * |1 - t * t| := by rw [hcos2, abs_mul, abs_mul]
    have w2 := abs_nonneg (1 - t * t)
    constructor
    · have w3 : |Real.cos φ| * |Real.cos φ| * |1 - t * t| ≤ |1 - t * t| :=
        mul_le_of_le_one_left w2 (mul_le_one₀ hC1 hC0.le hC1)
      refine le_trans ?_ (le_trans c2 (le_trans w1.le w3))
      rw [k61]
      exact zpow_le_zpow_right₀ (by norm_num) (by norm_num)
    · have w4 : (1 / 2 ^ 61 * (1 / 2 ^ 61) : ℝ) ≤ |Real.cos φ| * |Real.cos φ| := mul_le_mul c1 c1 (by positivity) hC0.le
      have w5 := mul_le_mul_of_nonneg_right w4 w2
      rw [← w1] at w5
      have w6 := le_trans w5 (Real.abs_cos_le_one (2 * φ))
      have w7 : (1 / 2 ^ 61 * (1 / 2 ^ 61) : ℝ) * |1 - t * t| = |1 - t * t| / 2 ^ 122 := by ring
      rw [w7, div_le_one (by positivity)] at w6
      exact_mod_cast w6
  have mS : Mg 123 (1 - (sq.toK : ℝ)) := by
    rw [hsub]
    exact mK.pert (by rw [abs_neg]; linarith)
  obtain ⟨q, r1, r2, -, b, r4, r5⟩ := big_sub hp ONE_WF q2 (M := 123) (by rw [ONE_toK]; exact mS) (by norm_num)
  rw [ONE_toK] at r4
  have hδ16 : δ ≤ 1 / 16 := le_trans hd.small (by norm_num)
  have mQ : Mg 124 (q.toK : ℝ) := by
    rw [r4]
    exact mS.pert (by linarith)
  -- the doubled number
  have hE : EMIN = -2 ^ 31 := rfl
  have hve := h.wf.e_of_abs (k := -((L + 61 : ℕ) : ℤ)) (by rw [e2]; exact mt.lo)
  have hvb := exp_bounds_abs h.wf (by
    rw [e2]; exact le_trans (zpow_le_zpow_right₀ (by norm_num) (by push_cast; omega)) mt.lo)
  have hve2 : v.e - 1 ≤ ((L + 61 : ℕ) : ℤ) := by
    rw [e2] at hvb
    exact (zpow_le_zpow_iff_right₀ (by norm_num : (1 : ℝ) < 2)).1 (le_trans hvb.1 mt.hi)
  have vz : v.isZero = false := by
    rw [← Bool.not_eq_true, ← h.wf.toK_eq_zero (K := ℝ), e2]
    exact mt.ne
  obtain ⟨t1, t2, -, t4, -, -⟩ := setExponent_normal h.wf vz (by push_cast at hve; omega) (e := v.e + 1) (by push_cast at hve; omega)
    (by unfold EMAX; push_cast at hve2; omega)
  rw [show v.e + 1 - v.e = 1 by ring, zpow_one, e2] at t2
  rw [h.ix] at t4
  have mD : Mg (L + 62) ((v.setExponent (v.e + 1)).toK : ℝ) := by
    rw [t2]
    exact mt.mul (M₂ := 1) (Mg.near (by norm_num) (by norm_num))
  obtain ⟨r, w1, w2, w3, ⟨c, w4, w5⟩, w6⟩ := big_div hp t1 r2 (mD.div mQ) (by omega)
  -- the change of the angle
  have hub := abs_le.1 hu1
  have hbb := abs_le.1 r5
  have hden : 1 / 2 ≤ (1 - u) * (1 + b) := by nlinarith
  obtain ⟨g, hg⟩ : ∃ g, g = (c - b + u + u * b) / ((1 - u) * (1 + b)) := ⟨_, rfl⟩
  have hg1 : 1 + g = (1 + c) / ((1 - u) * (1 + b)) := by
    rw [hg, eq_div_iff (by linarith), add_mul, div_mul_cancel₀ _ (by linarith)]; ring
  have hgb : |g| ≤ 4 * δ + 4 * |u| := by
    rw [hg, abs_div, abs_of_pos (by linarith : 0 < (1 - u) * (1 + b)), div_le_iff₀ (by linarith)]
    have v1 : |c - b + u + u * b| ≤ 2 * δ + 2 * |u| := by
      have v2 : |u * b| ≤ |u| := by
        rw [abs_mul]; exact mul_le_of_le_one_right (abs_nonneg _) (by linarith)
      have v3 := abs_add_le (c - b + u) (u * b)
      have v4 := abs_add_le (c - b) u
      have v5 := abs_sub c b
      linarith
    have v6 : 0 ≤ 4 * δ + 4 * |u| := by positivity
    have v7 := mul_le_mul_of_nonneg_left hden v6
    linarith
  have hr : (r.toK : ℝ) = Real.tan (2 * φ) * (1 + g) := by
    rw [w4, t2, r4, hsub, hg1, Real.tan_two_mul, ← ht]
    have v1 : 1 + -u ≠ 0 := by linarith
    have v2 : 1 - u ≠ 0 := by linarith
    have v3 : 1 + b ≠ 0 := by linarith
    have v4 : 1 - t ^ 2 ≠ 0 := by rw [pow_two]; exact hK
    rw [show 1 + -u = 1 - u by ring, show 1 - t * t = 1 - t ^ 2 by ring]
    field_simp
  obtain ⟨η', x1, x2, x3⟩ := tan_shift hc20 (g := g) (by
    have := huc
    have v1 : |u| ≤ 1 / 16 := hu1
    linarith)
  have hS2 : |Real.sin (2 * φ)| ≤ 4 * |z| := by
    refine le_trans (Real.abs_sin_le_abs) ?_
    rw [abs_mul, abs_of_pos (show (0 : ℝ) < 2 by norm_num)]
    linarith
  have hη' : |η'| ≤ 32 * δ * |2 * z| := by
    refine le_trans x3 ?_
    have v1 := abs_nonneg (Real.sin (2 * φ))
    have v2 := abs_nonneg (Real.cos (2 * φ))
    have v3 : |g| * |Real.cos (2 * φ)| ≤ 8 * δ := by
      have v4 := mul_le_mul_of_nonneg_right hgb v2
      have v5 := mul_le_of_le_one_right hδ (Real.abs_cos_le_one (2 * φ))
      linarith
    have v6 := mul_le_mul v3 hS2 v1 (by positivity)
    rw [h2z]
    linarith
  refine ⟨r, fun n => ?_, w2, w3, w6 t4, 2 * η + η', ?_, ?_, ?_⟩
  · conv_lhs => unfold Num.tanRestoreLoop
    rw [q1]; dsimp only
    rw [r1]; dsimp only
    rw [w1]
  · rw [show 2 * z + (2 * η + η') = 2 * φ + η' by rw [hφ]; ring]; exact x1
  · rw [show 2 * z + (2 * η + η') = 2 * φ + η' by rw [hφ]; ring, x2, hr]
  · refine le_trans (abs_add_le _ _) ?_
    rw [abs_mul, abs_of_pos (show (0 : ℝ) < 2 by norm_num), add_mul]
    rw [h2z] at hη' ⊢
    linarith

/-- `tan_arg_restore`. -/
theorem tanRestoreLoop_spec (hd : DOk δ) (hp : PrecOk δ P P) (hL : L ≤ 2 ^ 20) :
    ∀ (n : Nat) (ε z : ℝ) (v : Num), Tn P ε z v → 0 ≤ ε → ε + n * (32 * δ) ≤ 1 / 2 ^ 70 → (2 : ℝ) ^ (-(L : ℤ)) ≤ |z| →
      |z * 2 ^ n| ≤ 63 / 10 → TanFar (z * 2 ^ n) →
      ∃ v', Num.tanRestoreLoop P n v = .ok v' ∧ Tn P (ε + n * (32 * δ)) (z * 2 ^ n) v'
  | 0, ε, z, v, h, _, _, _, _, _ => by
    refine ⟨v, rfl, ?_⟩
    rw [pow_zero, mul_one, Nat.cast_zero, zero_mul, add_zero]
    exact h
  | n + 1, ε, z, v, h, h0, h1, h2, h3, h4 => by
    have hδ := hd.nonneg
    have hz0 : 0 < |z| := lt_of_lt_of_le (by positivity) h2
    have hh := TanFar.halves (abs_pos.1 hz0) (n + 1) h4
    have f0 := hh 0 (by omega)
    have f1 := hh 1 (by omega)
    rw [pow_zero, mul_one] at f0
    rw [pow_one, mul_comm] at f1
    have hn : (0 : ℝ) ≤ n := Nat.cast_nonneg n
    have hnd : 0 ≤ n * (32 * δ) := by positivity
    push_cast at h1 ⊢
    have h2z : |2 * z| = 2 * |z| := by rw [abs_mul, abs_of_pos (show (0 : ℝ) < 2 by norm_num)]
    obtain ⟨v', a1, a2⟩ := tanRestore_step hd hp h h0 (by linarith) h2 (by
      refine le_trans ?_ h3
      rw [h2z, abs_mul, abs_of_pos (show (0 : ℝ) < 2 ^ (n + 1) by positivity), pow_succ]
      have : (1 : ℝ) ≤ 2 ^ n := one_le_pow₀ (by norm_num)
      have := mul_le_mul_of_nonneg_left this hz0.le
      linarith) f0 f1 hL
    have e : z * 2 ^ (n + 1) = 2 * z * 2 ^ n := by rw [pow_succ]; ring
    rw [e] at h3 h4 ⊢
    obtain ⟨w, b1, b2⟩ := tanRestoreLoop_spec hd hp hL n (ε + 32 * δ) (2 * z) v' a2 (by linarith) (by linarith) (by rw [h2z]; linarith) h3 h4
    refine ⟨w, by rw [a1]; exact b1, ?_⟩
    rw [show ε + (n + 1) * (32 * δ) = ε + 32 * δ + n * (32 * δ) by ring]
    exact b2

end AF
