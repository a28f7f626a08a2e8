import Verif.Lemmas.AsinOne
/-!
# The values of `acos`
-/

namespace AF

open Num

set_option linter.unusedSectionVars false

variable {x : Num}

/-- An operation on a value that is not large does not fail. -/
theorem Delivers.no_error {P : Nat} {Y : ℝ} {ix : Bool} {r : Except Err Num} (h : Delivers .none P Y ix r) (h2 : |Y| ≤ 2 ^ 64) :
    ∃ v, r = .ok v := by
  cases r with
  | ok v => exact ⟨v, rfl⟩
  | error e =>
    exfalso
    obtain ⟨_, t, h3, h4⟩ := h
    obtain ⟨g1, -, -⟩ := h3.none_rel
    have : (2 : ℝ) ^ (65 : ℤ) ≤ 2 ^ EMAX := zpow_le_zpow_right₀ (by norm_num) (by unfold EMAX; norm_num)
    have h5 : (2 : ℝ) ^ (65 : ℤ) = 2 * 2 ^ 64 := by norm_num
    have : (0 : ℝ) < 2 ^ 64 := by positivity
    linarith

/-- `arccos` is not smaller than the distance from one. -/
theorem arccos_ge {X : ℝ} (h : |X| ≤ 1) : min (1 - X) 1 ≤ Real.arccos X := by
  obtain ⟨h1, h2⟩ := abs_le.1 h
  rcases le_total X 0 with h0 | h0
  · refine le_trans (min_le_right _ _) ?_
    have := Real.pi_gt_three
    have : Real.pi / 2 ≤ Real.arccos X := by
      unfold Real.arccos
      have := Real.arcsin_nonpos.2 h0
      linarith
    linarith
  · refine le_trans (min_le_left _ _) ?_
    have h3 := Real.sin_le (Real.arccos_nonneg X)
    rw [Real.sin_arccos] at h3
    refine le_trans ?_ h3
    have h4 : 0 ≤ 1 - X ^ 2 := by nlinarith
    refine le_trans (b := 1 - X ^ 2) (by nlinarith) ?_
    rw [Real.le_sqrt h4 h4]
    nlinarith

/-- The arguments that are covered. -/
def AcosDom (X : ℝ) : Prop := X = 0 ∨ |X| = 1 ∨ (|X| < 1 ∧ (2 : ℝ) ^ (EMIN + 1) ≤ |X|)

theorem AcosDom.le {X : ℝ} (h : AcosDom X) : |X| ≤ 1 := by
  rcases h with h | h | h
  · rw [h, abs_zero]; norm_num
  · exact h.le
  · exact h.1.le

set_option maxHeartbeats 1000000 in
/-- One pass through the body of the loop. -/
theorem acosPass_spec {v : Num} (hv : v.WF) {X : ℝ} (hX : v.toK = X) (hdom : AcosDom X)
    {l : Nat} (hl : (2 : ℝ) ^ (-(l : ℤ)) ≤ Real.arccos X) {p f : Nat} (hp : l + 64 ≤ p) (hp17 : p + 64 ≤ 2 ^ 17) {c c1 : PiCache} (hc : PiOk c)
    {r : Except Err Num} {n : Nat} (h : v.asin p .none f c = some (r, c1, n)) (hn : n + 64 ≤ 2 ^ 17)
    {W : Nat} (hW : p ≤ W) (hnW : n ≤ W) (hpi : |chudPi - Real.pi| ≤ 2 ^ (-(W : ℤ) - 60)) :
    PiOk c1 ∧ ∃ u pi c2 r2 t, r = .ok u ∧ piForPrec (roundP p) .none c1 = some (.ok pi, c2) ∧ PiOk c2 ∧
      (pi.setExponent (pi.e - 1)).add u p .none = .ok r2 ∧ (pi.setExponent (pi.e - 1)).sub u p .none = .ok t ∧
      t.WF ∧ t.inexact = true ∧ 64 * t.m.m.length = precBits p ∧
      |t.toK - Real.arccos X| ≤ 2 ^ (-(precBits p : ℤ)) * 64 ∧
      ((2 : ℝ) ^ (-(l : ℤ)) ≤ Real.pi - Real.arccos X → r2.WF ∧
        |r2.toK - (Real.pi - Real.arccos X)| ≤ 2 ^ (-(precBits p : ℤ)) * 64) := by
  have hk : precBits p = 64 * ((p + 63) / 64) := rfl
  have hPM : PMAX = 2 ^ 62 - 2 ^ 31 - 1 := rfl
  have hE : EMIN = -2 ^ 31 := rfl
  have hpv : ValidP p := ⟨by omega, by omega⟩
  obtain ⟨b1, b2⟩ := chudPi_small
  have q1 := Real.pi_gt_three
  have q2 := Real.pi_le_four
  obtain ⟨ε, hε⟩ : ∃ ε : ℝ, ε = 2 ^ (-(precBits p : ℤ)) := ⟨_, rfl⟩
  have hε0 : 0 < ε := by rw [hε]; positivity
  have hη : |chudPi - Real.pi| ≤ ε * 8 := by
    refine le_trans hpi ?_
    rw [hε, show (8 : ℝ) = 2 ^ (3 : ℤ) by norm_num, ← zpow_add₀ (by norm_num)]
    exact zpow_le_zpow_right₀ (by norm_num) (by omega)
  obtain ⟨u, u1, u2, u3, u4⟩ := asin_none_val hv hX hdom (by omega) (by omega) hc h hn le_rfl
    (le_trans hpi (zpow_le_zpow_right₀ (by norm_num) (by omega)))
  rw [← hε] at u4
  have hc1 := asin_keep hpv.pos (by omega) hc h (by omega)
  obtain ⟨r', c2, p1, p2, p3, p4⟩ := piForPrec_spec (pw := (p + 63) / 64) (by omega) (by omega) (by omega) .none hc1
  obtain ⟨pi, rfl⟩ := p4 (Or.inl rfl) (by omega)
  rcases p3 with ⟨pi', e, p3⟩ | ⟨s, e⟩
  swap
  · cases e
  injection e with e
  subst e
  have h3 := p3.half_fun (by omega)
  obtain ⟨P2, hP2⟩ : ∃ P2, P2 = pi.setExponent (pi.e - 1) := ⟨_, rfl⟩
  rw [← hP2] at h3
  have e0 : (2 : ℝ) ^ (EMIN - 1) ≤ 1 := zpow_le_one_of_nonpos₀ (by norm_num) (by omega)
  have h4 := FunRounded.rel (by rw [abs_of_pos (by linarith)]; linarith) h3
  have h2 : (2 : ℝ) ^ (1 - ((64 * ((p + 63) / 64) : ℕ) : ℤ)) = ε * 2 := by
    rw [hε, hk, show (1 : ℤ) - ((64 * ((p + 63) / 64) : ℕ) : ℤ) = -((64 * ((p + 63) / 64) : ℕ) : ℤ) + 1 by ring, zpow_add₀ (by norm_num), zpow_one]
  rw [abs_of_pos (by linarith : (0 : ℝ) < chudPi / 2), h2] at h4
  have ht3 : chudPi / 2 * (ε * 2 * 2) ≤ ε * 7 := by nlinarith
  obtain ⟨Y, hY⟩ : ∃ Y, Y = Real.arccos X := ⟨_, rfl⟩
  have hYd : Y = Real.pi / 2 - Real.arcsin X := hY
  rw [← hY] at hl ⊢
  have hY0 : 0 < Y := lt_of_lt_of_le (by positivity) hl
  have hY4 : Y ≤ 4 := by rw [hY]; linarith [Real.arccos_le_pi X]
  have hεY : ε * 2 ^ 64 ≤ Y := by
    refine le_trans ?_ hl
    rw [hε, show ((2 : ℝ) ^ 64) = 2 ^ (64 : ℤ) by norm_num, ← zpow_add₀ (by norm_num)]
    exact zpow_le_zpow_right₀ (by norm_num) (by omega)
  -- the difference before rounding
  have hd : |((P2.toK : ℝ) - u.toK) - Y| ≤ ε * 31 := by
    rw [hYd]
    have e1 : (P2.toK : ℝ) - u.toK - (Real.pi / 2 - Real.arcsin X) =
        ((P2.toK : ℝ) - chudPi / 2) + (chudPi - Real.pi) / 2 + -(u.toK - Real.arcsin X) := by ring
    rw [e1]
    have t1 := abs_add_le ((P2.toK : ℝ) - chudPi / 2 + (chudPi - Real.pi) / 2) (-(u.toK - Real.arcsin X))
    have t2 := abs_add_le ((P2.toK : ℝ) - chudPi / 2) ((chudPi - Real.pi) / 2)
    rw [abs_neg] at t1
    rw [abs_div, abs_two] at t2
    linarith
  obtain ⟨d, hdd⟩ : ∃ d, d = (P2.toK : ℝ) - u.toK := ⟨_, rfl⟩
  rw [← hdd] at hd
  obtain ⟨d1, d2⟩ := abs_le.1 hd
  have hs64 : (2 : ℝ) ^ 64 = 18446744073709551616 := by norm_num
  rw [hs64] at hεY
  have hd0 : 0 < d := by linarith
  have hd5 : d ≤ 5 := by linarith
  have hdn : (2 : ℝ) ^ (EMIN - 1) ≤ |d| := by
    rw [abs_of_pos hd0]
    have : (2 : ℝ) ^ (EMIN - 1) ≤ 2 ^ (-(l : ℤ)) / 2 := by
      rw [show (2 : ℝ) ^ (-(l : ℤ)) / 2 = 2 ^ (-(l : ℤ) - 1) by rw [zpow_sub₀ (by norm_num), zpow_one]]
      exact zpow_le_zpow_right₀ (by norm_num) (by omega)
    linarith
  have hs := addSub_spec (K := ℝ) h3.wf u2 hpv.pos (by rw [hpv.roundP]; exact hpv.lt) false .none
  rw [if_neg (by simp), ← sub_eq_add_neg, ← hdd, hpv.roundP] at hs
  obtain ⟨t, t1, t2, t3, t4, t5⟩ := hs.apx hdn (by rw [abs_of_pos hd0]; norm_num; linarith)
  have hsa := addSub_spec (K := ℝ) h3.wf u2 hpv.pos (by rw [hpv.roundP]; exact hpv.lt) true .none
  rw [if_pos rfl, hpv.roundP] at hsa
  have hu5 : |(u.toK : ℝ)| ≤ 10 := by
    have := abs_le.1 u4
    have := Real.arcsin_le_pi_div_two X
    have := Real.neg_pi_div_two_le_arcsin X
    rw [abs_le]
    exact ⟨by linarith, by linarith⟩
  have hP5 : |(P2.toK : ℝ)| ≤ 20 := by
    have := abs_le.1 h4
    rw [abs_le]
    exact ⟨by linarith, by linarith⟩
  obtain ⟨r2, w1⟩ := hsa.no_error (le_trans (abs_add_le _ _) (by norm_num; linarith))
  refine ⟨hc1, u, pi, c2, r2, t, u1, by rw [hpv.roundP]; exact p1, p2, by rw [← hP2]; exact w1, by rw [← hP2]; exact t1, t2, ?_, t3, ?_, ?_⟩
  · -- the sum of an inexact number is inexact
    have hz : P2.isZero = false := by
      rw [← Bool.not_eq_true, ← h3.wf.toK_eq_zero (K := ℝ)]
      intro h0
      rw [h0] at h4
      have := (abs_le.1 h4).1
      linarith
    refine t5 ?_
    unfold addIx
    rw [hz, h3.inexact]
    simp
  · rw [abs_of_pos hd0] at t4
    have h2' : (2 : ℝ) ^ (1 - (precBits p : ℤ)) = ε * 2 := by rw [hk]; exact h2
    rw [h2'] at t4
    rw [← hε]
    have e2 : (t.toK : ℝ) - Y = (t.toK - d) + (d - Y) := by ring
    rw [e2]
    refine le_trans (abs_add_le _ _) ?_
    have : d * (ε * 2) ≤ 5 * (ε * 2) := mul_le_mul_of_nonneg_right hd5 (by linarith)
    linarith only [this, t4, hd, hε0]
  · intro hl2
    have hd : |((P2.toK : ℝ) + u.toK) - (Real.pi - Y)| ≤ ε * 31 := by
      rw [hYd]
      have e1 : (P2.toK : ℝ) + u.toK - (Real.pi - (Real.pi / 2 - Real.arcsin X)) =
          ((P2.toK : ℝ) - chudPi / 2) + (chudPi - Real.pi) / 2 + (u.toK - Real.arcsin X) := by ring
      rw [e1]
      have t1 := abs_add_le ((P2.toK : ℝ) - chudPi / 2 + (chudPi - Real.pi) / 2) (u.toK - Real.arcsin X)
      have t2 := abs_add_le ((P2.toK : ℝ) - chudPi / 2) ((chudPi - Real.pi) / 2)
      rw [abs_div, abs_two] at t2
      linarith
    obtain ⟨Z, hZ⟩ : ∃ Z, Z = Real.pi - Y := ⟨_, rfl⟩
    rw [← hZ] at hl2 hd ⊢
    have hZ4 : Z ≤ 4 := by linarith
    have hεZ : ε * 2 ^ 64 ≤ Z := by
      refine le_trans ?_ hl2
      rw [hε, show ((2 : ℝ) ^ 64) = 2 ^ (64 : ℤ) by norm_num, ← zpow_add₀ (by norm_num)]
      exact zpow_le_zpow_right₀ (by norm_num) (by omega)
    obtain ⟨s, hs⟩ : ∃ s, s = (P2.toK : ℝ) + u.toK := ⟨_, rfl⟩
    rw [← hs] at hd hsa
    obtain ⟨d1, d2⟩ := abs_le.1 hd
    rw [hs64] at hεZ
    have hs0 : 0 < s := by linarith
    have hsn : (2 : ℝ) ^ (EMIN - 1) ≤ |s| := by
      rw [abs_of_pos hs0]
      have : (2 : ℝ) ^ (EMIN - 1) ≤ 2 ^ (-(l : ℤ)) / 2 := by
        rw [show (2 : ℝ) ^ (-(l : ℤ)) / 2 = 2 ^ (-(l : ℤ) - 1) by rw [zpow_sub₀ (by norm_num), zpow_one]]
        exact zpow_le_zpow_right₀ (by norm_num) (by omega)
      linarith
    obtain ⟨r3, y1, y2, y3, y4, y5⟩ := hsa.apx hsn (by rw [abs_of_pos hs0]; norm_num; linarith)
    rw [w1] at y1
    injection y1 with y1
    subst y1
    refine ⟨y2, ?_⟩
    rw [abs_of_pos hs0] at y4
    have h2' : (2 : ℝ) ^ (1 - (precBits p : ℤ)) = ε * 2 := by rw [hk]; exact h2
    rw [h2'] at y4
    rw [← hε]
    have e2 : (r2.toK : ℝ) - Z = (r2.toK - s) + (s - Z) := by ring
    rw [e2]
    refine le_trans (abs_add_le _ _) ?_
    have : s * (ε * 2) ≤ 5 * (ε * 2) := mul_le_mul_of_nonneg_right (by linarith) (by linarith)
    linarith only [this, y4, hd, hε0]

end AF
