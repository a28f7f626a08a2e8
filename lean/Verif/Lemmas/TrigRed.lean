import Verif.Lemmas.TrigRem
import Verif.Lemmas.AcosFun
/-!
# The reduction of the argument of the trigonometric functions
-/

namespace AF

open Num

theorem truncQ_abs (a : ℚ) : |(truncQ a : ℚ)| ≤ |a| ∧ |a - truncQ a| < 1 := by
  unfold truncQ
  split
  · rename_i h
    have h1 := Int.floor_le a
    have h2 := Int.lt_floor_add_one a
    have h3 : (0 : ℚ) ≤ (⌊a⌋ : ℚ) := by exact_mod_cast Int.floor_nonneg.2 h
    rw [abs_of_nonneg h3, abs_of_nonneg h, abs_of_nonneg (by linarith)]
    exact ⟨h1, by linarith⟩
  · rename_i h
    have h1 := Int.le_ceil a
    have h2 := Int.ceil_lt_add_one a
    have h3 : ((⌈a⌉ : ℤ) : ℚ) ≤ 0 := by exact_mod_cast Int.ceil_nonpos.2 (by linarith)
    rw [abs_of_nonpos h3, abs_of_neg (by linarith), abs_of_nonpos (by linarith)]
    exact ⟨by linarith, by linarith⟩

/-- The constant pi in mode `None`. -/
theorem piNone_spec {n : Nat} (h0 : 0 < n) (hn : 64 * n ≤ 2 ^ 24) {c : PiCache} (hc : PiOk c) :
    ∃ v c', piForPrec (64 * n) .none c = some (.ok v, c') ∧ PiOk c' ∧ v.WF ∧ v.m.m.length = n ∧ v.s = .pos ∧ v.e = 2 ∧ v.isZero = false ∧
      |(v.toK : ℝ) - chudPi| ≤ 7 * 2 ^ (-((64 * n : ℕ) : ℤ)) := by
  have hPM : PMAX = 2 ^ 62 - 2 ^ 31 - 1 := rfl
  obtain ⟨o, c', p1, p2, p3, p4⟩ := piForPrec_spec (pw := n) h0 (by omega) (by omega) .none hc
  obtain ⟨v, rfl⟩ := p4 (Or.inl rfl) (by omega)
  rcases p3 with ⟨v', e, hv⟩ | ⟨_, e⟩
  swap
  · cases e
  injection e with e
  subst e
  have hcp := chudPi_small
  have hv1 := hv.none rfl
  rw [abs_of_pos (by linarith [hcp.1] : 0 < chudPi), show (1 : ℤ) - ((64 * n : ℕ) : ℤ) = -((64 * n : ℕ) : ℤ) + 1 by ring,
    zpow_add₀ (by norm_num), zpow_one] at hv1
  obtain ⟨d, hd⟩ : ∃ d : ℝ, d = 2 ^ (-((64 * n : ℕ) : ℤ)) := ⟨_, rfl⟩
  rw [← hd] at hv1 ⊢
  have hd0 : 0 < d := by rw [hd]; positivity
  have hd1 : d ≤ 2 ^ (-64 : ℤ) := by rw [hd]; exact zpow_le_zpow_right₀ (by norm_num) (by omega)
  have hd2 : d ≤ 1 / 1000 := le_trans hd1 (by norm_num)
  have h7 : |(v.toK : ℝ) - chudPi| ≤ 7 * d := by
    refine le_trans hv1 ?_
    have a1 : d * 2 * (1 + 2 ^ (-60 : ℤ)) ≤ d * (22 / 10) := by
      have : (1 : ℝ) + 2 ^ (-60 : ℤ) ≤ 11 / 10 := by norm_num
      have := mul_le_mul_of_nonneg_left this (by linarith : 0 ≤ d * 2)
      linarith
    have a2 := mul_le_mul hcp.2 a1 (by positivity) (by norm_num)
    rw [show (3.15 : ℝ) * (d * (22 / 10)) = d * 6.93 by ring] at a2
    refine le_trans a2 ?_
    linarith
  have h8 := abs_le.1 h7
  have ha : |(v.toK : ℝ)| = v.toK := abs_of_pos (by linarith [hcp.1])
  obtain ⟨b1, b2⟩ := exp_bounds_abs hv.wf (by
    rw [ha]
    refine le_trans (zpow_le_one_of_nonpos₀ (by norm_num) (by unfold EMIN; omega)) (by linarith [hcp.1]))
  rw [ha] at b1 b2
  have he : v.e = 2 := by
    have h1 : v.e - 1 < 2 := (zpow_lt_zpow_iff_right₀ (by norm_num : (1 : ℝ) < 2)).1 (lt_of_le_of_lt b1 (by norm_num; linarith [hcp.2]))
    have h2 : (1 : ℤ) < v.e := (zpow_lt_zpow_iff_right₀ (by norm_num : (1 : ℝ) < 2)).1 (lt_of_le_of_lt (by norm_num; linarith [hcp.1]) b2)
    omega
  have hz : v.isZero = false := by
    rw [← Bool.not_eq_true, ← hv.wf.toK_eq_zero (K := ℝ)]
    linarith [hcp.1]
  exact ⟨v, c', p1, p2, hv.wf, by have := hv.prec; omega, hv.sign, he, hz, h7⟩

/-- The argument reduced below two pi, for arguments of four and more that are not too close to a multiple of two pi. -/
theorem reduceTrigArg_spec {x : Num} (hx : x.WF) (hz : x.isZero = false) (h0 : 2 ≤ x.m.m.length) (he : 2 < x.e)
    (hb : 64 * x.m.m.length + x.e.toNat + 64 ≤ 2 ^ 24) {c : PiCache} (hc : PiOk c)
    (hpi : |chudPi - Real.pi| ≤ 2 ^ (-((64 * x.m.m.length : ℕ) : ℤ) - x.e))
    (hfar : ∀ k : ℤ, 4 * (2 : ℝ) ^ (-((64 * x.m.m.length : ℕ) : ℤ)) < |(x.toK : ℝ) - k * (2 * Real.pi)|) :
    ∃ y c', x.reduceTrigArg c = some (.ok y, c') ∧ PiOk c' ∧ y.WF ∧ x.m.m.length ≤ y.m.m.length ∧
      64 * y.m.m.length ≤ 2 * (64 * x.m.m.length + x.e.toNat + 64) ∧ y.isZero = false ∧ |(y.toK : ℝ)| ≤ 63 / 10 ∧
      ∃ k : ℤ, |(x.toK : ℝ) - (y.toK + k * (2 * Real.pi))| ≤ 4 * 2 ^ (-((64 * x.m.m.length : ℕ) : ℤ)) := by
  have hE : EMIN = -2 ^ 31 := rfl
  have hEX : EMAX = 2 ^ 31 - 1 := rfl
  have hmb : x.m.maxBitLen = 64 * x.m.m.length := by unfold Mantissa.maxBitLen; omega
  obtain ⟨P, hP⟩ : ∃ P, P = 64 * x.m.m.length := ⟨_, rfl⟩
  obtain ⟨n, hr, hn⟩ : ∃ n, roundP (P + x.e.toNat) = 64 * n ∧ n = (P + x.e.toNat + 63) / 64 := ⟨_, roundP_word (by omega), rfl⟩
  unfold Num.reduceTrigArg
  rw [if_pos he, hmb]
  rw [← hP] at hpi hb hfar ⊢
  rw [hr]
  obtain ⟨v, c', v1, v2, v3, v4, v5, v6, v7, v8⟩ := piNone_spec (n := n) (by omega) (by omega) hc
  rw [v1]
  dsimp only
  rw [v6]
  obtain ⟨a1, a2, a3, -, a5, a6⟩ := setExponent_normal v3 v7 (by omega) (e := 2 + 1) (by omega) (by omega)
  rw [v6, show (2 : ℝ) ^ ((2 : ℤ) + 1 - 2) = 2 by norm_num] at a2
  obtain ⟨D, hD⟩ : ∃ D, D = v.setExponent (2 + 1) := ⟨_, rfl⟩
  rw [← hD] at a1 a2 a3 a5 a6 ⊢
  -- the constant
  obtain ⟨ε, hε⟩ : ∃ ε : ℝ, ε = 2 ^ (-(P : ℤ)) := ⟨_, rfl⟩
  rw [← hε] at hfar ⊢
  obtain ⟨M, hM⟩ : ∃ M : ℝ, M = 2 ^ x.e := ⟨_, rfl⟩
  have hε0 : 0 < ε := by rw [hε]; positivity
  have hM0 : 0 < M := by rw [hM]; positivity
  have hM8 : 8 ≤ M := by
    rw [hM, show (8 : ℝ) = 2 ^ (3 : ℤ) by norm_num]
    exact zpow_le_zpow_right₀ (by norm_num) (by omega)
  have hε1 : ε ≤ 1 / 1000000 := by
    rw [hε]
    refine le_trans (zpow_le_zpow_right₀ (n := -64) (by norm_num) (by omega)) (by norm_num)
  have hpi' : |chudPi - Real.pi| ≤ ε / M := by
    refine le_trans hpi ?_
    rw [zpow_sub₀ (by norm_num), ← hε, ← hM]
  have hdv : (2 : ℝ) ^ (-((64 * n : ℕ) : ℤ)) ≤ ε / M := by
    rw [hε, hM, ← zpow_sub₀ (by norm_num)]
    exact zpow_le_zpow_right₀ (by norm_num) (by omega)
  have hvp : |(v.toK : ℝ) - Real.pi| ≤ 8 * (ε / M) := by
    have e1 : (v.toK : ℝ) - Real.pi = (v.toK - chudPi) + (chudPi - Real.pi) := by ring
    rw [e1]
    refine le_trans (abs_add_le _ _) ?_
    linarith
  have hεM : ε / M ≤ 1 / 1000000 := by
    rw [div_le_iff₀ hM0]
    linarith
  have q1 := Real.pi_gt_d2
  have q2 := Real.pi_lt_d4
  have hvb := abs_le.1 hvp
  have hDz : D.isZero = false := by
    rw [← Bool.not_eq_true, ← a1.toK_eq_zero (K := ℝ), a2]
    linarith
  -- the remainder
  obtain ⟨y, r1, r2, r3, r4, r5, r6, r7, r8, -⟩ := rem_spec hx a1 hDz
  obtain ⟨k, hk⟩ : ∃ k, k = truncQ ((x.toK : ℚ) / D.toK) := ⟨_, rfl⟩
  obtain ⟨k1, k2⟩ := truncQ_abs ((x.toK : ℚ) / D.toK)
  rw [← hk] at k1 k2 r8
  have hD0 : (0 : ℝ) < D.toK := by rw [a2]; linarith
  have k1' : |(k : ℝ)| ≤ |(x.toK : ℝ) / D.toK| := by
    have : ((|(k : ℚ)| : ℚ) : ℝ) ≤ ((|(x.toK : ℚ) / D.toK| : ℚ) : ℝ) := Rat.cast_le.2 k1
    rw [Rat.cast_abs, Rat.cast_abs, Rat.cast_div, toK_ratCast, toK_ratCast, Rat.cast_intCast] at this
    exact this
  have k2' : |(x.toK : ℝ) / D.toK - k| < 1 := by
    have : ((|(x.toK : ℚ) / D.toK - k| : ℚ) : ℝ) < ((1 : ℚ) : ℝ) := Rat.cast_lt.2 k2
    rw [Rat.cast_abs, Rat.cast_sub, Rat.cast_div, toK_ratCast, toK_ratCast, Rat.cast_intCast, Rat.cast_one] at this
    exact this
  obtain ⟨b1, b2⟩ := hx.mag_normal hz (by omega)
  rw [← hM] at b2
  have hkb : |(k : ℝ)| ≤ M / 6 := by
    refine le_trans k1' ?_
    rw [abs_div, abs_of_pos hD0]
    exact div_le_div₀ hM0.le b2.le (by norm_num) (by rw [a2]; linarith)
  -- distance from the multiple of two pi
  have hdist : |(k : ℝ) * D.toK - k * (2 * Real.pi)| ≤ 8 / 3 * ε := by
    rw [a2, show (k : ℝ) * (v.toK * 2) - k * (2 * Real.pi) = k * 2 * (v.toK - Real.pi) by ring, abs_mul, abs_mul, abs_two]
    have := mul_le_mul (mul_le_mul_of_nonneg_right hkb (by norm_num : (0 : ℝ) ≤ 2)) hvp (abs_nonneg _) (by positivity)
    refine le_trans this (le_of_eq ?_)
    field_simp
    ring
  obtain ⟨R, hR⟩ : ∃ R : ℝ, R = x.toK - D.toK * k := ⟨_, rfl⟩
  have hRX : |(x.toK : ℝ) - (R + k * (2 * Real.pi))| ≤ 8 / 3 * ε := by
    rw [hR, show (x.toK : ℝ) - (x.toK - D.toK * k + k * (2 * Real.pi)) = (k : ℝ) * D.toK - k * (2 * Real.pi) by ring]
    exact hdist
  have hRne : ε < |R| := by
    have h1 := hfar k
    have h2 : |(x.toK : ℝ) - k * (2 * Real.pi)| ≤ |(x.toK : ℝ) - (R + k * (2 * Real.pi))| + |R| := by
      refine le_trans (le_of_eq ?_) (abs_add_le _ _)
      congr 1; ring
    linarith
  have hyR : (y.toK : ℝ) = R := by
    rcases r8 with h | ⟨-, -, h⟩
    · rw [← toK_ratCast y, h, hR]
      push_cast
      rw [toK_ratCast, toK_ratCast]
    · exfalso
      have h1 : |R| < 2 ^ (EMIN - 1) := by
        have : ((|(x.toK : ℚ) - D.toK * k| : ℚ) : ℝ) < (((2 : ℚ) ^ (EMIN - 1) : ℚ) : ℝ) := Rat.cast_lt.2 h
        rw [Rat.cast_abs, Rat.cast_sub, Rat.cast_mul, toK_ratCast, toK_ratCast, Rat.cast_intCast, Rat.cast_zpow] at this
        rw [hR]
        exact this
      have h2 : (2 : ℝ) ^ (EMIN - 1) ≤ ε := by
        rw [hε]
        exact zpow_le_zpow_right₀ (by norm_num) (by omega)
      linarith
  have hyz : y.isZero = false := by
    have hR0 : R ≠ 0 := abs_pos.1 (lt_trans hε0 hRne)
    by_contra hc
    rw [Bool.not_eq_false] at hc
    have hv0 : val y.m.m = 0 := by
      have : y.m.n = 0 := by simpa [Num.isZero, Mantissa.isZero] using hc
      rw [r4] at this
      exact Nat.size_eq_zero.1 this
    apply hR0
    rw [← hyR]
    unfold Num.toK
    rw [hv0]
    simp
  have hDe : D.m.n = 64 * D.m.m.length := a1.full hDz (by omega)
  obtain ⟨l1, l2⟩ := rem_len hx a1 hz hDz hDe (hx.full hz (by omega)) (by omega) (by omega) r1 hyz
  refine ⟨y, c', by rw [r1], v2, ⟨r3, r4, r5, r6, r7, by omega⟩, l1, by omega, hyz, ?_, k, by rw [hyR]; linarith⟩
  rw [hyR, hR]
  have e1 : (x.toK : ℝ) - D.toK * k = (x.toK / D.toK - k) * D.toK := by field_simp
  rw [e1, abs_mul, abs_of_pos hD0]
  have := mul_le_mul k2'.le le_rfl hD0.le (by norm_num)
  rw [one_mul, a2] at this
  rw [a2]
  linarith

theorem none_abs_le {P : Nat} {Y : ℝ} {ix : Bool} {v : Num} (h : Delivers .none P Y ix (.ok v)) : |(v.toK : ℝ)| ≤ |Y| := by
  rcases h.2.2.2.2.2 with h | ⟨h, -⟩
  · rcases h with ⟨h1, h2⟩ | ⟨q, -, -, k, -, h3, -⟩
    · rw [h1, h2]
    · exact h3
  · cases h

/-- The distance from the next multiple of half pi is found. -/
theorem trigProx_spec {y : Num} (hy : y.WF) (h7 : |(y.toK : ℝ)| ≤ 63 / 10) (hz : y.isZero = false) (hb : 64 * y.m.m.length ≤ 2 ^ 23)
    {c : PiCache} (hc : PiOk c) : ∃ r c', y.trigArgPiProximity c = some (.ok r, c') ∧ PiOk c' := by
  have hE : EMIN = -2 ^ 31 := rfl
  have hEX : EMAX = 2 ^ 31 - 1 := rfl
  have hPM : PMAX = 2 ^ 62 - 2 ^ 31 - 1 := rfl
  unfold Num.trigArgPiProximity
  by_cases he : y.e > 0
  swap
  · rw [if_neg he]; exact ⟨_, _, rfl, hc⟩
  rw [if_pos he]
  obtain ⟨b1, b2⟩ := hy.mag_normal hz (by omega)
  have he3 : y.e ≤ 3 := by
    have := (zpow_lt_zpow_iff_right₀ (by norm_num : (1 : ℝ) < 2)).1 (lt_of_le_of_lt (le_trans b1 h7) (show (63 / 10 : ℝ) < 2 ^ (3 : ℤ) by norm_num))
    omega
  have hmb : y.m.maxBitLen = 64 * y.m.m.length := by unfold Mantissa.maxBitLen; omega
  have hl0 : 0 < y.m.m.length := by
    have := hy.n_pos hz
    have := hy.n_le
    omega
  rw [hmb]
  obtain ⟨L, hL⟩ : ∃ L, L = 64 * y.m.m.length := ⟨_, rfl⟩
  rw [← hL]
  have hrL : roundP L = L := by rw [hL]; exact roundP_mul (by omega)
  obtain ⟨n, hr, hn⟩ : ∃ n, roundP (L + y.e.toNat) = 64 * n ∧ n = (L + y.e.toNat + 63) / 64 := ⟨_, roundP_word (by omega), rfl⟩
  rw [hr]
  obtain ⟨v, c', v1, v2, v3, v4, v5, v6, v7, v8⟩ := piNone_spec (n := n) (by omega) (by omega) hc
  rw [v1]
  dsimp only
  have hcp := chudPi_small
  have hv4 : |(v.toK : ℝ)| ≤ 4 := by
    have := (v3.mag_normal v7 (by omega)).2.le
    rw [v6] at this
    norm_num at this
    exact this
  have hS : ∀ (w : Num) (s : Sign), w.WF → w.e = 1 ∨ w.e = 2 → w.isZero = false → |(w.toK : ℝ)| ≤ 4 →
      (w.setSign s).WF ∧ ((w.setSign s).e = 1 ∨ (w.setSign s).e = 2) ∧ (w.setSign s).isZero = false ∧ |((w.setSign s).toK : ℝ)| ≤ 4 := by
    intro w s h1 h2 h3 h4
    refine ⟨⟨h1.wf, h1.bits, h1.emin, h1.emax, h1.norm, h1.sized⟩, h2, h3, ?_⟩
    rw [setSign_toK, abs_mul, abs_abs]
    cases s <;> simp [Sign.toK] <;> exact h4
  have hX : ∀ (w : Num), w.WF → w.e = 1 ∨ w.e = 2 → w.isZero = false → |(w.toK : ℝ)| ≤ 4 →
      (w.setExponent 1).WF ∧ ((w.setExponent 1).e = 1 ∨ (w.setExponent 1).e = 2) ∧ (w.setExponent 1).isZero = false ∧ |((w.setExponent 1).toK : ℝ)| ≤ 4 := by
    intro w h1 h2 h3 h4
    obtain ⟨a1, a2, a3, -, a5, a6⟩ := setExponent_normal h1 h3 (by omega) (e := 1) (by omega) (by omega)
    refine ⟨a1, Or.inl a6, ?_, ?_⟩
    · rw [← Bool.not_eq_true, ← a1.toK_eq_zero (K := ℝ), a2]
      have : (w.toK : ℝ) ≠ 0 := by
        rw [Ne, h1.toK_eq_zero (K := ℝ), h3]; exact Bool.false_ne_true
      exact mul_ne_zero this (by positivity)
    · rw [a2, abs_mul, abs_of_pos (by positivity : (0 : ℝ) < 2 ^ (1 - w.e))]
      have : (2 : ℝ) ^ (1 - w.e) ≤ 1 := zpow_le_one_of_nonpos₀ (by norm_num) (by omega)
      calc |(w.toK : ℝ)| * 2 ^ (1 - w.e) ≤ |(w.toK : ℝ)| * 1 := mul_le_mul_of_nonneg_left this (abs_nonneg _)
        _ ≤ 4 := by linarith
  have hsub : ∀ (a w : Num), a.WF → |(a.toK : ℝ)| ≤ 20 → w.WF → |(w.toK : ℝ)| ≤ 4 → ∃ r, a.sub w L .none = .ok r ∧ r.WF ∧ |(r.toK : ℝ)| ≤ |(a.toK : ℝ)| + 4 := by
    intro a w h1 h2 h3 h4
    have hs := addSub_spec (K := ℝ) h1 h3 (p := L) (by omega) (by rw [hrL]; omega) false .none
    rw [if_neg (by simp), hrL] at hs
    have hb' : |(a.toK : ℝ) + -w.toK| ≤ |(a.toK : ℝ)| + 4 := by
      refine le_trans (abs_add_le _ _) ?_
      rw [abs_neg]
      linarith
    obtain ⟨r, hr⟩ := hs.no_error (le_trans hb' (by norm_num; linarith))
    rw [hr] at hs
    exact ⟨r, hr, hs.1, le_trans (none_abs_le hs) hb'⟩
  obtain ⟨s1, s2, s3, s4⟩ := hS v y.s v3 (Or.inr v6) v7 hv4
  obtain ⟨w, hw⟩ : ∃ w, w = (if y.e < 2 then (v.setSign y.s).setExponent 1 else v.setSign y.s) := ⟨_, rfl⟩
  rw [← hw]
  have hw' : w.WF ∧ (w.e = 1 ∨ w.e = 2) ∧ w.isZero = false ∧ |(w.toK : ℝ)| ≤ 4 := by
    rw [hw]
    split
    · exact hX _ s1 s2 s3 s4
    · exact ⟨s1, s2, s3, s4⟩
  obtain ⟨w1, w2, w3, w4⟩ := hw'
  obtain ⟨r, r1, r2, r3⟩ := hsub y w hy (by linarith) w1 w4
  rw [r1]
  dsimp only
  split
  · obtain ⟨w', hw'⟩ : ∃ w', w' = (if r.e < 2 then w.setExponent 1 else w) := ⟨_, rfl⟩
    rw [← hw']
    have hw'' : w'.WF ∧ |(w'.toK : ℝ)| ≤ 4 := by
      rw [hw']
      split
      · obtain ⟨x1, -, -, x4⟩ := hX _ w1 w2 w3 w4
        exact ⟨x1, x4⟩
      · exact ⟨w1, w4⟩
    obtain ⟨r', r1', -, -⟩ := hsub r w' r2 (by linarith) hw''.1 hw''.2
    rw [r1']
    exact ⟨_, _, rfl, v2⟩
  · exact ⟨_, _, rfl, v2⟩

end AF
