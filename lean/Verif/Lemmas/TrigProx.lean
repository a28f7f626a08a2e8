import Verif.Lemmas.SinFun
/-!
# The distance from the next multiple of half pi
-/

namespace AF

open Num

theorem none_err_le {P : Nat} {Y : ℝ} {ix : Bool} {v : Num} (h : Delivers .none P Y ix (.ok v)) (hP : 128 ≤ P) (hY : |Y| ≤ 20) :
    |(v.toK : ℝ) - Y| ≤ 1 / 2 ^ 120 := by
  rcases h.2.2.2.2.2 with h | ⟨h, -⟩
  · rcases h with ⟨h1, h2⟩ | ⟨q, q1, -, k, -, h3, h4, h5⟩
    · rw [h1, h2, sub_self, abs_zero]; positivity
    · have hq : q - 1 < 5 := (zpow_lt_zpow_iff_right₀ (by norm_num : (1 : ℝ) < 2)).1 (lt_of_le_of_lt (le_trans q1 hY) (by norm_num))
      have hu : (2 : ℝ) ^ (max q EMIN - (P : ℤ)) ≤ 1 / 2 ^ 120 := by
        rw [show (1 / 2 ^ 120 : ℝ) = 2 ^ (-120 : ℤ) by norm_num]
        exact zpow_le_zpow_right₀ (by norm_num) (by unfold EMIN; omega)
      have h6 : |(v.toK : ℝ) - Y| = |Y| - |(v.toK : ℝ)| := by
        rcases le_total 0 Y with hy | hy
        · rcases le_total 0 (v.toK : ℝ) with hv | hv
          · rw [abs_of_nonneg hy, abs_of_nonneg hv] at *
            rw [abs_of_nonpos (by linarith)]; ring
          · rw [abs_of_nonneg hy] at *
            have : (v.toK : ℝ) = 0 ∨ Y = 0 := by
              rcases hv.lt_or_eq with hv | hv
              · rcases hy.lt_or_eq with hy | hy
                · have := mul_neg_of_pos_of_neg hy hv
                  linarith
                · exact Or.inr hy.symm
              · exact Or.inl hv
            rcases this with h0 | h0
            · rw [h0, abs_zero, zero_sub, abs_neg, abs_of_nonneg hy, sub_zero]
            · rw [h0] at h3 ⊢
              have := abs_nonneg (v.toK : ℝ)
              have h0' : |(v.toK : ℝ)| = 0 := by linarith
              rw [sub_zero, h0', sub_self]
        · rcases le_total 0 (v.toK : ℝ) with hv | hv
          · have : (v.toK : ℝ) = 0 ∨ Y = 0 := by
              rcases hv.lt_or_eq with hv | hv
              · rcases hy.lt_or_eq with hy | hy
                · have := mul_neg_of_neg_of_pos hy hv
                  linarith
                · exact Or.inr hy
              · exact Or.inl hv.symm
            rcases this with h0 | h0
            · rw [h0, abs_zero, zero_sub, abs_neg, sub_zero]
            · rw [h0, abs_zero] at h3 ⊢
              have := abs_nonneg (v.toK : ℝ)
              have h0' : |(v.toK : ℝ)| = 0 := by linarith
              rw [sub_zero, h0', sub_self]
          · rw [abs_of_nonpos hy, abs_of_nonpos hv] at *
            rw [abs_of_nonneg (by linarith)]; ring
      rw [h6]
      linarith
  · cases h

/-- A sum of the constants subtracted: `w` is `e` times half pi, with the sign `s`. -/
structure HalfPis (s : Sign) (w : Num) : Prop where
  wf : w.WF
  nz : w.isZero = false
  e : w.e = 1 ∨ w.e = 2
  val : |(w.toK : ℝ) - s.toK * (w.e.toNat * (Real.pi / 2))| ≤ 1 / 2 ^ 120

theorem HalfPis.abs_le {s : Sign} {w : Num} (h : HalfPis s w) : |(w.toK : ℝ)| ≤ 4 := by
  have := (h.wf.mag_normal h.nz (by have := h.e; unfold EMIN; omega)).2.le
  refine le_trans this ?_
  have h2 : (2 : ℝ) ^ w.e ≤ 2 ^ (2 : ℤ) := zpow_le_zpow_right₀ (by norm_num) (by have := h.e; omega)
  refine le_trans h2 (by norm_num)

theorem HalfPis.one {s : Sign} {w : Num} (h : HalfPis s w) : HalfPis s (w.setExponent 1) := by
  obtain ⟨a1, a2, a3, -, a5, a6⟩ := setExponent_normal h.wf h.nz (by have := h.e; unfold EMIN; omega) (e := 1) (by unfold EMIN; omega) (by unfold EMAX; omega)
  refine ⟨a1, ?_, Or.inl a6, ?_⟩
  · rw [← Bool.not_eq_true, ← a1.toK_eq_zero (K := ℝ), a2]
    have : (w.toK : ℝ) ≠ 0 := by
      rw [Ne, h.wf.toK_eq_zero (K := ℝ), h.nz]; exact Bool.false_ne_true
    exact mul_ne_zero this (by positivity)
  · have hv := h.val
    rw [a6, a2]
    rcases h.e with he | he
    · rw [he] at hv ⊢
      rw [sub_self, zpow_zero, mul_one]
      exact hv
    · rw [he] at hv ⊢
      rw [show (2 : ℝ) ^ ((1 : ℤ) - 2) = 1 / 2 by norm_num]
      have e1 : ((2 : ℤ).toNat : ℝ) = 2 := by show ((2 : ℕ) : ℝ) = 2; norm_num
      have e2 : ((1 : ℤ).toNat : ℝ) = 1 := by show ((1 : ℕ) : ℝ) = 1; norm_num
      rw [e1] at hv
      rw [e2]
      rw [show (w.toK : ℝ) * (1 / 2) - s.toK * (1 * (Real.pi / 2)) = (w.toK - s.toK * (2 * (Real.pi / 2))) * (1 / 2) by ring, abs_mul,
        abs_of_pos (by norm_num : (0 : ℝ) < 1 / 2)]
      linarith

/-- The distance is small only if the argument is close to the multiple. -/
theorem trigProx_near {y : Num} (hy : y.WF) (h7 : |(y.toK : ℝ)| ≤ 63 / 10) (hz : y.isZero = false) (h2 : 2 ≤ y.m.m.length)
    (hb : 64 * y.m.m.length ≤ 2 ^ 23) {c : PiCache} (hc : PiOk c) :
    ∃ t q c', y.trigArgPiProximity c = some (.ok (t, q), c') ∧ PiOk c' ∧ (y.e ≤ 0 → t = y.e.natAbs ∧ q = 0) ∧
      (∀ j : ℕ, 4 ≤ j → j ≤ 66 → 0 < y.e → (2 : ℝ) ^ (-(j : ℤ)) ≤ |(y.toK : ℝ) - y.s.toK * (q * (Real.pi / 2))| → t ≤ j + 1) := by
  have hE : EMIN = -2 ^ 31 := rfl
  have hEX : EMAX = 2 ^ 31 - 1 := rfl
  have hPM : PMAX = 2 ^ 62 - 2 ^ 31 - 1 := rfl
  unfold Num.trigArgPiProximity
  by_cases he : y.e > 0
  swap
  · rw [if_neg he]; exact ⟨_, _, _, rfl, hc, fun _ => ⟨rfl, rfl⟩, fun _ _ _ h => by omega⟩
  rw [if_pos he]
  obtain ⟨b1, b2⟩ := hy.mag_normal hz (by omega)
  have he3 : y.e ≤ 3 := by
    have := (zpow_lt_zpow_iff_right₀ (by norm_num : (1 : ℝ) < 2)).1 (lt_of_le_of_lt (le_trans b1 h7) (show (63 / 10 : ℝ) < 2 ^ (3 : ℤ) by norm_num))
    omega
  have hmb : y.m.maxBitLen = 64 * y.m.m.length := by unfold Mantissa.maxBitLen; omega
  rw [hmb]
  obtain ⟨L, hL⟩ : ∃ L, L = 64 * y.m.m.length := ⟨_, rfl⟩
  rw [← hL]
  have hrL : roundP L = L := by rw [hL]; exact roundP_mul (by omega)
  obtain ⟨n, hr, hn⟩ : ∃ n, roundP (L + y.e.toNat) = 64 * n ∧ n = (L + y.e.toNat + 63) / 64 := ⟨_, roundP_word (by omega), rfl⟩
  rw [hr]
  obtain ⟨v, c', v1, v2, v3, v4, v5, v6, v7, v8⟩ := piNone_spec (n := n) (by omega) (by omega) hc
  rw [v1]
  dsimp only
  -- pi itself
  have hvpi : |(v.toK : ℝ) - Real.pi| ≤ 1 / 2 ^ 120 := by
    have g1 := chud_pi_close (P := 4096) le_rfl
    have g2 : (2 : ℝ) ^ ((2 : ℤ) - ((4096 : ℕ) : ℤ) - 62) ≤ 2 ^ (-130 : ℤ) := zpow_le_zpow_right₀ (by norm_num) (by norm_num)
    have g3 : (2 : ℝ) ^ (-((64 * n : ℕ) : ℤ)) ≤ 2 ^ (-128 : ℤ) := zpow_le_zpow_right₀ (by norm_num) (by omega)
    rw [show (2 : ℝ) ^ (-130 : ℤ) = 1 / 2 ^ 130 by norm_num] at g2
    rw [show (2 : ℝ) ^ (-128 : ℤ) = 1 / 2 ^ 128 by norm_num] at g3
    have e1 : (v.toK : ℝ) - Real.pi = (v.toK - chudPi) + (chudPi - Real.pi) := by ring
    rw [e1]
    refine le_trans (abs_add_le _ _) ?_
    have g4 : (7 : ℝ) * (1 / 2 ^ 128) + 1 / 2 ^ 130 ≤ 1 / 2 ^ 120 := by norm_num
    exact le_trans (add_le_add (le_trans v8 (mul_le_mul_of_nonneg_left g3 (by norm_num))) (le_trans g1 g2)) g4
  have hS : HalfPis y.s (v.setSign y.s) := by
    refine ⟨⟨v3.wf, v3.bits, v3.emin, v3.emax, v3.norm, v3.sized⟩, v7, Or.inr v6, ?_⟩
    have e1 : (v.setSign y.s).e.toNat = 2 := by show v.e.toNat = 2; rw [v6]; rfl
    have e3 : |(v.toK : ℝ)| = v.toK := by
      apply abs_of_pos
      have := (abs_le.1 hvpi).1
      have := Real.pi_gt_three
      have h9 : (1 / 2 ^ 120 : ℝ) ≤ 1 := by norm_num
      linarith
    rw [setSign_toK, e1, e3, ← mul_sub, abs_mul]
    have e2 : |(y.s.toK : ℝ)| = 1 := by cases y.s <;> simp [Sign.toK]
    rw [e2, one_mul]
    refine le_trans (le_of_eq ?_) hvpi
    congr 1
    push_cast
    ring
  have hsub : ∀ (a w : Num), a.WF → |(a.toK : ℝ)| ≤ 11 → w.WF → |(w.toK : ℝ)| ≤ 4 →
      ∃ r, a.sub w L .none = .ok r ∧ r.WF ∧ |(r.toK : ℝ)| ≤ |(a.toK : ℝ)| + 4 ∧ |(r.toK : ℝ) - (a.toK - w.toK)| ≤ 1 / 2 ^ 120 := by
    intro a w h1 h2 h3 h4
    have hs := addSub_spec (K := ℝ) h1 h3 (p := L) (by omega) (by rw [hrL]; omega) false .none
    rw [if_neg (by simp), hrL] at hs
    have hb' : |(a.toK : ℝ) + -w.toK| ≤ |(a.toK : ℝ)| + 4 := by
      refine le_trans (abs_add_le _ _) ?_
      rw [abs_neg]
      linarith
    obtain ⟨r, hr⟩ := hs.no_error (le_trans hb' (by norm_num; linarith))
    rw [hr] at hs
    refine ⟨r, hr, hs.1, le_trans (none_abs_le hs) hb', ?_⟩
    have := none_err_le hs (by omega) (by linarith)
    rw [← sub_eq_add_neg] at this
    exact this
  -- what a result close to `Z` says
  have hfin : ∀ (r : Num) (Z : ℝ) (j : ℕ), 4 ≤ j → j ≤ 66 → r.WF → |(r.toK : ℝ)| ≤ 15 → |(r.toK : ℝ) - Z| ≤ 4 / 2 ^ 120 →
      (2 : ℝ) ^ (-(j : ℤ)) ≤ |Z| → r.e.natAbs ≤ j + 1 := by
    intro r Z j j1 j2 g1 g2 g3 g4
    have g5 : (2 : ℝ) ^ (-((j + 1 : ℕ) : ℤ)) ≤ |(r.toK : ℝ)| := by
      have g6 := abs_sub_abs_le_abs_sub Z (r.toK : ℝ)
      rw [abs_sub_comm] at g6
      have h1 : (2 : ℝ) ^ (-(j : ℤ)) = 2 ^ (-((j + 1 : ℕ) : ℤ)) * 2 := by
        rw [← zpow_add_one₀ (by norm_num)]; congr 1; push_cast; ring
      have h2 : (2 : ℝ) ^ (-67 : ℤ) ≤ 2 ^ (-((j + 1 : ℕ) : ℤ)) := zpow_le_zpow_right₀ (by norm_num) (by push_cast; omega)
      rw [show (2 : ℝ) ^ (-67 : ℤ) = 1 / 2 ^ 67 by norm_num] at h2
      rw [h1] at g4
      have g7 : (4 : ℝ) / 2 ^ 120 ≤ 1 / 2 ^ 67 := by norm_num
      generalize (2 : ℝ) ^ (-((j + 1 : ℕ) : ℤ)) = b at *
      linarith only [g3, g4, g6, g7, h2]
    have g8 := g1.e_of_abs g5
    obtain ⟨g9, -⟩ := exp_bounds_abs g1 (le_trans (zpow_le_zpow_right₀ (by norm_num) (by omega)) g5)
    have := (zpow_lt_zpow_iff_right₀ (by norm_num : (1 : ℝ) < 2)).1 (lt_of_le_of_lt (le_trans g9 g2) (show (15 : ℝ) < 2 ^ (4 : ℤ) by norm_num))
    omega
  obtain ⟨w, hw⟩ : ∃ w, w = (if y.e < 2 then (v.setSign y.s).setExponent 1 else v.setSign y.s) := ⟨_, rfl⟩
  rw [← hw]
  have hw' : HalfPis y.s w := by
    rw [hw]
    split
    · exact hS.one
    · exact hS
  have w3 := hw'.val
  obtain ⟨r, r1, r2, r3, r4⟩ := hsub y w hy (by linarith) hw'.wf hw'.abs_le
  rw [r1]
  dsimp only
  split
  · obtain ⟨w', hw''⟩ : ∃ w', w' = (if r.e < 2 then w.setExponent 1 else w) := ⟨_, rfl⟩
    rw [← hw'']
    have hx' : HalfPis y.s w' := by
      rw [hw'']
      split
      · exact hw'.one
      · exact hw'
    have w3' := hx'.val
    obtain ⟨r', r1', r2', r3', r4'⟩ := hsub r w' r2 (by linarith) hx'.wf hx'.abs_le
    rw [r1']
    refine ⟨_, _, _, rfl, v2, fun h => by omega, fun j j1 j2 _ h => hfin r' _ j j1 j2 r2' (by linarith) ?_ h⟩
    have e1 : (r'.toK : ℝ) - (y.toK - y.s.toK * (((w.e.toNat + w'.e.toNat : ℕ) : ℝ) * (Real.pi / 2))) =
        (r'.toK - (r.toK - w'.toK)) + (r.toK - (y.toK - w.toK)) + -(w.toK - y.s.toK * (w.e.toNat * (Real.pi / 2))) +
          -(w'.toK - y.s.toK * (w'.e.toNat * (Real.pi / 2))) := by
      push_cast; ring
    rw [e1]
    refine le_trans (abs_add_le _ _) ?_
    have t1 := abs_add_le ((r'.toK : ℝ) - (r.toK - w'.toK) + (r.toK - (y.toK - w.toK))) (-(w.toK - y.s.toK * (w.e.toNat * (Real.pi / 2))))
    have t2 := abs_add_le ((r'.toK : ℝ) - (r.toK - w'.toK)) (r.toK - (y.toK - w.toK))
    rw [abs_neg] at t1 ⊢
    linarith
  · refine ⟨_, _, _, rfl, v2, fun h => by omega, fun j j1 j2 _ h => hfin r _ j j1 j2 r2 (by linarith) ?_ h⟩
    have e1 : (r.toK : ℝ) - (y.toK - y.s.toK * ((w.e.toNat : ℝ) * (Real.pi / 2))) =
        (r.toK - (y.toK - w.toK)) + -(w.toK - y.s.toK * (w.e.toNat * (Real.pi / 2))) := by ring
    rw [e1]
    refine le_trans (abs_add_le _ _) ?_
    rw [abs_neg]
    have : (0 : ℝ) < 1 / 2 ^ 120 := by positivity
    linarith

end AF
