import Verif.Lemmas.InvRoot
/-!
# A round of `asinh` and `acosh`
-/

namespace AF

open Num

set_option linter.unusedSectionVars false

variable {x : Num}

theorem tdiv_two_gt {a : ℤ} {n : Nat} : a.tdiv 2 > (n : ℤ) ↔ 2 * (n : ℤ) + 2 ≤ a := by
  rcases le_total 0 a with h | h
  · rw [Int.tdiv_eq_ediv_of_nonneg h]; omega
  · obtain ⟨b, rfl⟩ : ∃ b, a = -b := ⟨-a, by ring⟩
    rw [Int.neg_tdiv, Int.tdiv_eq_ediv_of_nonneg (by omega)]; omega

/-- The logarithms are far below the largest numbers. -/
theorem inv_log_le {X sg : ℝ} (hX : 0 < X) (hX2 : X ≤ 2 ^ EMAX) (hsg : sg ≤ 1) : Real.log (X + √(X * X + sg)) ≤ 2 ^ 33 := by
  have hs : √(X * X + sg) ≤ X + 1 := by
    rw [Real.sqrt_le_left (by linarith)]
    nlinarith
  have h1 : (1 : ℝ) ≤ 2 ^ EMAX := one_le_zpow₀ (by norm_num) (by unfold EMAX; norm_num)
  have h2 : X + √(X * X + sg) ≤ 2 ^ (EMAX + 2) := by
    rw [zpow_add₀ (by norm_num)]
    norm_num
    linarith
  have h3 : 0 < X + √(X * X + sg) := by have := Real.sqrt_nonneg (X * X + sg); linarith
  refine le_trans (Real.log_le_log h3 h2) ?_
  rw [Real.log_zpow]
  have h4 : ((EMAX + 2 : ℤ) : ℝ) ≤ 2 ^ 33 := by unfold EMAX; norm_num
  have h5 : Real.log 2 ≤ 1 := by have := Real.log_two_lt_d9; linarith
  have h6 : (0 : ℝ) ≤ Real.log 2 := Real.log_nonneg (by norm_num)
  have h7 : (0 : ℝ) ≤ ((EMAX + 2 : ℤ) : ℝ) := by unfold EMAX; norm_num
  calc ((EMAX + 2 : ℤ) : ℝ) * Real.log 2 ≤ ((EMAX + 2 : ℤ) : ℝ) * 1 := mul_le_mul_of_nonneg_left h5 h7
    _ ≤ 2 ^ 33 := by linarith

theorem inv_midRange {y : ℝ} {N : Nat} (hN : N ≤ 2 ^ 20) (h1 : (2 : ℝ) ^ (-(N : ℤ)) ≤ y) (h2 : y ≤ 2 ^ 33) : MidRange y := by
  have h0 : (0 : ℝ) < 2 ^ (-(N : ℤ)) := by positivity
  apply MidRange.of_bounds
  · rw [abs_of_pos (by linarith)]
    exact le_trans (zpow_le_zpow_right₀ (by norm_num) (by unfold EMIN; omega)) h1
  · rw [abs_of_pos (by linarith)]
    refine lt_of_le_of_lt h2 ?_
    rw [← zpow_natCast]
    exact zpow_lt_zpow_right₀ (by norm_num) (by unfold EMAX; norm_num)

/-- Large arguments. -/
theorem lnTwice_spec (hx : x.WF) (hz : x.isZero = false) {X y sg : ℝ} (hxX : x.toK = X) (hX : 0 < X)
    {w f : Nat} (hw : 128 ≤ w) (hw64 : 64 ∣ w) (hl : 64 * x.m.m.length ≤ w) (hW : w ≤ 2 ^ 14) (hbig : 2 * (w : ℤ) + 6 ≤ x.e - 1)
    (hsg : |sg| ≤ 1) (hy : y = Real.log (X + √(X * X + sg))) {c : Ln2Cache} (hc : Ln2Ok c) :
    ∃ t c', x.lnTwice w (f + 1) c = some (.tst t, c') ∧ Ln2Ok c' ∧ (TestOk w y t ∨ TruncOk w y t) := by
  have hE : EMIN = -2 ^ 31 := rfl
  have hEX : EMAX = 2 ^ 31 - 1 := rfl
  have hem := hx.emax
  obtain ⟨q, q1, q2, q3, -⟩ := hx.mag (K := ℝ) hz
  have hqe : q = x.e := by omega
  rw [hqe, hxX, abs_of_pos hX] at q1 q2
  obtain ⟨k, hk⟩ : ∃ k : Nat, x.e - 1 = k := ⟨(x.e - 1).toNat, by omega⟩
  rw [hk, zpow_natCast] at q1
  obtain ⟨a1, a2, a3⟩ := log_twice (by omega) q1 hsg rfl hy
  have hk2 : (2 : ℝ) ≤ k := by
    have : 2 ≤ k := by omega
    exact_mod_cast this
  have hd : |y - Real.log (2 * X)| ≤ 2 ^ (-(w : ℤ) - 8) :=
    le_trans a1 (zpow_le_zpow_right₀ (by norm_num) (by omega))
  by_cases he : x.e = EMAX
  · have h4 : (4 : ℝ) ≤ X := by
      refine le_trans ?_ q1
      calc (4 : ℝ) = 2 ^ 2 := by norm_num
        _ ≤ 2 ^ k := pow_le_pow_right₀ (by norm_num) (by omega)
    have hmax : Real.log (2 * X) ≤ 2 ^ 62 := by
      have h5 := inv_log_le hX (by rw [← he]; exact q2.le) (abs_le.1 hsg).2
      rw [← hy] at h5
      have h6 : (2 : ℝ) ^ (-(w : ℤ) - 8) ≤ 1 := zpow_le_one_of_nonpos₀ (by norm_num) (by omega)
      have := (abs_le.1 hd).1
      norm_num at h5 ⊢
      linarith
    obtain ⟨t, c', b1, b2, b3⟩ := lnTwice_top hx hxX h4 he (f := f) hw hw64 hl hW hd a3 hmax (by linarith) hc
    exact ⟨t, c', b1, b2, Or.inl b3⟩
  · obtain ⟨t, c', b1, b2, b3⟩ := lnTwice_trunc hx hz hxX hX (by omega) (by omega) (f := f) hw hw64 hl hW hd a3 (by linarith) hc
    exact ⟨t, c', b1, b2, Or.inr b3⟩

theorem asinhStep_spec (hx : x.WF) (hz : x.isZero = false) {X : ℝ} (hxX : x.toK = X) (hX : 0 < X)
    {w f : Nat} (hw : 128 ≤ w) (hw64 : 64 ∣ w) (hl : 64 * x.m.m.length ≤ w) (hW : w ≤ 2 ^ 14) (he : -(w : ℤ) ≤ x.e)
    {c : Ln2Cache} (hc : Ln2Ok c) :
    ∃ t c', x.invStep true (x.e.natAbs + 5) (f + 1) w c = some (.tst t, c') ∧ Ln2Ok c' ∧
      (TestOk w (Real.arsinh X) t ∨ TruncOk w (Real.arsinh X) t) := by
  have hE : EMIN = -2 ^ 31 := rfl
  unfold Num.invStep
  by_cases hb : (x.e - 1).tdiv 2 > (w : ℤ) + 2
  · rw [if_pos hb]
    have hb' := (tdiv_two_gt (n := w + 2)).1 (by push_cast; exact hb)
    exact lnTwice_spec hx hz hxX hX hw hw64 hl hW (by push_cast at hb'; omega) (sg := 1) (by norm_num) arsinh_eq_log hc
  · rw [if_neg hb]
    have hb' := mt (tdiv_two_gt (a := x.e - 1) (n := w + 2)).2 (by push_cast; exact hb)
    obtain ⟨q, q1, q2, q3, -⟩ := hx.mag (K := ℝ) hz
    have hqe : q = x.e := by omega
    rw [hqe, hxX, abs_of_pos hX] at q1 q2
    obtain ⟨P, hP⟩ : ∃ P, P = 64 * wordLen (w + (x.e.natAbs + 5)) := ⟨_, rfl⟩
    have hP1 : w + (x.e.natAbs + 5) ≤ P := by rw [hP]; unfold wordLen; omega
    have hP2 : P ≤ w + (x.e.natAbs + 5) + 63 := by rw [hP]; unfold wordLen; omega
    push_cast at hb'
    have hd : (2 : ℝ) ^ (1 - (P : ℤ)) ≤ 2 ^ (-(w : ℤ)) * (2 ^ (-(x.e.natAbs : ℤ) - 2) * (1 / 4)) := by
      rw [show (1 / 4 : ℝ) = 2 ^ (-2 : ℤ) by norm_num, ← zpow_add₀ (by norm_num), ← zpow_add₀ (by norm_num)]
      exact zpow_le_zpow_right₀ (by norm_num) (by omega)
    have hy1 : (2 : ℝ) ^ (-(x.e.natAbs : ℤ) - 2) ≤ Real.arsinh X := by
      refine le_trans ?_ (arsinh_ge hX)
      rw [le_div_iff₀ (by norm_num), ← zpow_add_one₀ (by norm_num), le_min_iff]
      constructor
      · exact le_trans (zpow_le_zpow_right₀ (by norm_num) (by omega)) q1
      · exact zpow_le_one_of_nonpos₀ (by norm_num) (by omega)
    have hXX : 0 < X * X := mul_pos hX hX
    have hδ0 : (0 : ℝ) < 2 ^ (1 - (P : ℤ)) := by positivity
    have hW0 : (0 : ℝ) < 2 ^ (-(w : ℤ)) := by positivity
    have hyd : (2 : ℝ) ^ (1 - (P : ℤ)) * 4 ≤ Real.arsinh X * 2 ^ (-(w : ℤ)) := by
      have := mul_le_mul_of_nonneg_right hy1 hW0.le
      linarith
    obtain ⟨t, c', b1, b2, b3⟩ := lnRoot_spec hx hxX hX (add := true) (sg := 1) (by simp) (T := X * X + 1) rfl
      (N := 2 * w + 8) (by omega) (le_trans (zpow_le_zpow_right₀ (by norm_num) (by push_cast; omega)) q1)
      (le_trans q2.le (zpow_le_zpow_right₀ (by norm_num) (by push_cast; omega)))
      (le_trans (zpow_le_one_of_nonpos₀ (by norm_num) (by push_cast; omega)) (by linarith)) (κ := 1) (by norm_num) (by linarith)
      (px := w + (x.e.natAbs + 5)) (by omega) hP (w := w) (f := f) (by omega) (by omega)
      (by
        have : (2 : ℝ) ^ (1 - (P : ℤ)) ≤ 2 ^ (-7 : ℤ) := zpow_le_zpow_right₀ (by norm_num) (by omega)
        norm_num at this ⊢
        linarith) arsinh_eq_log (Real.arsinh_pos_iff.2 hX)
      (by linarith)
      (by
        have hS := Real.sqrt_nonneg (X * X + 1)
        have h1 : √(X * X + 1) / (X + √(X * X + 1)) ≤ 1 := by
          rw [div_le_one (by linarith)]; linarith
        refine le_trans (mul_le_mul_of_nonneg_right h1 (by positivity)) ?_
        linarith) hc
    exact ⟨t, c', b1, b2, Or.inl b3⟩

theorem acoshStep_spec (hx : x.WF) (hz : x.isZero = false) {X : ℝ} (hxX : x.toK = X) (hX : 1 < X)
    {w z f : Nat} (hw : 128 ≤ w) (hw64 : 64 ∣ w) (hl : 64 * x.m.m.length ≤ w) (hW : w ≤ 2 ^ 14)
    (hzw : z ≤ w) (hz1 : (2 : ℝ) ^ (-(z : ℤ)) ≤ X - 1)
    {c : Ln2Cache} (hc : Ln2Ok c) :
    ∃ t c', x.invStep false (6 + z) (f + 1) w c = some (.tst t, c') ∧ Ln2Ok c' ∧
      (TestOk w (Real.arcosh X) t ∨ TruncOk w (Real.arcosh X) t) := by
  have hE : EMIN = -2 ^ 31 := rfl
  have hX0 : 0 < X := by linarith
  unfold Num.invStep
  by_cases hb : (x.e - 1).tdiv 2 > (w : ℤ) + 2
  · rw [if_pos hb]
    have hb' := (tdiv_two_gt (n := w + 2)).1 (by push_cast; exact hb)
    exact lnTwice_spec hx hz hxX hX0 hw hw64 hl hW (by push_cast at hb'; omega) (sg := -1) (by norm_num) arcosh_eq_log hc
  · rw [if_neg hb]
    have hb' := mt (tdiv_two_gt (a := x.e - 1) (n := w + 2)).2 (by push_cast; exact hb)
    obtain ⟨q, q1, q2, q3, -⟩ := hx.mag (K := ℝ) hz
    rw [hxX, abs_of_pos hX0] at q1 q2
    have hq0 : 0 < q := by
      by_contra h
      have : (2 : ℝ) ^ q ≤ 1 := zpow_le_one_of_nonpos₀ (by norm_num) (by omega)
      linarith
    have hqe : q = x.e := by omega
    rw [hqe] at q1 q2 hq0
    obtain ⟨P, hP⟩ : ∃ P, P = 64 * wordLen (w + (6 + z)) := ⟨_, rfl⟩
    have hP1 : w + (6 + z) ≤ P := by rw [hP]; unfold wordLen; omega
    have hP2 : P ≤ w + (6 + z) + 63 := by rw [hP]; unfold wordLen; omega
    push_cast at hb'
    obtain ⟨Z, hZ⟩ : ∃ Z : ℝ, Z = 2 ^ (-(z : ℤ)) := ⟨_, rfl⟩
    obtain ⟨Y, hY⟩ : ∃ Y : ℝ, Y = 2 ^ (z : ℤ) := ⟨_, rfl⟩
    have hZY : Z * Y = 1 := by rw [hZ, hY, ← zpow_add₀ (by norm_num)]; simp
    have hZ0 : 0 < Z := by rw [hZ]; positivity
    have hY1 : 1 ≤ Y := by rw [hY]; exact one_le_zpow₀ (by norm_num) (by omega)
    have hZ1 : Z ≤ 1 := by rw [hZ]; exact zpow_le_one_of_nonpos₀ (by norm_num) (by omega)
    obtain ⟨W, hWe⟩ : ∃ W : ℝ, W = 2 ^ (-(w : ℤ)) := ⟨_, rfl⟩
    have hW0 : 0 < W := by rw [hWe]; positivity
    obtain ⟨δ, hδe⟩ : ∃ δ : ℝ, δ = 2 ^ (1 - (P : ℤ)) := ⟨_, rfl⟩
    have hδ0 : 0 < δ := by rw [hδe]; positivity
    have hW1 : W ≤ 1 / 8 := by
      rw [hWe, show (1 / 8 : ℝ) = 2 ^ (-3 : ℤ) by norm_num]
      exact zpow_le_zpow_right₀ (by norm_num) (by omega)
    have hd : δ ≤ W * Z * (1 / 32) := by
      rw [hδe, hWe, hZ, show (1 / 32 : ℝ) = 2 ^ (-5 : ℤ) by norm_num, ← zpow_add₀ (by norm_num), ← zpow_add₀ (by norm_num)]
      exact zpow_le_zpow_right₀ (by norm_num) (by omega)
    have hdY : δ * Y ≤ W * (1 / 32) := by
      calc δ * Y ≤ W * Z * (1 / 32) * Y := mul_le_mul_of_nonneg_right hd (by linarith)
        _ = W * (1 / 32) * (Z * Y) := by ring
        _ = W * (1 / 32) := by rw [hZY, mul_one]
    rw [← hZ] at hz1
    obtain ⟨T, hT⟩ : ∃ T, T = X * X + -1 := ⟨_, rfl⟩
    have hT1 : 2 * Z ≤ T := by rw [hT]; nlinarith
    have hT0 : 0 < T := by linarith
    have hS0 : 0 < √T := Real.sqrt_pos.2 hT0
    have hS1 : Z ≤ √T := by
      rw [Real.le_sqrt hZ0.le hT0.le]
      nlinarith
    have hTY : 1 ≤ Y * T := by
      have := mul_le_mul_of_nonneg_left hT1 (by linarith : 0 ≤ Y)
      nlinarith
    have hyS : min √T 1 / 2 ≤ Real.arcosh X := by
      rw [arcosh_eq_log, log_root_sub hX.le, show X * X - 1 = T by rw [hT]; ring]
      exact arsinh_ge hS0
    obtain ⟨μ, hμ⟩ : ∃ μ, μ = min √T 1 := ⟨_, rfl⟩
    rw [← hμ] at hyS
    have hμZ : Z ≤ μ := by rw [hμ, le_min_iff]; exact ⟨hS1, hZ1⟩
    have hdiv : √T / (X + √T) ≤ μ := by
      rw [hμ, le_min_iff]
      constructor
      · exact div_le_self hS0.le (by linarith)
      · rw [div_le_one (by linarith)]; linarith
    have hyW : μ * (W * (5 / 16)) ≤ Real.arcosh X * (W * (5 / 8)) := by
      have := mul_le_mul_of_nonneg_right hyS hW0.le
      linarith
    obtain ⟨t, c', b1, b2, b3⟩ := lnRoot_spec hx hxX hX0 (add := false) (sg := -1) (by simp) (T := T) hT
      (N := 2 * w + 8) (by omega) (le_trans (zpow_le_zpow_right₀ (by norm_num) (by push_cast; omega)) q1)
      (le_trans q2.le (zpow_le_zpow_right₀ (by norm_num) (by push_cast; omega)))
      (le_trans (show (2 : ℝ) ^ (-((2 * w + 8 : ℕ) : ℤ)) ≤ Z by
        rw [hZ]; exact zpow_le_zpow_right₀ (by norm_num) (by push_cast; omega)) (by linarith)) (κ := 1 + Y) (by linarith)
      (by nlinarith)
      (px := w + (6 + z)) (by omega) hP (w := w) (f := f) (y := Real.arcosh X) (by omega) (by omega)
      (by
        rw [← hδe]
        have : δ ≤ δ * Y := le_mul_of_one_le_right hδ0.le hY1
        nlinarith only [this, hdY, hW1]) (by rw [arcosh_eq_log, hT, sub_eq_add_neg]) (by linarith)
      (by
        rw [← hδe, ← hWe]
        have : W * Z ≤ W * μ := mul_le_mul_of_nonneg_left hμZ hW0.le
        linarith [mul_pos hW0 hZ0])
      (by
        rw [← hδe, ← hWe]
        have h1 : ((1 + Y + 1) * (9 / 16) + 1) * δ ≤ W * (5 / 16) := by
          have : δ ≤ δ * Y := le_mul_of_one_le_right hδ0.le hY1
          nlinarith only [this, hdY, hW0]
        have h2 : 0 ≤ ((1 + Y + 1) * (9 / 16) + 1) * δ := mul_nonneg (by linarith) hδ0.le
        exact le_trans (mul_le_mul hdiv h1 h2 (by linarith)) hyW) hc
    exact ⟨t, c', b1, b2, Or.inl b3⟩

end AF
