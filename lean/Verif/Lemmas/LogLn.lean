import Verif.Lemmas.LogStep
/-!
# The rounds of `ln`
-/

namespace AF

set_option linter.unusedSectionVars false

/-- The number of bits counted near 1, and the size of the logarithm it stands for. -/
theorem lnCnt_spec {x m : Num} {e : ℤ} (hm : SplitOk x m e)
    (h1 : ¬(e = 1 ∧ countLeadingZeroesSkipFirst m.m.m = 64 * m.m.m.length)) :
    ∃ cnt, m.lnAddPrec e = cnt + 5 ∧ cnt ≤ 64 * m.m.m.length ∧ (e ≠ 0 → e ≠ 1 → cnt = 0) ∧
      (e = 0 → (2 : ℝ) ^ (-(cnt : ℤ)) ≤ 2 * -Real.log m.toK) ∧
      (e = 1 → (2 : ℝ) ^ (-(cnt : ℤ)) ≤ 3 / 2 * (Real.log 2 - -Real.log m.toK)) := by
  have hlo := hm.lo
  have hhi := hm.hi
  obtain ⟨g1, g2, g3, g4⟩ := hm.log
  unfold Num.lnAddPrec
  by_cases he0 : e = 0
  · rw [if_pos he0]
    refine ⟨_, rfl, (clo_mag hm.wf.wf).1, fun h => absurd he0 h, fun _ => ?_, fun h => by omega⟩
    have := hm.ones
    rw [Nat.cast_add, neg_add, zpow_add₀ (by norm_num), show (2 : ℝ) ^ (-((1 : ℕ) : ℤ)) = 1 / 2 by norm_num] at this
    linarith
  · rw [if_neg he0]
    by_cases he1 : e = 1
    · rw [if_pos he1]
      have hc : countLeadingZeroesSkipFirst m.m.m ≠ 64 * m.m.m.length := fun h => h1 ⟨he1, h⟩
      have hl : 0 < m.m.m.length := by
        by_contra h
        have h0 : m.m.m = [] := List.eq_nil_of_length_eq_zero (by omega)
        have := hm.lo
        rw [hm.val, h0] at this
        norm_num [AF.val] at this
      refine ⟨_, rfl, (clzSkip_mag hm.wf.wf hl hm.norm hc).2.2, fun _ h => absurd he1 h, fun h => absurd h he0, fun _ => ?_⟩
      have hz := hm.zeros hc
      have hp : (0 : ℝ) < 2 ^ (-((64 * m.m.m.length : ℕ) : ℤ)) := by positivity
      obtain ⟨ε, hε⟩ : ∃ ε : ℝ, ε = 2 * m.toK - 1 := ⟨_, rfl⟩
      rw [← hε] at hz
      have e0 : 0 < ε := lt_of_lt_of_le (by positivity) hz
      have e1 : ε ≤ 1 := by linarith
      have h2 : Real.log 2 - -Real.log m.toK = Real.log (1 + ε) := by
        rw [hε, sub_neg_eq_add, ← Real.log_mul (by norm_num) (by linarith)]
        congr 1; ring
      rw [h2]
      have h3 := Real.le_log_one_add_of_nonneg e0.le
      refine le_trans hz ?_
      have h4 : 2 / 3 * ε ≤ 2 * ε / (ε + 2) := by
        rw [le_div_iff₀ (by linarith)]
        nlinarith
      linarith
    · rw [if_neg he1]
      exact ⟨0, rfl, Nat.zero_le _, fun _ _ => rfl, fun h => absurd h he0, fun h => absurd h he1⟩

/-- The size of the logarithm of a number. -/
theorem lnSize_spec {x m : Num} {e : ℤ} (hm : SplitOk x m e) (hlen : 64 * m.m.m.length ≤ 2 ^ 17)
    (h1 : ¬(e = 1 ∧ countLeadingZeroesSkipFirst m.m.m = 64 * m.m.m.length)) :
    ∃ (cnt : Nat) (C : ℝ), m.lnAddPrec e = cnt + 5 ∧ C = 2 ^ (-(cnt : ℤ)) ∧ 0 < C ∧ C ≤ 1 ∧ C ≤ 2 * |Real.log x.toK| ∧
      (2 : ℝ) ^ (-((64 * m.m.m.length : ℕ) : ℤ)) ≤ C ∧ |(e : ℝ)| ≤ 2 ^ 40 ∧ |Real.log x.toK| ≤ 2 ^ 41 ∧
      (e = 0 → |Real.log x.toK| = -Real.log m.toK) ∧
      (e = 1 → C ≤ 3 / 2 * |Real.log x.toK| ∧ |Real.log x.toK| ≤ 7 / 10) ∧
      (e ≠ 0 → e ≠ 1 → 69 / 100 ≤ |Real.log x.toK| ∧ |(e : ℝ)| * Real.log 2 ≤ 2 * |Real.log x.toK|) := by
  obtain ⟨g1, g2, g3, g4⟩ := hm.log
  obtain ⟨cnt, c1, c2, c3, c4, c5⟩ := lnCnt_spec hm h1
  have hC0 : (0 : ℝ) < 2 ^ (-(cnt : ℤ)) := by positivity
  have hC1 : (2 : ℝ) ^ (-(cnt : ℤ)) ≤ 1 := zpow_le_one_of_nonpos₀ (by norm_num) (by omega)
  have hC2 : (2 : ℝ) ^ (-((64 * m.m.m.length : ℕ) : ℤ)) ≤ 2 ^ (-(cnt : ℤ)) :=
    zpow_le_zpow_right₀ (by norm_num) (by omega)
  have hE : |(e : ℝ)| ≤ 2 ^ 40 := by
    have h2 := hm.eLo
    have h3 := hm.eHi
    have : |e| ≤ 2 ^ 40 := by
      rw [abs_le]
      unfold EMIN at h2; unfold EMAX at h3
      constructor <;> omega
    rw [← Int.cast_abs]; exact_mod_cast this
  have l1 := Real.log_two_gt_d9
  have l2 := Real.log_two_lt_d9
  obtain ⟨l, hl⟩ : ∃ l : ℝ, l = Real.log 2 := ⟨_, rfl⟩
  obtain ⟨L, hL⟩ : ∃ L : ℝ, L = -Real.log m.toK := ⟨_, rfl⟩
  rw [← hL] at g1 g3 g4 c4 c5 ⊢
  rw [← hl] at l1 l2 g3 g4 c5 ⊢
  have hL0 : 0 < L := by linarith
  rw [g4]
  have hyu : |(e : ℝ) * l - L| ≤ 2 ^ 41 := by
    refine le_trans (abs_sub _ _) ?_
    rw [abs_mul, abs_of_pos hL0, abs_of_pos (by linarith : 0 < l)]
    have : |(e : ℝ)| * l ≤ 2 ^ 40 * 1 := mul_le_mul hE (by linarith) (by linarith) (by norm_num)
    norm_num at this ⊢
    linarith
  have k0 : e = 0 → |(e : ℝ) * l - L| = L := by
    intro h
    rw [h]; simp [abs_of_pos hL0]
  have k1 : e = 1 → |(e : ℝ) * l - L| = l - L := by
    intro h
    have := c5 h
    rw [h, Int.cast_one, one_mul, abs_of_pos (by linarith)]
  have k2 : e ≠ 0 → e ≠ 1 → 69 / 100 ≤ |(e : ℝ) * l - L| ∧ |(e : ℝ)| * l ≤ 2 * |(e : ℝ) * l - L| := by
    intro n0 n1
    rcases lt_or_gt_of_ne n0 with hn | hp
    · have h2 : (e : ℝ) ≤ -1 := by exact_mod_cast (by omega : e ≤ -1)
      have h3 : (e : ℝ) * l - L ≤ -l - L := by nlinarith
      rw [abs_of_neg (by linarith : (e : ℝ) * l - L < 0), abs_of_neg (by linarith : (e : ℝ) < 0)]
      constructor <;> nlinarith
    · have h2 : (2 : ℝ) ≤ e := by exact_mod_cast (by omega : 2 ≤ e)
      have h3 : 2 * l - L ≤ (e : ℝ) * l - L := by nlinarith
      rw [abs_of_pos (by linarith : 0 < (e : ℝ) * l - L), abs_of_pos (by linarith : 0 < (e : ℝ))]
      constructor <;> nlinarith
  refine ⟨cnt, _, c1, rfl, hC0, hC1, ?_, hC2, hE, hyu, k0, ?_, k2⟩
  · by_cases h0 : e = 0
    · rw [k0 h0]; exact c4 h0
    · by_cases h1 : e = 1
      · rw [k1 h1]; have := c5 h1; linarith
      · have := (k2 h0 h1).1; linarith
  · intro h
    rw [k1 h]
    exact ⟨c5 h, by linarith⟩

/-- A round of `ln`. -/
theorem lnStep_spec {x m : Num} {e : ℤ} (hm : SplitOk x m e)
    (h1 : ¬(e = 1 ∧ countLeadingZeroesSkipFirst m.m.m = 64 * m.m.m.length)) {w : Nat} (hw : 128 ≤ w)
    (hlen : 64 * m.m.m.length ≤ w) (hW : w + m.lnAddPrec e ≤ 2 ^ 17) {c : Num.Ln2Cache} (hc : Ln2Ok c) :
    ∃ t c', Num.lnStep m e (m.lnAddPrec e) w c = some (.tst t, c') ∧ Ln2Ok c' ∧ TestOk w (Real.log x.toK) t := by
  obtain ⟨g1, g2, g3, g4⟩ := hm.log
  obtain ⟨cnt, C, s1, s2, s3, s4, s5, s6, s7, s8, s9, s10, s11⟩ := lnSize_spec hm (by omega) h1
  rw [s1] at hW
  obtain ⟨z, p1, a1, a2, a3, a4, a5, a6, a7⟩ := lnPart_spec hm (q := w + (cnt + 5)) (by omega) (by omega) hW m (Or.inl rfl)
  have l1 := Real.log_two_gt_d9
  have l2 := Real.log_two_lt_d9
  have hP64 : 64 ∣ precBits (w + (cnt + 5)) := by unfold precBits; omega
  have hPw : w + (cnt + 5) ≤ precBits (w + (cnt + 5)) := by unfold precBits; omega
  have hP1 : 192 ≤ precBits (w + (cnt + 5)) := by unfold precBits; omega
  have hP2 : precBits (w + (cnt + 5)) ≤ 2 ^ 17 := by unfold precBits; omega
  generalize precBits (w + (cnt + 5)) = P at a4 a6 a7 hP64 hPw hP1 hP2
  obtain ⟨δ, hδ⟩ : ∃ δ : ℝ, δ = 2 ^ (1 - (P : ℤ)) := ⟨_, rfl⟩
  obtain ⟨D, hD⟩ : ∃ D : ℝ, D = 2 ^ (-(w : ℤ)) := ⟨_, rfl⟩
  have hD0 : 0 < D := by rw [hD]; positivity
  have hD1 : D ≤ 1 / 1000 := by
    refine le_trans (b := (2 : ℝ) ^ (-100 : ℤ)) ?_ (by norm_num)
    rw [hD]; exact zpow_le_zpow_right₀ (by norm_num) (by omega)
  have hδ0 : 0 < δ := by rw [hδ]; positivity
  have hδD : δ ≤ D * C / 16 := by
    rw [hδ, hD, s2, show (2 : ℝ) ^ (-(w : ℤ)) * 2 ^ (-(cnt : ℤ)) / 16 = 2 ^ (-(w : ℤ)) * 2 ^ (-(cnt : ℤ)) * 2 ^ (-4 : ℤ) by norm_num; ring,
      ← zpow_add₀ (by norm_num), ← zpow_add₀ (by norm_num)]
    exact zpow_le_zpow_right₀ (by norm_num) (by omega)
  have hyl : (2 : ℝ) ^ (EMIN + 1) ≤ |Real.log x.toK| := by
    have h2 : (2 : ℝ) ^ (EMIN + 2) ≤ 2 ^ (-((64 * m.m.m.length : ℕ) : ℤ)) :=
      zpow_le_zpow_right₀ (by norm_num) (by unfold EMIN; omega)
    rw [show EMIN + 2 = (EMIN + 1) + 1 by ring, zpow_add_one₀ (by norm_num)] at h2
    linarith
  have hy0 : 0 < |Real.log x.toK| := by linarith
  have hyne : Real.log (x.toK : ℝ) ≠ 0 := abs_pos.1 hy0
  rw [← hδ] at a6 a7
  unfold Num.lnStep
  rw [s1, a1]
  dsimp only
  rw [a2]
  dsimp only
  obtain ⟨l, hl⟩ : ∃ l : ℝ, l = Real.log 2 := ⟨_, rfl⟩
  obtain ⟨L, hL⟩ : ∃ L : ℝ, L = -Real.log m.toK := ⟨_, rfl⟩
  rw [← hL] at g1 g3 g4 s9 a6 a7
  rw [← hl] at l1 l2 g3 g4 s11
  have hL0 : 0 < L := by linarith
  by_cases he0 : e = 0
  · rw [if_pos he0]
    refine ⟨p1, c, rfl, hc, TestOk.of_rel' a3 a5 (by omega) hyne (δ := (15 / 2 * L + 1 / 2 ^ 8) * δ) ?_ ?_⟩
    · rw [← hD, s9 he0]
      rw [s9 he0] at s5
      have h2 : (15 / 2 * L + 1 / 2 ^ 8) * δ ≤ (15 / 2 * L + 1 / 2 ^ 8) * (D * C / 16) :=
        mul_le_mul_of_nonneg_left hδD (by linarith)
      refine le_trans h2 ?_
      have h3 : (15 / 2 * L + 1 / 2 ^ 8) * (C / 16) ≤ L * (15 / 16) := by nlinarith
      have h4 := mul_le_mul_of_nonneg_right h3 hD0.le
      linarith
    · rw [g4, he0, Int.cast_zero, zero_mul, zero_sub, sub_neg_eq_add, abs_le]
      have : 0 < L * δ := by positivity
      constructor <;> linarith
  · rw [if_neg he0]
    have hp1 : 0 < -(p1.toK : ℝ) := by
      refine lt_of_lt_of_le ?_ a6
      have hδC : δ ≤ C / 16000 := by nlinarith
      have hδ3 : δ ≤ 1 / 1000 := by linarith
      have hCL : 1 / 2 ^ 8 * δ < L / 2 := by
        have h2 := hm.hi
        have h3 : (2 : ℝ) ^ (-((64 * m.m.m.length : ℕ) : ℤ)) ≤ L := by linarith
        have h4 : δ ≤ 2 ^ (-((64 * m.m.m.length : ℕ) : ℤ)) := by
          rw [hδ]; exact zpow_le_zpow_right₀ (by norm_num) (by omega)
        linarith
      nlinarith
    have hnz : p1.isZero = false := by
      rw [← Bool.not_eq_true, ← a3.toK_eq_zero (K := ℝ)]
      intro h; rw [h] at hp1; norm_num at hp1
    obtain ⟨E, hE⟩ : ∃ E : ℝ, E = |(e : ℝ)| := ⟨_, rfl⟩
    obtain ⟨Y, hY⟩ : ∃ Y : ℝ, Y = |Real.log (x.toK : ℝ)| := ⟨_, rfl⟩
    rw [← hE] at s11
    rw [← hY] at s5 s10 s11 hy0
    -- the error against the logarithm
    have key : (15 / 2 * L + 1 / 2 ^ 8 + 201 / 100 * E * l + 3 / 2 * Y) * C ≤ 15 * Y := by
      by_cases he1 : e = 1
      · obtain ⟨t1, t2⟩ := s10 he1
        have hE1 : E = 1 := by rw [hE, he1]; norm_num
        rw [hE1]
        have h2 : (15 / 2 * L + 1 / 2 ^ 8 + 201 / 100 * 1 * l + 3 / 2 * Y) ≤ 8 := by linarith
        have := mul_le_mul h2 t1 s3.le (by norm_num)
        linarith
      · obtain ⟨t1, t2⟩ := s11 he0 he1
        have h2 : (15 / 2 * L + 1 / 2 ^ 8 + 201 / 100 * E * l + 3 / 2 * Y) ≤ 14 * Y := by nlinarith
        have := mul_le_mul h2 s4 s3.le (by linarith)
        linarith
    have key0 : 0 ≤ 15 / 2 * L + 1 / 2 ^ 8 + 201 / 100 * E * l := by
      have : 0 ≤ E := by rw [hE]; positivity
      have : 0 ≤ E * l := mul_nonneg this (by linarith)
      linarith
    have key2 : (15 / 2 * L + 1 / 2 ^ 8 + 201 / 100 * E * l + 3 / 2 * Y) * δ ≤ Y * (D * (15 / 16)) := by
      have h2 := mul_le_mul_of_nonneg_left hδD (show 0 ≤ 15 / 2 * L + 1 / 2 ^ 8 + 201 / 100 * E * l + 3 / 2 * Y by linarith)
      have h3 := mul_le_mul_of_nonneg_right key hD0.le
      refine le_trans h2 ?_
      linarith
    obtain ⟨p2, c', p2n, r, r1, r2, r3, r4, r5, r6, r7, r8⟩ := lnSum_spec hP64 hP1 hP2 hδ a3 a4 a5 a6 a7 hL0 (hl ▸ g3) hnz
      he0 s7 (hl ▸ g4) (by
        rw [← hE, ← hl, ← hY]
        have h2 : 0 ≤ 3 / 2 * Y * δ := by positivity
        have h3 : Y * (D * (15 / 16)) ≤ Y / 2 := by nlinarith
        linarith) hyl hc
    rw [r1]
    dsimp only
    rw [r3]
    dsimp only
    rw [r4]
    dsimp only
    rw [← hE, ← hl, ← hY] at r8
    refine ⟨r, c', rfl, r2, TestOk.of_rel' r5 r7 (by omega) hyne ?_ r8⟩
    rw [← hY, ← hD]
    exact key2

theorem ln_midRange {x m : Num} {e : ℤ} (hm : SplitOk x m e)
    (h1 : ¬(e = 1 ∧ countLeadingZeroesSkipFirst m.m.m = 64 * m.m.m.length)) (hlen : 64 * m.m.m.length ≤ 2 ^ 17) :
    MidRange (Real.log x.toK) := by
  obtain ⟨cnt, C, -, -, -, -, s5, s6, -, s8, -⟩ := lnSize_spec hm hlen h1
  apply MidRange.of_bounds
  · have h2 : (2 : ℝ) ^ (EMIN + 2) ≤ 2 ^ (-((64 * m.m.m.length : ℕ) : ℤ)) :=
      zpow_le_zpow_right₀ (by norm_num) (by unfold EMIN; omega)
    rw [show EMIN + 2 = (EMIN + 1) + 1 by ring, zpow_add_one₀ (by norm_num)] at h2
    linarith
  · refine lt_of_le_of_lt s8 ?_
    rw [← zpow_natCast]
    exact zpow_lt_zpow_right₀ (by norm_num) (by unfold EMAX; norm_num)

end AF
