import Verif.Lemmas.LogLn
/-!
# The rounds of `log2`, and the loops of `ln` and `log2`
-/

namespace AF

set_option linter.unusedSectionVars false

theorem SplitOk.half {x m : Num} {e : ℤ} (hm : SplitOk x m e) :
    countLeadingZeroesSkipFirst m.m.m = 64 * m.m.m.length ↔ (x.toK : ℝ) = 2 ^ (e - 1) := by
  have hl : 0 < m.m.m.length := by
    by_contra h
    have h0 : m.m.m = [] := List.eq_nil_of_length_eq_zero (by omega)
    have := hm.lo
    rw [hm.val, h0] at this
    norm_num [AF.val] at this
  have h1 : (x.toK : ℝ) = 2 ^ (e - 1) ↔ (m.toK : ℝ) = 1 / 2 := by
    rw [hm.eq, zpow_sub_one₀ (by norm_num), mul_comm, mul_right_inj' (by positivity), one_div]
  have hA : (2 : ℕ) ^ (64 * m.m.m.length) = 2 ^ (64 * m.m.m.length - 1) * 2 := by rw [← pow_succ]; congr 1; omega
  have h2 : (m.toK : ℝ) = 1 / 2 ↔ AF.val m.m.m = 2 ^ (64 * m.m.m.length - 1) := by
    have hA' : (2 : ℝ) ^ (64 * m.m.m.length) = 2 ^ (64 * m.m.m.length - 1) * 2 := by exact_mod_cast hA
    rw [hm.val, zpow_neg, zpow_natCast, hA', ← div_eq_mul_inv, div_eq_div_iff (by positivity) (by norm_num)]
    constructor
    · intro h
      have h3 : (AF.val m.m.m : ℝ) = 2 ^ (64 * m.m.m.length - 1) := by linarith
      exact_mod_cast h3
    · intro h
      rw [h]; push_cast; ring
  rw [h1, h2]
  have hn := hm.norm
  have hlt := val_lt_two_pow hm.wf.wf
  have h3 := clzSkip_spec hm.wf.wf hl
  have e0 : AF.val m.m.m % 2 ^ (64 * m.m.m.length - 1) = AF.val m.m.m - 2 ^ (64 * m.m.m.length - 1) := by
    rw [Nat.mod_eq_sub_mod hn, Nat.mod_eq_of_lt (by omega)]
  rw [e0] at h3
  rw [← not_iff_not]
  refine Iff.trans h3 ?_
  omega

theorem lnExpNum_all {e : ℤ} (h1 : e.natAbs < B) :
    (Num.lnExpNum e).WF ∧ ((Num.lnExpNum e).toK : ℝ) = e ∧ (Num.lnExpNum e).inexact = false := by
  by_cases h0 : e = 0
  · subst h0
    have hw : (Num.lnExpNum 0).WF := Num.WF_of_check (by decide +kernel)
    refine ⟨hw, ?_, rfl⟩
    rw [Int.cast_zero, hw.toK_eq_zero (K := ℝ)]
    decide +kernel
  · obtain ⟨a, b, -, d⟩ := lnExpNum_spec h0 h1
    exact ⟨a, b, d⟩

/-- The quotient of two approximations. -/
theorem log2_quot {a b l M δ : ℝ} (l1 : 69 / 100 ≤ l) (l2 : l ≤ 7 / 10) (hM0 : 0 < M) (hM1 : M ≤ 1) (hδ0 : 0 < δ) (hδ3 : δ ≤ 1 / 10000)
    (ha : |a - M * l| ≤ (15 / 2 * (M * l) + 1 / 2 ^ 8) * δ) (hb : |b - l| ≤ l * (1001 / 1000 * δ)) (hb2 : 69 / 100 ≤ b * (1001 / 1000)) :
    |a / b - M| ≤ (8506 / 1000 * M + 6 / 1000) * δ := by
  have hb0 : 0 < b := by linarith
  obtain ⟨u1, u2⟩ := abs_le.1 hb
  have e1 : (a / b - M) * b = (a - M * l) - M * (b - l) := by
    rw [sub_mul, div_mul_cancel₀ _ hb0.ne']; ring
  have e3 : |M * (b - l)| ≤ M * (l * (1001 / 1000 * δ)) := by
    rw [abs_mul, abs_of_pos hM0]; exact mul_le_mul_of_nonneg_left hb hM0.le
  have e4 : |a / b - M| * b ≤ (15 / 2 * (M * l) + 1 / 2 ^ 8) * δ + M * (l * (1001 / 1000 * δ)) := by
    rw [← abs_of_pos hb0, ← abs_mul, abs_of_pos hb0, e1]
    refine le_trans (abs_sub _ _) ?_
    linarith
  have e5 : (15 / 2 * (M * l) + 1 / 2 ^ 8) * δ + M * (l * (1001 / 1000 * δ)) ≤
      (8506 / 1000 * M + 6 / 1000) * δ * b := by
    have k1 : l * (9998 / 10000) ≤ b := by nlinarith only [u1, hδ3, l1, hδ0]
    have hMl : M * (69 / 100) ≤ M * l := mul_le_mul_of_nonneg_left l1 hM0.le
    have k2 : (15 / 2 * (M * l) + 1 / 2 ^ 8) + M * (l * (1001 / 1000)) ≤ (8506 / 1000 * M + 6 / 1000) * (l * (9998 / 10000)) := by
      nlinarith only [hMl, l1, hM0]
    have k3 : (8506 / 1000 * M + 6 / 1000) * (l * (9998 / 10000)) ≤ (8506 / 1000 * M + 6 / 1000) * b :=
      mul_le_mul_of_nonneg_left k1 (by linarith)
    have := mul_le_mul_of_nonneg_right (le_trans k2 k3) hδ0.le
    linarith
  exact le_of_mul_le_mul_right (le_trans e4 e5) hb0

/-- The error against the logarithm. -/
theorem log2_key {L l M C Y E : ℝ} {e : ℤ} (l1 : 69 / 100 ≤ l) (l2 : l ≤ 7 / 10) (hM0 : 0 < M) (hM1 : M ≤ 1) (hLM : L = M * l)
    (s3 : 0 < C) (s4 : C ≤ 1) (s5 : C ≤ 2 * (Y * l)) (s9 : e = 0 → Y * l = L)
    (s10 : e = 1 → C ≤ 3 / 2 * (Y * l) ∧ Y * l ≤ 7 / 10) (s11 : e ≠ 0 → e ≠ 1 → 69 / 100 ≤ Y * l ∧ E * l ≤ 2 * (Y * l)) :
    (952 / 100 * M + 1 / 100 + 3 / 2 * Y) * C ≤ 15 * Y := by
  have hY0 : 0 < Y := by nlinarith only [s5, s3, l1]
  by_cases he0 : e = 0
  · have hMY : M = Y := by
      have := s9 he0
      rw [hLM] at this
      exact (mul_right_cancel₀ (by linarith) this).symm
    rw [hMY]
    have h2 : Y * C ≤ Y * 1 := mul_le_mul_of_nonneg_left s4 hY0.le
    have h3 : Y * l ≤ Y * (7 / 10) := mul_le_mul_of_nonneg_left l2 hY0.le
    linarith
  · by_cases he1 : e = 1
    · obtain ⟨t1, t2⟩ := s10 he1
      have h2 : (952 / 100 * M + 1 / 100 + 3 / 2 * Y) ≤ 953 / 100 + 3 / 2 * Y := by linarith
      have hY1 : Y ≤ 11 / 10 := by nlinarith only [t2, l1, hY0]
      have h3 : C ≤ 11 / 10 * Y := by nlinarith only [t1, l2, hY0]
      have h4 := mul_le_mul h2 h3 s3.le (by linarith)
      nlinarith only [h4, hY0, hY1]
    · obtain ⟨t1, t2⟩ := s11 he0 he1
      have hY1 : 98 / 100 ≤ Y := by nlinarith only [t1, l2, hY0]
      have h2 : (952 / 100 * M + 1 / 100 + 3 / 2 * Y) ≤ 14 * Y := by linarith
      have := mul_le_mul h2 s4 s3.le (by linarith)
      linarith

set_option maxHeartbeats 1000000 in
/-- A round of `log2`. -/
theorem log2Step_spec {x m : Num} {e : ℤ} (hm : SplitOk x m e)
    (h1 : countLeadingZeroesSkipFirst m.m.m ≠ 64 * m.m.m.length) {w : Nat} (hw : 128 ≤ w)
    (hlen : 64 * m.m.m.length ≤ w) (hW : w + m.lnAddPrec e ≤ 2 ^ 17) {c : Num.Ln2Cache} (hc : Ln2Ok c) :
    ∃ t c', Num.log2Step m e (m.lnAddPrec e) w c = some (.tst t, c') ∧ Ln2Ok c' ∧
      TestOk w (Real.log x.toK / Real.log 2) t := by
  obtain ⟨g1, g2, g3, g4⟩ := hm.log
  obtain ⟨cnt, C, s1, s2, s3, s4, s5, s6, s7, s8, s9, s10, s11⟩ := lnSize_spec hm (by omega) (fun h => h1 h.2)
  rw [s1] at hW
  obtain ⟨z, p1, a1, a2, a3, a4, a5, a6, a7⟩ := lnPart_spec hm (q := w + (cnt + 5)) (by omega) (by omega) hW
    { m with inexact := false } (Or.inr rfl)
  have l1 := Real.log_two_gt_d9
  have l2 := Real.log_two_lt_d9
  have hrP : roundP (w + (cnt + 5)) = precBits (w + (cnt + 5)) := by unfold precBits roundP USIZE_MAX; omega
  have hPw : w + (cnt + 5) ≤ precBits (w + (cnt + 5)) := by unfold precBits; omega
  have hP1 : 192 ≤ precBits (w + (cnt + 5)) := by unfold precBits; omega
  have hP2 : precBits (w + (cnt + 5)) ≤ 2 ^ 17 := by unfold precBits; omega
  have hpm : roundP (w + (cnt + 5)) < PMAX := by rw [hrP]; unfold PMAX; omega
  obtain ⟨pw, hpw⟩ : ∃ pw, precBits (w + (cnt + 5)) = 64 * pw := ⟨(w + (cnt + 5) + 63) / 64, rfl⟩
  unfold Num.log2Step
  dsimp only
  rw [s1, a1]
  dsimp only
  rw [a2]
  dsimp only
  rw [hrP, hpw]
  obtain ⟨p2, c', b1, b2, b3, b4, b5, b6⟩ := ln2None_spec (pw := pw) (by omega) (by omega) hc
  rw [b1]
  dsimp only
  rw [hpw] at a4 a6 a7 hPw hP1 hP2 hrP
  obtain ⟨δ, hδ⟩ : ∃ δ : ℝ, δ = 2 ^ (1 - ((64 * pw : ℕ) : ℤ)) := ⟨_, rfl⟩
  obtain ⟨D, hD⟩ : ∃ D : ℝ, D = 2 ^ (-(w : ℤ)) := ⟨_, rfl⟩
  have hD0 : 0 < D := by rw [hD]; positivity
  have hD1 : D ≤ 1 / 1000 := by
    refine le_trans (b := (2 : ℝ) ^ (-100 : ℤ)) ?_ (by norm_num)
    rw [hD]; exact zpow_le_zpow_right₀ (by norm_num) (by omega)
  have hδ0 : 0 < δ := by rw [hδ]; positivity
  have hδD : δ ≤ D * C / 16 := by
    rw [hδ, hD, s2, show (2 : ℝ) ^ (-(w : ℤ)) * 2 ^ (-(cnt : ℤ)) / 16 = 2 ^ (-(w : ℤ)) * 2 ^ (-(cnt : ℤ)) * 2 ^ (-4 : ℤ) by norm_num; ring,
      ← zpow_add₀ (by norm_num), ← zpow_add₀ (by norm_num)]
    exact zpow_le_zpow_right₀ (by norm_num) (by omega)
  have hδ3 : δ ≤ 1 / 10000 := by nlinarith only [hδD, hD1, s3, s4, hD0]
  have hδL : δ ≤ -Real.log m.toK := by
    have h2 := hm.hi
    have h4 : δ ≤ 2 ^ (-((64 * m.m.m.length : ℕ) : ℤ)) := by
      rw [hδ]; exact zpow_le_zpow_right₀ (by norm_num) (by omega)
    linarith
  have hLlo : (2 : ℝ) ^ (EMIN + 20) ≤ -Real.log m.toK := by
    have h2 := hm.hi
    have h4 : (2 : ℝ) ^ (EMIN + 20) ≤ 2 ^ (-((64 * m.m.m.length : ℕ) : ℤ)) :=
      zpow_le_zpow_right₀ (by norm_num) (by unfold EMIN; omega)
    linarith
  have hCl : (2 : ℝ) ^ (EMIN + 20) ≤ C :=
    le_trans (zpow_le_zpow_right₀ (by norm_num) (by unfold EMIN; omega)) s6
  rw [zpow_add₀ (by norm_num), show (2 : ℝ) ^ (20 : ℤ) = 1048576 by norm_num] at hLlo hCl
  have hT0 : (0 : ℝ) < 2 ^ EMIN := by positivity
  rw [← hδ] at a6 a7 b6
  obtain ⟨l, hl⟩ : ∃ l : ℝ, l = Real.log 2 := ⟨_, rfl⟩
  obtain ⟨L, hL⟩ : ∃ L : ℝ, L = -Real.log m.toK := ⟨_, rfl⟩
  rw [← hL] at g1 g3 g4 s9 a6 a7 hδL hLlo
  rw [← hl] at l1 l2 g3 g4 s11 b6 ⊢
  have hL0 : 0 < L := by linarith
  obtain ⟨T, hT⟩ : ∃ T : ℝ, T = 2 ^ EMIN := ⟨_, rfl⟩
  have hEm : (2 : ℝ) ^ (EMIN - 1) = T / 2 := by rw [hT, zpow_sub_one₀ (by norm_num), div_eq_mul_inv]
  rw [← hT] at hT0 hLlo hCl
  -- the quotient
  have b7 : |(p2.toK : ℝ) - l| ≤ l * (1001 / 1000 * δ) := by
    refine le_trans b6 (mul_le_mul_of_nonneg_left ?_ (by linarith))
    have : (2 : ℝ) ^ (-60 : ℤ) ≤ 1 / 1000 := by norm_num
    nlinarith only [this, hδ0]
  obtain ⟨u1, u2⟩ := abs_le.1 b7
  have hld : l * (1001 / 1000 * δ) ≤ 1 / 1000 := by nlinarith only [hδ3, l1, l2, hδ0]
  have hp2l : (69 / 100 : ℝ) ≤ p2.toK := by linarith
  have hp2u : (p2.toK : ℝ) ≤ 7 / 10 := by linarith
  have hz2 : p2.isZero = false := by
    rw [← Bool.not_eq_true, ← b3.toK_eq_zero (K := ℝ)]
    intro h; rw [h] at hp2l; norm_num at hp2l
  have hp1l : L / 2 ≤ -(p1.toK : ℝ) := by
    have : (15 / 2 * L + 1 / 2 ^ 8) * δ ≤ L / 2 := by nlinarith only [hδ3, hδL, hL0, hδ0]
    linarith
  have hp1u : -(p1.toK : ℝ) ≤ 8 / 10 := by nlinarith only [a7, g3, l2, hδ3, hL0, hδ0]
  have hz1 : p1.isZero = false := by
    rw [← Bool.not_eq_true, ← a3.toK_eq_zero (K := ℝ)]
    intro h; rw [h] at hp1l; norm_num at hp1l; linarith
  have d0 := div_spec (K := ℝ) a3 b3 hz2 (p := w + (cnt + 5)) (by omega) hpm .none
  rw [hrP] at d0
  have hq : |(p1.toK : ℝ) / p2.toK| = -p1.toK / p2.toK := by
    rw [abs_div, abs_of_neg (by linarith), abs_of_pos (by linarith)]
  obtain ⟨p3, d1, d2, d3, d4, d5⟩ := d0.apx (by
      rw [hq, hEm, le_div_iff₀ (by linarith)]
      nlinarith only [hp1l, hLlo, hp2u, hp2l, hT0]) (by
      rw [hq, div_le_iff₀ (by linarith)]
      have : (2 : ℝ) ^ 64 * (69 / 100) ≤ 2 ^ 64 * p2.toK := mul_le_mul_of_nonneg_left hp2l (by norm_num)
      norm_num at this ⊢
      linarith)
  rw [d1]
  dsimp only
  obtain ⟨Q, hQ⟩ : ∃ Q : ℝ, Q = -p1.toK / p2.toK := ⟨_, rfl⟩
  obtain ⟨M, hM⟩ : ∃ M : ℝ, M = L / l := ⟨_, rfl⟩
  have hM0 : 0 < M := by rw [hM]; exact div_pos hL0 (by linarith)
  have hM1 : M ≤ 1 := by rw [hM, div_le_one (by linarith)]; exact g3
  have hLM : L = M * l := by rw [hM]; field_simp
  have hQM : |Q - M| ≤ (8506 / 1000 * M + 6 / 1000) * δ := by
    rw [hQ]
    refine log2_quot (by linarith) (by linarith) hM0 hM1 hδ0 hδ3 ?_ b7 (by linarith)
    rw [← hLM, abs_le]
    have : 0 < L * δ := by positivity
    constructor <;> linarith
  rw [hq, ← hQ, ← hδ] at d4
  have hQe : (p1.toK : ℝ) / p2.toK = -Q := by rw [hQ]; ring
  rw [hQe, sub_neg_eq_add] at d4
  obtain ⟨v1, v2⟩ := abs_le.1 hQM
  have hQu : Q ≤ 1001 / 1000 * M + 1 / 1000 := by nlinarith only [v2, hM0, hδ3, hδ0, hM1]
  have f1 : |(p3.toK : ℝ) + M| ≤ (952 / 100 * M + 1 / 100) * δ := by
    have := abs_add_le ((p3.toK : ℝ) + Q) (M - Q)
    rw [abs_sub_comm M, show (p3.toK : ℝ) + Q + (M - Q) = p3.toK + M by ring] at this
    have k1 := mul_le_mul_of_nonneg_right hQu hδ0.le
    linarith only [this, k1, d4, hQM, hδ0.le, mul_pos hM0 hδ0]
  -- the sum
  have hB : e.natAbs < B := by
    have h6 : ((e.natAbs : ℤ) : ℝ) ≤ 2 ^ 40 := by rw [Int.natCast_natAbs, Int.cast_abs]; exact s7
    have h7 : e.natAbs ≤ 2 ^ 40 := by exact_mod_cast h6
    unfold B; omega
  obtain ⟨e1, e2, e3⟩ := lnExpNum_all hB
  have s0 := addSub_spec (K := ℝ) d2 e1 (p := w + (cnt + 5)) (by omega) hpm true .none
  rw [if_pos rfl, hrP, e2] at s0
  have hyM : Real.log x.toK / l = e - M := by
    rw [g4, hM, sub_div, mul_div_assoc, div_self (by linarith), mul_one]
  obtain ⟨Y, hY⟩ : ∃ Y : ℝ, Y = |Real.log (x.toK : ℝ) / l| := ⟨_, rfl⟩
  have hYl : |Real.log (x.toK : ℝ)| = Y * l := by
    rw [hY, abs_div, abs_of_pos (show 0 < l by linarith)]; field_simp
  rw [hYl] at s5 s8 s9 s10 s11
  have hY0 : 0 < Y := by nlinarith only [s5, s3, l1]
  -- the error against the logarithm
  have key := log2_key (by linarith) (by linarith) hM0 hM1 hLM s3 s4 s5 s9 s10 s11
  have key2 : (952 / 100 * M + 1 / 100 + 3 / 2 * Y) * δ ≤ Y * (D * (15 / 16)) := by
    have h2 := mul_le_mul_of_nonneg_left hδD (show 0 ≤ 952 / 100 * M + 1 / 100 + 3 / 2 * Y by linarith)
    have h3 := mul_le_mul_of_nonneg_right key hD0.le
    refine le_trans h2 ?_
    linarith
  have hYD : Y * (D * (15 / 16)) ≤ Y / 2 := by nlinarith only [hY0, hD1, hD0]
  have h3Y : 0 ≤ 3 / 2 * Y * δ := by positivity
  have f2 : |(p3.toK : ℝ) + e - Real.log x.toK / l| ≤ (952 / 100 * M + 1 / 100) * δ := by
    rw [hyM, show (p3.toK : ℝ) + e - (e - M) = p3.toK + M by ring]; exact f1
  have f3 := abs_sub_abs_le_abs_sub ((p3.toK : ℝ) + e) (Real.log x.toK / l)
  have f4 := abs_sub_abs_le_abs_sub (Real.log x.toK / l) ((p3.toK : ℝ) + e)
  rw [abs_sub_comm (Real.log x.toK / l)] at f4
  rw [← hY] at f3 f4
  have hYT : T ≤ Y := by nlinarith only [s5, hCl, hY0, l2, hT0]
  have hYu : Y ≤ 2 ^ 42 := by
    by_contra hcn
    rw [not_le] at hcn
    have h6 : (2 : ℝ) ^ 42 * (1 / 2) < Y * l := by nlinarith only [hcn, l1]
    norm_num at h6 s8
    linarith
  obtain ⟨r, r1, r2, r3, r4, r5⟩ := s0.apx (by rw [hEm]; linarith) (by
      have : (2 : ℝ) ^ 42 * 2 ≤ 2 ^ 64 := by norm_num
      linarith)
  rw [show p3.add (Num.lnExpNum e) (w + (cnt + 5)) .none = .ok r from r1]
  refine ⟨r, c', rfl, b2, TestOk.of_rel' r2 ?_ (by omega) ?_ (δ := (952 / 100 * M + 1 / 100 + 3 / 2 * Y) * δ) ?_ ?_⟩
  · apply r5
    have hi3 : p3.inexact = true := d5 (by unfold divIx; rw [hz1, a5]; rfl)
    have hz3 : p3.isZero = false := by
      rw [← Bool.not_eq_true, ← d2.toK_eq_zero (K := ℝ)]
      intro h
      rw [h, zero_add, abs_of_pos hM0] at f1
      have : δ ≤ M := by nlinarith only [hδL, hLM, l2, hM0]
      nlinarith only [f1, this, hM0, hδ3, hδ0]
    unfold addIx
    rw [hz3, hi3]
    simp
  · rw [← abs_pos, ← hY]; exact hY0
  · rw [← hY, ← hD]; exact key2
  · rw [← hδ] at r4
    have g3 := abs_sub_le (r.toK : ℝ) (p3.toK + e) (Real.log x.toK / l)
    have g4 : |(p3.toK : ℝ) + e| * δ ≤ 3 / 2 * Y * δ := mul_le_mul_of_nonneg_right (by linarith) hδ0.le
    linarith

end AF
