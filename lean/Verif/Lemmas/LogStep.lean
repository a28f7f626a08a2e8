import Verif.Lemmas.LogArg
import Verif.Lemmas.LogSplit
import Verif.Lemmas.FunLoop
/-!
# A round of the loops of `ln` and `log2`
-/

namespace AF

set_option linter.unusedSectionVars false

variable {P : Nat}

/-- The caches of `ln 2`. -/
abbrev Ln2Ok (c : Num.Ln2Cache) : Prop := CacheOk (LnRep 1 9) (LnValOk 1 9 3 (Real.log 2)) c

/-- A truncated result that is neither too small nor too large. -/
theorem Delivers.apx {Y : ℝ} {ix : Bool} {r : Except Err Num} (h : Delivers .none P Y ix r)
    (h1 : (2 : ℝ) ^ (EMIN - 1) ≤ |Y|) (h2 : |Y| ≤ 2 ^ 64) :
    ∃ v, r = .ok v ∧ v.WF ∧ 64 * v.m.m.length = P ∧ |v.toK - Y| ≤ |Y| * 2 ^ (1 - (P : ℤ)) ∧
      (ix = true → v.inexact = true) := by
  cases r with
  | ok v => exact ⟨v, rfl, h.1, h.2.1, (h.normal h1).none_abs, fun hi => h.2.2.2.2.1.2 (Or.inl hi)⟩
  | error e =>
    exfalso
    obtain ⟨_, t, h3, h4⟩ := h
    obtain ⟨g1, -, -⟩ := h3.none_rel
    have : (2 : ℝ) ^ (65 : ℤ) ≤ 2 ^ EMAX := zpow_le_zpow_right₀ (by norm_num) (by unfold EMAX; norm_num)
    have h5 : (2 : ℝ) ^ (65 : ℤ) = 2 * 2 ^ 64 := by norm_num
    have : (0 : ℝ) < 2 ^ 64 := by positivity
    linarith

/-- A relative error, as `TestOk` wants it. -/
theorem TestOk.of_rel' {w : Nat} {y δ : ℝ} {t : Num} (h1 : t.WF) (h2 : t.inexact = true) (h3 : w ≤ 64 * t.m.m.length)
    (hy : y ≠ 0) (hδ : δ ≤ |y| * (2 ^ (-(w : ℤ)) * (15 / 16))) (h4 : |t.toK - y| ≤ δ) : TestOk w y t := by
  refine ⟨h1, h2, h3, t.toK / y, by field_simp, ?_⟩
  have hy0 : 0 < |y| := abs_pos.2 hy
  rw [show t.toK / y - 1 = (t.toK - y) / y by field_simp, abs_div, div_le_iff₀ hy0, mul_comm]
  exact le_trans h4 hδ

/-- `ln 2` in mode `None`. -/
theorem ln2None_spec {pw : Nat} (hp : 0 < pw) (hpm : 64 * pw ≤ 2 ^ 20) {c : Num.Ln2Cache} (hc : Ln2Ok c) :
    ∃ v c', ln2ForPrec (64 * pw) .none c = some (.ok v, c') ∧ Ln2Ok c' ∧ v.WF ∧ 64 * v.m.m.length = 64 * pw ∧
      v.inexact = true ∧ |v.toK - Real.log 2| ≤ Real.log 2 * (2 ^ (1 - ((64 * pw : ℕ) : ℤ)) * (1 + 2 ^ (-60 : ℤ))) := by
  have hr2 : roundP (64 * pw) = 64 * pw := by unfold roundP USIZE_MAX; omega
  obtain ⟨r, c', h1, h2, h3, h4, -⟩ := (ln2_loop hp (by unfold PMAX; omega) .none).forPrec ln2Series hc (by
      rw [hr2]
      obtain ⟨j, hj⟩ := hc.pow
      rw [hj]
      exact ln2_inv_start hp)
  obtain ⟨v, rfl⟩ := h4 (Or.inl rfl) (by omega)
  refine ⟨v, c', h1, h2, ?_⟩
  rcases h3 with ⟨v', e, h5, h6⟩ | h3
  · injection e with e
    subst e
    refine ⟨h5.wf, h5.len, h6, ?_⟩
    have := h5.none rfl
    rwa [abs_of_pos (a := Real.log 2) (Real.log_pos (by norm_num))] at this
  · cases h3

/-- The exponent as a number. -/
theorem lnExpNum_spec {e : ℤ} (h0 : e ≠ 0) (h1 : e.natAbs < B) :
    (Num.lnExpNum e).WF ∧ ((Num.lnExpNum e).toK : ℝ) = e ∧ (Num.lnExpNum e).isZero = false ∧ (Num.lnExpNum e).inexact = false := by
  have hn := IsNat.fromUsize (u := e.natAbs) (by omega) h1
  unfold Num.lnExpNum
  dsimp only
  by_cases hneg : e < 0
  · rw [if_pos hneg]
    refine ⟨⟨hn.wf.wf, hn.wf.bits, hn.wf.emin, hn.wf.emax, hn.wf.norm, hn.wf.sized⟩, ?_, hn.nz, hn.exact⟩
    rw [setSign_toK, hn.eq, Nat.abs_cast]
    have : ((e.natAbs : ℕ) : ℤ) = -e := by omega
    rw [← Int.cast_natCast, this]; simp [Sign.toK]
  · rw [if_neg hneg]
    refine ⟨hn.wf, ?_, hn.nz, hn.exact⟩
    rw [hn.eq]
    have : ((e.natAbs : ℕ) : ℤ) = e := by omega
    rw [← Int.cast_natCast, this]

/-- The logarithm of the mantissa. -/
theorem lnPart_spec {x m : Num} {e : ℤ} (hm : SplitOk x m e) {q : Nat} (hlen : 64 * m.m.m.length ≤ q)
    (hq : 129 ≤ q) (hq2 : q ≤ 2 ^ 17) (m' : Num) (hm' : m' = m ∨ m' = { m with inexact := false }) :
    ∃ y p1, m'.setPrecision q .none = .ok y ∧ y.lnSeries = .ok p1 ∧ p1.WF ∧ 64 * p1.m.m.length = precBits q ∧
      p1.inexact = true ∧
      -Real.log m.toK - (15 / 2 * -Real.log m.toK + 1 / 2 ^ 8) * 2 ^ (1 - (precBits q : ℤ)) ≤ -p1.toK ∧
      -(p1.toK : ℝ) ≤ -Real.log m.toK + 11 / 10 * -Real.log m.toK * 2 ^ (1 - (precBits q : ℤ)) := by
  have hwf : m'.WF ∧ (m'.toK : ℝ) = m.toK ∧ m'.m.m.length = m.m.m.length := by
    rcases hm' with rfl | rfl
    · exact ⟨hm.wf, rfl, rfl⟩
    · exact ⟨⟨hm.wf.wf, hm.wf.bits, hm.wf.emin, hm.wf.emax, hm.wf.norm, hm.wf.sized⟩, rfl, rfl⟩
  obtain ⟨w1, w2, w3⟩ := hwf
  have hP : precBits q = 64 * wordLen q := by unfold precBits wordLen; omega
  obtain ⟨y, y1, y2, y3, y4, -⟩ := setPrecision_extendN w1 (p := q) (by omega) (by unfold PMAX; omega)
    (by rw [w3]; unfold wordLen; omega)
  have hlo := hm.lo
  have hhi := hm.hi
  rw [← w2, ← y4] at hlo hhi
  obtain ⟨p1, r1, r2, r3, r4, r5, r6⟩ := lnSeries_spec (P := precBits q) (by unfold precBits; omega) (by unfold precBits; omega) y2
    (by rw [y3, hP]) (j := 64 * m.m.m.length) (by unfold precBits; omega) hlo hhi
  rw [y4, w2] at r5 r6
  exact ⟨y, p1, y1, r1, r2, r3, r4, r5, r6⟩

/-- Bounds on the logarithm of the mantissa. -/
theorem SplitOk.log {x m : Num} {e : ℤ} (hm : SplitOk x m e) :
    1 - m.toK ≤ -Real.log m.toK ∧ 0 < 1 - (m.toK : ℝ) ∧ -Real.log m.toK ≤ Real.log 2 ∧
      Real.log x.toK = e * Real.log 2 - -Real.log m.toK := by
  have hlo := hm.lo
  have hhi := hm.hi
  have hp : (0 : ℝ) < 2 ^ (-((64 * m.m.m.length : ℕ) : ℤ)) := by positivity
  refine ⟨?_, by linarith, ?_, ?_⟩
  · have := Real.log_le_sub_one_of_pos (show 0 < (m.toK : ℝ) by linarith)
    linarith
  · have := Real.log_le_log (by norm_num) hlo
    rw [one_div, Real.log_inv] at this
    linarith
  · rw [hm.eq, Real.log_mul (by linarith) (by positivity), Real.log_zpow]
    ring

/-- The bits counted near 1 from below. -/
theorem SplitOk.ones {x m : Num} {e : ℤ} (hm : SplitOk x m e) :
    (2 : ℝ) ^ (-((countLeadingOnes m.m.m + 1 : ℕ) : ℤ)) ≤ 1 - m.toK := by
  obtain ⟨-, h⟩ := clo_mag hm.wf.wf
  have hlt := val_lt_two_pow hm.wf.wf
  have h2 : ((2 ^ (64 * m.m.m.length) : ℕ) : ℝ) ≤
      (((2 ^ (64 * m.m.m.length) - AF.val m.m.m) * 2 ^ (countLeadingOnes m.m.m + 1) : ℕ) : ℝ) := by exact_mod_cast h
  rw [Nat.cast_mul, Nat.cast_sub hlt.le] at h2
  push_cast at h2
  rw [hm.val, zpow_neg, zpow_neg, zpow_natCast, zpow_natCast]
  have hA : (0 : ℝ) < 2 ^ (64 * m.m.m.length) := by positivity
  have hC : (0 : ℝ) < 2 ^ (countLeadingOnes m.m.m + 1) := by positivity
  generalize (2 : ℝ) ^ (64 * m.m.m.length) = A at h2 hA
  generalize (2 : ℝ) ^ (countLeadingOnes m.m.m + 1) = C at h2 hC
  rw [inv_le_iff_one_le_mul₀ hC, show (1 - (AF.val m.m.m : ℝ) * A⁻¹) * C = (A - AF.val m.m.m) * C / A by field_simp,
    le_div_iff₀ hA, one_mul]
  exact h2

/-- The bits counted near 1 from above. -/
theorem SplitOk.zeros {x m : Num} {e : ℤ} (hm : SplitOk x m e)
    (hc : countLeadingZeroesSkipFirst m.m.m ≠ 64 * m.m.m.length) :
    (2 : ℝ) ^ (-((countLeadingZeroesSkipFirst m.m.m : ℕ) : ℤ)) ≤ 2 * m.toK - 1 := by
  have hl : 0 < m.m.m.length := by
    by_contra h
    have h0 : m.m.m = [] := List.eq_nil_of_length_eq_zero (by omega)
    have := hm.lo
    rw [hm.val, h0] at this
    norm_num [AF.val] at this
  obtain ⟨h, -, -⟩ := clzSkip_mag hm.wf.wf hl hm.norm hc
  have hn := hm.norm
  have h2 : ((2 ^ (64 * m.m.m.length) : ℕ) : ℝ) ≤
      ((2 * ((AF.val m.m.m - 2 ^ (64 * m.m.m.length - 1)) * 2 ^ countLeadingZeroesSkipFirst m.m.m) : ℕ) : ℝ) := by exact_mod_cast h
  rw [Nat.cast_mul, Nat.cast_mul, Nat.cast_sub hn] at h2
  push_cast at h2
  have e1 : (2 : ℝ) ^ (64 * m.m.m.length) = 2 ^ (64 * m.m.m.length - 1) * 2 := by rw [← pow_succ]; congr 1; omega
  rw [hm.val, zpow_neg, zpow_neg, zpow_natCast, zpow_natCast]
  rw [e1] at h2 ⊢
  have hA : (0 : ℝ) < 2 ^ (64 * m.m.m.length - 1) := by positivity
  have hC : (0 : ℝ) < 2 ^ countLeadingZeroesSkipFirst m.m.m := by positivity
  generalize (2 : ℝ) ^ (64 * m.m.m.length - 1) = A at h2 hA
  generalize (2 : ℝ) ^ countLeadingZeroesSkipFirst m.m.m = C at h2 hC
  rw [inv_le_iff_one_le_mul₀ hC, show (2 * ((AF.val m.m.m : ℝ) * (A * 2)⁻¹) - 1) * C = (AF.val m.m.m - A) * C / A by field_simp,
    le_div_iff₀ hA, one_mul]
  linarith

/-- The sum of the logarithm of the mantissa and the multiple of `ln 2`. -/
theorem lnSum_spec {p1 : Num} {L δ y : ℝ} {e : ℤ} (hP : 64 ∣ P) (hP1 : 192 ≤ P) (hP2 : P ≤ 2 ^ 17) (hδ : δ = 2 ^ (1 - (P : ℤ)))
    (h1 : p1.WF) (h2 : 64 * p1.m.m.length = P) (h3 : p1.inexact = true) (h4 : L - (15 / 2 * L + 1 / 2 ^ 8) * δ ≤ -p1.toK)
    (h5 : -(p1.toK : ℝ) ≤ L + 11 / 10 * L * δ) (hL0 : 0 < L) (hL2 : L ≤ Real.log 2) (hnz : p1.isZero = false)
    (he0 : e ≠ 0) (he : |(e : ℝ)| ≤ 2 ^ 40) (hy : y = e * Real.log 2 - L)
    (hη : (15 / 2 * L + 1 / 2 ^ 8 + 201 / 100 * |(e : ℝ)| * Real.log 2) * δ ≤ |y| / 2) (hlo : (2 : ℝ) ^ (EMIN + 1) ≤ |y|)
    {c : Num.Ln2Cache} (hc : Ln2Ok c) :
    ∃ p2 c' p2n r, ln2ForPrec (roundP p1.m.maxBitLen) .none c = some (.ok p2, c') ∧ Ln2Ok c' ∧
      p2.mul (Num.lnExpNum e) p1.m.maxBitLen .none = .ok p2n ∧ p1.add p2n p1.m.maxBitLen .none = .ok r ∧
      r.WF ∧ 64 * r.m.m.length = P ∧ r.inexact = true ∧
      |r.toK - y| ≤ (15 / 2 * L + 1 / 2 ^ 8 + 201 / 100 * |(e : ℝ)| * Real.log 2 + 3 / 2 * |y|) * δ := by
  obtain ⟨pw, rfl⟩ := hP
  have m1 : p1.m.maxBitLen = 64 * pw := by unfold Mantissa.maxBitLen; omega
  have hr : roundP (64 * pw) = 64 * pw := by unfold roundP USIZE_MAX; omega
  have hpm : 64 * pw < PMAX := by unfold PMAX; omega
  have hδ0 : 0 < δ := by rw [hδ]; positivity
  have hδ1 : δ ≤ 1 / 2 ^ 100 := by
    rw [hδ, show (1 / 2 ^ 100 : ℝ) = 2 ^ (-100 : ℤ) by norm_num]
    exact zpow_le_zpow_right₀ (by norm_num) (by push_cast; omega)
  have hδ2 : δ ≤ 1 / 2 ^ 20 := le_trans hδ1 (by norm_num)
  rw [m1, hr]
  obtain ⟨p2, c', a1, a2, a3, a4, a5, a6⟩ := ln2None_spec (pw := pw) (by omega) (by omega) hc
  rw [← hδ] at a6
  obtain ⟨l1, l2⟩ : (69 / 100 : ℝ) ≤ Real.log 2 ∧ Real.log 2 ≤ 7 / 10 := by
    have := Real.log_two_gt_d9
    have := Real.log_two_lt_d9
    constructor <;> linarith
  generalize Real.log 2 = l at *
  have a7 : |(p2.toK : ℝ) - l| ≤ l * (1001 / 1000 * δ) := by
    refine le_trans a6 (mul_le_mul_of_nonneg_left ?_ (by linarith))
    have : (2 : ℝ) ^ (-60 : ℤ) ≤ 1 / 1000 := by norm_num
    nlinarith
  have hB : e.natAbs < B := by
    have h6 : ((e.natAbs : ℤ) : ℝ) ≤ 2 ^ 40 := by rw [Int.natCast_natAbs, Int.cast_abs]; exact he
    have h7 : e.natAbs ≤ 2 ^ 40 := by exact_mod_cast h6
    unfold B; omega
  obtain ⟨e1, e2, e3, e4⟩ := lnExpNum_spec he0 hB
  have hE1 : 1 ≤ |(e : ℝ)| := by
    have := Int.one_le_abs he0
    rw [← Int.cast_abs]; exact_mod_cast this
  have s1 := mulGeneral_spec (K := ℝ) a3 e1 (p := 64 * pw) (by omega) (by rw [hr]; exact hpm) .none
  rw [e2, hr] at s1
  obtain ⟨b1, b2⟩ := abs_le.1 a7
  have hld : l * (1001 / 1000 * δ) ≤ 1 / 1000 := by nlinarith
  have hp2 : 0 < (p2.toK : ℝ) := by linarith
  have hp2u : (p2.toK : ℝ) ≤ 1 := by linarith
  have habs : |(p2.toK : ℝ) * e| = p2.toK * |(e : ℝ)| := by rw [abs_mul, abs_of_pos hp2]
  obtain ⟨E, hE⟩ : ∃ E : ℝ, E = |(e : ℝ)| := ⟨_, rfl⟩
  rw [← hE] at he hη habs hE1 ⊢
  obtain ⟨p2n, d1, d2, d3, d4, d5⟩ := s1.apx (by
      rw [habs]
      have : (2 : ℝ) ^ (EMIN - 1) ≤ 2 ^ (-1 : ℤ) := zpow_le_zpow_right₀ (by norm_num) (by unfold EMIN; norm_num)
      rw [show (2 : ℝ) ^ (-1 : ℤ) = 1 / 2 by norm_num] at this
      nlinarith) (by
      rw [habs]
      have : p2.toK * E ≤ 1 * 2 ^ 40 := mul_le_mul hp2u he (by linarith) (by norm_num)
      linarith)
  rw [← hδ, habs] at d4
  -- the product
  have f1 : |(p2n.toK : ℝ) - e * l| ≤ 201 / 100 * E * l * δ := by
    have g1 : |(p2.toK : ℝ) * e - e * l| ≤ E * (l * (1001 / 1000 * δ)) := by
      rw [show (p2.toK : ℝ) * e - e * l = e * (p2.toK - l) by ring, abs_mul, ← hE]
      exact mul_le_mul_of_nonneg_left a7 (by linarith)
    have g2 : p2.toK * E * δ ≤ l * (1002 / 1000) * E * δ := by
      refine mul_le_mul_of_nonneg_right (mul_le_mul_of_nonneg_right ?_ (by linarith)) hδ0.le
      nlinarith
    have g3 := abs_sub_le (p2n.toK : ℝ) (p2.toK * e) (e * l)
    have g4 : 0 ≤ E * l * δ := by positivity
    linarith
  have hz2 : p2n.isZero = false := by
    rw [← Bool.not_eq_true, ← d2.toK_eq_zero (K := ℝ)]
    intro hc
    rw [hc, zero_sub, abs_neg, abs_mul, ← hE, abs_of_pos (by linarith : 0 < l)] at f1
    have g4 : 0 < E * l := by positivity
    nlinarith
  have s2 := addSub_spec (K := ℝ) h1 d2 (p := 64 * pw) (by omega) (by rw [hr]; exact hpm) true .none
  rw [if_pos rfl, hr] at s2
  -- the sum
  have hη' : |(p1.toK : ℝ) + p2n.toK - y| ≤ (15 / 2 * L + 1 / 2 ^ 8 + 201 / 100 * E * l) * δ := by
    have g1 : |(p1.toK : ℝ) + L| ≤ (15 / 2 * L + 1 / 2 ^ 8) * δ := by
      rw [abs_le]
      have : 0 < L * δ := by positivity
      constructor <;> linarith
    rw [show (p1.toK : ℝ) + p2n.toK - y = (p1.toK + L) + (p2n.toK - e * l) by rw [hy]; ring]
    refine le_trans (abs_add_le _ _) ?_
    linarith
  have hYa := abs_sub_abs_le_abs_sub (p1.toK + p2n.toK : ℝ) y
  have hYb := abs_sub_abs_le_abs_sub y (p1.toK + p2n.toK : ℝ)
  rw [abs_sub_comm y] at hYb
  have hyu : |y| ≤ 2 ^ 41 := by
    rw [hy]
    refine le_trans (abs_sub _ _) ?_
    rw [abs_mul, ← hE, abs_of_pos hL0, abs_of_pos (by linarith : 0 < l)]
    have : E * l ≤ 2 ^ 40 * 1 := mul_le_mul he (by linarith) (by linarith) (by norm_num)
    norm_num at this ⊢
    linarith
  obtain ⟨r, r1, r2, r3, r4, r5⟩ := s2.apx (by
      have : (2 : ℝ) ^ (EMIN + 1) = 2 ^ (EMIN - 1) * 4 := by
        rw [show (4 : ℝ) = 2 ^ (2 : ℤ) by norm_num, ← zpow_add₀ (by norm_num)]; congr 1
      have : (0 : ℝ) < 2 ^ (EMIN - 1) := by positivity
      linarith) (by
      have : (2 : ℝ) ^ 41 * 2 ≤ 2 ^ 64 := by norm_num
      linarith)
  refine ⟨p2, c', p2n, r, a1, a2, d1, r1, r2, r3, ?_, ?_⟩
  · apply r5
    unfold addIx
    rw [hnz, hz2, h3]
    simp
  · rw [← hδ] at r4
    have g3 := abs_sub_le (r.toK : ℝ) (p1.toK + p2n.toK) y
    have g4 : |(p1.toK : ℝ) + p2n.toK| * δ ≤ 3 / 2 * |y| * δ := mul_le_mul_of_nonneg_right (by linarith) hδ0.le
    linarith

end AF
