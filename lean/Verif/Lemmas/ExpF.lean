import Verif.Lemmas.ExpSinh
import Verif.Lemmas.Powi
/-!
# The exponential function below one (`expf`)
-/

namespace AF

/-- An operation rounded away from zero, far from the ends of the range. -/
theorem fz_step {P : Nat} {Y : ℝ} {ix : Bool} {r : Except Err Num} (h : Delivers .fromZero P Y ix r)
    (hl : (2 : ℝ) ^ (EMIN - 1) ≤ Y) (hu : Y ≤ 2 ^ (EMAX - 2)) (hP : 1 ≤ P) :
    ∃ v, r = .ok v ∧ v.WF ∧ 64 * v.m.m.length = P ∧ Y ≤ v.toK ∧ (v.toK : ℝ) ≤ Y * (1 + 2 ^ (1 - (P : ℤ))) ∧
      (ix = true → v.inexact = true) := by
  have hY0 : 0 < Y := lt_of_lt_of_le (by positivity) hl
  have ha : |Y| = Y := abs_of_pos hY0
  cases r with
  | ok v =>
    obtain ⟨c, c1, c2, c3⟩ := (h.normal (by rw [ha]; exact hl)).fromZero_rel hY0.ne'
    refine ⟨v, rfl, h.1, h.2.1, ?_, ?_, fun hi => h.2.2.2.2.1.2 (Or.inl hi)⟩
    · rw [c1]
      nlinarith
    · rw [c1]
      exact mul_le_mul_of_nonneg_left c3 hY0.le
  | error e =>
    exfalso
    obtain ⟨_, t, h3, h4⟩ := h
    obtain ⟨c, c1, c2, c3⟩ := h3.fromZero_rel hY0.ne'
    have h5 : (2 : ℝ) ^ (1 - (P : ℤ)) ≤ 1 := by
      rw [show (1 : ℝ) = 2 ^ (0 : ℤ) by norm_num]
      exact zpow_le_zpow_right₀ (by norm_num) (by omega)
    rw [c1, abs_mul, ha, abs_of_nonneg (by linarith)] at h4
    have h6 : (2 : ℝ) ^ EMAX = 2 ^ (EMAX - 2) * 4 := by
      rw [show EMAX = (EMAX - 2) + 2 by ring, zpow_add₀ (by norm_num)]; norm_num
    have h7 : Y * c ≤ 2 ^ (EMAX - 2) * 2 := mul_le_mul hu (by linarith) (by linarith) (by positivity)
    have h8 : (0 : ℝ) < 2 ^ (EMAX - 2) := by positivity
    linarith

theorem fz_range {Y : ℝ} (h1 : (2 : ℝ) ^ (-1 : ℤ) ≤ Y) (h2 : Y ≤ 2 ^ 64) :
    (2 : ℝ) ^ (EMIN - 1) ≤ Y ∧ Y ≤ 2 ^ (EMAX - 2) := by
  refine ⟨le_trans (zpow_le_zpow_right₀ (by norm_num) (by unfold EMIN; norm_num)) h1, le_trans h2 ?_⟩
  rw [show (2 : ℝ) ^ 64 = 2 ^ (64 : ℤ) by norm_cast]
  exact zpow_le_zpow_right₀ (by norm_num) (by unfold EMAX; norm_num)

variable {δ : ℝ} {P₀ : Nat}

/-- `expf`: the result is just above or below the exponential. -/
theorem expf_spec (hd : DOk δ) (hp : PrecOk δ P₀ P₀) (hP1 : 192 ≤ P₀) (hP2 : P₀ ≤ 2 ^ 23) {x : Num} (hx : x.WF)
    (hlen : 64 * x.m.m.length = P₀) (hx0 : (0 : ℝ) < x.toK) (hx1 : (x.toK : ℝ) < 1) (hxl : (2 : ℝ) ^ (-(P₀ : ℤ)) ≤ x.toK) :
    ∃ v, x.expf = .ok v ∧ v.WF ∧ 64 * v.m.m.length = P₀ ∧ v.inexact = true ∧
      Real.exp x.toK * (1 - 2 ^ 52 * δ) ≤ v.toK ∧ (v.toK : ℝ) ≤ Real.exp x.toK * (1 + δ) := by
  obtain ⟨sh, P, M, s1, s2, hM, -⟩ := sinhSeries_spec hd hp hp (by omega) le_rfl hP2 hx hlen hx0 hx1 hxl
  have hmb : x.m.maxBitLen = P₀ := by unfold Mantissa.maxBitLen; omega
  have hM90 : M ≤ 2 ^ 90 := le_trans hM (by norm_num)
  have hlo := s2.lo hd hM90 hxl
  have hs2 : (sh.toK : ℝ) < 2 := lt_of_le_of_lt s2.le (sinh_lt_two hx1.le)
  have hs0 : (0 : ℝ) < sh.toK := hlo.pos hd
  obtain ⟨s, hs⟩ : ∃ s : ℝ, s = sh.toK := ⟨_, rfl⟩
  rw [← hs] at hlo hs2 hs0
  unfold Num.expf
  rw [hmb]
  dsimp only
  rw [s1]
  dsimp only
  obtain ⟨sq, a1, a2, a3⟩ := hlo.mul hd hp hlo (by omega) (by norm_num) (by nlinarith)
  rw [a1]
  dsimp only
  have hone : Lo δ 128 0 0 1 Num.ONE := Lo.exact ONE_WF (by decide +kernel) (ONE_toK (K := ℝ)) (by norm_num)
  obtain ⟨sq2, b1, b2, b3⟩ := a2.add hd hp hone (by omega) (by norm_num) (by nlinarith)
  rw [b1]
  dsimp only
  obtain ⟨r, hr⟩ : ∃ r : ℝ, r = Real.sqrt (1 + s ^ 2) := ⟨_, rfl⟩
  have hrr : s * s + 1 = r * r := by
    rw [hr, Real.mul_self_sqrt (by positivity)]; ring
  have hr1 : 1 ≤ r := by
    rw [hr]
    exact Real.one_le_sqrt.2 (by nlinarith)
  have hr3 : r ≤ 3 := by nlinarith
  rw [hrr] at b2
  obtain ⟨sq3, c1, c2, -⟩ := Lo.sqrt (N := 1) hd hp b2 (by linarith) (by omega) (by norm_num) (by norm_num; linarith) (by
    refine le_trans ?_ hr1
    rw [show (1 : ℝ) = 2 ^ (0 : ℤ) by norm_num]
    exact zpow_le_zpow_right₀ (by norm_num) (by omega))
  rw [c1]
  dsimp only
  have hsum := addSub_spec (K := ℝ) c2.wf s2.wf hp.pos (by rw [hp.eq]; exact hp.lt) true .fromZero
  rw [if_pos rfl, hp.eq, ← hs] at hsum
  have hq := hd.pow (N := 1 + 1) (by norm_num)
  have hge := c2.ge
  have hle := c2.le
  have ht1 := hd.pow_le (1 + 1)
  obtain ⟨t, ht⟩ : ∃ t, t = (1 - δ) ^ (1 + 1) := ⟨_, rfl⟩
  rw [← ht] at hq hge ht1
  have hhalf : (1 / 2 : ℝ) ≤ sq3.toK := by
    have := mul_le_mul hr1 hq (by norm_num) (by linarith)
    linarith
  obtain ⟨y1, y2⟩ := fz_range (Y := sq3.toK + s) (by norm_num; linarith) (by norm_num; linarith)
  obtain ⟨v, d1, d2, d3, d4, d5, d6⟩ := fz_step hsum y1 y2 (by omega)
  refine ⟨v, d1, d2, d3, d6 ?_, ?_, ?_⟩
  · unfold addIx
    rw [c2.nz hd, show sh.isZero = false from (hs ▸ hlo).nz hd, s2.ix]
    simp
  · -- from below
    have hδ := hd.nonneg
    obtain ⟨c, hc⟩ : ∃ c, c = (1 - δ) ^ M := ⟨_, rfl⟩
    have hc0 : 0 < c := by rw [hc]; exact hd.pow_pos M
    have hc1 : c ≤ 1 := by rw [hc]; exact hd.pow_le M
    have e1 : Real.exp (x.toK * c) ≤ s + r := by
      rw [hr, ← Real.exp_arsinh]
      apply Real.exp_le_exp.2
      rw [← Real.arsinh_sinh (x.toK * c), Real.arsinh_le_arsinh, hc, hs]
      exact s2.ge
    have e2 : Real.exp x.toK * c ≤ Real.exp (x.toK * c) := by
      have f1 := Real.add_one_le_exp ((x.toK : ℝ) * c - x.toK)
      have f2 : c ≤ Real.exp ((x.toK : ℝ) * c - x.toK) := by
        have := mul_nonneg (sub_nonneg.2 hc1) (sub_nonneg.2 hx1.le)
        linarith
      rw [show (x.toK : ℝ) * c = x.toK + (x.toK * c - x.toK) by ring, Real.exp_add]
      exact mul_le_mul_of_nonneg_left f2 (Real.exp_pos _).le
    have hE := Real.exp_pos (x.toK : ℝ)
    have e3 : (s + r) * t ≤ sq3.toK + s := by nlinarith
    refine le_trans ?_ (le_trans e3 d4)
    refine le_trans ?_ (mul_le_mul_of_nonneg_right (le_trans e2 e1) (by linarith))
    rw [mul_assoc]
    refine mul_le_mul_of_nonneg_left ?_ hE.le
    rw [hc, ht, ← pow_add]
    refine le_trans ?_ (hd.anti (show M + (1 + 1) ≤ 2 ^ 52 by omega))
    have f3 := one_add_mul_le_pow (a := -δ) (by linarith [hd.base.1]) (2 ^ 52)
    rw [← sub_eq_add_neg] at f3
    refine le_trans (le_of_eq ?_) f3
    push_cast
    ring
  · refine le_trans d5 ?_
    have hδ := hp.err
    have h0 : (0 : ℝ) < 2 ^ (1 - (P₀ : ℤ)) := by positivity
    have e1 : s + r ≤ Real.exp x.toK := by
      rw [hr, ← Real.exp_arsinh]
      apply Real.exp_le_exp.2
      rw [← Real.arsinh_sinh x.toK, Real.arsinh_le_arsinh, hs]
      exact s2.le
    exact mul_le_mul (by linarith) (by linarith) (by linarith) (Real.exp_pos _).le

end AF
