import Verif.Lemmas.InvLn
import Verif.Lemmas.Sinh
import Verif.Model.InvHyper
import Mathlib.Analysis.SpecialFunctions.Artanh
/-!
# The inverse hyperbolic tangent
-/

namespace AF

open Num

set_option linter.unusedSectionVars false

/-! ## The function -/

theorem artanh_eq_atanh2 {t : ℝ} (h0 : -1 < t) (h1 : t < 1) : Real.artanh t = atanh2 t / 2 := by
  rw [Real.artanh_eq_half_log ⟨h0.le, h1.le⟩, Real.log_div (by linarith) (by linarith), atanh2]
  ring

theorem artanh_odd (t : ℝ) : Real.artanh (-t) = -Real.artanh t := by
  unfold Real.artanh
  rw [← Real.log_inv, ← Real.sqrt_inv, inv_div]
  congr 3
  · ring

theorem artanh_gt_self {t : ℝ} (h0 : 0 < t) (h1 : t < 1) : t < Real.artanh t := by
  have hs := Real.hasSum_log_sub_log_of_abs_lt_one (x := t) (by rw [abs_of_pos h0]; exact h1)
  have hle := sum_le_hasSum (Finset.range 2) (fun i _ => by positivity) hs
  rw [Finset.sum_range_succ, Finset.sum_range_one] at hle
  have : 0 < t ^ 3 := by positivity
  rw [artanh_eq_atanh2 (by linarith) h1, atanh2]
  norm_num at hle
  linarith

theorem artanh_cube {t : ℝ} (h0 : 0 < t) (h1 : t ≤ 1 / 4) : 0 < Real.artanh t - t ∧ Real.artanh t - t ≤ t ^ 3 / 2 := by
  refine ⟨by linarith [artanh_gt_self h0 (by linarith)], ?_⟩
  have := (atanh2_series h0 (by nlinarith) 0).2
  rw [serSum_zero] at this
  have e : atanhCoef (0 + 1) = 1 / 3 := by unfold atanhCoef; norm_num
  rw [e] at this
  rw [artanh_eq_atanh2 (by linarith) (by linarith)]
  have h3 : 0 < t ^ 3 := by positivity
  have e3 : t * (t * t) * (t * t) ^ 0 = t ^ 3 := by ring
  rw [e3] at this
  linarith

theorem sign_artanh (x : Num) : Real.artanh (x.toK : ℝ) = x.s.toK * Real.artanh |x.toK| := by
  conv_lhs => rw [Num.toK_eq x]
  cases x.s
  · simp only [Sign.toK, neg_mul, one_mul]
    exact artanh_odd _
  · simp only [Sign.toK, one_mul]

theorem abs_artanh {x : Num} : |Real.artanh (x.toK : ℝ)| = Real.artanh |x.toK| := by
  rw [sign_artanh, abs_toK, abs_of_nonneg (Real.artanh_nonneg (abs_nonneg _))]

/-! ## Next to zero -/

theorem atanh_small {x : Num} (hx : x.WF) (hz : x.isZero = false) (hlo : EMIN + 2 ≤ x.e) {pw : Nat} (hp : 0 < pw)
    (he : ((max (64 * pw) (64 * x.m.m.length) : ℕ) : ℤ) + 1 < -(x.e * 2 - 1)) (rm : RM) :
    ∃ v, x.smallExp false (64 * pw) rm = .ok v ∧ RoundsFmt rm (64 * pw) (Real.artanh x.toK) v.toK ∧
      FunRounded rm (64 * pw) (Real.artanh x.toK) v := by
  have hem := hx.emin
  have hE : EMIN = -2 ^ 31 := rfl
  have hEX : EMAX = 2 ^ 31 - 1 := rfl
  have hPM : PMAX = 2 ^ 62 - 2 ^ 31 - 1 := rfl
  obtain ⟨q, q1, q2, q3, -⟩ := hx.mag (K := ℝ) hz
  have hqe : q = x.e := by omega
  rw [hqe] at q1 q2
  obtain ⟨X, hX⟩ : ∃ X, X = |(x.toK : ℝ)| := ⟨_, rfl⟩
  rw [← hX] at q1 q2
  have hX0 : 0 < X := lt_of_lt_of_le (by positivity) q1
  obtain ⟨G, hG⟩ : ∃ G, G = max (64 * pw) (64 * x.m.m.length) := ⟨_, rfl⟩
  rw [← hG] at he
  have hX1 : X ≤ 1 / 4 := by
    refine le_trans q2.le ?_
    rw [show (1 / 4 : ℝ) = 2 ^ (-2 : ℤ) by norm_num]
    exact zpow_le_zpow_right₀ (by norm_num) (by omega)
  obtain ⟨c1, c2⟩ := artanh_cube hX0 hX1
  obtain ⟨k, hk⟩ := x.toK_grid (G := G) (by omega)
  have hcube : X ^ 3 / 2 < 2 ^ (x.e - (G : ℤ) - 2) := by
    have h3 : X ^ 3 < ((2 : ℝ) ^ x.e) ^ 3 := pow_lt_pow_left₀ q2 hX0.le (by norm_num)
    have h4 : ((2 : ℝ) ^ x.e) ^ 3 ≤ 2 ^ (x.e - (G : ℤ) - 1) := by
      rw [← zpow_natCast, ← zpow_mul]
      exact zpow_le_zpow_right₀ (by norm_num) (by push_cast; omega)
    rw [show x.e - (G : ℤ) - 2 = x.e - (G : ℤ) - 1 - 1 by ring, zpow_sub₀ (by norm_num) _ 1, zpow_one]
    exact div_lt_div_of_pos_right (lt_of_lt_of_le h3 h4) (by norm_num)
  have hsx : Real.artanh (x.toK : ℝ) = x.toK + (corrSign x false).toK * (Real.artanh X - X) := by
    have : corrSign x false = x.s := rfl
    rw [this, sign_artanh, ← hX]
    have h6 := Num.toK_eq (K := ℝ) x
    rw [← hX] at h6
    rw [h6]
    ring
  obtain ⟨v, v1, v2, v3, v4, v5, v6⟩ := smallExp_rounds hx hz hlo (by omega) hp (by omega) (by omega) false rm
    (G := G) (by omega) (by omega) hk c1 (lt_of_le_of_lt c2 hcube) hsx
  have hT : 0 < Real.artanh X := by linarith
  refine ⟨v, v1, v6, ?_⟩
  refine FunRounded.of_fmt ?_ v2 (by rw [v3]) ?_ ?_ v5 v6
  · rw [abs_artanh, ← hX]
    refine le_trans ?_ (le_trans q1 (by linarith))
    exact zpow_le_zpow_right₀ (by norm_num) (by omega)
  · intro h
    rw [v4]
    rw [sign_artanh, ← hX] at h
    cases hxs : x.s
    · rw [hxs] at h; simp only [Sign.toK] at h; linarith
    · rfl
  · intro h
    rw [v4]
    rw [sign_artanh, ← hX] at h
    cases hxs : x.s
    · rfl
    · rw [hxs] at h; simp only [Sign.toK] at h; linarith

/-! ## A round -/

theorem atanh_quot {X δ d1 d2 d3 : ℝ} (h0 : -1 < X) (h1 : X < 1) (hδ0 : 0 < δ) (hδ : δ ≤ 1 / 4)
    (a1 : (1 + X) * (1 - δ) ≤ d1) (a2 : d1 ≤ 1 + X) (b1 : (1 - X) * (1 - δ) ≤ d2) (b2 : d2 ≤ 1 - X)
    (c1 : d1 / d2 * (1 - δ) ≤ d3) (c2 : d3 ≤ d1 / d2) :
    |d3 - (1 + X) / (1 - X)| ≤ (1 + X) / (1 - X) * (2 * δ) := by
  have hx1 : 0 < 1 - X := by linarith
  have hx2 : 0 < 1 + X := by linarith
  have h1δ : 0 < 1 - δ := by linarith
  have d2p : 0 < d2 := lt_of_lt_of_le (mul_pos hx1 h1δ) b1
  obtain ⟨D, hD⟩ : ∃ D, D = (1 + X) / (1 - X) := ⟨_, rfl⟩
  have hDp : 0 < D := by rw [hD]; positivity
  have hDe : 1 + X = D * (1 - X) := by rw [hD]; field_simp
  rw [← hD]
  rw [hDe] at a1 a2
  have u1 : D * (1 - δ) ≤ d1 / d2 := by
    rw [le_div_iff₀ d2p]
    refine le_trans ?_ a1
    have : D * (1 - δ) * d2 ≤ D * (1 - δ) * (1 - X) := mul_le_mul_of_nonneg_left b2 (by positivity)
    linarith
  have u2 : d1 / d2 ≤ D * (1 + 2 * δ) := by
    rw [div_le_iff₀ d2p]
    refine le_trans a2 ?_
    have h3 : D * (1 + 2 * δ) * ((1 - X) * (1 - δ)) ≤ D * (1 + 2 * δ) * d2 := mul_le_mul_of_nonneg_left b1 (by positivity)
    refine le_trans ?_ h3
    have h4 : 1 ≤ (1 + 2 * δ) * (1 - δ) := by nlinarith
    have h5 : 0 < D * (1 - X) := by positivity
    have h6 : D * (1 + 2 * δ) * ((1 - X) * (1 - δ)) = D * (1 - X) * ((1 + 2 * δ) * (1 - δ)) := by ring
    rw [h6]
    nlinarith
  have u3 : D * (1 - δ) * (1 - δ) ≤ d3 := le_trans (mul_le_mul_of_nonneg_right u1 h1δ.le) c1
  rw [abs_le]
  constructor
  · have : D * (1 - δ) * (1 - δ) = D - D * (2 * δ) + D * δ ^ 2 := by ring
    have : 0 < D * δ ^ 2 := by positivity
    linarith
  · linarith

theorem lt_PMAX_of_small {n : Nat} (h : n ≤ 2 ^ 20) : n < PMAX := lt_of_le_of_lt h (by decide)

theorem roundP_wordLen {n : Nat} (h : n ≤ 2 ^ 20) : roundP n = 64 * wordLen n := by
  unfold roundP wordLen USIZE_MAX; omega

/-- A round of the loop. -/
theorem atanhStep_spec {x : Num} (hx : x.WF) {X : ℝ} (hxX : x.toK = X) (h0 : X ≠ 0) {L : Nat} (hL : L ≤ 2 ^ 17)
    (h1 : (2 : ℝ) ^ (-(L : ℤ)) ≤ 1 - |X|) {a : Nat} (ha : (2 : ℝ) ^ (-(a : ℤ) - 1) ≤ |X|) {ap w f : Nat} (hap : a + 4 ≤ ap)
    (hw : 128 ≤ w) (hW : w + ap ≤ 2 ^ 15) (hl : 64 * x.m.m.length ≤ 64 * wordLen (w + ap)) {c : Ln2Cache} (hc : Ln2Ok c) :
    ∃ t s', atanhStep ap (f + 1) w (x, c) = some (.tst t, s') ∧ TestOk w (Real.artanh X) t ∧ Ln2Ok s'.2 ∧ s'.1.WF ∧
      s'.1.toK = X ∧ 64 * s'.1.m.m.length = 64 * wordLen (w + ap) := by
  have hE : EMIN = -2 ^ 31 := rfl
  have hEX : EMAX = 2 ^ 31 - 1 := rfl
  have hP : roundP (w + ap) = 64 * wordLen (w + ap) := roundP_wordLen (by omega)
  have hPb : precBits (w + ap) = 64 * wordLen (w + ap) := by unfold precBits wordLen; rfl
  obtain ⟨P, hPe⟩ : ∃ P, P = 64 * wordLen (w + ap) := ⟨_, rfl⟩
  have hP1 : w + ap ≤ P := by rw [hPe]; unfold wordLen; omega
  have hP2 : P ≤ 2 ^ 15 + 64 := by rw [hPe]; unfold wordLen; omega
  rw [← hPe] at hP hl hPb ⊢
  have hP0 : roundP (w + ap) < PMAX := by rw [hP]; exact lt_PMAX_of_small (by omega)
  have hpv : ValidP (w + ap) := ⟨by omega, by rw [hPb]; exact lt_PMAX_of_small (by omega)⟩
  obtain ⟨v, v1, v2, v3, v4, v5⟩ := setPrecision_extendN hx (p := w + ap) (by omega) (lt_PMAX_of_small (by omega)) (by rw [← hPe]; exact hl)
  rw [hxX] at v4
  have hXa : |X| < 1 := by
    have : (0 : ℝ) < 2 ^ (-(L : ℤ)) := by positivity
    linarith
  obtain ⟨hX1, hX2⟩ := abs_lt.1 hXa
  have hLow : (2 : ℝ) ^ (EMIN - 1) ≤ 2 ^ (-(L : ℤ)) := zpow_le_zpow_right₀ (by norm_num) (by omega)
  have hTop : (2 : ℝ) ^ (L + 3 : ℤ) ≤ 2 ^ (EMAX - 2) := zpow_le_zpow_right₀ (by norm_num) (by omega)
  have hL1 : (2 : ℝ) ^ (L + 3 : ℤ) = 8 * 2 ^ (L : ℤ) := by rw [zpow_add₀ (by norm_num)]; norm_num; ring
  have hL2 : (1 : ℝ) ≤ 2 ^ (L : ℤ) := one_le_zpow₀ (by norm_num) (by omega)
  have hL3 : (2 : ℝ) ^ (-(L : ℤ)) * 2 ^ (L : ℤ) = 1 := by rw [← zpow_add₀ (by norm_num)]; simp
  have hl0 : (0 : ℝ) < 2 ^ (-(L : ℤ)) := by positivity
  obtain ⟨hxa, hxb⟩ := abs_le.1 (le_refl |X|)
  obtain ⟨δ, hδ⟩ : ∃ δ : ℝ, δ = 2 ^ (1 - (P : ℤ)) := ⟨_, rfl⟩
  have hδ0 : 0 < δ := by rw [hδ]; positivity
  have hδ1 : δ ≤ 1 / 64 := by
    rw [hδ, show (1 / 64 : ℝ) = 2 ^ (-6 : ℤ) by norm_num]
    exact zpow_le_zpow_right₀ (by norm_num) (by omega)
  have s1 := addSub_spec (K := ℝ) ONE_WF v2 hpv.pos hP0 true .none
  rw [if_pos rfl, ONE_toK, v4, hP] at s1
  obtain ⟨d1, a0, a1, a2, a3, a4, -⟩ := tr_step s1 (by linarith) (by linarith)
  have s2 := addSub_spec (K := ℝ) ONE_WF v2 hpv.pos hP0 false .none
  rw [if_neg (by simp), ONE_toK, v4, hP, ← sub_eq_add_neg] at s2
  obtain ⟨d2, b0, b1, b2, b3, b4, -⟩ := tr_step s2 (by linarith) (by linarith)
  rw [← hδ] at a3 b3
  have d1l : 2 ^ (-(L : ℤ)) * (1 / 2) ≤ (d1.toK : ℝ) := by
    refine le_trans (mul_le_mul ?_ ?_ (by norm_num) (by linarith)) a3 <;> linarith
  have d2l : 2 ^ (-(L : ℤ)) * (1 / 2) ≤ (d2.toK : ℝ) := by
    refine le_trans (mul_le_mul ?_ ?_ (by norm_num) (by linarith)) b3 <;> linarith
  have d1p : (0 : ℝ) < d1.toK := by linarith
  have d2p : (0 : ℝ) < d2.toK := by linarith
  have d2z : d2.isZero = false := by
    rw [← Bool.not_eq_true, ← b1.toK_eq_zero (K := ℝ)]; exact d2p.ne'
  have s3 := div_spec (K := ℝ) a1 b1 d2z hpv.pos hP0 .none
  rw [hP] at s3
  have hq1 : (2 : ℝ) ^ (EMIN - 1) ≤ d1.toK / d2.toK := by
    rw [le_div_iff₀ d2p]
    have h4 : (2 : ℝ) ^ (EMIN - 1) * 4 ≤ 2 ^ (-(L : ℤ)) := by
      rw [show (4 : ℝ) = 2 ^ (2 : ℤ) by norm_num, ← zpow_add₀ (by norm_num)]
      exact zpow_le_zpow_right₀ (by norm_num) (by omega)
    have h5 : (0 : ℝ) < 2 ^ (EMIN - 1) := by positivity
    nlinarith
  have hq2 : (d1.toK / d2.toK : ℝ) ≤ 2 ^ (EMAX - 2) := by
    refine le_trans ?_ hTop
    rw [div_le_iff₀ d2p, hL1]
    have : 8 * 2 ^ (L : ℤ) * (2 ^ (-(L : ℤ)) * (1 / 2)) ≤ 8 * 2 ^ (L : ℤ) * (d2.toK : ℝ) :=
      mul_le_mul_of_nonneg_left d2l (by positivity)
    nlinarith
  obtain ⟨d3, c0, c1, c2, c3, c4, -⟩ := tr_step s3 hq1 hq2
  rw [← hδ] at c3
  have hD := atanh_quot hX1 hX2 hδ0 (by linarith) a3 a4 b3 b4 c3 c4
  have hD0 : 0 < (1 + X) / (1 - X) := div_pos (by linarith) (by linarith)
  have hlog : Real.log ((1 + X) / (1 - X)) = 2 * Real.artanh X := by
    rw [Real.artanh_eq_half_log ⟨by linarith, by linarith⟩]; ring
  have hart : |X| ≤ |Real.artanh X| := by
    have := abs_artanh (x := x)
    rw [hxX] at this
    rw [this]
    exact (artanh_gt_self (abs_pos.2 h0) hXa).le
  have hapos : 0 < |Real.artanh X| := lt_of_lt_of_le (abs_pos.2 h0) hart
  have hwb : 2 * δ ≤ |Real.log ((1 + X) / (1 - X))| * (2 ^ (-(w : ℤ)) * (5 / 8)) := by
    rw [hlog, abs_mul, abs_two]
    have h6 : (2 : ℝ) * δ ≤ 2 ^ (-(a : ℤ) - 1) * 2 ^ (-(w : ℤ)) := by
      rw [hδ, ← zpow_one_add₀ (by norm_num), ← zpow_add₀ (by norm_num)]
      exact zpow_le_zpow_right₀ (by norm_num) (by omega)
    have hWp : (0 : ℝ) < 2 ^ (-(w : ℤ)) := by positivity
    have h7 : (2 : ℝ) ^ (-(a : ℤ) - 1) * 2 ^ (-(w : ℤ)) ≤ |Real.artanh X| * 2 ^ (-(w : ℤ)) :=
      mul_le_mul_of_nonneg_right (le_trans ha hart) hWp.le
    have h8 : 0 < |Real.artanh X| * 2 ^ (-(w : ℤ)) := by positivity
    linarith
  obtain ⟨t, c', w', t1, t2, t3, t4⟩ := lnTest c1 hD0 (by linarith) hD hwb (by rw [hlog, abs_mul]; positivity) hpv (by rw [hPb]; omega)
    (f := f) hc (by rw [hPb, c2]; omega)
  rw [hlog] at t3
  obtain ⟨k, k1, k2⟩ := t3.err
  have hk : (1 : ℝ) / 2 ≤ k := by
    have hWp : (2 : ℝ) ^ (-(w : ℤ)) ≤ 1 / 4 := by
      rw [show (1 / 4 : ℝ) = 2 ^ (-2 : ℤ) by norm_num]
      exact zpow_le_zpow_right₀ (by norm_num) (by omega)
    have := (abs_le.1 k2).1
    linarith
  have htl : (2 : ℝ) ^ (EMIN + 1) ≤ |(t.toK : ℝ)| := by
    rw [k1, abs_mul, abs_mul, abs_two, abs_of_pos (show 0 < k by linarith)]
    have h9 : (2 : ℝ) ^ (EMIN + 1) ≤ 2 ^ (-(a : ℤ) - 1) := zpow_le_zpow_right₀ (by norm_num) (by omega)
    have : |Real.artanh X| * (1 / 2) ≤ |Real.artanh X| * k := mul_le_mul_of_nonneg_left hk hapos.le
    linarith
  obtain ⟨u1, u2, u3, u4⟩ := divBy2_spec t3.wf htl .none
  refine ⟨t.divBy2 .none, (v, c'), ?_, ⟨u1, u4.trans t3.inexact, by rw [u3]; exact t3.len, k, ?_, k2⟩, t2, v2, v4, by
    show 64 * v.m.m.length = P
    rw [v3, ← hPe]⟩
  · unfold atanhStep
    dsimp only
    rw [v1]
    dsimp only
    rw [show ONE.add v (w + ap) .none = .ok d1 from a0]
    dsimp only
    rw [show ONE.sub v (w + ap) .none = .ok d2 from b0]
    dsimp only
    rw [c0]
    dsimp only
    rw [t1]
  · rw [u2, k1]; ring

end AF
