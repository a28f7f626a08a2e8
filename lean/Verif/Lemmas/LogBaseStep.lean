import Verif.Lemmas.Log10Step
import Verif.Lemmas.PowDom
import Verif.Props.C52
/-!
# One round of the loop of the logarithm to any base
-/

namespace AF
open Num

/-- Quotients of logarithms are far from the ends of the range. -/
theorem logq_bounds {a b : ℝ} {M : ℤ} (ha : (2 : ℝ) ^ (-M) ≤ |a| ∧ |a| ≤ 2 ^ (41 : ℤ)) (hb : (2 : ℝ) ^ (-M) ≤ |b| ∧ |b| ≤ 2 ^ (41 : ℤ)) :
    (2 : ℝ) ^ (-M - 41) ≤ |a / b| ∧ |a / b| ≤ 2 ^ (41 + M) := by
  have hb0 : 0 < |b| := lt_of_lt_of_le (by positivity) hb.1
  rw [abs_div]
  constructor
  · rw [le_div_iff₀ hb0]
    refine le_trans (mul_le_mul_of_nonneg_left hb.2 (by positivity)) ?_
    rw [← zpow_add₀ (by norm_num)]
    simpa using ha.1
  · rw [div_le_iff₀ hb0]
    refine le_trans ?_ (mul_le_mul_of_nonneg_left hb.1 (by positivity))
    rw [← zpow_add₀ (by norm_num)]
    simpa using ha.2

/-- What the loop keeps about its two numbers and its caches. -/
structure LogInv (X N : ℝ) (w : Nat) (x y : Num) (c : PowCaches) : Prop where
  wfx : x.WF
  wfy : y.WF
  eqx : (x.toK : ℝ) = X
  eqy : (y.toK : ℝ) = N
  lenx : 64 * x.m.m.length ≤ w
  leny : 64 * y.m.m.length ≤ w
  ec : CacheOk ERep EValOk c.1
  l2 : Ln2Ok c.2

/-- The values of one round. -/
theorem log_round {X N : ℝ} (hX : 0 < X) (hX1 : X ≠ 1) (hN : 0 < N) (hN1 : N ≠ 1) {w : Nat} (hd : 64 ∣ w) (h1 : 128 ≤ w)
    (h2 : w ≤ 2 ^ 15) {x y : Num} {c : PowCaches} (hs : LogInv X N w x y c) (f : Nat) :
    ∃ x' y' p1 p2 d1 d2 w1 w2 r, x.setPrecision (w + 5) .none = .ok x' ∧ y.setPrecision (w + 5) .none = .ok y' ∧
      x'.ln (w + 5) .none (f + 1) c.2 = some (.ok p1, d1, w1) ∧ y'.ln (w + 5) .none (f + 1) d1 = some (.ok p2, d2, w2) ∧
      p1.div p2 (w + 5) .none = .ok r ∧ (∀ w', w + 64 ≤ w' → LogInv X N w' x' y' (c.1, d2)) ∧
      TestOk w (Real.log X / Real.log N) r ∧ r.WF ∧ 64 * r.m.m.length = w + 64 ∧ r.inexact = true ∧
      64 * x'.m.m.length = w + 64 ∧ 64 * y'.m.m.length = w + 64 ∧
      |(r.toK : ℝ) - Real.log X / Real.log N| ≤ |Real.log X / Real.log N| * (4 * wUnit w) := by
  obtain ⟨hδ0, hδ, hδ2⟩ := wUnit_tiny h1
  have hE : EMIN = -2 ^ 31 := rfl
  have hE' : EMAX = 2 ^ 31 - 1 := rfl
  have hzx : x.isZero = false := by
    rw [← Bool.not_eq_true, ← hs.wfx.toK_eq_zero (K := ℝ), hs.eqx]; exact hX.ne'
  have hzy : y.isZero = false := by
    rw [← Bool.not_eq_true, ← hs.wfy.toK_eq_zero (K := ℝ), hs.eqy]; exact hN.ne'
  obtain ⟨x', x1, x2, -, -, x5, -, x7⟩ := hyp_extend (x := x) hs.wfx hzx rfl hd (by omega) (by omega) hs.lenx (k := 5) (by norm_num) (by norm_num)
  obtain ⟨y', y1, y2, -, -, y5, -, y7⟩ := hyp_extend (x := y) hs.wfy hzy rfl hd (by omega) (by omega) hs.leny (k := 5) (by norm_num) (by norm_num)
  rw [hs.eqx] at x7
  rw [hs.eqy] at y7
  have hv := validP_w (w := w) (k := 5) (by omega) (by norm_num) (by norm_num)
  have hpb := precBits_w (w := w) (k := 5) hd (by norm_num) (by norm_num)
  obtain ⟨p1, d1, w1, l1, l2, l3, -, -⟩ := ln_none x2 (by rw [x7]; exact hX) (by rw [x7]; exact hX1) hv (f := f) hs.l2 (by rw [hpb]; omega)
  obtain ⟨p2, d2, w2, m1, m2, m3, -, -⟩ := ln_none y2 (by rw [y7]; exact hN) (by rw [y7]; exact hN1) hv (f := f) l2 (by rw [hpb]; omega)
  rw [hpb, x7] at l3
  rw [hpb, y7] at m3
  have l4 := l3.none rfl
  have m4 := m3.none rfl
  rw [wUnit_eq] at l4 m4
  have wid : ∀ {a b : ℝ}, |a - b| ≤ |b| * (wUnit w * (1 + 2 ^ (-60 : ℤ))) → |a - b| ≤ |b| * (wUnit w * (1 + 2 ^ (-6 : ℤ))) := by
    intro a b h
    refine le_trans h (mul_le_mul_of_nonneg_left (mul_le_mul_of_nonneg_left ?_ hδ0.le) (abs_nonneg _))
    norm_num
  have l4' := wid l4
  have m4' := wid m4
  have bX := log_bounds x2 (by rw [x7]; exact hX) (by rw [x7]; exact hX1) (by omega)
  have bN := log_bounds y2 (by rw [y7]; exact hN) (by rw [y7]; exact hN1) (by omega)
  rw [x7] at bX
  rw [y7] at bN
  have hlN : Real.log N ≠ 0 := by
    rw [← abs_pos]; exact lt_of_lt_of_le (by positivity) bN.1
  have hlX : Real.log X ≠ 0 := by
    rw [← abs_pos]; exact lt_of_lt_of_le (by positivity) bX.1
  obtain ⟨b1, b2⟩ := logq_bounds (M := 2 ^ 16 + 1) (a := Real.log X) (b := Real.log N) (by exact_mod_cast bX) (by exact_mod_cast bN)
  have hy0 : Real.log X / Real.log N ≠ 0 := div_ne_zero hlX hlN
  obtain ⟨hp2, q1, q2, q3, -⟩ := quot_close (t := 0) hlN hδ0 hδ l4' m4'
  have hz2 : p2.isZero = false := by rw [← Bool.not_eq_true, ← m3.wf.toK_eq_zero (K := ℝ)]; exact hp2
  have hp5 := wUnit_PrecOk (w := w) hd (by omega) (k := 5) (by norm_num) (by norm_num)
  have hdv := div_spec (K := ℝ) l3.wf m3.wf hz2 hp5.pos (by rw [hp5.eq]; exact hp5.lt) .none
  rw [hp5.eq] at hdv
  obtain ⟨r, r1, r2, r3, r4, r5⟩ := tr_abs (by omega) hdv (by
      refine le_trans ?_ q2
      refine le_trans ?_ (mul_le_mul_of_nonneg_right b1 (by norm_num))
      rw [one_div, ← zpow_sub_one₀ (by norm_num)]
      exact zpow_le_zpow_right₀ (by norm_num) (by omega)) (by
      refine le_trans q3 ?_
      refine le_trans (mul_le_mul_of_nonneg_right b2 (by norm_num)) ?_
      rw [← zpow_add_one₀ (by norm_num)]
      exact zpow_le_zpow_right₀ (by norm_num) (by omega))
  rw [wUnit_eq] at r4
  have hp1z : p1.isZero = false := by
    rw [← Bool.not_eq_true, ← l3.wf.toK_eq_zero (K := ℝ)]
    intro h
    rw [h, zero_div, abs_zero] at q2
    have := abs_pos.2 hy0
    linarith
  have r6 : r.inexact = true := r5 (by unfold divIx; rw [hp1z, if_neg Bool.false_ne_true, l3.inexact]; simp)
  obtain ⟨-, -, -, -, q4⟩ := quot_close (t := r.toK) hlN hδ0 hδ l4' m4'
  have hrc := q4 r4
  have hw2 : (2 : ℝ) ^ (-(w : ℤ)) = 2 ^ 63 * wUnit w := by
    unfold wUnit
    rw [← zpow_natCast, ← zpow_add₀ (by norm_num)]; congr 1; push_cast; ring
  have htest : TestOk w (Real.log X / Real.log N) r := by
    refine TestOk.of_rel' r2 r6 (by omega) hy0 ?_ hrc
    refine mul_le_mul_of_nonneg_left ?_ (abs_nonneg _)
    rw [hw2]; linarith
  exact ⟨x', y', p1, p2, d1, d2, w1, w2, r, x1, y1, l1, m1, r1,
    fun w' hw' => ⟨x2, y2, x7, y7, by omega, by omega, hs.ec, m2⟩, htest, r2, r3, r6, x5, y5, hrc⟩

theorem powMain_of {x n : Num} (hx : x.WF) (hn : n.WF) (h0 : 0 < (x.toK : ℚ)) (h1 : (x.toK : ℚ) ≠ 1) (hn0 : (n.toK : ℚ) ≠ 0)
    (hn1 : |(n.toK : ℚ)| ≠ 1) : powMain x n = true := by
  have a1 := isZero_false hx h0.ne'
  have a2 := isZero_false hn hn0
  have a3 : (decide (x.e = 1) && decide (x.absCmp Num.ONE = 0)) = false := by
    rw [← Bool.not_eq_true, isOne_iff hx h0.ne', abs_of_pos h0]; exact h1
  have a4 : (decide (n.e = 1) && decide (n.absCmp Num.ONE = 0)) = false := by
    rw [← Bool.not_eq_true, isOne_iff hn hn0]; exact hn1
  have a5 : (x.isNegative && !n.isInt) = false := by
    unfold Num.isNegative; rw [sign_of_pos h0]; rfl
  unfold Num.powMain
  rw [a1, a2, a3, a4, a5]
  rfl

/-- The power with which the loop tests its approximation exists. -/
theorem log_pow {y r : Num} (hy : y.WF) (hr : r.WF) {X N : ℝ} (hX : 0 < X) (hN : 0 < N) (hN1 : N ≠ 1) (hyN : (y.toK : ℝ) = N)
    (hXl : (2 : ℝ) ^ EMIN * 2 ≤ |Real.log X|) (hXt : |Real.log X| ≤ (EMAX - 6 : ℤ) * Real.log 2)
    (hNt : |Real.log N| ≤ (EMAX - 6 : ℤ) * Real.log 2) {w : Nat} (hd : 64 ∣ w)
    (h1 : 128 ≤ w) (h2 : w ≤ 2 ^ 14) (hly : 64 * y.m.m.length = w + 64) (hlr : 64 * r.m.m.length = w + 64)
    (hrc : |(r.toK : ℝ) - Real.log X / Real.log N| ≤ |Real.log X / Real.log N| * (4 * wUnit w)) {p : Nat} (hp : ValidP p)
    (hpb : precBits p = w + 64) (f : Nat) {c : PowCaches} (hc1 : CacheOk ERep EValOk c.1) (hc2 : Ln2Ok c.2) :
    ∃ v c' w', y.powC r p .none (f + 1) c = some (.ok v, c', w') ∧ CacheOk ERep EValOk c'.1 ∧ Ln2Ok c'.2 := by
  obtain ⟨hδ0, hδ, -⟩ := wUnit_tiny h1
  have hE : EMIN = -2 ^ 31 := rfl
  have hE' : EMAX = 2 ^ 31 - 1 := rfl
  have hlN : Real.log N ≠ 0 := Real.log_ne_zero_of_pos_of_ne_one hN hN1
  have hNp := abs_pos.2 hlN
  have hXp : 0 < |Real.log X| := lt_of_lt_of_le (by positivity) hXl
  have hprod : |r.toK * Real.log N - Real.log X| ≤ |Real.log X| * (4 * wUnit w) := by
    have h3 : r.toK * Real.log N - Real.log X = (r.toK - Real.log X / Real.log N) * Real.log N := by field_simp
    rw [h3, abs_mul]
    refine le_trans (mul_le_mul_of_nonneg_right hrc hNp.le) ?_
    rw [abs_div]
    apply le_of_eq
    field_simp
  have hsm : |Real.log X| * (4 * wUnit w) ≤ |Real.log X| * (1 / 2 ^ 100) :=
    mul_le_mul_of_nonneg_left (by linarith [show (4 : ℝ) * (1 / 2 ^ 190) ≤ 1 / 2 ^ 100 by norm_num]) hXp.le
  have hlow : |Real.log X| / 2 ≤ |r.toK * Real.log N| := by
    have h4 := abs_sub_abs_le_abs_sub (Real.log X) (r.toK * Real.log N)
    rw [abs_sub_comm] at h4
    have h5 : |Real.log X| * (1 / 2 ^ 100) ≤ |Real.log X| * (1 / 2) := mul_le_mul_of_nonneg_left (by norm_num) hXp.le
    linarith
  have hl2 : Real.log 2 < 1 := by have := Real.log_two_lt_d9; linarith
  have hl2p : (1 : ℝ) / 2 < Real.log 2 := by have := Real.log_two_gt_d9; linarith
  have hX31 : |Real.log X| ≤ 2 ^ 31 := by
    refine le_trans hXt ?_
    have h4 : (((EMAX - 6 : ℤ)) : ℝ) ≤ 2 ^ 31 := by rw [hE']; norm_num
    have h5 : (0 : ℝ) ≤ (((EMAX - 6 : ℤ)) : ℝ) := by rw [hE']; norm_num
    nlinarith only [h4, h5, hl2, hl2p]
  have hhigh : |r.toK * Real.log N| ≤ (EMAX - 5 : ℤ) * Real.log 2 := by
    have h4 := abs_sub_abs_le_abs_sub (r.toK * Real.log N) (Real.log X)
    have h5 : |Real.log X| * (1 / 2 ^ 100) ≤ 2 ^ 31 * (1 / 2 ^ 100) := mul_le_mul_of_nonneg_right hX31 (by norm_num)
    have h6 : (2 : ℝ) ^ 31 * (1 / 2 ^ 100) ≤ 1 / 2 := by norm_num
    have h7 : ((EMAX - 5 : ℤ) : ℝ) * Real.log 2 = (EMAX - 6 : ℤ) * Real.log 2 + Real.log 2 := by push_cast; ring
    rw [h7]
    linarith
  have hr0 : (r.toK : ℝ) ≠ 0 := by
    intro h
    rw [h, zero_mul, abs_zero] at hlow
    linarith
  have hyp : 0 < (y.toK : ℝ) := by rw [hyN]; exact hN
  have hy1 : (y.toK : ℝ) ≠ 1 := by rw [hyN]; exact hN1
  have hypQ : 0 < (y.toK : ℚ) := by rw [← toK_ratCast y] at hyp; exact_mod_cast hyp
  have hy1Q : (y.toK : ℚ) ≠ 1 := by rw [← toK_ratCast y] at hy1; exact_mod_cast hy1
  have hr0Q : (r.toK : ℚ) ≠ 0 := by rw [← toK_ratCast r] at hr0; exact_mod_cast hr0
  by_cases hone : |(r.toK : ℚ)| = 1
  · have hmain : powMain y r = false := by
      have a4 : (decide (r.e = 1) && decide (r.absCmp Num.ONE = 0)) = true := (isOne_iff hr hr0Q).2 hone
      unfold powMain
      rw [a4]; simp
    have a1 := isZero_false hy hypQ.ne'
    have a2 := isZero_false hr hr0Q
    have a3 : (decide (y.e = 1) && decide (y.absCmp Num.ONE = 0)) = false := by
      rw [← Bool.not_eq_true, isOne_iff hy hypQ.ne', abs_of_pos hypQ]; exact hy1Q
    have a4 : (decide (r.e = 1) && decide (r.absCmp Num.ONE = 0)) = true := (isOne_iff hr hr0Q).2 hone
    have a5 : y.isNegative = false := by unfold Num.isNegative; rw [sign_of_pos hypQ]; rfl
    have hex : ∃ v, y.pow (fun _ _ _ _ => .error .panic) r p .none = .ok v := by
      unfold Num.pow
      dsimp only
      rw [a1, a2, a3, a4, a5]
      simp only [Bool.false_eq_true, if_false, Bool.false_and, if_true]
      by_cases hrp : r.isPositive = true
      · rw [if_pos hrp]
        obtain ⟨v, v1, -⟩ := setPrecision_extendN hy (p := p) hp.pos (by have := hp.lt'; omega) (by unfold precBits at hpb; unfold wordLen; omega)
        rw [v1]
        exact ⟨_, rfl⟩
      · rw [if_neg hrp]
        have hdv := div_spec (K := ℝ) ONE_WF hy a1 hp.pos (by rw [hp.roundP]; exact hp.lt) .none
        have hexp : |(y.toK : ℝ)| = Real.exp (Real.log N) := by rw [hyN, abs_of_pos hN, Real.exp_log hN]
        have h2e : ∀ k : ℤ, (2 : ℝ) ^ k = Real.exp (k * Real.log 2) := by
          intro k
          rw [mul_comm, Real.exp_mul, Real.exp_log (by norm_num), Real.rpow_intCast]
        have hO : (Num.ONE.toK : ℝ) = 1 := by rw [← toK_ratCast, ONE_toK]; norm_num
        have hinv : |(Num.ONE.toK : ℝ) / y.toK| = Real.exp (-Real.log N) := by
          rw [hO, abs_div, hexp, abs_one, one_div, Real.exp_neg]
        obtain ⟨n1, n2⟩ := abs_le.1 hNt
        rw [hp.roundP] at hdv
        obtain ⟨v, v1, -⟩ := tr_abs (by omega) hdv (by
            rw [hinv, h2e]
            apply Real.exp_le_exp.2
            have : ((EMIN - 1 : ℤ) : ℝ) ≤ -((EMAX - 6 : ℤ) : ℝ) := by rw [hE, hE']; norm_num
            have h8 := mul_le_mul_of_nonneg_right this (show 0 ≤ Real.log 2 by linarith)
            linarith) (by
            rw [hinv, h2e]
            apply Real.exp_le_exp.2
            have : ((EMAX - 6 : ℤ) : ℝ) ≤ ((EMAX - 2 : ℤ) : ℝ) := by rw [hE']; norm_num
            have h8 := mul_le_mul_of_nonneg_right this (show 0 ≤ Real.log 2 by linarith)
            linarith)
        rw [v1]
        exact ⟨_, rfl⟩
    obtain ⟨v, hv⟩ := hex
    unfold powC
    rw [if_neg (by rw [hmain]; exact Bool.false_ne_true), hv]
    exact ⟨_, _, _, rfl, hc1, hc2⟩
  · have hmain := powMain_of hy hr hypQ hy1Q hr0Q hone
    have habs : |(y.toK : ℝ)| = N := by rw [hyN, abs_of_pos hN]
    have ha : PowArgs y r := by
      refine ⟨hy, hr, hyp.ne', by rw [habs]; exact hN1, ?_, ?_⟩
      · rw [habs]
        refine le_trans ?_ hlow
        linarith
      · rw [habs]
        rw [show (2 : ℝ) ^ (EMAX - 5) = Real.exp (((EMAX - 5 : ℤ) : ℝ) * Real.log 2) by
          rw [mul_comm, Real.exp_mul, Real.exp_log (by norm_num), Real.rpow_intCast]]
        exact Real.exp_le_exp.2 hhigh
    obtain ⟨v, c', w', e1, e2⟩ := powRun_number (f := f) ha hp hc1 hc2 (rm := .none) (by rw [hpb, hly, hlr]; simp; omega) (Or.inl rfl)
    obtain ⟨e3, v', rfl, -⟩ := powRun_spec ha hp .none hc1 hc2 e1 e2
    unfold powC
    rw [if_pos hmain, e1]
    exact ⟨_, _, _, rfl, e3.1, e3.2⟩

end AF
