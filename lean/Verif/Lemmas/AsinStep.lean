import Verif.Lemmas.AsinReal
import Verif.Lemmas.Atanh
/-!
# A round of the loop of `asin`
-/

namespace AF

open Num

set_option linter.unusedSectionVars false

theorem arctan_rel_signed {D d ε : ℝ} (hD : D ≠ 0) (hε : ε ≤ 1 / 2) (h : |d - D| ≤ |D| * ε) :
    |Real.arctan d - Real.arctan D| ≤ |Real.arctan D| * (2 * ε) := by
  rcases lt_or_gt_of_ne hD with h0 | h0
  · have h1 := arctan_rel (D := -D) (d := -d) (ε := ε) (by linarith) hε (by
      rw [abs_of_neg h0] at h
      rw [show -d - -D = -(d - D) by ring, abs_neg]; exact h)
    rw [Real.arctan_neg, Real.arctan_neg] at h1
    rw [abs_of_neg (Real.arctan_lt_zero.2 h0)]
    rw [show Real.arctan d - Real.arctan D = -(-Real.arctan d - -Real.arctan D) by ring, abs_neg]
    exact h1
  · rw [abs_of_pos h0] at h
    rw [abs_of_pos (Real.arctan_pos.2 h0)]
    exact arctan_rel h0 hε h

/-- A truncated operation of either sign, far from the ends of the range. -/
theorem tr_step_abs {P : Nat} {Y : ℝ} {ix : Bool} {r : Except Err Num} (h : Delivers .none P Y ix r)
    (hl : (2 : ℝ) ^ (EMIN - 1) ≤ |Y|) (hu : |Y| ≤ 2 ^ (EMAX - 2)) :
    ∃ v, r = .ok v ∧ v.WF ∧ 64 * v.m.m.length = P ∧ |Y| * (1 - 2 ^ (1 - (P : ℤ))) ≤ |(v.toK : ℝ)| ∧ |(v.toK : ℝ)| ≤ |Y| ∧
      0 ≤ Y * v.toK := by
  cases r with
  | ok v =>
    obtain ⟨g1, g2, g3⟩ := (h.normal hl).none_rel
    exact ⟨v, rfl, h.1, h.2.1, g2, g1, g3⟩
  | error e =>
    exfalso
    obtain ⟨_, t, h3, h4⟩ := h
    obtain ⟨g1, -, -⟩ := h3.none_rel
    have : (2 : ℝ) ^ (EMAX - 2) < 2 ^ EMAX := zpow_lt_zpow_right₀ (by norm_num) (by omega)
    linarith

theorem abs_sub_of_sign {a b : ℝ} (h : 0 ≤ a * b) : |a - b| = |(|a| - |b|)| := by
  rcases abs_cases a with ⟨e, _⟩ | ⟨e, _⟩ <;> rcases abs_cases b with ⟨e', _⟩ | ⟨e', _⟩ <;> rw [e, e']
  · rcases (mul_nonneg_iff.1 h) with h | h
    · linarith
    · have : a = 0 := by linarith
      rw [this]; simp
  · rcases (mul_nonneg_iff.1 h) with h | h
    · linarith
    · have : b = 0 := by linarith
      rw [this]; simp
  · rw [← abs_neg]; congr 1; ring

set_option maxHeartbeats 800000 in
/-- The argument of the arctangent. -/
theorem asinArg_spec {x : Num} (hx : x.WF) {X : ℝ} (hxX : x.toK = X) (h0 : X ≠ 0) {L : Nat} (hL : L ≤ 2 ^ 17)
    (h1 : (2 : ℝ) ^ (-(L : ℤ)) ≤ 1 - |X|) {a : Nat} (ha : a ≤ 2 ^ 17) (ha1 : (2 : ℝ) ^ (-(a : ℤ) - 1) ≤ |X|) {ap w : Nat}
    (hap : L + 7 ≤ ap) (hw : 128 ≤ w) (hW : w + ap ≤ 2 ^ 17) :
    ∃ xx t s d, x.mul x (w + ap) .none = .ok xx ∧ ONE.sub xx (w + ap) .none = .ok t ∧ t.sqrt (w + ap) .none = .ok s ∧
      x.div s (w + ap) .none = .ok d ∧ d.WF ∧ 64 * d.m.m.length = 64 * wordLen (w + ap) ∧
      |(d.toK : ℝ) - X / √(1 - X ^ 2)| ≤ |X / √(1 - X ^ 2)| * (2 ^ (-(w : ℤ)) * (3 / 64)) ∧
      (2 : ℝ) ^ (-(a : ℤ) - 2) ≤ |(d.toK : ℝ)| ∧ |(d.toK : ℝ)| ≤ 2 ^ (L + 1 : ℤ) := by
  have hE : EMIN = -2 ^ 31 := rfl
  have hEX : EMAX = 2 ^ 31 - 1 := rfl
  have hP : roundP (w + ap) = 64 * wordLen (w + ap) := roundP_wordLen (by omega)
  obtain ⟨P, hPe⟩ : ∃ P, P = 64 * wordLen (w + ap) := ⟨_, rfl⟩
  have hP1 : w + ap ≤ P := by rw [hPe]; unfold wordLen; omega
  have hP2 : P ≤ 2 ^ 17 + 64 := by rw [hPe]; unfold wordLen; omega
  rw [← hPe] at hP ⊢
  have hp0 : 0 < w + ap := by omega
  have hP0 : roundP (w + ap) < PMAX := by rw [hP]; exact lt_PMAX_of_small (by omega)
  obtain ⟨A, hA⟩ : ∃ A, A = |X| := ⟨_, rfl⟩
  rw [← hA] at h1 ha1
  have hA0 : 0 < A := by rw [hA]; exact abs_pos.2 h0
  have hl0 : (0 : ℝ) < 2 ^ (-(L : ℤ)) := by positivity
  obtain ⟨l, hl⟩ : ∃ l : ℝ, l = 2 ^ (-(L : ℤ)) := ⟨_, rfl⟩
  obtain ⟨b, hb⟩ : ∃ b : ℝ, b = 2 ^ (-(a : ℤ) - 1) := ⟨_, rfl⟩
  have hb0 : 0 < b := by rw [hb]; positivity
  rw [← hl] at h1 hl0
  rw [← hb] at ha1
  have hA1 : A < 1 := by linarith
  obtain ⟨T, hT⟩ : ∃ T, T = 1 - A * A := ⟨_, rfl⟩
  have hTl : l ≤ T := by rw [hT]; nlinarith
  have hT0 : 0 < T := by linarith
  have hT1 : T < 1 := by rw [hT]; nlinarith
  obtain ⟨δ, hδ⟩ : ∃ δ : ℝ, δ = 2 ^ (1 - (P : ℤ)) := ⟨_, rfl⟩
  have hδ0 : 0 < δ := by rw [hδ]; positivity
  have hδ1 : δ ≤ 1 / 64 := by
    rw [hδ, show (1 / 64 : ℝ) = 2 ^ (-6 : ℤ) by norm_num]
    exact zpow_le_zpow_right₀ (by norm_num) (by omega)
  -- the range
  have hlow1 : (2 : ℝ) ^ (EMIN - 1) ≤ b * b := by
    rw [hb, ← zpow_add₀ (by norm_num)]
    exact zpow_le_zpow_right₀ (by norm_num) (by omega)
  have hlow2 : (2 : ℝ) ^ (EMIN - 1) ≤ l / 2 := by
    rw [hl, le_div_iff₀ (by norm_num), ← zpow_add_one₀ (by norm_num)]
    exact zpow_le_zpow_right₀ (by norm_num) (by omega)
  have hlow3 : (2 : ℝ) ^ (EMIN - 1) ≤ b := by
    rw [hb]
    exact zpow_le_zpow_right₀ (by norm_num) (by omega)
  have htop : 2 * (2 : ℝ) ^ (L : ℤ) ≤ 2 ^ (EMAX - 2) := by
    rw [← zpow_one_add₀ (by norm_num)]
    exact zpow_le_zpow_right₀ (by norm_num) (by omega)
  have hM1 : (1 : ℝ) ≤ 2 ^ (L : ℤ) := one_le_zpow₀ (by norm_num) (by omega)
  have hlM : l * 2 ^ (L : ℤ) = 1 := by rw [hl, ← zpow_add₀ (by norm_num)]; simp
  obtain ⟨M, hM⟩ : ∃ M : ℝ, M = 2 ^ (L : ℤ) := ⟨_, rfl⟩
  rw [← hM] at htop hM1 hlM
  have hAA : X * X = A * A := by rw [hA, abs_mul_abs_self]
  have hAA1 : A * A ≤ 1 := by nlinarith
  -- the operations
  have s1 := mulGeneral_spec (K := ℝ) hx hx hp0 hP0 .none
  rw [hP, hxX, hAA] at s1
  obtain ⟨xx, a0, a1, a2, a3, a4, -⟩ := tr_step s1 (le_trans hlow1 (mul_le_mul ha1 ha1 hb0.le hA0.le)) (by linarith)
  rw [← hδ] at a3
  have hxx0 : (0 : ℝ) ≤ xx.toK := le_trans (mul_nonneg (by positivity) (by linarith)) a3
  have s2 := addSub_spec (K := ℝ) ONE_WF a1 hp0 hP0 false .none
  rw [if_neg (by simp), ONE_toK, hP, ← sub_eq_add_neg] at s2
  obtain ⟨t, b0, b1, b2, b3, b4, -⟩ := tr_step s2 (by linarith) (by linarith)
  rw [← hδ] at b3
  have tl : l * (63 / 64) ≤ (t.toK : ℝ) := by
    refine le_trans (mul_le_mul ?_ ?_ (by norm_num) (by linarith)) b3 <;> linarith
  have tp : (0 : ℝ) < t.toK := by linarith
  have tu : (t.toK : ℝ) ≤ 1 := by linarith
  have s3 := sqrt_spec (K := ℝ) b1 (Or.inl (toK_sign_pos (K := ℝ) tp)) hp0 hP0 .none (Real.sqrt_nonneg t.toK)
    (Real.mul_self_sqrt tp.le)
  rw [hP] at s3
  have hsq1 : (t.toK : ℝ) ≤ √(t.toK : ℝ) := by
    apply Real.le_sqrt_of_sq_le
    nlinarith
  have hsq2 : √(t.toK : ℝ) ≤ 1 := by
    apply Real.sqrt_le_iff.2
    constructor
    · norm_num
    · linarith
  obtain ⟨s, c0, c1, c2, c3, c4, -⟩ := tr_step s3 (by linarith) (by linarith)
  rw [← hδ] at c3
  have sl : l / 2 ≤ (s.toK : ℝ) := by
    refine le_trans ?_ c3
    have : l * (63 / 64) * (63 / 64) ≤ √(t.toK : ℝ) * (1 - δ) := mul_le_mul (by linarith) (by linarith) (by norm_num) (Real.sqrt_nonneg _)
    linarith
  have sp : (0 : ℝ) < s.toK := by linarith
  have su : (s.toK : ℝ) ≤ 1 := by linarith
  have sz : s.isZero = false := by
    rw [← Bool.not_eq_true, ← c1.toK_eq_zero (K := ℝ)]; exact sp.ne'
  have s4 := div_spec (K := ℝ) hx c1 sz hp0 hP0 .none
  rw [hP, hxX] at s4
  have hq : |X / (s.toK : ℝ)| = A / s.toK := by rw [abs_div, ← hA, abs_of_pos sp]
  have hq1 : A ≤ A / s.toK := by
    rw [le_div_iff₀ sp]; nlinarith
  have hq2 : A / s.toK ≤ 2 * M := by
    rw [div_le_iff₀ sp]
    have : 2 * M * (l / 2) ≤ 2 * M * s.toK := mul_le_mul_of_nonneg_left sl (by linarith only [hM1])
    linarith only [this, hlM, hA1]
  obtain ⟨d, e0, e1, e2, e3, e4, e5⟩ := tr_step_abs s4 (by rw [hq]; linarith) (by rw [hq]; linarith)
  rw [hq] at e3 e4
  rw [← hδ] at e3
  -- the error
  have hηe : δ = T * (δ / T) := by field_simp
  have hη : δ / T ≤ 2 ^ (-(w : ℤ)) * (1 / 64) := by
    rw [div_le_iff₀ hT0]
    have : 2 ^ (-(w : ℤ)) * (1 / 64) * l ≤ 2 ^ (-(w : ℤ)) * (1 / 64) * T := mul_le_mul_of_nonneg_left hTl (by positivity)
    refine le_trans ?_ this
    rw [hδ, hl, show (1 / 64 : ℝ) = 2 ^ (-6 : ℤ) by norm_num, ← zpow_add₀ (by norm_num), ← zpow_add₀ (by norm_num)]
    exact zpow_le_zpow_right₀ (by norm_num) (by omega)
  have hη2 : δ / T ≤ 1 / 64 := by
    have : (2 : ℝ) ^ (-(w : ℤ)) ≤ 1 := zpow_le_one_of_nonpos₀ (by norm_num) (by omega)
    linarith
  have hD := asin_quot hA0 hT0 hT hδ0 hη2 hηe a3 a4 b3 b4 c3 c4 e3 e4
  have hTX : 1 - X ^ 2 = T := by rw [hT, ← hAA]; ring
  have hST : 0 < √T := Real.sqrt_pos.2 hT0
  have hDa : |X / √T| = A / √T := by rw [abs_div, ← hA, abs_of_pos hST]
  refine ⟨xx, t, s, d, a0, b0, c0, e0, e1, e2, ?_, ?_, ?_⟩
  · rw [hTX, abs_sub_comm, abs_sub_of_sign, hDa, abs_sub_comm]
    · refine le_trans hD (mul_le_mul_of_nonneg_left (by linarith) (by positivity))
    · have g1 : 0 ≤ X * d.toK := by
        have := mul_nonneg e5 sp.le
        rw [show X / s.toK * d.toK * s.toK = X * d.toK by field_simp] at this
        exact this
      rw [show X / √T * d.toK = X * d.toK / √T by ring]
      exact div_nonneg g1 hST.le
  · refine le_trans ?_ e3
    rw [show -(a : ℤ) - 2 = -(a : ℤ) - 1 - 1 by ring, zpow_sub₀ (by norm_num), zpow_one, ← hb]
    have : A * (1 / 2) ≤ A / s.toK * (1 - δ) := mul_le_mul hq1 (by linarith) (by norm_num) (by linarith)
    linarith
  · refine le_trans e4 (le_trans hq2 ?_)
    rw [hM, ← zpow_one_add₀ (by norm_num), add_comm]

theorem arcsin_normal {X : ℝ} (h : |X| ≤ 1) : |X| ≤ |Real.arcsin X| ∧ |Real.arcsin X| ≤ 2 := by
  obtain ⟨h1, h2⟩ := abs_le.1 h
  constructor
  · have h3 := Real.sin_arcsin h1 h2
    calc |X| = |Real.sin (Real.arcsin X)| := by rw [h3]
      _ ≤ _ := Real.abs_sin_le_abs
  · have := Real.arcsin_mem_Icc X
    have hp := Real.pi_lt_d2
    rw [abs_le]
    constructor <;> linarith [this.1, this.2]

set_option maxHeartbeats 800000 in
/-- A round of the loop. -/
theorem asinStep_spec {x : Num} (hx : x.WF) {X : ℝ} (hxX : x.toK = X) (h0 : X ≠ 0) {L : Nat} (hL : L ≤ 2 ^ 17)
    (h1 : (2 : ℝ) ^ (-(L : ℤ)) ≤ 1 - |X|) {a : Nat} (ha : a ≤ 2 ^ 17) (ha1 : (2 : ℝ) ^ (-(a : ℤ) - 1) ≤ |X|) {ap w f : Nat}
    (hap : L + 7 ≤ ap) (hw : 128 ≤ w) (hW : w + ap ≤ 2 ^ 17) (hl : 64 * x.m.m.length ≤ 64 * wordLen (w + ap))
    {c : PiCache} (hc : PiOk c) {g : Nat} {rm : RM} {o : LoopStep} {s' : AsinState}
    (hst : asinStep rm ap f w (x, c, g) = some (o, s')) (hg : s'.2.2 + 64 ≤ 2 ^ 17)
    (hpi : 7 / 10 < |X| → |chudPi - Real.pi| ≤ 2 ^ (-(s'.2.2 : ℤ) - 20)) :
    ∃ t, o = .tst t ∧ TestOk w (Real.arcsin X) t ∧ PiOk s'.2.1 ∧ s'.1.WF ∧ s'.1.toK = X ∧
      64 * s'.1.m.m.length = 64 * wordLen (w + ap) := by
  have hE : EMIN = -2 ^ 31 := rfl
  have hEX : EMAX = 2 ^ 31 - 1 := rfl
  have hPb : precBits (w + ap) = 64 * wordLen (w + ap) := by unfold precBits wordLen; rfl
  have hP1 : w + ap ≤ 64 * wordLen (w + ap) := by unfold wordLen; omega
  have hpv : ValidP (w + ap) := ⟨by omega, by rw [hPb]; exact lt_PMAX_of_small (by unfold wordLen; omega)⟩
  obtain ⟨v, v1, v2, v3, v4, v5⟩ := setPrecision_extendN hx (p := w + ap) (by omega) (lt_PMAX_of_small (by omega)) hl
  rw [hxX] at v4
  obtain ⟨xx, t, s, d, o1, o2, o3, o4, d1, d2, d3, d4, d5⟩ := asinArg_spec v2 v4 h0 hL h1 ha ha1 hap hw hW
  unfold asinStep at hst
  dsimp only at hst
  rw [v1] at hst
  dsimp only at hst
  rw [o1] at hst
  dsimp only at hst
  rw [o2] at hst
  dsimp only at hst
  rw [o3] at hst
  dsimp only at hst
  rw [o4] at hst
  dsimp only at hst
  have hXa : |X| < 1 := by
    have : (0 : ℝ) < 2 ^ (-(L : ℤ)) := by positivity
    linarith
  obtain ⟨hX1, hX2⟩ := abs_lt.1 hXa
  have hT0 : 0 < 1 - X ^ 2 := by nlinarith
  have hS0 : 0 < √(1 - X ^ 2) := Real.sqrt_pos.2 hT0
  have hD0 : X / √(1 - X ^ 2) ≠ 0 := div_ne_zero h0 hS0.ne'
  have hwe : (2 : ℝ) ^ (-(w : ℤ)) ≤ 1 / 2 ^ 100 := by
    rw [show (1 / 2 ^ 100 : ℝ) = 2 ^ (-100 : ℤ) by norm_num]
    exact zpow_le_zpow_right₀ (by norm_num) (by omega)
  have hw0 : (0 : ℝ) < 2 ^ (-(w : ℤ)) := by positivity
  have dz : d.isZero = false := by
    rw [← Bool.not_eq_true, ← d1.toK_eq_zero (K := ℝ), ← abs_eq_zero]
    have : (0 : ℝ) < 2 ^ (-(a : ℤ) - 2) := by positivity
    intro h
    linarith
  have de1 := d1.e_of_abs d4
  obtain ⟨b, b1, b2, b3, -⟩ := d1.mag (K := ℝ) dz
  have hbe : b = d.e := by omega
  rw [hbe] at b1 b2
  have de2 : d.e ≤ L + 2 := by
    have := (zpow_le_zpow_iff_right₀ (by norm_num : (1 : ℝ) < 2)).1 (le_trans b1 d5)
    omega
  have hasin : Real.arctan (X / √(1 - X ^ 2)) = Real.arcsin X := (Real.arcsin_eq_arctan ⟨hX1, hX2⟩).symm
  have hpos : 7 / 10 < |X| ∨ d.e ≤ 0 := by
    by_contra hcon
    push Not at hcon
    obtain ⟨q1, q2⟩ := hcon
    have g1 : 1 ≤ |(d.toK : ℝ)| := le_trans (one_le_zpow₀ (by norm_num) (by omega)) b1
    have g2 : |X / √(1 - X ^ 2)| ≤ 99 / 100 := by
      rw [abs_div, abs_of_pos hS0, div_le_iff₀ hS0]
      have : 71 / 100 ≤ √(1 - X ^ 2) := by
        apply Real.le_sqrt_of_sq_le
        have : X ^ 2 = |X| ^ 2 := (sq_abs X).symm
        rw [this]
        nlinarith [abs_nonneg X]
      linarith
    have g3 := abs_sub_abs_le_abs_sub (d.toK : ℝ) (X / √(1 - X ^ 2))
    have g4 : |X / √(1 - X ^ 2)| * (2 ^ (-(w : ℤ)) * (3 / 64)) ≤ 99 / 100 * (1 / 100) := by
      refine mul_le_mul g2 ?_ (by positivity) (by norm_num)
      have : (1 : ℝ) / 2 ^ 100 ≤ 1 / 100 := by norm_num
      linarith
    linarith
  have key : ∀ (v' : Nat) (r : Except Err Num) (c' : PiCache), d.atan (w + ap) rm f c = some (r, c', v') → s'.2.2 = max g v' →
      PiOk c' ∧ ∃ u, r = .ok u ∧ TestOk w (Real.arcsin X) u := by
    intro v' r c' ha' hv'
    refine ⟨atan_keep hc ha' (by omega), ?_⟩
    obtain ⟨u, u1, u2⟩ := atan_spec (q := Real.pi) d1 dz (by omega) (by omega) hpv rm hc ha' (by omega) (by
      intro he
      rcases hpos with h | h
      · exact le_trans (hpi h) (zpow_le_zpow_right₀ (by norm_num) (by omega))
      · omega)
    rw [atanBy_pi] at u2
    have hε : (2 : ℝ) ^ (-(w : ℤ)) * (3 / 64) ≤ 1 / 4 := by
      have : (1 : ℝ) / 2 ^ 100 ≤ 1 / 100 := by norm_num
      linarith
    have r1 := arctan_rel_signed hD0 (by linarith) d3
    rw [hasin] at r1
    obtain ⟨n1, n2⟩ := arcsin_normal hXa.le
    obtain ⟨y, hy⟩ : ∃ y, y = Real.arcsin X := ⟨_, rfl⟩
    rw [← hy] at r1 n1 n2 ⊢
    have hy0 : 0 < |y| := lt_of_lt_of_le (abs_pos.2 h0) n1
    obtain ⟨z, hz⟩ : ∃ z, z = Real.arctan d.toK := ⟨_, rfl⟩
    rw [← hz] at r1 u2
    have hz1 : |y| / 2 ≤ |z| := by
      have g3 := abs_sub_abs_le_abs_sub y z
      rw [abs_sub_comm] at r1
      have : |y| * (2 * (2 ^ (-(w : ℤ)) * (3 / 64))) ≤ |y| * (1 / 2) := mul_le_mul_of_nonneg_left (by linarith) hy0.le
      linarith
    have hz2 : |z| ≤ |y| * 2 := by
      have g3 := abs_sub_abs_le_abs_sub z y
      have : |y| * (2 * (2 ^ (-(w : ℤ)) * (3 / 64))) ≤ |y| * (1 / 2) := mul_le_mul_of_nonneg_left (by linarith) hy0.le
      linarith
    have r2 := u2.rel (by
      refine le_trans ?_ hz1
      rw [le_div_iff₀ (by norm_num), ← zpow_add_one₀ (by norm_num)]
      refine le_trans ?_ (le_trans ha1 n1)
      exact zpow_le_zpow_right₀ (by norm_num) (by omega))
    have hPs : (2 : ℝ) ^ (1 - (precBits (w + ap) : ℤ)) * 2 ≤ 2 ^ (-(w : ℤ)) * (1 / 4) := by
      rw [show (1 / 4 : ℝ) = 2 ^ (-2 : ℤ) by norm_num, ← zpow_add_one₀ (by norm_num), ← zpow_add₀ (by norm_num)]
      exact zpow_le_zpow_right₀ (by norm_num) (by omega)
    have r3 : |(u.toK : ℝ) - z| ≤ |y| * (2 ^ (-(w : ℤ)) * (1 / 2)) := by
      refine le_trans r2 ?_
      have := mul_le_mul hz2 hPs (by positivity) (by positivity)
      linarith
    have r4 : |(u.toK : ℝ) - y| ≤ |y| * (2 ^ (-(w : ℤ)) * (15 / 16)) := by
      have := abs_sub_le (u.toK : ℝ) z y
      have : |y| * (2 ^ (-(w : ℤ)) * (1 / 2)) + |y| * (2 * (2 ^ (-(w : ℤ)) * (3 / 64))) ≤ |y| * (2 ^ (-(w : ℤ)) * (15 / 16)) := by
        rw [← mul_add]
        exact mul_le_mul_of_nonneg_left (by linarith) hy0.le
      linarith
    have hyn : y ≠ 0 := abs_pos.1 hy0
    refine ⟨u, u1, u2.wf, u2.inexact, by rw [u2.prec]; omega, u.toK / y, by field_simp, ?_⟩
    rw [show (u.toK : ℝ) / y - 1 = (u.toK - y) / y by field_simp, abs_div, div_le_iff₀ hy0]
    linarith
  split at hst
  · cases hst
  · rename_i e c' v' hat
    injection hst with hst
    injection hst with hst1 hst2
    obtain ⟨-, u, u1, -⟩ := key v' _ c' hat (by rw [← hst2])
    cases u1
  · rename_i r c' v' hat
    injection hst with hst
    injection hst with hst1 hst2
    obtain ⟨k1, u, u1, u2⟩ := key v' _ c' hat (by rw [← hst2])
    injection u1 with u1
    rw [← hst1, ← hst2, u1]
    exact ⟨u, rfl, u2, k1, v2, v4, by show 64 * v.m.m.length = _; rw [v3]⟩

end AF
