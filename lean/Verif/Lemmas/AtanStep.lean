import Verif.Lemmas.AtanSer2
import Verif.Lemmas.HypArith
import Verif.Lemmas.PiMachin
import Mathlib.Analysis.SpecialFunctions.Trigonometric.Arctan
/-!
# One round of `atan`
-/

namespace AF

open Num

set_option linter.unusedSectionVars false

abbrev PiOk (c : PiCache) : Prop := CacheOk PiRep PiValOk c

/-- The constant pi as the functions ask for it. -/
theorem piForPrec_spec {pw : Nat} (hpw0 : 0 < pw) (hpm : 64 * pw < PMAX) (hu : 64 * pw ≤ 2 ^ 63) (rm : RM) {c : PiCache} (hc : PiOk c) :
    ∃ r c', piForPrec (64 * pw) rm c = some (r, c') ∧ PiOk c' ∧
      ((∃ v, r = .ok v ∧ ConstRounded rm (64 * pw) chudPi v) ∨ ∃ s, r = .error (.exponentOverflow s)) ∧
      (rm = .none ∨ rm.directed = true ∧ ¬ NearGrid (64 * pw) 63 chudPi →
        2 * ((64 * pw + 46 + 64) / 47) ≤ 2 ^ 24 → ∃ v, r = .ok v) := by
  have hr2 : roundP (64 * pw) = 64 * pw := by unfold roundP USIZE_MAX; omega
  obtain ⟨r, c', h1, h2, h3, h4, h5⟩ := (pi_loop hpw0 hpm rm).forPrecS piSeries hc (by
      rw [hr2]
      obtain ⟨j, hj⟩ := hc.pow
      rw [hj]
      exact pi_inv_start)
  unfold piForPrec
  rw [h1]
  refine ⟨r, c', rfl, h2, ?_, ?_⟩
  · rcases h3 with ⟨v, rfl, h6, h7⟩ | ⟨s, rfl⟩
    · exact Or.inl ⟨v, rfl, h6.rounded (by have := chudPi_small.1; linarith) h7⟩
    · exact Or.inr ⟨s, rfl⟩
  · intro hs hb
    exact h4 hs hb

/-- Half of the constant. -/
theorem halfPi_num {v : Num} {rm : RM} {P : Nat} (hP : 64 ≤ P) (h : ConstRounded rm P chudPi v) (hv1 : (3 : ℝ) ≤ v.toK) (hv2 : (v.toK : ℝ) < 4) (s : Sign) :
    ((v.setExponent 1).setSign s).WF ∧ (((v.setExponent 1).setSign s).toK : ℝ) = s.toK * (v.toK / 2) ∧
      64 * ((v.setExponent 1).setSign s).m.m.length = P ∧ ((v.setExponent 1).setSign s).inexact = true ∧
      ((v.setExponent 1).setSign s).s = s := by
  have ha : |(v.toK : ℝ)| = v.toK := abs_of_pos (by linarith)
  obtain ⟨b1, b2⟩ := exp_bounds_abs h.wf (by
    rw [ha]
    refine le_trans (zpow_le_one_of_nonpos₀ (by norm_num) (by unfold EMIN; omega)) (by linarith))
  rw [ha] at b1 b2
  have he : v.e = 2 := by
    have h1 : v.e - 1 < 2 := (zpow_lt_zpow_iff_right₀ (by norm_num : (1 : ℝ) < 2)).1 (lt_of_le_of_lt b1 (by norm_num; exact hv2))
    have h2 : (1 : ℤ) < v.e := (zpow_lt_zpow_iff_right₀ (by norm_num : (1 : ℝ) < 2)).1 (lt_of_le_of_lt (by norm_num; linarith) b2)
    omega
  have hz : v.isZero = false := by
    rw [← Bool.not_eq_true, ← h.wf.toK_eq_zero (K := ℝ)]
    linarith
  obtain ⟨a1, a2, a3, a4, a5, a6⟩ := setExponent_normal h.wf hz (by rw [he]; unfold EMIN; omega) (e := 1) (by unfold EMIN; omega) (by unfold EMAX; omega)
  refine ⟨⟨a1.wf, a1.bits, a1.emin, a1.emax, a1.norm, a1.sized⟩, ?_, ?_, ?_, rfl⟩
  · rw [setSign_toK, a2, he, abs_mul, ha, abs_of_pos (by positivity : (0 : ℝ) < 2 ^ ((1 : ℤ) - 2))]
    norm_num
    ring_nf; simp
  · show 64 * (v.setExponent 1).m.m.length = P
    rw [a3]; exact h.prec
  · show (v.setExponent 1).inexact = true
    rw [a4]; exact h.inexact

/-- Subtraction of numbers marked inexact. -/
theorem rel_sub_ix {δ : ℝ} {p P : Nat} (hp : PrecOk δ p P) {a b : Num} (ha : a.WF) (hb : b.WF) (hia : a.inexact = true) (hi : b.inexact = true)
    (h1 : (2 : ℝ) ^ (EMIN - 1) ≤ |(a.toK : ℝ) - b.toK|) (h2 : |(a.toK : ℝ) - b.toK| ≤ 2 ^ 64) :
    ∃ v, a.sub b p .none = .ok v ∧ v.WF ∧ 64 * v.m.m.length = P ∧ v.inexact = true ∧
      (∃ θ, (v.toK : ℝ) = (a.toK - b.toK) * (1 + θ) ∧ |θ| ≤ δ) := by
  have hs := addSub_spec (K := ℝ) ha hb hp.pos (by rw [hp.eq]; exact hp.lt) false .none
  rw [if_neg (by simp), ← sub_eq_add_neg] at hs
  obtain ⟨v, v1, v2, v3, v4⟩ := rel_step hp hs h1 h2
  refine ⟨v, v1, v2, v3, ?_, v4⟩
  rw [v1] at hs
  refine hs.2.2.2.2.1.2 (Or.inl ?_)
  unfold addIx
  split
  · exact hi
  · split
    · exact hia
    · rw [hi, Bool.or_true]

/-- `arctan` by way of a number `q` in the place of pi. -/
noncomputable def atanBy (q X : ℝ) : ℝ := if |X| < 1 then Real.arctan X else (if 0 < X then q / 2 else -(q / 2)) - Real.arctan X⁻¹

theorem atanBy_pi {X : ℝ} : atanBy Real.pi X = Real.arctan X := by
  unfold atanBy
  split
  · rfl
  · rename_i h
    split
    · rename_i h0
      rw [Real.arctan_inv_of_pos h0]; ring
    · rename_i h0
      have : X < 0 := by
        rcases lt_trichotomy X 0 with h' | h' | h'
        · exact h'
        · rw [h'] at h; simp at h
        · exact absurd h' h0
      rw [Real.arctan_inv_of_neg this]; ring

/-- The errors of a round with an argument from one on. -/
theorem atan_combine {η d ε a v q c r Y s u t θ τ z : ℝ} (hη : 0 < η) (hη1 : η ≤ 1 / 2 ^ 40) (hd : d = η * (1 / 2 ^ 63)) (hε : ε = η * (1 / 2 ^ 20))
    (hs : |s| = 1) (ha : a = s * (v / 2)) (hv : |v - c| ≤ |c| * (d * 2)) (hc : |c| ≤ 4) (hq : |c - q| ≤ ε)
    (hu : |u| ≤ 1) (hr : r = u * (1 + θ)) (hθ : |θ| ≤ 2 ^ 54 * d) (hut : |u - t| ≤ d) (hY : Y = s * (q / 2) - t)
    (hY1 : 3 / 4 ≤ |Y|) (hY2 : |Y| ≤ 2) :
    1 / 2 ≤ |a - r| ∧ |a - r| ≤ 3 ∧ (z = (a - r) * (1 + τ) → |τ| ≤ d → ∃ k, z = Y * k ∧ |k - 1| ≤ η * (15 / 16)) := by
  have hd0 : 0 < d := by rw [hd]; positivity
  have e1 : |v - q| ≤ 8 * d + ε := by
    have h1 : |c| * (d * 2) ≤ 4 * (d * 2) := mul_le_mul_of_nonneg_right hc (by linarith)
    have := abs_sub_le v c q
    linarith
  have e2 : |r - t| ≤ 2 ^ 54 * d + d := by
    have h1 : |r - u| ≤ 2 ^ 54 * d := by
      rw [hr, show u * (1 + θ) - u = u * θ by ring, abs_mul]
      calc |u| * |θ| ≤ 1 * |θ| := mul_le_mul_of_nonneg_right hu (abs_nonneg _)
        _ ≤ _ := by rw [one_mul]; exact hθ
    have := abs_sub_le r u t
    linarith
  have e3 : |(a - r) - Y| ≤ (2 ^ 54 + 5) * d + ε := by
    rw [ha, hY, show s * (v / 2) - r - (s * (q / 2) - t) = s * ((v - q) / 2) - (r - t) by ring]
    have h1 : |s * ((v - q) / 2)| ≤ 4 * d + ε := by
      rw [abs_mul, hs, one_mul, abs_div, abs_two]
      have : 0 ≤ ε := by rw [hε]; positivity
      linarith
    have := abs_sub (s * ((v - q) / 2)) (r - t)
    linarith
  have e4 : (2 ^ 54 + 5) * d + ε ≤ η / 400 := by
    rw [hd, hε]
    nlinarith
  have e5 : |(a - r) - Y| ≤ η / 400 := le_trans e3 e4
  have hη2 : η ≤ 1 / 100 := le_trans hη1 (by norm_num)
  have e6 : |a - r| ≤ |Y| + η / 400 := by
    have := abs_sub_abs_le_abs_sub (a - r) Y
    linarith
  refine ⟨?_, by linarith, ?_⟩
  · have := abs_sub_abs_le_abs_sub Y (a - r)
    rw [abs_sub_comm Y] at this
    linarith
  · intro hz hτ
    have hY0 : Y ≠ 0 := abs_pos.1 (by linarith)
    refine ⟨z / Y, by field_simp, ?_⟩
    rw [show z / Y - 1 = (z - Y) / Y by field_simp, abs_div, div_le_iff₀ (by linarith)]
    have h1 : |z - Y| ≤ η / 400 + 3 * d := by
      rw [hz, show (a - r) * (1 + τ) - Y = (a - r - Y) + (a - r) * τ by ring]
      have h2 : |(a - r) * τ| ≤ 3 * d := by
        rw [abs_mul]
        exact mul_le_mul (by linarith) hτ (abs_nonneg _) (by norm_num)
      have := abs_add_le (a - r - Y) ((a - r) * τ)
      linarith
    have h3 : d ≤ η / 400 := by rw [hd]; nlinarith
    nlinarith

theorem atanBy_bounds {q X : ℝ} (hq1 : 3.13 ≤ q) (hq2 : q ≤ 3.16) (h : 1 ≤ |X|) : 3 / 4 ≤ |atanBy q X| ∧ |atanBy q X| ≤ 2 := by
  have h1 : |Real.arctan X⁻¹| ≤ 0.8 := by
    rw [abs_arctan]
    have h2 : |X⁻¹| ≤ 1 := by rw [abs_inv]; exact inv_le_one_of_one_le₀ h
    have h3 := Real.arctan_mono h2
    rw [Real.arctan_one] at h3
    have := Real.pi_lt_d2
    linarith
  have h2 := abs_le.1 h1
  unfold atanBy
  rw [if_neg (not_lt.2 h)]
  by_cases h0 : 0 < X
  · have h3 : 0 ≤ Real.arctan X⁻¹ := Real.arctan_nonneg.2 (inv_nonneg.2 h0.le)
    rw [if_pos h0, abs_of_pos (by linarith)]
    constructor <;> linarith
  · have h3 : Real.arctan X⁻¹ ≤ 0 := Real.arctan_le_zero.2 (inv_nonpos.2 (not_lt.1 h0))
    rw [if_neg h0, abs_of_neg (by linarith)]
    constructor <;> linarith

set_option maxHeartbeats 600000 in
theorem atanStep_spec {x : Num} (hx : x.WF) (hz : x.isZero = false) {w : Nat} (hdv : 64 ∣ w) (hw1 : 128 ≤ w)
    (hl : 64 * x.m.m.length ≤ w) (hw2 : w + 64 ≤ 2 ^ 17) (hlo : -690000000 ≤ x.e) (hhi : x.e ≤ 689999990) {q : ℝ}
    (hq : 0 < x.e → |chudPi - q| ≤ 2 ^ (-(w : ℤ) - 20)) {c : PiCache} (hc : PiOk c) :
    ∃ t c', x.atanStep w c = some (.tst t, c') ∧ TestOk w (atanBy q x.toK) t ∧ PiOk c' := by
  obtain ⟨k, rfl⟩ := hdv
  have hE : EMIN = -2 ^ 31 := rfl
  have hPM : PMAX = 2 ^ 62 - 2 ^ 31 - 1 := rfl
  have hwl : wordLen (64 * k + 5) = k + 1 := by unfold wordLen; omega
  have hrp : roundP (64 * k + 5) = 64 * (k + 1) := by unfold roundP USIZE_MAX; omega
  obtain ⟨P, hP⟩ : ∃ P, P = 64 * (k + 1) := ⟨_, rfl⟩
  obtain ⟨η, hη⟩ : ∃ η : ℝ, η = 2 ^ (-((64 * k : ℕ) : ℤ)) := ⟨_, rfl⟩
  obtain ⟨d, hd⟩ : ∃ d : ℝ, d = 2 ^ (1 - (P : ℤ)) := ⟨_, rfl⟩
  have hη0 : 0 < η := by rw [hη]; positivity
  have hη1 : η ≤ 1 / 2 ^ 40 := by
    rw [hη, show (1 : ℝ) / 2 ^ 40 = 2 ^ (-40 : ℤ) by norm_num]
    exact zpow_le_zpow_right₀ (by norm_num) (by omega)
  have hdη : d = η * (1 / 2 ^ 63) := by
    rw [hd, hη, hP, show (1 : ℝ) / 2 ^ 63 = 2 ^ (-63 : ℤ) by norm_num, ← zpow_add₀ (by norm_num)]
    congr 1; push_cast; ring
  have hd0 : 0 < d := by rw [hd]; positivity
  have hDOk : DOk d := ⟨hd0.le, by
    rw [hd, show (1 : ℝ) / 2 ^ 100 = 2 ^ (-100 : ℤ) by norm_num]
    exact zpow_le_zpow_right₀ (by norm_num) (by omega)⟩
  have hPr : PrecOk d (64 * k + 5) P := ⟨by omega, by rw [hrp, hP], by omega, hd.ge⟩
  obtain ⟨y, y1, y2, y3, y4, y5⟩ := setPrecision_extendN hx (p := 64 * k + 5) (by omega) (by omega) (by rw [hwl]; omega)
  rw [hwl] at y3
  have hx0 : (x.toK : ℝ) ≠ 0 := by rw [Ne, hx.toK_eq_zero, hz]; exact Bool.false_ne_true
  obtain ⟨b, b1, b2, b3, -⟩ := hx.mag (K := ℝ) hz
  have hbe : b = x.e := by omega
  rw [hbe] at b1 b2
  have hye : y.e = x.e := by
    obtain ⟨g1, g2⟩ := exp_bounds_abs y2 (by
      rw [y4]; exact le_trans (zpow_le_zpow_right₀ (by norm_num) (by omega)) b1)
    rw [y4] at g1 g2
    have h1 := (zpow_lt_zpow_iff_right₀ (by norm_num : (1 : ℝ) < 2)).1 (lt_of_le_of_lt b1 g2)
    have h2 := (zpow_lt_zpow_iff_right₀ (by norm_num : (1 : ℝ) < 2)).1 (lt_of_le_of_lt g1 b2)
    omega
  have hyz : y.isZero = false := by
    rw [← Bool.not_eq_true, ← y2.toK_eq_zero (K := ℝ), y4]; exact hx0
  unfold Num.atanStep
  dsimp only
  rw [y1]
  dsimp only
  by_cases hxe : 0 < x.e
  · rw [if_pos (by rw [hye]; exact hxe)]
    have hX1 : 1 ≤ |(x.toK : ℝ)| := le_trans (by rw [show (1 : ℝ) = 2 ^ (0 : ℤ) by norm_num]; exact zpow_le_zpow_right₀ (by norm_num) (by omega)) b1
    -- the reciprocal
    have hs := div_spec (K := ℝ) ONE_WF y2 hyz hPr.pos (by rw [hPr.eq]; exact hPr.lt) .none
    rw [ONE_toK, y4] at hs
    have hI1 : |1 / (x.toK : ℝ)| ≤ 1 := by
      rw [abs_div, abs_one, div_le_one (by linarith)]; exact hX1
    have hI2 : (2 : ℝ) ^ (-x.e) ≤ |1 / (x.toK : ℝ)| := by
      rw [abs_div, abs_one, zpow_neg, ← one_div]
      exact one_div_le_one_div_of_le (by linarith) b2.le
    have hIr := hs
    obtain ⟨z, z1, z2, z3, θ, z4, z5⟩ := rel_step hPr hs
      (le_trans (zpow_le_zpow_right₀ (by norm_num) (by omega)) hI2) (le_trans hI1 (by norm_num))
    have z6 : |(z.toK : ℝ)| ≤ 1 := by
      rw [z1, hPr.eq] at hIr
      exact le_trans (hIr.normal (le_trans (zpow_le_zpow_right₀ (by norm_num) (by omega)) hI2)).none_rel.1 hI1
    have hd2 : d ≤ 1 / 2 := le_trans hDOk.small (by norm_num)
    have hθ := abs_le.1 z5
    have z7 : (2 : ℝ) ^ (-x.e - 1) ≤ |(z.toK : ℝ)| := by
      rw [z4, abs_mul, abs_of_pos (by linarith : 0 < 1 + θ), zpow_sub₀ (by norm_num), zpow_one]
      have h1 : |1 / (x.toK : ℝ)| * (1 / 2) ≤ |1 / (x.toK : ℝ)| * (1 + θ) := mul_le_mul_of_nonneg_left (by linarith) (abs_nonneg _)
      linarith
    have hzz : z.isZero = false := by
      rw [← Bool.not_eq_true, ← z2.toK_eq_zero (K := ℝ)]
      exact abs_pos.1 (lt_of_lt_of_le (by positivity) z7)
    have hze := z2.e_of_abs z7
    obtain ⟨r, r1, r2, r3, r4, ψ, r5, r6⟩ := atanSeries_spec (P := P) (by omega) (by omega) z2 z3 hzz z6 (by omega)
    -- pi
    obtain ⟨o, c', p1, p2, p3, p4⟩ := piForPrec_spec (pw := k + 1) (by omega) (by omega) (by omega) .none hc
    obtain ⟨v, rfl⟩ := p4 (Or.inl rfl) (by omega)
    rcases p3 with ⟨v', e, hv⟩ | ⟨_, e⟩
    · injection e with e
      subst e
      rw [← hP] at hv
      have hcp := chudPi_small
      have hv1 := hv.none rfl
      rw [← hd, abs_of_pos (by linarith [hcp.1] : 0 < chudPi)] at hv1
      have hv2 : |(v.toK : ℝ) - chudPi| ≤ |chudPi| * (d * 2) := by
        rw [abs_of_pos (by linarith [hcp.1] : 0 < chudPi)]
        refine le_trans hv1 (mul_le_mul_of_nonneg_left (mul_le_mul_of_nonneg_left (by norm_num) hd0.le) (by linarith [hcp.1]))
      have hd3 : d ≤ 1 / 1000 := le_trans hDOk.small (by norm_num)
      have hv3 : |(v.toK : ℝ) - chudPi| ≤ 1 / 100 := by
        rw [abs_of_pos (by linarith [hcp.1] : 0 < chudPi)] at hv2
        nlinarith [hcp.2]
      have hv4 := abs_le.1 hv3
      obtain ⟨u1, u2, u3, u4, u5⟩ := halfPi_num (by omega) hv (by linarith [hcp.1]) (by linarith [hcp.2]) x.s
      have hq' := hq hxe
      have hqe : (2 : ℝ) ^ (-((64 * k : ℕ) : ℤ) - 20) = η * (1 / 2 ^ 20) := by
        rw [zpow_sub₀ (by norm_num), ← hη]; norm_num; ring
      have hq4 := abs_le.1 (le_trans hq' (by rw [hqe]; nlinarith : (2 : ℝ) ^ (-((64 * k : ℕ) : ℤ) - 20) ≤ 1 / 1000))
      obtain ⟨Y1, Y2⟩ := atanBy_bounds (q := q) (by linarith [hcp.1]) (by linarith [hcp.2]) hX1
      have hYe : atanBy q x.toK = x.s.toK * (q / 2) - Real.arctan (1 / x.toK) := by
        unfold atanBy
        rw [if_neg (not_lt.2 hX1), one_div]
        have h6 := Num.toK_eq (K := ℝ) x
        cases hxs : x.s
        · rw [hxs] at h6; simp only [Sign.toK] at h6 ⊢
          rw [if_neg (by linarith)]; ring
        · rw [hxs] at h6; simp only [Sign.toK] at h6 ⊢
          rw [if_pos (by linarith)]; ring
      have hut : |Real.arctan z.toK - Real.arctan (1 / x.toK)| ≤ d := by
        refine le_trans (arctan_sub _ _) ?_
        rw [z4, show 1 / (x.toK : ℝ) * (1 + θ) - 1 / x.toK = 1 / x.toK * θ by ring, abs_mul]
        calc |1 / (x.toK : ℝ)| * |θ| ≤ 1 * d := mul_le_mul hI1 z5 (abs_nonneg _) (by norm_num)
          _ = d := one_mul d
      have hcmb := fun z τ => atan_combine (z := z) (τ := τ) hη0 hη1 hdη rfl (s := x.s.toK) (by cases x.s <;> simp [Sign.toK]) u2 hv2
        (by rw [abs_of_pos (by linarith [hcp.1] : 0 < chudPi)]; linarith [hcp.2]) (by rw [← hqe]; exact hq')
        (le_trans (abs_arctan_le _) z6) r5 (by rw [hd]; exact r6) hut hYe Y1 Y2
      obtain ⟨t, t1, t2, t3, t4, τ, t5, t6⟩ := rel_sub_ix hPr u1 r2 u4 r4
        (le_trans (by
          refine le_trans (zpow_le_zpow_right₀ (n := -1) (by norm_num) (by omega)) ?_
          norm_num) (hcmb 0 0).1) (le_trans (hcmb 0 0).2.1 (by norm_num))
      refine ⟨t, c', ?_, ⟨t2, t4, by omega, ?_⟩, p2⟩
      · have z1' : y.reciprocal (64 * k + 5) .none = .ok z := z1
        rw [z1']
        dsimp only
        rw [r1]
        dsimp only
        rw [hrp, p1]
        dsimp only
        rw [t1]
      · rw [← hη]
        exact (hcmb _ _).2.2 t5 t6
    · cases e
  · rw [if_neg (by rw [hye]; exact hxe)]
    have hX1 : |(x.toK : ℝ)| < 1 := lt_of_lt_of_le b2 (zpow_le_one_of_nonpos₀ (by norm_num) (by omega))
    obtain ⟨r, r1, r2, r3, r4, θ, r5, r6⟩ := atanSeries_spec (P := P) (by omega) (by omega) y2 (by omega) hyz (by rw [y4]; exact hX1.le) (by omega)
    rw [r1]
    refine ⟨r, c, rfl, ⟨r2, r4, by omega, 1 + θ, ?_, ?_⟩, hc⟩
    · unfold atanBy
      rw [if_pos hX1, r5, y4]
    · rw [add_sub_cancel_left, ← hη]
      refine le_trans r6 ?_
      rw [← hd, hdη]
      nlinarith

end AF
