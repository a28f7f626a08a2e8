import Verif.Props.C74
import Verif.Lemmas.AsinFun
/-!
# `asin` at one and minus one, and its absolute error in mode `None`
-/

namespace AF

open Num

set_option linter.unusedSectionVars false

variable {x : Num}

theorem ConstRounded.toFun {rm : RM} {P : Nat} {y : ℝ} {v : Num} (hy : 0 < y) (h : ConstRounded rm P y v) : FunRounded rm P y v :=
  ⟨h.wf, h.prec, fun _ => h.sign, fun h' => by linarith, h.inexact, h.directed, h.nearest, h.none⟩

/-- The constant as rounded is between three and four. -/
theorem ConstRounded.pi_range {rm : RM} {P : Nat} (hP : 64 ≤ P) {v : Num} (h : ConstRounded rm P chudPi v) :
    (3 : ℝ) ≤ v.toK ∧ (v.toK : ℝ) < 4 := by
  obtain ⟨b1, b2⟩ := chudPi_small
  have h1 := FunRounded.rel (by
    rw [abs_of_pos (by linarith)]
    refine le_trans (zpow_le_one_of_nonpos₀ (by norm_num) (by unfold EMIN; omega)) (by linarith)) (h.toFun (by linarith))
  rw [abs_of_pos (by linarith : 0 < chudPi)] at h1
  have h2 : (2 : ℝ) ^ (1 - (P : ℤ)) ≤ 1 / 1000 := le_trans (zpow_le_zpow_right₀ (n := -10) (by norm_num) (by omega)) (by norm_num)
  have h3 : |(v.toK : ℝ) - chudPi| ≤ 1 / 100 := by nlinarith [h1]
  have := abs_le.1 h3
  exact ⟨by linarith, by linarith⟩

theorem ConstRounded.pi_e {rm : RM} {P : Nat} (hP : 64 ≤ P) {v : Num} (h : ConstRounded rm P chudPi v) : v.e = 2 := by
  obtain ⟨hv1, hv2⟩ := h.pi_range hP
  have ha : |(v.toK : ℝ)| = v.toK := abs_of_pos (by linarith)
  obtain ⟨b1, b2⟩ := exp_bounds_abs h.wf (by
    rw [ha]
    refine le_trans (zpow_le_one_of_nonpos₀ (by norm_num) (by unfold EMIN; omega)) (by linarith))
  rw [ha] at b1 b2
  have h1 : v.e - 1 < 2 := (zpow_lt_zpow_iff_right₀ (by norm_num : (1 : ℝ) < 2)).1 (lt_of_le_of_lt b1 (by norm_num; exact hv2))
  have h2 : (1 : ℤ) < v.e := (zpow_lt_zpow_iff_right₀ (by norm_num : (1 : ℝ) < 2)).1 (lt_of_le_of_lt (by norm_num; linarith) b2)
  omega

/-- Half of the constant, as rounded. -/
theorem ConstRounded.half_fun {rm : RM} {P : Nat} (hP : 64 ≤ P) {v : Num} (h : ConstRounded rm P chudPi v) :
    FunRounded rm P (chudPi / 2) (v.setExponent (v.e - 1)) := by
  obtain ⟨hv1, hv2⟩ := h.pi_range hP
  obtain ⟨b1, b2⟩ := chudPi_small
  have he := h.pi_e hP
  have hz : v.isZero = false := by
    rw [← Bool.not_eq_true, ← h.wf.toK_eq_zero (K := ℝ)]
    linarith
  obtain ⟨a1, a2, a3, a4, a5, a6⟩ := setExponent_normal h.wf hz (by rw [he]; unfold EMIN; omega) (e := v.e - 1)
    (by rw [he]; unfold EMIN; omega) (by rw [he]; unfold EMAX; omega)
  have a7 : ((v.setExponent (v.e - 1)).toK : ℝ) = v.toK / 2 := by
    rw [a2, show v.e - 1 - v.e = -1 by ring]
    norm_num
    ring
  have hc : |chudPi| = chudPi := abs_of_pos (by linarith)
  have hc2 : |chudPi / 2| = chudPi / 2 := abs_of_pos (by linarith)
  have hh : ∀ u : ℝ, |(v.toK : ℝ) - chudPi| ≤ |chudPi| * u → |(v.toK : ℝ) / 2 - chudPi / 2| ≤ |chudPi / 2| * u := by
    intro u hu
    rw [← sub_div, abs_div, abs_two, hc2]
    rw [hc] at hu
    linarith
  refine ⟨a1, by rw [a3]; exact h.prec, fun _ => by rw [a5]; exact h.sign, fun hn => by linarith, by rw [a4]; exact h.inexact, ?_, ?_, ?_⟩
  · intro hd
    rw [a7]
    refine (h.directed hd).half ?_
    rw [hc]
    refine le_trans (zpow_le_one_of_nonpos₀ (by norm_num) (by unfold EMIN; omega)) (by linarith)
  · intro hd
    rw [a7]; exact hh _ (h.nearest hd)
  · intro hd
    rw [a7]; exact hh _ (h.none hd)

/-- The values at one and minus one. -/
theorem asin_one (hx : x.WF) (h1 : |(x.toK : ℝ)| = 1) {p : Nat} (hp : ValidP p) (hu : precBits p ≤ 2 ^ 63) (rm : RM) {c : PiCache} (hc : PiOk c) (f : Nat) :
    ∃ r c', x.asin p rm f c = some (r, c', 0) ∧ PiOk c' ∧
      ((∃ v, r = .ok v ∧ FunRounded rm (precBits p) (x.s.toK * (chudPi / 2)) v) ∨ ∃ s, r = .error (.exponentOverflow s)) ∧
      (rm = .none ∨ rm.directed = true ∧ ¬ NearGrid (precBits p) 63 chudPi →
        2 * ((precBits p + 46 + 64) / 47) ≤ 2 ^ 24 → ∃ v, r = .ok v) := by
  have hz : x.isZero = false := by
    rw [← Bool.not_eq_true, ← hx.toK_eq_zero (K := ℝ), ← abs_eq_zero, h1]
    norm_num
  have hk : precBits p = 64 * ((p + 63) / 64) := rfl
  have hp0 := hp.pos
  have hlt := hp.lt
  obtain ⟨b1, b2⟩ := chudPi_small
  obtain ⟨hc1, hc2⟩ := absCmp_one hx hz
  have n1 : ¬ x.absCmp ONE > 0 := by rw [hc1, h1]; norm_num
  have n2 : x.absCmp ONE = 0 := by
    have n3 : ¬ x.absCmp ONE < 0 := by rw [hc2, h1]; norm_num
    omega
  rw [hk] at hu hlt
  obtain ⟨r, c', p1, p2, p3, p4⟩ := piForPrec_spec (pw := (p + 63) / 64) (by omega) hlt hu (if x.s = .neg then invertRm rm else rm) hc
  unfold Num.asin
  rw [hp.roundP]
  dsimp only
  rw [hz, if_neg Bool.false_ne_true, if_neg n1, if_pos n2, isNegative_if, hk, p1]
  cases r with
  | error e =>
    refine ⟨.error e, c', rfl, p2, ?_, fun h1 h2 => ?_⟩
    · rcases p3 with ⟨v, e, -⟩ | ⟨s, e⟩
      · cases e
      · exact Or.inr ⟨s, e⟩
    · obtain ⟨v, hv⟩ := p4 (invertRm_directed h1) h2
      cases hv
  | ok v =>
    refine ⟨_, c', rfl, p2, Or.inl ⟨_, rfl, ?_⟩, fun _ _ => ⟨_, rfl⟩⟩
    rcases p3 with ⟨v', e, h3⟩ | ⟨s, e⟩
    · injection e with e
      subst e
      exact (h3.half_fun (by omega)).flip (by linarith) x.s
    · cases e

theorem abs_one_sign (h : |(x.toK : ℝ)| = 1) : (x.toK : ℝ) = x.s.toK ∧ Real.arcsin x.toK = x.s.toK * (Real.pi / 2) := by
  have h2 := Num.toK_eq (K := ℝ) x
  rw [h, mul_one] at h2
  refine ⟨h2, ?_⟩
  rw [sign_arcsin, h, Real.arcsin_one]

theorem normal_e (hx : x.WF) (h : (2 : ℝ) ^ (EMIN + 1) ≤ |(x.toK : ℝ)|) : x.isZero = false ∧ EMIN + 2 ≤ x.e := by
  have h0 : (0 : ℝ) < 2 ^ (EMIN + 1) := by positivity
  have hz : x.isZero = false := by
    rw [← Bool.not_eq_true, ← hx.toK_eq_zero (K := ℝ), ← abs_eq_zero]
    intro h'
    linarith
  obtain ⟨q, q1, q2, q3, -⟩ := hx.mag (K := ℝ) hz
  have := (zpow_lt_zpow_iff_right₀ (by norm_num : (1 : ℝ) < 2)).1 (lt_of_le_of_lt h q2)
  exact ⟨hz, by omega⟩

/-- The absolute error in mode `None`. -/
theorem asin_none_val (hx : x.WF) {X : ℝ} (hX : x.toK = X) (hdom : X = 0 ∨ |X| = 1 ∨ (|X| < 1 ∧ (2 : ℝ) ^ (EMIN + 1) ≤ |X|))
    {p : Nat} (hp0 : 0 < p) (hp : p ≤ 2 ^ 17) {f : Nat} {c c' : PiCache} (hc : PiOk c) {r : Except Err Num} {v : Nat}
    (h : x.asin p .none f c = some (r, c', v)) (hv : v + 64 ≤ 2 ^ 17) {η : ℝ} (hη : |chudPi - Real.pi| ≤ η) (hη2 : η ≤ 2 ^ (-(v : ℤ) - 20)) :
    ∃ u, r = .ok u ∧ u.WF ∧ 64 * u.m.m.length = precBits p ∧ |u.toK - Real.arcsin X| ≤ 2 ^ (-(precBits p : ℤ)) * 8 + η := by
  have hk : precBits p = 64 * ((p + 63) / 64) := rfl
  have hpv : ValidP p := ⟨hp0, by omega⟩
  have hη0 : 0 ≤ η := le_trans (abs_nonneg _) hη
  obtain ⟨b1, b2⟩ := chudPi_small
  have hE : EMIN = -2 ^ 31 := rfl
  have h2 : (2 : ℝ) ^ (1 - (precBits p : ℤ)) = 2 ^ (-(precBits p : ℤ)) * 2 := by
    rw [show (1 : ℤ) - precBits p = -(precBits p : ℤ) + 1 by ring, zpow_add₀ (by norm_num), zpow_one]
  have hd0 : (0 : ℝ) < 2 ^ (-(precBits p : ℤ)) := by positivity
  rcases hdom with h0 | h1 | ⟨h1, h0⟩
  · have hz : x.isZero = true := by rw [← hx.toK_eq_zero (K := ℝ), hX, h0]
    unfold Num.asin at h
    dsimp only at h
    rw [if_pos hz, hpv.roundP] at h
    injection h with h
    injection h with h _
    refine ⟨Num.zero (precBits p) x.s x.inexact, ?_, zero_WF (by unfold wordLen; omega) _ _, ?_, ?_⟩
    · rw [← h]
      unfold Num.new2
      rw [if_neg (by unfold PMAX; omega)]
    · simp only [Num.zero, Mantissa.new, List.length_replicate]
      unfold wordLen; omega
    · rw [zero_toK, h0, Real.arcsin_zero, sub_zero, abs_zero]
      positivity
  · rw [← hX] at h1
    obtain ⟨r', c'', o1, -, o3, o4⟩ := asin_one hx h1 hpv (by omega) .none hc f
    rw [o1] at h
    injection h with h
    injection h with h _
    subst h
    obtain ⟨u, rfl⟩ := o4 (Or.inl rfl) (by omega)
    rcases o3 with ⟨u', e, o3⟩ | ⟨s, e⟩
    · injection e with e
      subst e
      refine ⟨u, rfl, o3.wf, o3.prec, ?_⟩
      have hs1 : |(x.s.toK : ℝ)| = 1 := by cases x.s <;> simp [Sign.toK]
      have e1 : |x.s.toK * (chudPi / 2)| = chudPi / 2 := by rw [abs_mul, hs1, one_mul, abs_of_pos (by linarith)]
      have h3 := FunRounded.rel (by
        rw [e1]
        refine le_trans (zpow_le_one_of_nonpos₀ (by norm_num) (by unfold EMIN; omega)) (by linarith)) o3
      rw [e1, h2] at h3
      rw [← hX, (abs_one_sign h1).2]
      have e2 : (u.toK : ℝ) - x.s.toK * (Real.pi / 2) = (u.toK - x.s.toK * (chudPi / 2)) + x.s.toK * ((chudPi - Real.pi) / 2) := by ring
      rw [e2]
      refine le_trans (abs_add_le _ _) ?_
      rw [abs_mul x.s.toK, hs1, one_mul, abs_div, abs_two]
      nlinarith
    · cases e
  · rw [← hX] at h0 h1
    obtain ⟨hz, hlo⟩ := normal_e hx h0
    obtain ⟨u, u1, u2⟩ := asin_spec hx hz h1 hlo hpv .none hc h hv (fun _ => le_trans hη hη2)
    refine ⟨u, u1, u2.wf, u2.prec, ?_⟩
    obtain ⟨n1, n2⟩ := arcsin_normal h1.le
    have h3 := FunRounded.rel (le_trans (le_trans (zpow_le_zpow_right₀ (by norm_num) (by omega)) h0) n1) u2
    rw [h2] at h3
    rw [← hX]
    nlinarith

end AF
