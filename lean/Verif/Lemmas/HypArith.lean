import Verif.Lemmas.FunLoop
/-!
# Arithmetic in the hyperbolic functions
-/

namespace AF

/-- A truncated operation, far from the ends of the range. -/
theorem tr_step {P : Nat} {Y : ℝ} {ix : Bool} {r : Except Err Num} (h : Delivers .none P Y ix r)
    (hl : (2 : ℝ) ^ (EMIN - 1) ≤ Y) (hu : Y ≤ 2 ^ (EMAX - 2)) :
    ∃ v, r = .ok v ∧ v.WF ∧ 64 * v.m.m.length = P ∧ Y * (1 - 2 ^ (1 - (P : ℤ))) ≤ v.toK ∧ (v.toK : ℝ) ≤ Y ∧
      (ix = true → v.inexact = true) := by
  have hY0 : 0 < Y := lt_of_lt_of_le (by positivity) hl
  have ha : |Y| = Y := abs_of_pos hY0
  cases r with
  | ok v =>
    obtain ⟨g1, g2, g3⟩ := (h.normal (by rw [ha]; exact hl)).none_rel
    have hv : (0 : ℝ) ≤ v.toK := by
      by_contra hc
      push Not at hc
      nlinarith
    rw [ha, abs_of_nonneg hv] at g1 g2
    exact ⟨v, rfl, h.1, h.2.1, g2, g1, fun hi => h.2.2.2.2.1.2 (Or.inl hi)⟩
  | error e =>
    exfalso
    obtain ⟨_, t, h3, h4⟩ := h
    obtain ⟨g1, -, -⟩ := h3.none_rel
    rw [ha] at g1
    have : (2 : ℝ) ^ (EMAX - 2) < 2 ^ EMAX := zpow_lt_zpow_right₀ (by norm_num) (by omega)
    linarith

theorem Num.WF.e_of_abs {x : Num} (hx : x.WF) {k : ℤ} (h : (2 : ℝ) ^ k ≤ |(x.toK : ℝ)|) : k < x.e := by
  by_contra hc
  push Not at hc
  have h1 := hx.abs_lt_zpow (K := ℝ)
  have h2 : (2 : ℝ) ^ x.e ≤ 2 ^ k := zpow_le_zpow_right₀ (by norm_num) hc
  linarith

/-- A change of the exponent of a normal number. -/
theorem setExponent_normal {x : Num} (hx : x.WF) (hz : x.isZero = false) (he : EMIN < x.e) {e : ℤ} (h1 : EMIN ≤ e)
    (h2 : e ≤ EMAX) :
    (x.setExponent e).WF ∧ ((x.setExponent e).toK : ℝ) = x.toK * 2 ^ (e - x.e) ∧
      (x.setExponent e).m.m.length = x.m.m.length ∧ (x.setExponent e).inexact = x.inexact ∧
      (x.setExponent e).s = x.s ∧ (x.setExponent e).e = e := by
  have hsub : x.isSubnormal = false := by
    have := hx.full hz he
    rw [← Bool.not_eq_true, Num.isSubnormal_iff]
    omega
  have hE : x.setExponent e = { x with e := e } := by
    unfold Num.setExponent
    rw [hz, hsub]
    rfl
  rw [hE]
  refine ⟨⟨hx.wf, hx.bits, h1, h2, fun h h' => ?_, hx.sized⟩, ?_, rfl, rfl, rfl, rfl⟩
  · exact absurd (hx.norm h h') (by omega)
  · unfold Num.toK
    dsimp only
    rw [mul_assoc _ _ ((2 : ℝ) ^ (e - x.e)), ← zpow_add₀ (by norm_num)]
    congr 2
    ring

theorem divBy2_spec {x : Num} (hx : x.WF) (h : (2 : ℝ) ^ (EMIN + 1) ≤ |(x.toK : ℝ)|) (rm : RM) :
    (x.divBy2 rm).WF ∧ ((x.divBy2 rm).toK : ℝ) = x.toK / 2 ∧ (x.divBy2 rm).m.m.length = x.m.m.length ∧
      (x.divBy2 rm).inexact = x.inexact := by
  have he : EMIN + 1 < x.e := hx.e_of_abs h
  have hz : x.isZero = false := by
    rw [← Bool.not_eq_true, ← hx.toK_eq_zero (K := ℝ), ← abs_eq_zero]
    have : (0 : ℝ) < 2 ^ (EMIN + 1) := by positivity
    linarith
  unfold Num.divBy2
  rw [if_neg (by omega)]
  have hem := hx.emax
  obtain ⟨a1, a2, a3, a4, -⟩ := setExponent_normal hx hz (by omega) (e := x.e - 1) (by omega) (by omega)
  refine ⟨a1, ?_, a3, a4⟩
  rw [a2, show x.e - 1 - x.e = -1 by ring, zpow_neg_one]
  ring

theorem setSign_toK {x : Num} (s : Sign) : ((x.setSign s).toK : ℝ) = s.toK * |x.toK| := by
  rw [Num.toK_eq x, Num.toK_eq (x.setSign s)]
  have h1 : (Num.setSign x s).s = s := rfl
  rw [h1]
  congr 1
  have h2 : |(((x.setSign s)).toK : ℝ)| = |(x.toK : ℝ)| := by
    unfold Num.toK Num.setSign
    rw [abs_mul, abs_mul, abs_mul, abs_mul]
    congr 2
    cases s <;> cases x.s <;> simp [Sign.toK]
  rw [h2, abs_mul, abs_abs]
  cases x.s <;> simp [Sign.toK]

end AF
