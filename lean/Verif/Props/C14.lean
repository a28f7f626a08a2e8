import Verif.Props.C12
/-!
# C14: abs_cmp compares absolute values

False in the code: `BigFloat::abs_cmp` calls the signed comparison. It is right when neither number
is negative, and for infinities.
-/

namespace AF

/-- `-2`, 64 bits. -/
def exM2 : Num := { e := 2, s := .neg, m := { m := [MSB], n := 64 }, inexact := false }

theorem exM2_WF : exM2.WF := Num.WF_of_check (by decide)

theorem exM2_val : (exM2.toK : ℚ) = -2 := by norm_num [Num.toK, exM2, Sign.toK, val, MSB, zpow_neg]

/-- `abs_cmp(-2, 1 + 2^-63)` is negative. -/
theorem C14_refuted : ¬ ∀ x y : Num, x.WF → y.WF →
    ∃ c, BF.absCmp (.num x) (.num y) = some c ∧
      (0 < c ↔ |(y.toK : ℚ)| < |(x.toK : ℚ)|) ∧ (c < 0 ↔ |(x.toK : ℚ)| < |(y.toK : ℚ)|) := by
  intro h
  obtain ⟨c, h1, h2, _⟩ := h exM2 exA exM2_WF exA_WF
  have e : BF.absCmp (.num exM2) (.num exA) = some (-1) := by decide
  rw [e] at h1
  have hc : c = -1 := by injection h1 with h1; exact h1.symm
  subst hc
  have := h2.2 (by
    rw [exA_val, exM2_val, abs_of_pos (by norm_num), abs_of_neg (by norm_num)]; norm_num)
  norm_num at this

/-- Missing from the full claim: numbers of negative sign (and the exclusions of C12). -/
theorem C14_abs_cmp_nonneg_partial (x y : Num) (hx : x.WF) (hy : y.WF) (hc : CmpOk x y)
    (hxs : 0 ≤ (x.toK : ℚ)) (hys : 0 ≤ (y.toK : ℚ)) :
    ∃ c, BF.absCmp (.num x) (.num y) = some c ∧
      (0 < c ↔ |(y.toK : ℚ)| < |(x.toK : ℚ)|) ∧ (c < 0 ↔ |(x.toK : ℚ)| < |(y.toK : ℚ)|) := by
  rw [abs_of_nonneg hxs, abs_of_nonneg hys]
  exact ⟨_, rfl, (cmp_spec hx hy hc).1, (cmp_spec hx hy hc).2⟩

example : ∃ c, BF.absCmp (.num exA) (.num exTiny) = some c ∧
      (0 < c ↔ |(exTiny.toK : ℚ)| < |(exA.toK : ℚ)|) ∧
      (c < 0 ↔ |(exA.toK : ℚ)| < |(exTiny.toK : ℚ)|) :=
  C14_abs_cmp_nonneg_partial _ _ exA_WF exTiny_WF (Or.inr (Or.inl exTiny_pos.ne'))
    (by rw [exA_val]; norm_num) exTiny_pos.le

/-- Infinities are larger in magnitude than every finite number and equal to each other; NaN is not
comparable. -/
theorem C14_abs_cmp_inf (v : Num) (s t : Sign) (e : Option Err) (x : BF) :
    BF.absCmp (.inf s) (.num v) = some 1 ∧ BF.absCmp (.num v) (.inf s) = some (-1) ∧
    BF.absCmp (.inf s) (.inf t) = some 0 ∧ BF.absCmp (.nan e) x = none ∧
    BF.absCmp x (.nan e) = none := by
  refine ⟨rfl, rfl, rfl, rfl, ?_⟩
  cases x <;> rfl

end AF
