import Verif.Lemmas.Cmp
import Verif.Lemmas.Samples
/-!
# C12: ordering of finite numbers agrees with their values

The full claim (`cmp` has the sign of the difference of the values for all pairs of finite numbers)
is false for the code: `C12_refuted`. It holds for all pairs except those where a nonzero number is
compared with a zero of the same sign and is smaller than `2^-(mantissa length of the zero)`.
-/

namespace AF

/-- `2^-1000`, 64 bits. -/
def exTiny : Num := { e := -999, s := .pos, m := { m := [MSB], n := 64 }, inexact := false }

theorem exTiny_WF : exTiny.WF := Num.WF_of_check (by decide)

theorem exTiny_pos : (0 : ℚ) < exTiny.toK := by
  unfold Num.toK exTiny
  simp only [Sign.toK, one_mul]
  exact mul_pos (by norm_num [val, MSB]) (two_zpow_pos _)

theorem zero64_WF (s : Sign) : (Num.zero 64 s false).WF := zero_WF (by decide) _ _

/-- `2^-1000` compares as less than `+0`. -/
theorem C12_refuted : ¬ ∀ x y : Num, x.WF → y.WF →
    ∃ c, BF.cmp (.num x) (.num y) = some c ∧
      (0 < c ↔ (y.toK : ℚ) < x.toK) ∧ (c < 0 ↔ (x.toK : ℚ) < y.toK) := by
  intro h
  obtain ⟨c, h1, h2, _⟩ := h exTiny (Num.zero 64 .pos false) exTiny_WF (zero64_WF _)
  have e : BF.cmp (.num exTiny) (.num (Num.zero 64 .pos false)) = some (-1) := by decide
  rw [e] at h1
  have hc : c = -1 := by injection h1 with h1; exact h1.symm
  subst hc
  have := h2.2 (by rw [zero_toK]; exact exTiny_pos)
  norm_num at this

/-- Missing from the full claim: a nonzero `x` against a zero `y` of the same sign with
`|x| < 2^-(mantissa bits of y)`. -/
theorem C12_cmp_agrees_partial (x y : Num) (hx : x.WF) (hy : y.WF) (hc : CmpOk x y) :
    ∃ c, BF.cmp (.num x) (.num y) = some c ∧
      (0 < c ↔ (y.toK : ℚ) < x.toK) ∧ (c < 0 ↔ (x.toK : ℚ) < y.toK) ∧
      (c = 0 ↔ (x.toK : ℚ) = y.toK) :=
  ⟨_, rfl, (cmp_spec hx hy hc).1, (cmp_spec hx hy hc).2, cmp_eq_zero hx hy hc⟩

/-- Numbers of different precision. -/
example : ∃ c, BF.cmp (.num exA) (.num exB) = some c ∧
      (0 < c ↔ (exB.toK : ℚ) < exA.toK) ∧ (c < 0 ↔ (exA.toK : ℚ) < exB.toK) ∧
      (c = 0 ↔ (exA.toK : ℚ) = exB.toK) :=
  C12_cmp_agrees_partial exA exB exA_WF exB_WF (Or.inr (Or.inl (by rw [exB_val]; norm_num)))

/-- A comparison with zero covered by the partial theorem. -/
example : ∃ c, BF.cmp (.num exA) (.num (Num.zero 64 .pos false)) = some c ∧
      (0 < c ↔ ((Num.zero 64 .pos false).toK : ℚ) < exA.toK) ∧
      (c < 0 ↔ (exA.toK : ℚ) < (Num.zero 64 .pos false).toK) ∧
      (c = 0 ↔ (exA.toK : ℚ) = (Num.zero 64 .pos false).toK) :=
  C12_cmp_agrees_partial _ _ exA_WF (zero64_WF _) (Or.inr (Or.inr (Or.inr ⟨rfl, by
    rw [exA_val, abs_of_pos (by norm_num)]
    refine le_trans (zpow_le_one_of_nonpos₀ (by norm_num) (by norm_num)) (by norm_num)⟩)))

end AF
