import Verif.Lemmas.Comm
import Verif.Lemmas.Samples
/-!
# C18: addition and multiplication are commutative

Multiplication returns the same number for every pair of finite operands. Addition does unless both
operands are zero: then the result has the sign and the inexact mark of the second operand, so
`+0 + -0` and `-0 + +0` differ (`C18_add_refuted`).
-/

namespace AF

theorem C18_mul_comm (x y : Num) (hx : x.WF) (hy : y.WF) (p : Nat) (rm : RM) :
    BF.mul (.num x) (.num y) p rm = BF.mul (.num y) (.num x) p rm := by
  unfold BF.mul BF.mulOp
  simp only [Bool.false_eq_true, if_false, Num.mul]
  rw [← Num.mul_comm_of hx hy]
  exact resultToExt_congr (mulGeneral_ne_div x y p rm false) _ _ _ _

example : BF.mul (.num exA) (.num exB) 64 .up = BF.mul (.num exB) (.num exA) 64 .up :=
  C18_mul_comm exA exB exA_WF exB_WF 64 .up

/-- The sign of a zero sum depends on the order of the operands. -/
theorem C18_add_refuted : ¬ ∀ x y : Num, x.WF → y.WF → ∀ p rm, ValidP p →
    BF.add (.num x) (.num y) p rm = BF.add (.num y) (.num x) p rm := by
  intro h
  have := h (Num.zero 64 .pos false) (Num.zero 64 .neg false) (zero_WF (by decide) _ _)
    (zero_WF (by decide) _ _) 64 .toEven ValidP_64
  exact absurd this (by decide)

/-- Missing from the full claim: both operands zero. -/
theorem C18_add_comm_partial (x y : Num) (hx : x.WF) (hy : y.WF)
    (h : (x.toK : ℚ) ≠ 0 ∨ (y.toK : ℚ) ≠ 0) (p : Nat) (hp : ValidP p) (rm : RM) :
    BF.add (.num x) (.num y) p rm = BF.add (.num y) (.num x) p rm := by
  have hnz : ¬ (x.isZero = true ∧ y.isZero = true) := by
    rintro ⟨a, b⟩
    rcases h with h | h
    · exact h (hx.toK_eq_zero.2 a)
    · exact h (hy.toK_eq_zero.2 b)
  have d1 := addSub_spec (K := ℚ) hx hy hp.pos hp.lt_PMAX true rm
  unfold BF.add BF.addOp
  simp only [Bool.false_eq_true, if_false, Num.add]
  rw [← Num.add_comm_of hx hy hnz p rm false]
  cases hr : x.addSub y p true rm false with
  | ok v => rfl
  | error er =>
    rw [hr] at d1
    rcases d1.1 with ⟨_, h⟩ | ⟨_, h⟩ <;> rw [h] <;> rfl

example : BF.add (.num exA) (.num exB) 64 .up = BF.add (.num exB) (.num exA) 64 .up :=
  C18_add_comm_partial exA exB exA_WF exB_WF (Or.inl (by rw [exA_val]; norm_num)) 64 ValidP_64 .up

/-- Two zeros: the sum is zero in either order. -/
theorem C18_add_zeros (x y : Num) (hx : x.WF) (hy : y.WF) (p : Nat) (hp : ValidP p) (rm : RM)
    (h1 : (x.toK : ℚ) = 0) (h2 : (y.toK : ℚ) = 0) :
    ∃ v w, BF.add (.num x) (.num y) p rm = .num v ∧ BF.add (.num y) (.num x) p rm = .num w ∧
      (v.toK : ℚ) = 0 ∧ (w.toK : ℚ) = 0 := by
  obtain ⟨v, a, _, b⟩ := (BF.add_delivers (K := ℚ) hx hy hp rm).zero (by rw [h1, h2, add_zero])
  obtain ⟨w, c, _, d⟩ := (BF.add_delivers (K := ℚ) hy hx hp rm).zero (by rw [h1, h2, add_zero])
  exact ⟨v, w, a, c, b, d⟩

end AF
