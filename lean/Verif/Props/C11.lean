import Verif.Lemmas.Op
/-!
# C11: overflow goes to the infinity of the right sign, and only on overflow
-/

namespace AF

/-- An infinity is returned exactly when the exact result, rounded to the requested precision, does
not fit the exponent range. -/
theorem C11_infinity_iff_overflow (op : Op) (x y : Num) (hx : x.WF) (hy : y.WF)
    (hd : op.Dom (y.toK : ℚ)) (p : Nat) (hp : ValidP p) (rm : RM) :
    (∃ s, op.apply (.num x) (.num y) p rm = .inf s) ↔
      ∃ t : ℚ, RoundsPrec rm (precBits p) (op.exact x.toK y.toK) t ∧ (2 : ℚ) ^ EMAX ≤ |t| :=
  (op.delivers hx hy hd hp rm).inf_iff (precBits_pos hp.pos)

/-- The infinity has the sign of the exact result. -/
theorem C11_infinity_sign (op : Op) (x y : Num) (hx : x.WF) (hy : y.WF)
    (hd : op.Dom (y.toK : ℚ)) (p : Nat) (hp : ValidP p) (rm : RM) (s : Sign)
    (h : op.apply (.num x) (.num y) p rm = .inf s) :
    (s = .pos ∧ 0 < op.exact (x.toK : ℚ) y.toK) ∨ (s = .neg ∧ op.exact (x.toK : ℚ) y.toK < 0) := by
  have := op.delivers (K := ℚ) hx hy hd hp rm
  rw [h] at this
  rcases this.1 with h | h
  · exact Or.inl ⟨h.2, h.1⟩
  · exact Or.inr ⟨h.2, h.1⟩

/-- Otherwise a finite number is returned; a NaN never is. -/
theorem C11_number_or_infinity (op : Op) (x y : Num) (hx : x.WF) (hy : y.WF)
    (hd : op.Dom (y.toK : ℚ)) (p : Nat) (hp : ValidP p) (rm : RM) :
    (∃ v, op.apply (.num x) (.num y) p rm = .num v ∧ v.WF) ∨
    (∃ s, op.apply (.num x) (.num y) p rm = .inf s) := by
  have := op.delivers (K := ℚ) hx hy hd hp rm
  cases hr : op.apply (.num x) (.num y) p rm with
  | num v => rw [hr] at this; exact Or.inl ⟨v, rfl, this.1⟩
  | inf s => exact Or.inr ⟨s, rfl⟩
  | nan e => rw [hr] at this; exact absurd this id

/-- `2^EMAX - 2^(EMAX-64)`, the largest 64-bit number. -/
def exMax : Num := { e := EMAX, s := .pos, m := { m := [WMAX], n := 64 }, inexact := false }

theorem exMax_WF : exMax.WF := Num.WF_of_check (by decide)

/-- Adding the largest number to itself overflows to `+Inf`. -/
example : Op.apply .add (.num exMax) (.num exMax) 64 .toEven = .inf .pos := by decide

example : (∃ s, Op.apply .add (.num exMax) (.num exMax) 64 .toEven = .inf s) ↔
    ∃ t : ℚ, RoundsPrec .toEven (precBits 64) (Op.exact .add exMax.toK exMax.toK) t ∧
      (2 : ℚ) ^ EMAX ≤ |t| :=
  C11_infinity_iff_overflow .add exMax exMax exMax_WF exMax_WF trivial 64 ValidP_64 .toEven

end AF
