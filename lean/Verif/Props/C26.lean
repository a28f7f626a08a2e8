import Verif.Props.C07
/-!
# C26: the inexact flag tells the truth

With exact operands the flag of the result is clear exactly when the result is the exact one. The
second half of the claim (an inexact operand makes the result inexact) is false for the code: an
operation with a zero operand forgets the flag of the zero, and a product or quotient with a zero
first operand forgets both flags.
-/

namespace AF

/-- Exact operands: the flag is set exactly when the returned number differs from the exact result.
This includes results below the normal range. -/
theorem C26_exact_operands (op : Op) (x y : Num) (hx : x.WF) (hy : y.WF)
    (hd : op.Dom (y.toK : ℚ)) (hxi : x.inexact = false) (hyi : y.inexact = false)
    (p : Nat) (hp : ValidP p) (rm : RM) (v : Num) (hv : op.apply (.num x) (.num y) p rm = .num v) :
    v.inexact = true ↔ (v.toK : ℚ) ≠ op.exact x.toK y.toK := by
  have h := op.delivers (K := ℚ) hx hy hd hp rm
  rw [hv] at h
  rw [h.2.2.2.2.1]
  have : op.ix x y = false := by
    cases op <;> simp [Op.ix, addIx, mulIx, divIx, hxi, hyi]
  simp [this]

/-- The sum of the inexact zero and one is marked exact. -/
theorem C26_refuted : ¬ ∀ (op : Op) (x y : Num), x.WF → y.WF → op.Dom (y.toK : ℚ) →
    (x.inexact = true ∨ y.inexact = true) → ∀ p, ValidP p → ∀ rm v,
    op.apply (.num x) (.num y) p rm = .num v → v.inexact = true := by
  intro h
  have h1 := h .add (Num.zero 64 .pos true) exA (zero_WF (by decide) _ _) exA_WF trivial (Or.inl rfl)
    64 ValidP_64 .toEven exA (by decide)
  revert h1
  decide

/-- Missing from the full claim: operations with a zero operand. -/
theorem C26_inexact_operand_partial (op : Op) (x y : Num) (hx : x.WF) (hy : y.WF)
    (hx0 : (x.toK : ℚ) ≠ 0) (hy0 : (y.toK : ℚ) ≠ 0) (hi : x.inexact = true ∨ y.inexact = true)
    (p : Nat) (hp : ValidP p) (rm : RM) (v : Num) (hv : op.apply (.num x) (.num y) p rm = .num v) :
    v.inexact = true := by
  have hd : op.Dom (y.toK : ℚ) := by cases op <;> first | exact hy0 | trivial
  have h := op.delivers (K := ℚ) hx hy hd hp rm
  rw [hv] at h
  rw [h.2.2.2.2.1]
  left
  have a : x.isZero = false := by
    rw [← Bool.not_eq_true]; exact fun h => hx0 (hx.toK_eq_zero.2 h)
  have b : y.isZero = false := by
    rw [← Bool.not_eq_true]; exact fun h => hy0 (hy.toK_eq_zero.2 h)
  cases op <;> simpa [Op.ix, addIx, mulIx, divIx, a, b] using hi

/-- `set_precision`: an exact number is marked inexact exactly when its value changed, and an inexact
number stays inexact. Missing from the full claim: mode `None` with a precision which is not a multiple
of the word size (`C26_set_precision_refuted`). -/
theorem C26_set_precision_partial (x : Num) (hx : x.WF) (p : Nat) (hp : 0 < p)
    (hpm : p < 2 ^ 62 - 2 ^ 31 - 1) (rm : RM) (hrm : rm ≠ .none ∨ 64 ∣ p) (v : Num)
    (hv : BF.setPrecision (.num x) p rm = .ok (.num v)) :
    v.inexact = true ↔ x.inexact = true ∨ (v.toK : ℚ) ≠ x.toK := by
  have h := setPrecision_spec (K := ℚ) hx hp (by rw [PMAX_eq]; exact hpm) rm
  cases hr : x.setPrecision p rm with
  | ok w =>
    simp only [BF.setPrecision, hr] at hv
    have : w = v := by simpa using hv
    subst this
    rw [hr] at h
    exact h.1.2.2.2.1 hrm
  | error er =>
    simp only [BF.setPrecision, hr] at hv
    cases hv

/-- In mode `None` the flag can be set although nothing changed: `1 + 2^-63` "reduced" to 63 bits. -/
theorem C26_set_precision_refuted : ¬ ∀ (x : Num), x.WF → x.inexact = false → ∀ p, ValidP p → ∀ rm v,
    BF.setPrecision (.num x) p rm = .ok (.num v) →
    (v.inexact = true ↔ (v.toK : ℚ) ≠ x.toK) := by
  intro h
  have h1 := h exA exA_WF rfl 63 ⟨by norm_num, by decide⟩ .none { exA with inexact := true } (by decide)
  exact absurd rfl (h1.1 rfl)

/-- The quotient of two exact numbers which is not exact. -/
example (v : Num) (hv : Op.apply .div (.num exA) (.num exB) 64 .toEven = .num v) :
    v.inexact = true ↔ (v.toK : ℚ) ≠ Op.exact .div exA.toK exB.toK :=
  C26_exact_operands .div exA exB exA_WF exB_WF (by show (exB.toK : ℚ) ≠ 0; rw [exB_val]; norm_num)
    rfl rfl 64 ValidP_64 .toEven v hv

/-- Such a quotient exists. -/
example : (Op.apply .div (.num exA) (.num exB) 64 .toEven).inexact = true := by decide

end AF
