import Verif.Props.C05
/-!
# C27: precision argument contract

The second half of the claim is false for the code in the corner cases where the precision is not
looked at: a division by zero, and operations with an infinity (`C27_refuted`).
-/

namespace AF

/-- A numeric result has exactly the requested number of bits, rounded up to words. -/
theorem C27_result_precision (op : Op) (x y : Num) (hx : x.WF) (hy : y.WF)
    (hd : op.Dom (y.toK : ℚ)) (p : Nat) (hp : ValidP p) (rm : RM) (v : Num)
    (hv : op.apply (.num x) (.num y) p rm = .num v) :
    (BF.num v).mantissaMaxBitLen = some (64 * ((p + 63) / 64)) := by
  have h := op.delivers (K := ℚ) hx hy hd hp rm
  rw [hv] at h
  have h2 := h.2.1
  unfold precBits at h2
  simp only [BF.mantissaMaxBitLen, Mantissa.maxBitLen]
  rw [← h2, Nat.mul_comm]

/-- The same for the square root. -/
theorem C27_sqrt_precision (x : Num) (hx : x.WF) (h0 : (0 : ℝ) ≤ x.toK) (p : Nat) (hp : ValidP p)
    (rm : RM) (v : Num) (hv : BF.sqrt (.num x) p rm = .num v) :
    (BF.num v).mantissaMaxBitLen = some (64 * ((p + 63) / 64)) := by
  have h := BF.sqrt_delivers hx (Num.WF.sign_of_nonneg h0) hp rm (Real.sqrt_nonneg _)
    (Real.mul_self_sqrt h0)
  rw [hv] at h
  have h2 := h.2.1
  unfold precBits at h2
  simp only [BF.mantissaMaxBitLen, Mantissa.maxBitLen]
  rw [← h2, Nat.mul_comm]

/-- The same for the cube root. -/
theorem C27_cbrt_precision (x : Num) (hx : x.WF) (p : Nat) (hp : ValidP p)
    (rm : RM) (v : Num) (hv : BF.cbrt (.num x) p rm = .num v) :
    (BF.num v).mantissaMaxBitLen = some (64 * ((p + 63) / 64)) := by
  obtain ⟨y, hy, _⟩ := exists_real_cbrt x.toK
  have h := BF.cbrt_delivers hx hp rm hy
  rw [hv] at h
  have h2 := h.2.1
  unfold precBits at h2
  simp only [BF.mantissaMaxBitLen, Mantissa.maxBitLen]
  rw [← h2, Nat.mul_comm]

/-- Roots of finite operands reject a precision at or above the limit. -/
theorem C27_roots_reject_large (x : Num) (p : Nat) (hp : p < 2 ^ 64)
    (hp' : 2 ^ 62 - 2 ^ 31 - 1 ≤ precBits p) (rm : RM) :
    BF.sqrt (.num x) p rm = .nan (some .invalidArgument) ∧
      BF.cbrt (.num x) p rm = .nan (some .invalidArgument) := by
  have hr : roundP p ≥ PMAX := by
    rw [PMAX_eq]
    unfold precBits at hp'
    unfold roundP USIZE_MAX
    omega
  constructor
  · simp [BF.sqrt, BF.wrap, Num.sqrt, hr, BF.resultToExt]
  · simp [BF.cbrt, BF.wrap, Num.cbrt, hr, BF.resultToExt]

/-- Finite operands and a nonzero divisor: a precision at or above the limit gives
`NaN(InvalidArgument)`. Missing from the full claim: division by zero and infinite operands. -/
theorem C27_rejects_large_partial (op : Op) (x y : Num) (hy : y.WF)
    (hd : op.Dom (y.toK : ℚ)) (p : Nat) (hp : p < 2 ^ 64) (hp' : 2 ^ 62 - 2 ^ 31 - 1 ≤ precBits p)
    (rm : RM) :
    op.apply (.num x) (.num y) p rm = .nan (some .invalidArgument) := by
  have hr : roundP p ≥ PMAX := by
    rw [PMAX_eq]
    unfold precBits at hp'
    unfold roundP USIZE_MAX
    omega
  cases op
  · simp [Op.apply, BF.add, BF.addOp, Num.add, Num.addSub, hr, BF.resultToExt]
  · simp [Op.apply, BF.sub, BF.subOp, Num.sub, Num.addSub, hr, BF.resultToExt]
  · simp [Op.apply, BF.mul, BF.mulOp, Num.mul, Num.mulGeneral, hr, BF.resultToExt]
  · have hz : y.isZero = false := by
      rw [← Bool.not_eq_true]; exact fun h => hd (hy.toK_eq_zero.2 h)
    simp [Op.apply, BF.div, Num.div, hr, hz, BF.resultToExt]

/-- `1 / Inf` is a zero and `1 / 0` an infinity even with an unacceptable precision. -/
theorem C27_refuted : ¬ ∀ (x y : BF), x.WF → y.WF → ∀ p, p < 2 ^ 64 → 2 ^ 62 - 2 ^ 31 - 1 ≤ p → ∀ rm,
    BF.div x y p rm = .nan (some .invalidArgument) := by
  intro h
  have h1 := h (.num exA) (.inf .pos) exA_WF trivial (2 ^ 63) (by norm_num) (by norm_num) .up
  have h2 : BF.div (.num exA) (.inf .pos) (2 ^ 63) .up = .num (Num.zero 64 .pos false) := by decide
  rw [h2] at h1
  cases h1

example : BF.add (.num exA) (.num exB) (2 ^ 63) .up = .nan (some .invalidArgument) :=
  C27_rejects_large_partial .add exA exB exB_WF trivial (2 ^ 63) (by norm_num) (by decide) .up

example : ∀ v, Op.apply .mul (.num exA) (.num exB) 65 .up = .num v →
    (BF.num v).mantissaMaxBitLen = some 128 := fun v hv =>
  C27_result_precision .mul exA exB exA_WF exB_WF trivial 65 ⟨by norm_num, by decide⟩ .up v hv

example : ∀ v, BF.sqrt (.num exA) 65 .up = .num v → (BF.num v).mantissaMaxBitLen = some 128 := fun v hv =>
  C27_sqrt_precision exA exA_WF (by rw [exA_val_real]; norm_num) 65 ⟨by norm_num, by decide⟩ .up v hv

example : ∀ v, BF.cbrt (.num exB) 65 .up = .num v → (BF.num v).mantissaMaxBitLen = some 128 := fun v hv =>
  C27_cbrt_precision exB exB_WF 65 ⟨by norm_num, by decide⟩ .up v hv

example : BF.sqrt (.num exA) (2 ^ 63) .up = .nan (some .invalidArgument) :=
  (C27_roots_reject_large exA (2 ^ 63) (by norm_num) (by decide) .up).1

end AF
