import Verif.Props.C52
/-!
# C53: logarithm to an arbitrary base at special arguments

`log(x, b)` stands for `ln x / ln b` in extended-real arithmetic. `core` is the computation of
`ln x / ln b` for finite positive arguments; none of these cases reaches it.

The code departs from `ln x / ln b` at `x = 0` (NaN, while `ln(0)` is `-Inf`), at base `0` (always `-Inf`, also
where the quotient is `0` or undefined), at `log(+Inf, b)` with a negative base (an infinity) and at
`log(x, +Inf)` with a negative or zero `x` (zero).
-/

namespace AF
variable (core : Num → Num → Nat → RM → Except Err Num)

/-- `log(+Inf, b)` is `+Inf` for `b > 1` and `-Inf` for `0 < b < 1`. -/
theorem C53_inf_argument (b : Num) (hb : b.WF) (p : Nat) (rm : RM) :
    ((1 : ℚ) < b.toK → BF.log core (.inf .pos) (.num b) p rm = .inf .pos) ∧
    ((0 : ℚ) < b.toK → (b.toK : ℚ) < 1 → BF.log core (.inf .pos) (.num b) p rm = .inf .neg) := by
  constructor
  · intro h
    have h1 := hb.abs_lt_zpow (K := ℚ)
    rw [abs_of_pos (by linarith)] at h1
    have h2 : ¬ b.e ≤ 0 := by
      intro hcon
      have : (2 : ℚ) ^ b.e ≤ 2 ^ (0 : ℤ) := zpow_le_zpow_right₀ (by norm_num) hcon
      rw [zpow_zero] at this; linarith
    show (if b.e ≤ 0 then BF.INF_NEG else BF.INF_POS) = _
    rw [if_neg h2]; rfl
  · intro h0 h
    have h2 : b.e ≤ 0 := by
      rcases exp_of_bounds hb h0.ne' with ⟨h3, _⟩ | h3
      · have : EMIN < 0 := by decide
        omega
      · rw [abs_of_pos h0] at h3
        by_contra hcon
        have : (2 : ℚ) ^ (0 : ℤ) ≤ 2 ^ (b.e - 1) := zpow_le_zpow_right₀ (by norm_num) (by omega)
        rw [zpow_zero] at this; linarith
    show (if b.e ≤ 0 then BF.INF_NEG else BF.INF_POS) = _
    rw [if_pos h2]; rfl

/-- `log(x, +Inf) = 0` for a finite positive `x`. -/
theorem C53_inf_base (x : Num) (_ : (0 : ℚ) < x.toK) (p : Nat) (hp : ValidP p) (rm : RM) :
    ∃ v, BF.log core (.num x) (.inf .pos) p rm = .num v ∧ v.WF ∧ 64 * v.m.m.length = precBits p ∧
      (v.toK : ℚ) = 0 ∧ v.inexact = false := by
  obtain ⟨v, h1, h2, h3, h4, h5⟩ := new_spec (K := ℚ) hp.lt'
  refine ⟨v, ?_, h2, h3, h4, h5⟩
  show BF.new p = _
  unfold BF.new; rw [h1]; rfl

/-- A negative finite argument with a nonzero finite base, and a negative base with a finite argument,
are invalid arguments. -/
theorem C53_negative_partial (x b : Num) (hb : b.WF) (hb0 : (b.toK : ℚ) ≠ 0)
    (h : (x.toK : ℚ) < 0 ∨ (b.toK : ℚ) < 0) (p : Nat) (rm : RM) :
    BF.log core (.num x) (.num b) p rm = .nan (some .invalidArgument) := by
  show (if b.isZero = true then BF.INF_NEG else BF.resultToExt (x.log core b p rm) false true) = _
  rw [if_neg (by rw [isZero_false hb hb0]; simp)]
  have : (x.isZero || x.isNegative || b.isZero || b.isNegative) = true := by
    rcases h with h | h
    · simp [Num.isNegative, sign_of_neg h, Sign.isNeg]
    · simp [Num.isNegative, sign_of_neg h, Sign.isNeg]
  unfold Num.log
  rw [if_pos this]; rfl

/-- Undefined infinite cases are NaN, and a NaN passes through. -/
theorem C53_nan (x : BF) (s : Sign) (e : Option Err) (p : Nat) (rm : RM) :
    BF.log core (.inf .neg) (.inf s) p rm = .nan none ∧ BF.log core (.inf s) (.inf s) p rm = .nan none ∧
    BF.log core (.inf .neg) x p rm = .nan none ∧
    BF.log core (.nan e) x p rm = .nan e ∧ (x ≠ .inf .neg → x.isNan = false → BF.log core x (.nan e) p rm = .nan e) := by
  refine ⟨rfl, by cases s <;> rfl, rfl, rfl, fun h1 h2 => ?_⟩
  cases x with
  | num v => rfl
  | inf s => cases s with
    | neg => exact absurd rfl h1
    | pos => rfl
  | nan e' => cases h2

/-- `log(0, 2)` is NaN instead of `-Inf`. -/
theorem C53_zero_argument_refuted : ¬ ∀ (x b : Num) (p : Nat) (rm : RM), x.WF → b.WF → ValidP p → (x.toK : ℚ) = 0 →
    (1 : ℚ) < b.toK → BF.log core (.num x) (.num b) p rm = .inf .neg := by
  intro h
  have h1 := h (Num.zero 64 .pos false) exTwo 64 .toEven (zero_WF (by decide) _ _) exTwo_WF ValidP_64 (zero_toK _ _ _)
    (by rw [exTwo_val]; norm_num)
  have h2 : BF.log core (.num (Num.zero 64 .pos false)) (.num exTwo) 64 .toEven = .nan (some .invalidArgument) := rfl
  rw [h2] at h1; cases h1

/-- `log(2, 0)` is `-Inf`, although `ln 2 / -Inf` is a zero; `log(-2, 0)` is `-Inf` as well. -/
theorem C53_zero_base_refuted : ¬ ∀ (x b : Num) (p : Nat) (rm : RM), x.WF → b.WF → ValidP p → (b.toK : ℚ) = 0 →
    ((x.toK : ℚ) < 0 → (BF.log core (.num x) (.num b) p rm).isNan = true) ∧
    ((1 : ℚ) < x.toK → ∃ v, BF.log core (.num x) (.num b) p rm = .num v ∧ (v.toK : ℚ) = 0) := by
  intro h
  obtain ⟨v, h1, _⟩ := (h exTwo (Num.zero 64 .pos false) 64 .toEven exTwo_WF (zero_WF (by decide) _ _) ValidP_64
    (zero_toK _ _ _)).2 (by rw [exTwo_val]; norm_num)
  have h2 : BF.log core (.num exTwo) (.num (Num.zero 64 .pos false)) 64 .toEven = .inf .neg := rfl
  rw [h2] at h1; cases h1

/-- `log(+Inf, -2)` is `+Inf`; `log(-2, +Inf)` is a zero. Both are undefined. -/
theorem C53_negative_refuted :
    (¬ ∀ (b : Num) (p : Nat) (rm : RM), b.WF → ValidP p → (b.toK : ℚ) < 0 →
      (BF.log core (.inf .pos) (.num b) p rm).isNan = true) ∧
    (¬ ∀ (x : Num) (p : Nat) (rm : RM), x.WF → ValidP p → (x.toK : ℚ) < 0 →
      (BF.log core (.num x) (.inf .pos) p rm).isNan = true) := by
  constructor
  · intro h
    have h1 := h exMinusTwo 64 .toEven exMinusTwo_WF ValidP_64 (by rw [exMinusTwo_val]; norm_num)
    have h2 : BF.log core (.inf .pos) (.num exMinusTwo) 64 .toEven = .inf .pos := rfl
    rw [h2] at h1; cases h1
  · intro h
    have h1 := h exMinusTwo 64 .toEven exMinusTwo_WF ValidP_64 (by rw [exMinusTwo_val]; norm_num)
    have h2 : BF.log core (.num exMinusTwo) (.inf .pos) 64 .toEven = .num (Num.zero 64 .pos false) := rfl
    rw [h2] at h1; cases h1

example : BF.log core (.inf .pos) (.num exHalf) 64 .up = .inf .neg :=
  (C53_inf_argument core exHalf exHalf_WF 64 .up).2 (by rw [exHalf_val]; norm_num) (by rw [exHalf_val]; norm_num)

example : ∃ v, BF.log core (.num exHalf) (.inf .pos) 64 .up = .num v ∧ v.WF ∧ 64 * v.m.m.length = precBits 64 ∧
    (v.toK : ℚ) = 0 ∧ v.inexact = false :=
  C53_inf_base core exHalf (by rw [exHalf_val]; norm_num) 64 ValidP_64 .up

example : BF.log core (.num exHalf) (.num exMinusTwo) 64 .up = .nan (some .invalidArgument) :=
  C53_negative_partial core exHalf exMinusTwo exMinusTwo_WF (by rw [exMinusTwo_val]; norm_num)
    (Or.inr (by rw [exMinusTwo_val]; norm_num)) 64 .up

end AF
