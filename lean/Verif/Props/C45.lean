import Verif.Props.C44
import Verif.Lemmas.Odd
/-!
# C45: `pow` at infinity follows the limits

The full claim: `pow(x, +Inf)` is `+Inf` for `|x| > 1`, `0` for `|x| < 1`; `pow(x, -Inf)` is `0` for
`|x| > 1`, `+Inf` for `|x| < 1`; `pow(1, ±Inf) = 1`; and for an infinite base the sign follows parity.

The code (ext.rs 390-401) compares `x`, not `|x|`, with one and does not look at the sign of the infinite
exponent when the result is not infinite, so four parts of the claim are false.
`core` is the part of `pow` for two finite numbers that is not modelled; nothing here depends on it.
-/

namespace AF
variable (core : Num → Num → Nat → RM → Except Err Num)

/-- Exact zero with `precBits p` bits. -/
def IsZeroP (p : Nat) (r : BF) : Prop :=
  ∃ v, r = .num v ∧ v.WF ∧ 64 * v.m.m.length = precBits p ∧ (v.toK : ℚ) = 0 ∧ v.inexact = false

theorem new_zero {p : Nat} (hp : ValidP p) : IsZeroP p (BF.new p) := by
  obtain ⟨v, h1, h2, h3, h4, h5⟩ := new_spec (K := ℚ) hp.lt'
  exact ⟨v, by unfold BF.new; rw [h1]; rfl, h2, h3, h4, h5⟩

theorem ONE_val : (Num.ONE.toK : ℚ) = 1 := by
  norm_num [Num.toK, Num.ONE, Sign.toK, val, MSB, B]

theorem cmp_one {x : Num} (hx : x.WF) :
    (0 < x.cmp Num.ONE ↔ (1 : ℚ) < x.toK) ∧ (x.cmp Num.ONE < 0 ↔ (x.toK : ℚ) < 1) := by
  have h := cmp_spec hx ONE_WF (Or.inr (Or.inl (by rw [ONE_val]; norm_num)))
  rwa [ONE_val] at h

theorem C45_above_one_partial (x : Num) (hx : x.WF) (h : (1 : ℚ) < x.toK) (p : Nat) (rm : RM) :
    BF.pow core (.num x) (.inf .pos) p rm = .inf .pos := by
  have := (cmp_one hx).1.2 h
  simp only [BF.pow]
  rw [if_pos this]

theorem C45_below_one (x : Num) (hx : x.WF) (h : |(x.toK : ℚ)| < 1) (p : Nat) (hp : ValidP p) (rm : RM) :
    IsZeroP p (BF.pow core (.num x) (.inf .pos) p rm) := by
  have h1 := (cmp_one hx).2.2 (_root_.abs_lt.1 h).2
  simp only [BF.pow]
  rw [if_neg (by omega), if_pos h1]
  exact new_zero hp

theorem C45_neg_inf_partial (x : Num) (hx : x.WF) (h : (x.toK : ℚ) < -1) (p : Nat) (hp : ValidP p) (rm : RM) :
    IsZeroP p (BF.pow core (.num x) (.inf .neg) p rm) := by
  have h1 := (cmp_one hx).2.2 (by linarith)
  simp only [BF.pow]
  rw [if_neg (by omega), if_pos h1]
  exact new_zero hp

theorem C45_one_partial (x : Num) (hx : x.WF) (h : (x.toK : ℚ) = 1) (s : Sign) (p : Nat) (hp : ValidP p)
    (h8 : 8 ≤ p) (rm : RM) : IsOne p (BF.pow core (.num x) (.inf s) p rm) := by
  obtain ⟨h1, h2⟩ := cmp_one hx
  rw [h] at h1 h2
  simp only [lt_irrefl, iff_false] at h1 h2
  simp only [BF.pow]
  rw [if_neg (show ¬ x.cmp Num.ONE > 0 from h1), if_neg h2]
  exact fromU_one hp h8

/-- An infinite base: exponent zero gives one, a positive exponent gives an infinity whose sign is
negative exactly for the base `-Inf` and an odd integer exponent, a negative exponent gives zero. -/
theorem C45_inf_base_partial (s : Sign) (y : Num) (hy : y.WF) (p : Nat) (hp : ValidP p) (rm : RM) :
    ((y.toK : ℚ) = 0 → 8 ≤ p → IsOne p (BF.pow core (.inf s) (.num y) p rm)) ∧
    ((0 : ℚ) < y.toK → ((s = .neg ∧ ∃ z : ℤ, Odd z ∧ (y.toK : ℚ) = z) →
        BF.pow core (.inf s) (.num y) p rm = .inf .neg) ∧
      (¬ (s = .neg ∧ ∃ z : ℤ, Odd z ∧ (y.toK : ℚ) = z) → BF.pow core (.inf s) (.num y) p rm = .inf .pos)) ∧
    ((y.toK : ℚ) < 0 → IsZeroP p (BF.pow core (.inf s) (.num y) p rm)) := by
  have hsg := Num.toK_eq (K := ℚ) y
  have hnn := abs_nonneg (y.toK : ℚ)
  refine ⟨fun h h8 => ?_, fun h => ?_, fun h => ?_⟩
  · have hz : y.isZero = true := hy.toK_eq_zero.1 h
    simp only [BF.pow]; rw [if_pos hz]; exact fromU_one hp h8
  · have hz : ¬ y.isZero = true := fun hc => h.ne' (hy.toK_eq_zero.2 hc)
    have hpos : y.isPositive = true := by
      unfold Num.isPositive
      cases hs : y.s with
      | pos => rfl
      | neg => rw [hs] at hsg; simp only [Sign.toK] at hsg; linarith
    simp only [BF.pow]; rw [if_neg hz, if_pos hpos]
    have ho := isOddInt_spec y hy h.ne'
    constructor
    · rintro ⟨rfl, hodd⟩
      rw [if_pos (by simp [Sign.isNeg, ho.2 hodd])]; rfl
    · intro hc
      rw [if_neg ?_]; · rfl
      intro hcon
      simp only [Bool.and_eq_true, Sign.isNeg, beq_iff_eq] at hcon
      exact hc ⟨hcon.1, ho.1 hcon.2⟩
  · have hz : ¬ y.isZero = true := fun hc => h.ne (hy.toK_eq_zero.2 hc)
    have hneg : ¬ y.isPositive = true := by
      unfold Num.isPositive
      cases hs : y.s with
      | pos => rw [hs] at hsg; simp only [Sign.toK] at hsg; linarith
      | neg => simp
    simp only [BF.pow]; rw [if_neg hz, if_neg hneg]
    exact new_zero hp

theorem C45_nan (x : BF) (e : Option Err) (p : Nat) (rm : RM) :
    BF.pow core (.nan e) x p rm = .nan e ∧
      (x.isNan = false → BF.pow core x (.nan e) p rm = .nan e) := by
  refine ⟨rfl, fun h => ?_⟩
  cases x with
  | nan _ => cases h
  | num _ => rfl
  | inf _ => rfl

/-- `2`, 64 bits. -/
def exTwo : Num := Num.mk 2 .pos ⟨[MSB], 64⟩ false
/-- `-2`, 64 bits. -/
def exMinusTwo : Num := Num.mk 2 .neg ⟨[MSB], 64⟩ false
/-- `1/2`, 64 bits. -/
def exHalf : Num := Num.mk 0 .pos ⟨[MSB], 64⟩ false

theorem exTwo_val : (exTwo.toK : ℚ) = 2 := by norm_num [Num.toK, exTwo, Sign.toK, val, MSB, B]
theorem exMinusTwo_val : (exMinusTwo.toK : ℚ) = -2 := by norm_num [Num.toK, exMinusTwo, Sign.toK, val, MSB, B]
theorem exHalf_val : (exHalf.toK : ℚ) = 1 / 2 := by norm_num [Num.toK, exHalf, Sign.toK, val, MSB, B]
theorem exTwo_WF : exTwo.WF := Num.WF_of_check (by decide)
theorem exMinusTwo_WF : exMinusTwo.WF := Num.WF_of_check (by decide)
theorem exHalf_WF : exHalf.WF := Num.WF_of_check (by decide)

/-- `(-2)^(+Inf)` is `0`. -/
theorem C45_neg_base_refuted : ¬ ∀ x : Num, x.WF → 1 < |(x.toK : ℚ)| → ∀ p rm, ValidP p →
    BF.pow core (.num x) (.inf .pos) p rm = .inf .pos := by
  intro h
  have h1 := h exMinusTwo exMinusTwo_WF (by rw [exMinusTwo_val]; norm_num) 64 .toEven ValidP_64
  have h2 : BF.pow core (.num exMinusTwo) (.inf .pos) 64 .toEven = .num (Num.zero 64 .pos false) := rfl
  rw [h2] at h1
  cases h1

/-- `2^(-Inf)` is `-Inf`. -/
theorem C45_neg_exponent_refuted : ¬ ∀ x : Num, x.WF → 1 < |(x.toK : ℚ)| → ∀ p rm, ValidP p →
    IsZeroP p (BF.pow core (.num x) (.inf .neg) p rm) := by
  intro h
  obtain ⟨v, h1, _⟩ := h exTwo exTwo_WF (by rw [exTwo_val]; norm_num) 64 .toEven ValidP_64
  have h2 : BF.pow core (.num exTwo) (.inf .neg) 64 .toEven = .inf .neg := rfl
  rw [h2] at h1
  cases h1

/-- `(1/2)^(-Inf)` is `0`. -/
theorem C45_small_base_refuted : ¬ ∀ x : Num, x.WF → |(x.toK : ℚ)| < 1 → ∀ p rm, ValidP p →
    BF.pow core (.num x) (.inf .neg) p rm = .inf .pos := by
  intro h
  have h1 := h exHalf exHalf_WF (by rw [exHalf_val]; norm_num [abs_of_pos]) 64 .toEven ValidP_64
  have h2 : BF.pow core (.num exHalf) (.inf .neg) 64 .toEven = .num (Num.zero 64 .pos false) := rfl
  rw [h2] at h1
  cases h1

/-- `1^(+Inf)` at a precision below 8 bits is NaN. -/
theorem C45_one_refuted : ¬ ∀ x : Num, x.WF → (x.toK : ℚ) = 1 → ∀ s p rm, ValidP p →
    IsOne p (BF.pow core (.num x) (.inf s) p rm) := by
  intro h
  obtain ⟨v, h1, _⟩ := h Num.ONE ONE_WF ONE_val .pos 1 .toEven ⟨by norm_num, by decide⟩
  have h2 : BF.pow core (.num Num.ONE) (.inf .pos) 1 .toEven = .nan (some .invalidArgument) := rfl
  rw [h2] at h1
  cases h1

example : BF.pow core (.num exTwo) (.inf .pos) 64 .toEven = .inf .pos :=
  C45_above_one_partial core exTwo exTwo_WF (by rw [exTwo_val]; norm_num) 64 .toEven
example : IsZeroP 64 (BF.pow core (.num exHalf) (.inf .pos) 64 .toEven) :=
  C45_below_one core exHalf exHalf_WF (by rw [exHalf_val]; norm_num [abs_of_pos]) 64 ValidP_64 .toEven
example : IsZeroP 64 (BF.pow core (.num exMinusTwo) (.inf .neg) 64 .toEven) :=
  C45_neg_inf_partial core exMinusTwo exMinusTwo_WF (by rw [exMinusTwo_val]; norm_num) 64 ValidP_64 .toEven
example : IsOne 64 (BF.pow core (.num Num.ONE) (.inf .neg) 64 .toEven) :=
  C45_one_partial core Num.ONE ONE_WF ONE_val .neg 64 ValidP_64 (by norm_num) .toEven
/-- `(-Inf)^2 = +Inf`. -/
example : BF.pow core (.inf .neg) (.num exTwo) 64 .toEven = .inf .pos :=
  ((C45_inf_base_partial core .neg exTwo exTwo_WF 64 ValidP_64 .toEven).2.1
    (by rw [exTwo_val]; norm_num)).2 (by
      rintro ⟨_, z, hz, h⟩
      rw [exTwo_val] at h
      have : z = 2 := by exact_mod_cast h.symm
      subst this
      exact absurd hz (by decide))

end AF
