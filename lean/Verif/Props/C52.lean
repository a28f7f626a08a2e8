import Verif.Props.C51
import Verif.Props.C50
/-!
# C52: `pow` at finite special arguments

`pow(x, n)` for `n = 0`, `x = 0`, `x = ±1`, `n = ±1` and for a negative base with a non-integer exponent.
`core` is the part of `pow` that goes through `ln` and `exp`; these cases never reach it.

The documentation says that the precision is rounded upwards to the word size. For `n = 1` the code
forgets this and rounds to exactly `p` bits (`C52_exponent_one_refuted`); what is proved is rounding to `p`
bits. For `x = -1` and an odd exponent the code goes through `from_i8`, which rejects `p < 8`
(`C52_minus_one_refuted`).
-/

namespace AF
variable (core : Num → Num → Nat → RM → Except Err Num)

theorem sign_of_pos {x : Num} (h : (0 : ℚ) < x.toK) : x.s = .pos := by
  have hsg := Num.toK_eq (K := ℚ) x
  have hnn := abs_nonneg (x.toK : ℚ)
  cases hs : x.s with
  | pos => rfl
  | neg => rw [hs] at hsg; simp only [Sign.toK] at hsg; linarith

theorem sign_of_neg {x : Num} (h : (x.toK : ℚ) < 0) : x.s = .neg := by
  have hsg := Num.toK_eq (K := ℚ) x
  have hnn := abs_nonneg (x.toK : ℚ)
  cases hs : x.s with
  | neg => rfl
  | pos => rw [hs] at hsg; simp only [Sign.toK] at hsg; linarith

theorem isZero_false {x : Num} (hx : x.WF) (h : (x.toK : ℚ) ≠ 0) : x.isZero = false := by
  rw [← Bool.not_eq_true]; exact fun hc => h (hx.toK_eq_zero.2 hc)

/-- The test for `±1` (ops/pow.rs 459, 474). -/
theorem isOne_iff {x : Num} (hx : x.WF) (h0 : (x.toK : ℚ) ≠ 0) :
    (decide (x.e = 1) && decide (x.absCmp Num.ONE = 0)) = true ↔ |(x.toK : ℚ)| = 1 := by
  have hz := isZero_false hx h0
  have hc := absCmp_spec (K := ℚ) hx ONE_WF hz (by decide)
  rw [ONE_val, abs_one] at hc
  simp only [Bool.and_eq_true, decide_eq_true_eq]
  constructor
  · rintro ⟨_, h⟩
    rw [h] at hc
    simp only [lt_irrefl, false_iff, not_lt] at hc
    exact le_antisymm hc.1 hc.2
  · intro h
    rw [h] at hc
    simp only [lt_irrefl, iff_false] at hc
    refine ⟨?_, by omega⟩
    have h1 := hx.abs_lt_zpow (K := ℚ)
    rw [h] at h1
    have h2 : 0 < x.e := by
      by_contra hcon
      have : (2 : ℚ) ^ x.e ≤ 2 ^ (0 : ℤ) := zpow_le_zpow_right₀ (by norm_num) (by omega)
      rw [zpow_zero] at this; linarith
    rcases exp_of_bounds hx h0 with ⟨h3, _⟩ | h3
    · have : EMIN < 0 := by decide
      omega
    · rw [h] at h3
      by_contra hcon
      have : (2 : ℚ) ^ (1 : ℤ) ≤ 2 ^ (x.e - 1) := zpow_le_zpow_right₀ (by norm_num) (by omega)
      rw [zpow_one] at this; linarith

/-- `x^0 = 1` for every finite `x`. -/
theorem C52_zero_exponent (x n : Num) (hn : n.WF) (h : (n.toK : ℚ) = 0) (p : Nat) (hp : ValidP p) (rm : RM) :
    ∃ v, BF.pow core (.num x) (.num n) p rm = .num v ∧ v.WF ∧ 64 * v.m.m.length = precBits p ∧
      (v.toK : ℚ) = 1 ∧ (n.inexact = false → v.inexact = false) := by
  obtain ⟨v, h1, h2, h3, h4, h5⟩ := fromWord_spec (K := ℚ) (d := 1) (p := p) (by decide) hp.pos hp.lt'
  have hz : n.isZero = true := hn.toK_eq_zero.1 h
  rw [Nat.cast_one] at h4
  by_cases hi : n.inexact = true
  · refine ⟨{ v with inexact := if (decide (x.e = 1) && decide (x.absCmp Num.ONE = 0)) then x.inexact else true },
      ?_, ⟨h2.1, h2.2, h2.3, h2.4, h2.5, h2.6⟩, h3, h4, fun hc => ?_⟩
    · show BF.resultToExt (x.pow core n p rm) _ _ = _
      unfold Num.pow
      simp only [hz, if_true, h1, hi]; rfl
    · rw [hi] at hc; cases hc
  · refine ⟨v, ?_, h2, h3, h4, fun _ => h5⟩
    show BF.resultToExt (x.pow core n p rm) _ _ = _
    unfold Num.pow
    simp only [hz, if_true, h1, hi]; rfl

/-- `0^n`: zero for `n > 0`, an infinity for `n < 0`, negative only for a negative zero and an odd
integer `n`. -/
theorem C52_zero_base (x n : Num) (hx : x.WF) (hn : n.WF) (h : (x.toK : ℚ) = 0) (p : Nat) (hp : ValidP p)
    (rm : RM) (s : Sign)
    (hs : s = .neg ↔ x.s = .neg ∧ ∃ z : ℤ, Odd z ∧ (n.toK : ℚ) = z) :
    ((0 : ℚ) < n.toK → ∃ v, BF.pow core (.num x) (.num n) p rm = .num v ∧ v.WF ∧
      64 * v.m.m.length = precBits p ∧ (v.toK : ℚ) = 0 ∧ v.s = s ∧ v.inexact = x.inexact) ∧
    ((n.toK : ℚ) < 0 → BF.pow core (.num x) (.num n) p rm = .inf s) := by
  have hxz : x.isZero = true := hx.toK_eq_zero.1 h
  have hsx : ∀ h0 : (n.toK : ℚ) ≠ 0, (if n.isOddInt = true then x.s else Sign.pos) = s := by
    intro h0
    rw [← isOddInt_spec n hn h0] at hs
    by_cases ho : n.isOddInt = true
    · rw [if_pos ho]; simp only [ho, and_true] at hs
      cases hx' : x.s <;> cases hs' : s <;> rw [hx', hs'] at hs <;> simp_all
    · rw [if_neg ho]
      cases hs' : s
      · exact absurd (hs.1 hs').2 ho
      · rfl
  constructor
  · intro hpos
    have hz := isZero_false hn hpos.ne'
    have hneg : n.isNegative = false := by unfold Num.isNegative; rw [sign_of_pos hpos]; rfl
    refine ⟨Num.zero p s x.inexact, ?_, zero_WF (PMAX_words hp.lt') _ _, ?_, ?_, rfl, rfl⟩
    · show BF.resultToExt (x.pow core n p rm) _ _ = _
      unfold Num.pow
      simp only [hz, hxz, hneg, hsx hpos.ne', if_true, Bool.false_eq_true, if_false]
      unfold Num.new2
      rw [if_neg (by have := hp.lt'; omega)]; rfl
    · simp [Num.zero, Mantissa.new, precBits, wordLen]
    · exact (zero_WF (PMAX_words hp.lt') _ _).toK_eq_zero.2 rfl
  · intro hlt
    have hz := isZero_false hn hlt.ne
    have hneg : n.isNegative = true := by unfold Num.isNegative; rw [sign_of_neg hlt]; rfl
    show BF.resultToExt (x.pow core n p rm) _ _ = _
    unfold Num.pow
    simp only [hz, hxz, hneg, hsx hlt.ne, if_true, Bool.false_eq_true, if_false]
    cases s <;> rfl

/-- `1^n = 1`; `(-1)^n = 1` for an even integer `n`. -/
theorem C52_one_base (x n : Num) (hx : x.WF) (hn : n.WF) (h0 : (n.toK : ℚ) ≠ 0) (p : Nat) (hp : ValidP p) (rm : RM)
    (h : ((x.toK : ℚ) = 1 ∧ (8 ≤ p ∨ ¬ ∃ z : ℤ, Odd z ∧ (n.toK : ℚ) = z)) ∨
      ((x.toK : ℚ) = -1 ∧ ∃ z : ℤ, Even z ∧ (n.toK : ℚ) = z)) :
    ∃ v, BF.pow core (.num x) (.num n) p rm = .num v ∧ v.WF ∧ 64 * v.m.m.length = precBits p ∧
      (v.toK : ℚ) = 1 ∧ v.inexact = (x.inexact || n.inexact) := by
  have habs : |(x.toK : ℚ)| = 1 := by
    rcases h with ⟨h, _⟩ | ⟨h, _⟩ <;> rw [h] <;> norm_num
  have hx0 : (x.toK : ℚ) ≠ 0 := by intro hc; rw [hc] at habs; norm_num at habs
  have hz := isZero_false hn h0
  have hxz := isZero_false hx hx0
  have h1 := (isOne_iff hx hx0).2 habs
  by_cases ho : n.isOddInt = true
  · obtain ⟨z, hz1, hz2⟩ := (isOddInt_spec n hn h0).1 ho
    rcases h with ⟨hx1, h8⟩ | ⟨_, z', hz3, hz4⟩
    · have h8 : 8 ≤ p := h8.resolve_right (fun hc => hc ⟨z, hz1, hz2⟩)
      have hs : x.s = .pos := sign_of_pos (by rw [hx1]; norm_num)
      obtain ⟨v, a1, a2, a3, a4, a5⟩ := fromI_spec (K := ℚ) (sz := 8) (p := p) (i := x.s.toInt) (by norm_num)
        (by norm_num) (by rw [hs]; decide) h8 hp.lt'
      refine ⟨{ v with inexact := x.inexact || n.inexact }, ?_, ⟨a2.1, a2.2, a2.3, a2.4, a2.5, a2.6⟩, a3, ?_, rfl⟩
      · show BF.resultToExt (x.pow core n p rm) _ _ = _
        unfold Num.pow
        simp only [hz, hxz, h1, ho, if_true, Bool.false_eq_true, if_false, a1]; rfl
      · show (v.toK : ℚ) = 1
        rw [a4, hs]; simp [Sign.toInt]
    · rw [hz2] at hz4
      have : z = z' := by exact_mod_cast hz4
      subst this
      exact absurd hz1 (Int.not_odd_iff_even.2 hz3)
  · obtain ⟨v, a1, a2, a3, a4, a5⟩ := fromWord_spec (K := ℚ) (d := 1) (p := p) (by decide) hp.pos hp.lt'
    refine ⟨{ v with inexact := x.inexact || n.inexact }, ?_, ⟨a2.1, a2.2, a2.3, a2.4, a2.5, a2.6⟩, a3,
      by show (v.toK : ℚ) = 1; simpa using a4, rfl⟩
    have hcond : (x.isPositive || n.isInt) = true := by
      rcases h with ⟨hx1, _⟩ | ⟨_, z', _, hz4⟩
      · have hs : x.s = .pos := sign_of_pos (by rw [hx1]; norm_num)
        simp [Num.isPositive, hs]
      · simp [(isInt_spec n hn).2 ⟨z', hz4⟩]
    show BF.resultToExt (x.pow core n p rm) _ _ = _
    unfold Num.pow
    simp only [hz, hxz, h1, ho, hcond, if_true, Bool.false_eq_true, if_false, a1]; rfl

/-- `(-1)^n = -1` for an odd integer `n`, at precisions of at least 8 bits. -/
theorem C52_minus_one_partial (x n : Num) (hx : x.WF) (hn : n.WF) (p : Nat) (hp : ValidP p) (h8 : 8 ≤ p) (rm : RM)
    (h : (x.toK : ℚ) = -1) (ho : ∃ z : ℤ, Odd z ∧ (n.toK : ℚ) = z) :
    ∃ v, BF.pow core (.num x) (.num n) p rm = .num v ∧ v.WF ∧ 64 * v.m.m.length = precBits p ∧
      (v.toK : ℚ) = -1 ∧ v.inexact = (x.inexact || n.inexact) := by
  have h0 : (n.toK : ℚ) ≠ 0 := by
    obtain ⟨z, hz1, hz2⟩ := ho
    rw [hz2]; intro hc
    have : z = 0 := by exact_mod_cast hc
    subst this; exact absurd hz1 (by decide)
  have hx0 : (x.toK : ℚ) ≠ 0 := by rw [h]; norm_num
  have hz := isZero_false hn h0
  have hxz := isZero_false hx hx0
  have h1 := (isOne_iff hx hx0).2 (by rw [h]; norm_num)
  have hodd := (isOddInt_spec n hn h0).2 ho
  have hs : x.s = .neg := sign_of_neg (by rw [h]; norm_num)
  obtain ⟨v, a1, a2, a3, a4, a5⟩ := fromI_spec (K := ℚ) (sz := 8) (p := p) (i := x.s.toInt) (by norm_num)
    (by norm_num) (by rw [hs]; decide) h8 hp.lt'
  refine ⟨{ v with inexact := x.inexact || n.inexact }, ?_, ⟨a2.1, a2.2, a2.3, a2.4, a2.5, a2.6⟩, a3, ?_, rfl⟩
  · show BF.resultToExt (x.pow core n p rm) _ _ = _
    unfold Num.pow
    simp only [hz, hxz, h1, hodd, if_true, Bool.false_eq_true, if_false, a1]; rfl
  · show (v.toK : ℚ) = -1
    rw [a4, hs]; simp [Sign.toInt]

/-- A negative base with a non-integer exponent is an invalid argument. -/
theorem C52_negative_base (x n : Num) (hx : x.WF) (hn : n.WF) (h : (x.toK : ℚ) < 0)
    (hi : ¬ ∃ z : ℤ, (n.toK : ℚ) = z) (p : Nat) (rm : RM) :
    BF.pow core (.num x) (.num n) p rm = .nan (some .invalidArgument) := by
  have h0 : (n.toK : ℚ) ≠ 0 := fun hc => hi ⟨0, by rw [hc]; simp⟩
  have hz := isZero_false hn h0
  have hxz := isZero_false hx h.ne
  have hint : n.isInt = false := by rw [← Bool.not_eq_true]; exact fun hc => hi ((isInt_spec n hn).1 hc)
  have hodd : n.isOddInt = false := by
    rw [← Bool.not_eq_true]; intro hc
    obtain ⟨z, _, hz2⟩ := (isOddInt_spec n hn h0).1 hc
    exact hi ⟨z, hz2⟩
  have hneg : x.isNegative = true := by unfold Num.isNegative; rw [sign_of_neg h]; rfl
  have hpos : x.isPositive = false := by unfold Num.isPositive; rw [sign_of_neg h]; rfl
  show BF.resultToExt (x.pow core n p rm) _ _ = _
  unfold Num.pow
  simp only [hz, hxz, hodd, hint, hneg, hpos, Bool.false_eq_true, if_false, Bool.or_self, Bool.not_false,
    Bool.and_true, if_true]
  split <;> rfl

theorem pow_dispatch_unit (x n : Num) (hx : x.WF) (hn : n.WF) (hx0 : (x.toK : ℚ) ≠ 0)
    (hx1 : |(x.toK : ℚ)| ≠ 1) (h : |(n.toK : ℚ)| = 1) (p : Nat) (rm : RM) :
    x.pow core n p rm = if n.isPositive then
      match x.setPrecision p rm with
      | .error e => .error e
      | .ok r => .ok { r with inexact := r.inexact || n.inexact }
    else
      match Num.ONE.div x p rm with
      | .error e => .error e
      | .ok r => .ok { r with inexact := r.inexact || n.inexact } := by
  have h0 : (n.toK : ℚ) ≠ 0 := by intro hc; rw [hc] at h; norm_num at h
  have hz := isZero_false hn h0
  have hxz := isZero_false hx hx0
  have h1 : (decide (x.e = 1) && decide (x.absCmp Num.ONE = 0)) = false := by
    rw [← Bool.not_eq_true, isOne_iff hx hx0]; exact hx1
  have h2 := (isOne_iff hn h0).2 h
  have hint : n.isInt = true := by
    rw [isInt_spec n hn]
    rcases abs_choice (n.toK : ℚ) with hc | hc
    · exact ⟨1, by rw [← hc, h]; simp⟩
    · exact ⟨-1, by have : (n.toK : ℚ) = -|(n.toK : ℚ)| := by rw [hc]; ring
                    rw [this, h]; simp⟩
  unfold Num.pow
  simp only [hz, hxz, h1, h2, hint, Bool.not_true, Bool.and_false, Bool.false_eq_true, if_false, if_true]
  split
  · cases x.setPrecision p rm <;> rfl
  · cases Num.ONE.div x p rm <;> rfl

/-- `x^1` is `x` rounded to exactly `p` bits (whole words in mode `None`), see the note above. -/
theorem C52_exponent_one_partial (x n : Num) (hx : x.WF) (hn : n.WF) (hx0 : (x.toK : ℚ) ≠ 0)
    (hx1 : |(x.toK : ℚ)| ≠ 1) (h : (n.toK : ℚ) = 1) (p : Nat) (hp : ValidP p) (rm : RM) :
    (∃ v, BF.pow core (.num x) (.num n) p rm = .num v ∧ v.WF ∧ 64 * v.m.m.length = precBits p ∧ v.s = x.s ∧
      RoundsFmt rm (setPrecBits rm p) (x.toK : ℚ) v.toK) ∨
    (BF.pow core (.num x) (.num n) p rm = .inf x.s ∧
      ∃ t : ℚ, RoundsPrec rm (setPrecBits rm p) (x.toK : ℚ) t ∧ (2 : ℚ) ^ EMAX ≤ |t|) := by
  have hpos : n.isPositive = true := by unfold Num.isPositive; rw [sign_of_pos (by rw [h]; norm_num)]; rfl
  have hd := pow_dispatch_unit core x n hx hn hx0 hx1 (by rw [h]; norm_num) p rm
  rw [if_pos hpos] at hd
  have hb : BF.pow core (.num x) (.num n) p rm = BF.resultToExt (x.pow core n p rm) x.isZero (x.s == n.s) := rfl
  rw [hb, hd]
  rcases C07_set_precision_rounds x hx p hp.pos (by rw [← PMAX_eq]; exact hp.lt') rm with
    ⟨v, h1, h2, h3, h4, h5⟩ | ⟨h1, h2⟩
  · left
    cases hr : x.setPrecision p rm with
    | ok w =>
      simp only [BF.setPrecision, hr, Except.ok.injEq, BF.num.injEq] at h1
      subst h1
      exact ⟨{ w with inexact := w.inexact || n.inexact }, rfl, ⟨h2.1, h2.2, h2.3, h2.4, h2.5, h2.6⟩, h3, h4, h5⟩
    | error er => simp [BF.setPrecision, hr] at h1
  · right
    refine ⟨?_, h2⟩
    cases hr : x.setPrecision p rm with
    | ok w => simp [BF.setPrecision, hr] at h1
    | error er =>
      simp only [BF.setPrecision, hr, Except.error.injEq] at h1
      subst h1
      cases hs : x.s <;> rfl

/-- `1.5`, 64 bits. -/
def exOneHalf : Num := Num.mk 1 .pos ⟨[MSB + 2 ^ 62], 64⟩ false
theorem exOneHalf_WF : exOneHalf.WF := Num.WF_of_check (by decide)
theorem exOneHalf_val : (exOneHalf.toK : ℚ) = 3 / 2 := by norm_num [Num.toK, exOneHalf, Sign.toK, val, MSB, B]

/-- `1.5^1` at precision 1 is `2`, although `1.5` is exact in one word. -/
theorem C52_exponent_one_refuted : ¬ ∀ (x n : Num) (p : Nat) (rm : RM), x.WF → n.WF → (n.toK : ℚ) = 1 → ValidP p →
    ∃ v, BF.pow core (.num x) (.num n) p rm = .num v ∧ RoundsFmt rm (precBits p) (x.toK : ℚ) v.toK := by
  intro h
  obtain ⟨v, h1, h2⟩ := h exOneHalf Num.ONE 1 .toEven exOneHalf_WF ONE_WF ONE_val ⟨by norm_num, by decide⟩
  have h3 : BF.pow core (.num exOneHalf) (.num Num.ONE) 1 .toEven = .num (Num.mk 2 .pos ⟨[MSB], 64⟩ true) := rfl
  rw [h3, BF.num.injEq] at h1
  have hv : (v.toK : ℚ) = 2 := by
    rw [← h1]; norm_num [Num.toK, Sign.toK, val, MSB, B]
  rw [hv, exOneHalf_val] at h2
  have h4 : RoundsFmt .toEven (precBits 1) (3 / 2 : ℚ) (3 / 2) := by
    have := exOneHalf_WF.repr (K := ℚ) (P := precBits 1) (by decide) .toEven
    rwa [exOneHalf_val] at this
  have h5 := (h2.toPrec (le_trans (zpow_le_zpow_right₀ (by norm_num) (by decide : EMIN - 1 ≤ 0)) (by norm_num [abs_of_pos]))).unique
    (by decide) (h4.toPrec (le_trans (zpow_le_zpow_right₀ (by norm_num) (by decide : EMIN - 1 ≤ 0)) (by norm_num [abs_of_pos])))
  norm_num at h5

/-- `x^-1` is the correctly rounded reciprocal. -/
theorem C52_exponent_minus_one (x n : Num) (hx : x.WF) (hn : n.WF) (hx0 : (x.toK : ℚ) ≠ 0)
    (hx1 : |(x.toK : ℚ)| ≠ 1) (h : (n.toK : ℚ) = -1) (hni : n.inexact = false) (p : Nat) (hp : ValidP p) (rm : RM) :
    DeliversBF rm (precBits p) (1 / x.toK : ℚ) x.inexact (BF.pow core (.num x) (.num n) p rm) := by
  have hneg : n.isPositive = false := by unfold Num.isPositive; rw [sign_of_neg (by rw [h]; norm_num)]; rfl
  have hd := pow_dispatch_unit core x n hx hn hx0 hx1 (by rw [h]; norm_num) p rm
  rw [hneg, if_neg (by simp), hni] at hd
  have hb : BF.pow core (.num x) (.num n) p rm = BF.resultToExt (x.pow core n p rm) x.isZero (x.s == n.s) := rfl
  have hsp := div_spec (K := ℚ) ONE_WF hx (isZero_false hx hx0) hp.pos hp.lt_PMAX rm
  rw [hp.roundP, ONE_val] at hsp
  rw [hb, hd]
  refine Delivers.toBF ?_ _ _
  have hix : divIx Num.ONE x = x.inexact := rfl
  rw [hix] at hsp
  revert hsp
  cases Num.ONE.div x p rm with
  | error e => exact fun h => h
  | ok r =>
    intro h
    have he : ({ r with inexact := r.inexact || false } : Num) = r := by rw [Bool.or_false]
    show Delivers _ _ _ _ (.ok ({ r with inexact := r.inexact || false } : Num))
    rw [he]; exact h

/-- `(-1)^1` at a precision below 8 bits is NaN. -/
theorem C52_minus_one_refuted : ¬ ∀ (x n : Num) (p : Nat) (rm : RM), x.WF → n.WF → ValidP p → (x.toK : ℚ) = -1 →
    (∃ z : ℤ, Odd z ∧ (n.toK : ℚ) = z) → ∃ v, BF.pow core (.num x) (.num n) p rm = .num v := by
  intro h
  obtain ⟨v, h1⟩ := h Num.ONE.neg Num.ONE 1 .toEven (Num.WF_of_check (by decide)) ONE_WF
    ⟨by norm_num, by decide⟩ (by norm_num [Num.toK, Num.ONE, Num.neg, Sign.invert, Sign.toK, val, MSB, B])
    ⟨1, by decide, by rw [ONE_val]; norm_num⟩
  have h2 : BF.pow core (.num Num.ONE.neg) (.num Num.ONE) 1 .toEven = .nan (some .invalidArgument) := rfl
  rw [h2] at h1
  cases h1

example : BF.pow core (.num exMinusTwo) (.num exHalf) 64 .up = .nan (some .invalidArgument) :=
  C52_negative_base core exMinusTwo exHalf exMinusTwo_WF exHalf_WF (by rw [exMinusTwo_val]; norm_num)
    (by
      rintro ⟨z, hz⟩
      rw [exHalf_val] at hz
      have h2 : (1 : ℚ) = 2 * z := by rw [← hz]; norm_num
      have h3 : (1 : ℤ) = 2 * z := by exact_mod_cast h2
      omega) 64 .up

example : ∃ v, BF.pow core (.num exB) (.num (Num.zero 64 .neg false)) 100 .up = .num v ∧ v.WF ∧
    64 * v.m.m.length = precBits 100 ∧ (v.toK : ℚ) = 1 ∧ ((Num.zero 64 .neg false).inexact = false → v.inexact = false) :=
  C52_zero_exponent core exB (Num.zero 64 .neg false) (zero_WF (by decide) _ _) (zero_toK _ _ _) 100 ValidP_100 .up

/-- `(-0)^(-2) = +Inf`, `(-0)^(-1) = -Inf`. -/
example : BF.pow core (.num (Num.zero 64 .neg false)) (.num exMinusTwo) 64 .up = .inf .pos :=
  (C52_zero_base core (Num.zero 64 .neg false) exMinusTwo (zero_WF (by decide) _ _) exMinusTwo_WF
    (zero_toK _ _ _) 64 ValidP_64 .up .pos
    ⟨fun h => (by cases h), fun ⟨_, z, h1, h2⟩ => by
      rw [exMinusTwo_val] at h2
      have h3 : (-2 : ℤ) = z := by exact_mod_cast h2
      subst h3; exact absurd h1 (by decide)⟩).2 (by rw [exMinusTwo_val]; norm_num)

example : BF.pow core (.num (Num.zero 64 .neg false)) (.num Num.ONE.neg) 64 .up = .inf .neg :=
  (C52_zero_base core (Num.zero 64 .neg false) Num.ONE.neg (zero_WF (by decide) _ _) (Num.WF_of_check (by decide))
    (zero_toK _ _ _) 64 ValidP_64 .up .neg
    ⟨fun _ => ⟨rfl, -1, by decide, by norm_num [Num.toK, Num.ONE, Num.neg, Sign.invert, Sign.toK, val, MSB, B]⟩,
      fun _ => rfl⟩).2
    (by norm_num [Num.toK, Num.ONE, Num.neg, Sign.invert, Sign.toK, val, MSB, B])

example : ∃ v, BF.pow core (.num Num.ONE) (.num exHalf) 100 .up = .num v ∧ v.WF ∧ 64 * v.m.m.length = precBits 100 ∧
    (v.toK : ℚ) = 1 ∧ v.inexact = (Num.ONE.inexact || exHalf.inexact) :=
  C52_one_base core Num.ONE exHalf ONE_WF exHalf_WF (by rw [exHalf_val]; norm_num) 100 ValidP_100 .up
    (Or.inl ⟨ONE_val, Or.inl (by norm_num)⟩)

example : DeliversBF .toOdd (precBits 100) (1 / exMinusTwo.toK : ℚ) exMinusTwo.inexact
    (BF.pow core (.num exMinusTwo) (.num Num.ONE.neg) 100 .toOdd) :=
  C52_exponent_minus_one core exMinusTwo Num.ONE.neg exMinusTwo_WF (Num.WF_of_check (by decide))
    (by rw [exMinusTwo_val]; norm_num) (by rw [exMinusTwo_val]; norm_num)
    (by norm_num [Num.toK, Num.ONE, Num.neg, Sign.invert, Sign.toK, val, MSB, B]) rfl 100 ValidP_100 .toOdd

end AF
