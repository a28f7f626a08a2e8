import Verif.Lemmas.Samples
import Verif.Lemmas.FullPrec
/-!
# C09: full-precision operations are exact

The full claim is that `add_full_prec`, `sub_full_prec` and `mul_full_prec` return the exact sum,
difference and product. Two cases of it are false, see the `_refuted` theorems: a zero operand of
`add_full_prec` / `sub_full_prec` makes the result zero (num.rs 590-604 pass on the precision 0), and
results below the normal range are rounded to the length of the trimmed mantissa. Proved for all other
finite operands: any precisions, any exponent gap, any cancellation.
-/

namespace AF

/-- The public result of a full-precision operation whose exact value is `X`: exactly `X` when `X` is
zero or in the normal range, the infinity with the sign of `X` from `2^EMAX` on. -/
def ExactBF (X : ℚ) (ix : Bool) (r : BF) : Prop :=
  (X = 0 → ∃ v, r = .num v ∧ (v.toK : ℚ) = 0 ∧ v.inexact = ix) ∧
  ((2 : ℚ) ^ (EMIN - 1) ≤ |X| → |X| < (2 : ℚ) ^ EMAX →
    ∃ v, r = .num v ∧ (v.toK : ℚ) = X ∧ v.inexact = ix) ∧
  ((2 : ℚ) ^ EMAX ≤ |X| → r = .inf .pos ∧ 0 < X ∨ r = .inf .neg ∧ X < 0)

theorem FullDelivers.toBF {X : ℚ} {ix : Bool} {r : Except Err Num} (h : FullDelivers X ix r)
    (a b : Bool) : ExactBF X ix (BF.resultToExt r a b) := by
  obtain ⟨h1, h2, h3⟩ := h
  refine ⟨fun h => ?_, fun ha hb => ?_, fun h => ?_⟩
  · obtain ⟨v, rfl, h4, h5⟩ := h1 h
    exact ⟨v, rfl, h4, h5⟩
  · obtain ⟨v, rfl, h4, h5, _⟩ := h2 ha hb
    exact ⟨v, rfl, h4, h5⟩
  · rcases h3 h with ⟨rfl, h4⟩ | ⟨rfl, h4⟩
    · exact Or.inl ⟨rfl, h4⟩
    · exact Or.inr ⟨rfl, h4⟩

theorem C09_add_full_prec_partial (x y : Num) (hx : x.WF) (hy : y.WF) (hx0 : (x.toK : ℚ) ≠ 0)
    (hy0 : (y.toK : ℚ) ≠ 0) :
    ExactBF (x.toK + y.toK) (x.inexact || y.inexact) (BF.addFullPrec (.num x) (.num y)) := by
  have h := addSub_full (K := ℚ) hx hy (by simpa [hx.toK_eq_zero] using hx0)
    (by simpa [hy.toK_eq_zero] using hy0) true .none
  exact h.toBF _ _

/-- `1 + 2^-63` plus about `-1/8` needs more bits than either operand; all of them are returned. -/
example : ∃ v, BF.addFullPrec (.num exA) (.num exB) = .num v ∧ (v.toK : ℚ) = exA.toK + exB.toK ∧
    v.inexact = false :=
  (C09_add_full_prec_partial exA exB exA_WF exB_WF (by rw [exA_val]; norm_num)
    (by rw [exB_val]; norm_num)).2.1
    (le_trans (zpow_le_zpow_right₀ (by norm_num) (by decide : EMIN - 1 ≤ -1))
      (by rw [exA_val, exB_val, abs_of_pos (by norm_num)]; norm_num))
    (lt_of_lt_of_le (b := (2 : ℚ) ^ (1 : ℤ))
      (by rw [exA_val, exB_val, abs_of_pos (by norm_num)]; norm_num)
      (zpow_le_zpow_right₀ (by norm_num) (by decide : (1 : ℤ) ≤ EMAX)))

theorem C09_sub_full_prec_partial (x y : Num) (hx : x.WF) (hy : y.WF) (hx0 : (x.toK : ℚ) ≠ 0)
    (hy0 : (y.toK : ℚ) ≠ 0) :
    ExactBF (x.toK - y.toK) (x.inexact || y.inexact) (BF.subFullPrec (.num x) (.num y)) := by
  have h := addSub_full (K := ℚ) hx hy (by simpa [hx.toK_eq_zero] using hx0)
    (by simpa [hy.toK_eq_zero] using hy0) false .none
  simp only [Bool.false_eq_true, if_false, ← sub_eq_add_neg] at h
  exact h.toBF _ _

example : ∃ v, BF.subFullPrec (.num exB) (.num exB) = .num v ∧ (v.toK : ℚ) = 0 ∧
    v.inexact = false :=
  (C09_sub_full_prec_partial exB exB exB_WF exB_WF (by rw [exB_val]; norm_num)
    (by rw [exB_val]; norm_num)).1 (sub_self _)

/-- For the product a zero operand is no exception. -/
theorem C09_mul_full_prec_partial (x y : Num) (hx : x.WF) (hy : y.WF) :
    ExactBF (x.toK * y.toK) (decide ((x.toK : ℚ) * y.toK ≠ 0) && (x.inexact || y.inexact))
      (BF.mulFullPrec (.num x) (.num y)) := by
  have h := mulGeneral_full (K := ℚ) hx hy .none
  have hi : mulIx x y = (decide ((x.toK : ℚ) * y.toK ≠ 0) && (x.inexact || y.inexact)) := by
    unfold mulIx
    have e1 := hx.toK_eq_zero (K := ℚ)
    have e2 := hy.toK_eq_zero (K := ℚ)
    simp only [ne_eq, mul_eq_zero, e1, e2]
    cases x.isZero <;> cases y.isZero <;> simp
  rw [hi] at h
  exact h.toBF _ _

example : ∃ v, BF.mulFullPrec (.num exA) (.num exB) = .num v ∧ (v.toK : ℚ) = exA.toK * exB.toK ∧
    v.inexact = (decide ((exA.toK : ℚ) * exB.toK ≠ 0) && (exA.inexact || exB.inexact)) :=
  (C09_mul_full_prec_partial exA exB exA_WF exB_WF).2.1
    (le_trans (zpow_le_zpow_right₀ (by norm_num) (by decide : EMIN - 1 ≤ -4))
      (by rw [exA_val, exB_val, abs_of_neg (by norm_num)]; norm_num))
    (lt_of_lt_of_le (b := (2 : ℚ) ^ (1 : ℤ))
      (by rw [exA_val, exB_val, abs_of_neg (by norm_num)]; norm_num)
      (zpow_le_zpow_right₀ (by norm_num) (by decide : (1 : ℤ) ≤ EMAX)))

/-- `x.add_full_prec(0)`, `0.add_full_prec(x)` and `x.sub_full_prec(0)` are not `x`: the result is an
inexact zero without mantissa words. -/
theorem C09_zero_operand_refuted :
    (∃ x y : Num, x.WF ∧ y.WF ∧ (y.toK : ℚ) = 0 ∧ (x.toK : ℚ) ≠ 0 ∧
      (∃ v, BF.addFullPrec (.num x) (.num y) = .num v ∧ (v.toK : ℚ) ≠ x.toK + y.toK) ∧
      (∃ v, BF.addFullPrec (.num y) (.num x) = .num v ∧ (v.toK : ℚ) ≠ y.toK + x.toK) ∧
      (∃ v, BF.subFullPrec (.num x) (.num y) = .num v ∧ (v.toK : ℚ) ≠ x.toK - y.toK)) := by
  refine ⟨exA, Num.zero 64 .pos false, exA_WF, zero_WF (by decide) _ _, zero_toK _ _ _, ?_,
    ⟨Num.mk 1 .pos ⟨[], 0⟩ true, by decide, ?_⟩, ⟨Num.mk 1 .pos ⟨[], 0⟩ true, by decide, ?_⟩,
    ⟨Num.mk 1 .pos ⟨[], 0⟩ true, by decide, ?_⟩⟩
  · rw [exA_val]; norm_num
  all_goals
    rw [zero_toK, exA_val]
    norm_num [Num.toK, val]

/-- The smallest positive number of 128 bits plus itself is representable with 128 bits, but the
full-precision sum is zero. -/
theorem C09_subnormal_refuted :
    ∃ x : Num, x.WF ∧ BF.minPositive 128 = .num x ∧
      ∃ v, BF.addFullPrec (.num x) (.num x) = .num v ∧ (v.toK : ℚ) ≠ x.toK + x.toK := by
  refine ⟨Num.mk EMIN .pos ⟨[1, 0], 1⟩ false, Num.WF_of_check (by decide), by decide,
    Num.mk 0 .pos ⟨[0], 0⟩ true, by decide, ?_⟩
  have h1 : ((Num.mk 0 .pos ⟨[0], 0⟩ true).toK : ℚ) = 0 := by
    norm_num [Num.toK, val]
  rw [h1]
  have h2 : ((Num.mk EMIN .pos ⟨[1, 0], 1⟩ false).toK : ℚ) = (2 : ℚ) ^ (EMIN - (64 * 2 : ℕ)) := by
    simp [Num.toK, val, Sign.toK]
  rw [h2]
  have := zpow_pos (show (0 : ℚ) < 2 by norm_num) (EMIN - (64 * 2 : ℕ))
  linarith

end AF
