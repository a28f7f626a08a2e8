import Verif.Lemmas.Rem
import Verif.Lemmas.Samples
/-!
# C06: remainder

The full claim is that `x.rem(y)` is `x - y * trunc(x / y)` for all finite `x` and all finite non-zero
`y`. It is proved whenever that value is zero or not below the normal range. Below the normal range the
claim is false: num.rs 463 compares with `usize::MAX as isize`, which is `-1`, so that the remainder is
replaced by zero (`C06_subnormal_refuted`).
-/

namespace AF

theorem C06_rem_partial (x y : Num) (hx : x.WF) (hy : y.WF) (hy0 : (y.toK : ℚ) ≠ 0)
    (hn : (x.toK : ℚ) - y.toK * truncQ (x.toK / y.toK) = 0 ∨
      (2 : ℚ) ^ (EMIN - 1) ≤ |(x.toK : ℚ) - y.toK * truncQ (x.toK / y.toK)|) :
    ∃ v, BF.rem (.num x) (.num y) = .num v ∧ v.s = x.s ∧
      (v.toK : ℚ) = x.toK - y.toK * truncQ (x.toK / y.toK) := by
  obtain ⟨v, h1, h2, _, _, _, _, _, h3, _⟩ :=
    rem_spec hx hy (by simpa [hy.toK_eq_zero] using hy0)
  refine ⟨v, by simp only [BF.rem, h1, BF.resultToExt], h2, ?_⟩
  rcases h3 with h3 | ⟨_, h4, h5⟩
  · exact h3
  · rcases hn with hn | hn
    · exact absurd hn h4
    · exact absurd h5 (not_lt.2 hn)

theorem exA_rem_exB : (exA.toK : ℚ) - exB.toK * truncQ (exA.toK / exB.toK) =
    9223372036854775809 / 9223372036854775808 -
      7 * 170141183460469231787027535937012760581 / 1361129467683753853853498429727072845824 := by
  have : truncQ (exA.toK / exB.toK) = -7 := by
    rw [exA_val, exB_val]
    unfold truncQ
    rw [if_neg (by norm_num), Int.ceil_eq_iff]
    norm_num
  rw [this, exA_val, exB_val]
  norm_num

/-- `1 + 2^-63` modulo about `-1/8`. -/
example : ∃ v, BF.rem (.num exA) (.num exB) = .num v ∧ v.s = exA.s ∧
    (v.toK : ℚ) = exA.toK - exB.toK * truncQ (exA.toK / exB.toK) :=
  C06_rem_partial exA exB exA_WF exB_WF (by rw [exB_val]; norm_num) (Or.inr (by
    refine le_trans (zpow_le_zpow_right₀ (by norm_num) (by decide : EMIN - 1 ≤ -4)) ?_
    rw [exA_rem_exB, abs_of_pos (by norm_num)]
    norm_num))

/-- The defining properties of the remainder: the sign of `x`, a magnitude below `|y|`, and an integer
multiple of `y` as difference to `x`. They hold for every finite `x` and finite non-zero `y` unless the
remainder is below the normal range, in which case the result is the remainder or zero. -/
theorem C06_rem_properties_partial (x y : Num) (hx : x.WF) (hy : y.WF) (hy0 : (y.toK : ℚ) ≠ 0) :
    ∃ v, BF.rem (.num x) (.num y) = .num v ∧ v.s = x.s ∧ |(v.toK : ℚ)| < |(y.toK : ℚ)| ∧
      ((∃ k : ℤ, (x.toK : ℚ) = k * y.toK + v.toK) ∨
        (v.toK : ℚ) = 0 ∧ ∃ (k : ℤ) (r : ℚ), (x.toK : ℚ) = k * y.toK + r ∧
          0 < |r| ∧ |r| < (2 : ℚ) ^ (EMIN - 1) ∧ |r| < |(y.toK : ℚ)|) := by
  obtain ⟨v, h1, h2, _, _, _, _, _, h3, _⟩ :=
    rem_spec hx hy (by simpa [hy.toK_eq_zero] using hy0)
  have hlt : |(x.toK : ℚ) - y.toK * truncQ (x.toK / y.toK)| < |(y.toK : ℚ)| := by
    have hf : |(x.toK / y.toK : ℚ) - truncQ (x.toK / y.toK)| < 1 := by
      generalize (x.toK / y.toK : ℚ) = q
      unfold truncQ
      split
      · rw [abs_of_nonneg (by linarith [Int.floor_le q])]
        linarith [Int.lt_floor_add_one q]
      · rw [abs_of_nonpos (by linarith [Int.le_ceil q])]
        linarith [Int.ceil_lt_add_one q]
    have e : (x.toK : ℚ) - y.toK * truncQ (x.toK / y.toK) =
        y.toK * (x.toK / y.toK - truncQ (x.toK / y.toK)) := by
      field_simp
    rw [e, abs_mul]
    calc _ < |(y.toK : ℚ)| * 1 := mul_lt_mul_of_pos_left hf (abs_pos.2 hy0)
      _ = _ := mul_one _
  refine ⟨v, by simp only [BF.rem, h1, BF.resultToExt], h2, ?_⟩
  rcases h3 with h3 | ⟨h3, h4, h5⟩
  · rw [h3]
    exact ⟨hlt, Or.inl ⟨truncQ (x.toK / y.toK), by ring⟩⟩
  · refine ⟨by rw [h3, abs_zero]; exact abs_pos.2 hy0, Or.inr ⟨h3, truncQ (x.toK / y.toK), _, ?_,
      abs_pos.2 h4, h5, hlt⟩⟩
    ring

example : ∃ v, BF.rem (.num exB) (.num exA) = .num v ∧ v.s = exB.s ∧
    |(v.toK : ℚ)| < |(exA.toK : ℚ)| ∧
      ((∃ k : ℤ, (exB.toK : ℚ) = k * exA.toK + v.toK) ∨
        (v.toK : ℚ) = 0 ∧ ∃ (k : ℤ) (r : ℚ), (exB.toK : ℚ) = k * exA.toK + r ∧
          0 < |r| ∧ |r| < (2 : ℚ) ^ (EMIN - 1) ∧ |r| < |(exA.toK : ℚ)|) :=
  C06_rem_properties_partial exB exA exB_WF exA_WF (by rw [exA_val]; norm_num)

/-- A zero divisor gives NaN with an error. -/
theorem C06_rem_zero (x y : Num) (hy : y.WF) (hy0 : (y.toK : ℚ) = 0) :
    BF.rem (.num x) (.num y) = .nan (some .invalidArgument) := by
  have hz := (hy.toK_eq_zero (K := ℚ)).1 hy0
  simp [BF.rem, Num.rem, hz, BF.resultToExt]

example : BF.rem (.num exA) (.num (Num.zero 64 .pos false)) = .nan (some .invalidArgument) :=
  C06_rem_zero exA _ (zero_WF (by decide) _ _) (zero_toK _ _ _)

/-- `3u` modulo `2u`, where `u` is the smallest positive number of 64 bits, is `0` instead of `u`. -/
theorem C06_subnormal_refuted :
    ∃ x y : Num, x.WF ∧ y.WF ∧ (y.toK : ℚ) ≠ 0 ∧ ∃ v, BF.rem (.num x) (.num y) = .num v ∧
      (v.toK : ℚ) ≠ x.toK - y.toK * truncQ (x.toK / y.toK) := by
  refine ⟨Num.mk EMIN .pos ⟨[3], 2⟩ false, Num.mk EMIN .pos ⟨[2], 2⟩ false,
    Num.WF_of_check (by decide), Num.WF_of_check (by decide), ?_, Num.mk 0 .pos ⟨[0], 0⟩ false,
    by decide, ?_⟩
  all_goals
    have h1 : ((Num.mk EMIN .pos ⟨[3], 2⟩ false).toK : ℚ) = 3 * (2 : ℚ) ^ (EMIN - (64 * 1 : ℕ)) := by
      simp [Num.toK, val, Sign.toK]
    have h2 : ((Num.mk EMIN .pos ⟨[2], 2⟩ false).toK : ℚ) = 2 * (2 : ℚ) ^ (EMIN - (64 * 1 : ℕ)) := by
      simp [Num.toK, val, Sign.toK]
    have hp := zpow_pos (show (0 : ℚ) < 2 by norm_num) (EMIN - (64 * 1 : ℕ))
  · rw [h2]; positivity
  · have h0 : ((Num.mk 0 .pos ⟨[0], 0⟩ false).toK : ℚ) = 0 := by norm_num [Num.toK, val]
    rw [h0, h1, h2]
    generalize (2 : ℚ) ^ (EMIN - (64 * 1 : ℕ)) = u at *
    have : truncQ (3 * u / (2 * u)) = 1 := by
      rw [show 3 * u / (2 * u) = 3 / 2 by field_simp]
      unfold truncQ
      rw [if_pos (by norm_num), Int.floor_eq_iff]
      norm_num
    rw [this]
    push_cast
    linarith

end AF
