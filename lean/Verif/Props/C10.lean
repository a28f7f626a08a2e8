import Verif.Props.C11
import Mathlib.Tactic.FieldSimp
/-!
# C10: gradual underflow rounds correctly

In the directed modes (and `None`) a result below the normal range is the exact result rounded once to
the subnormal grid. In the round-to-nearest modes the full claim is false for the code: three quarters
of the smallest positive number are rounded to zero, and a value may be rounded twice.
-/

namespace AF

/-- `3/4`. -/
def exThreeQuarters : Num :=
  { e := 0, s := .pos, m := { m := [13835058055282163712], n := 64 }, inexact := false }

/-- The smallest positive 64-bit number, `2^(EMIN-64)`. -/
def exMinPos : Num := { e := EMIN, s := .pos, m := { m := [1], n := 1 }, inexact := false }

theorem exThreeQuarters_WF : exThreeQuarters.WF := Num.WF_of_check (by decide)
theorem exMinPos_WF : exMinPos.WF := Num.WF_of_check (by decide)

theorem exThreeQuarters_val : (exThreeQuarters.toK : ℚ) = 3 / 4 := by
  norm_num [Num.toK, exThreeQuarters, Sign.toK, val]

theorem toK_one_word (e : ℤ) (w n : ℕ) (ix : Bool) :
    (Num.toK { e := e, s := .pos, m := { m := [w], n := n }, inexact := ix } : ℚ) =
      w * 2 ^ (e - 64) := by
  have h : val [w] = w := by simp [val]
  simp only [Num.toK, Sign.toK, h, List.length_singleton, one_mul]
  norm_num

theorem exMinPos_val : (exMinPos.toK : ℚ) = 2 ^ (EMIN - 64) := by
  unfold exMinPos
  rw [toK_one_word, Nat.cast_one, one_mul]

/-- The full claim. -/
def C10_claim : Prop :=
  ∀ (op : Op) (x y : Num), x.WF → y.WF → op.Dom (y.toK : ℚ) → ∀ p, ValidP p → ∀ rm,
    |op.exact (x.toK : ℚ) y.toK| < 2 ^ (EMIN - 1) →
    ∃ v, op.apply (.num x) (.num y) p rm = .num v ∧
      RoundsFmt rm (precBits p) (op.exact (x.toK : ℚ) y.toK) v.toK

/-- `3/4 * min_positive` to nearest is zero in the code, though `min_positive` is nearer. -/
theorem C10_refuted : ¬ C10_claim := by
  intro h
  have hu : (0 : ℚ) < 2 ^ (EMIN - 64) := two_zpow_pos _
  have hX : Op.exact .mul (exThreeQuarters.toK : ℚ) exMinPos.toK = 3 / 4 * 2 ^ (EMIN - 64) := by
    show (exThreeQuarters.toK : ℚ) * exMinPos.toK = _
    rw [exThreeQuarters_val, exMinPos_val]
  have hle : (2 : ℚ) ^ (EMIN - 64) ≤ 2 ^ (EMIN - 1) := zpow_le_zpow_right₀ (by norm_num) (by omega)
  have habs : |(3 / 4 * 2 ^ (EMIN - 64) : ℚ)| = 3 / 4 * 2 ^ (EMIN - 64) :=
    abs_of_pos (mul_pos (by norm_num) hu)
  obtain ⟨v, h1, h2⟩ := h .mul exThreeQuarters exMinPos exThreeQuarters_WF exMinPos_WF trivial 64
    ValidP_64 .toEven (by rw [hX, habs]; linarith)
  have h3 : (Op.apply .mul (.num exThreeQuarters) (.num exMinPos) 64 .toEven).mantissaDigits =
      some [0] := by decide
  rw [h1] at h3
  have h3 : v.m.m = [0] := by simpa [BF.mantissaDigits] using h3
  have hv : (v.toK : ℚ) = 0 := by
    unfold Num.toK
    rw [h3]; simp [val]
  rw [hv, hX] at h2
  rcases h2 with ⟨h0, _⟩ | ⟨q, a1, a2, k, _, a3, _⟩
  · rw [h0] at habs; linarith
  · have hq : max q EMIN = EMIN := by
      rw [habs] at a1
      have : q - 1 < EMIN - 1 := (zpow_lt_zpow_iff_right₀ (by norm_num)).1
        (show (2 : ℚ) ^ (q - 1) < 2 ^ (EMIN - 1) by linarith)
      omega
    rw [hq, sub_zero, habs] at a3
    have e : ((precBits 64 : ℕ) : ℤ) = 64 := by decide
    rw [e] at a3
    linarith

/-- Missing from the full claim: the two round-to-nearest modes. -/
theorem C10_underflow_directed_partial (op : Op) (x y : Num) (hx : x.WF) (hy : y.WF)
    (hd : op.Dom (y.toK : ℚ)) (p : Nat) (hp : ValidP p) (rm : RM)
    (hrm : rm ≠ .toEven) (hrm' : rm ≠ .toOdd)
    (hX : |op.exact (x.toK : ℚ) y.toK| < 2 ^ (EMIN - 1)) :
    ∃ v, op.apply (.num x) (.num y) p rm = .num v ∧ 64 * v.m.m.length = precBits p ∧
      RoundsFmt rm (precBits p) (op.exact (x.toK : ℚ) y.toK) v.toK := by
  have h := op.delivers (K := ℚ) hx hy hd hp rm
  have hn : rm.nearest = false := by cases rm <;> simp_all [RM.nearest]
  cases hr : op.apply (.num x) (.num y) p rm with
  | num v =>
    rw [hr] at h
    exact ⟨v, rfl, h.2.1, Delivers.directed h hn⟩
  | inf s =>
    exfalso
    rw [hr] at h
    obtain ⟨_, t, h1, h2⟩ := h
    have h3 := h1.abs_le (precBits_pos hp.pos) hX.le
    have h4 : (2 : ℚ) ^ (EMIN - 1) < 2 ^ EMAX :=
      zpow_lt_zpow_right₀ (by norm_num) (by have := EMIN_lt_EMAX; omega)
    linarith
  | nan e => rw [hr] at h; exact absurd h id

/-- What the code guarantees in all modes, round-to-nearest included: the result is on the subnormal
grid, at most one unit of that grid from the exact result. Missing from the full claim: that it is the
nearer of the two neighbours. -/
theorem C10_underflow_nearest_partial (op : Op) (x y : Num) (hx : x.WF) (hy : y.WF)
    (hd : op.Dom (y.toK : ℚ)) (p : Nat) (hp : ValidP p) (rm : RM)
    (hX : |op.exact (x.toK : ℚ) y.toK| < 2 ^ (EMIN - 1)) :
    ∃ v, op.apply (.num x) (.num y) p rm = .num v ∧ 64 * v.m.m.length = precBits p ∧
      (∃ k : ℤ, (v.toK : ℚ) = k * 2 ^ (EMIN - (precBits p : ℤ))) ∧
      |op.exact (x.toK : ℚ) y.toK - v.toK| ≤ 2 ^ (EMIN - (precBits p : ℤ)) := by
  have hP := precBits_pos hp.pos
  have h := op.delivers (K := ℚ) hx hy hd hp rm
  set X := op.exact (x.toK : ℚ) y.toK with hXdef
  set P := precBits p
  have hlt : (2 : ℚ) ^ (EMIN - 1) < 2 ^ EMAX :=
      zpow_lt_zpow_right₀ (by norm_num) (by have := EMIN_lt_EMAX; omega)
  cases hr : op.apply (.num x) (.num y) p rm with
  | num v =>
    rw [hr] at h
    refine ⟨v, rfl, h.2.1, ?_⟩
    have hu : (0 : ℚ) < 2 ^ (EMIN - (P : ℤ)) := two_zpow_pos _
    have key : ∀ {t r : ℚ}, Rounds rm t (2 ^ (EMIN - (P : ℤ))) r →
        (∃ k : ℤ, r = k * 2 ^ (EMIN - (P : ℤ))) ∧ |t - r| ≤ 2 ^ (EMIN - (P : ℤ)) := by
      rintro t r ⟨k, hk, hh⟩
      refine ⟨⟨k, hk⟩, ?_⟩
      generalize (2 : ℚ) ^ (EMIN - (P : ℤ)) = u at *
      have same : ∀ {a b : ℚ}, 0 ≤ a * b → |a| ≤ |b| → |b| ≤ |a| + u → |a - b| ≤ u := by
        intro a b h1 h2 h3
        rcases le_total 0 a with ha | ha <;> rcases le_total 0 b with hb | hb
        · rw [abs_of_nonneg ha, abs_of_nonneg hb] at h2 h3
          rw [_root_.abs_le]; constructor <;> linarith
        · rw [abs_of_nonneg ha, abs_of_nonpos hb] at h2 h3
          have : a * b = 0 := le_antisymm (mul_nonpos_of_nonneg_of_nonpos ha hb) h1
          rcases mul_eq_zero.1 this with h0 | h0
          · rw [h0] at h2 h3 ⊢
            rw [_root_.abs_le]; constructor <;> linarith
          · rw [h0] at h2 h3 ⊢
            rw [_root_.abs_le]; constructor <;> linarith
        · rw [abs_of_nonpos ha, abs_of_nonneg hb] at h2 h3
          have : a * b = 0 := le_antisymm (mul_nonpos_of_nonpos_of_nonneg ha hb) h1
          rcases mul_eq_zero.1 this with h0 | h0
          · rw [h0] at h2 h3 ⊢
            rw [_root_.abs_le]; constructor <;> linarith
          · rw [h0] at h2 h3 ⊢
            rw [_root_.abs_le]; constructor <;> linarith
        · rw [abs_of_nonpos ha, abs_of_nonpos hb] at h2 h3
          rw [_root_.abs_le]; constructor <;> linarith
      cases rm
      · rw [abs_sub_comm]
        exact same (by rw [mul_comm]; exact hh.2.2) hh.1 hh.2.1.le
      · rw [_root_.abs_le]; constructor <;> linarith [hh.1, hh.2]
      · rw [_root_.abs_le]; constructor <;> linarith [hh.1, hh.2]
      · rw [abs_sub_comm]
        exact same (by rw [mul_comm]; exact hh.2.2) hh.1 hh.2.1.le
      · exact same hh.2.2 hh.1 hh.2.1.le
      · linarith [hh.1]
      · linarith [hh.1]
    rcases h.2.2.2.2.2 with (⟨h0, h1⟩ | ⟨q, a1, a2, a3⟩) | ⟨hn, _, t, b1, b2, b3⟩
    · rw [h0, h1]
      refine ⟨⟨0, by simp⟩, ?_⟩
      rw [sub_zero, abs_zero]; exact hu.le
    · have hq : max q EMIN = EMIN := by
        have : q - 1 < EMIN - 1 := (zpow_lt_zpow_iff_right₀ (by norm_num)).1 (lt_of_le_of_lt a1 hX)
        omega
      rw [hq] at a3
      exact key a3
    · have hXt : |X - t| ≤ 2 ^ (EMIN - (P : ℤ)) / 4 := by
        rcases b1 with ⟨c1, c2⟩ | ⟨q, c1, c2, k, _, c3⟩
        · rw [c1, c2, sub_zero, abs_zero]; linarith
        · have hq : q - 1 < EMIN - 1 := (zpow_lt_zpow_iff_right₀ (by norm_num)).1
            (lt_of_le_of_lt c1 hX)
          have hle : (2 : ℚ) ^ (q - (P : ℤ)) ≤ 2 ^ (EMIN - (P : ℤ)) / 2 := by
            have : (2 : ℚ) ^ (EMIN - (P : ℤ)) / 2 = 2 ^ (EMIN - (P : ℤ) - 1) := by
              rw [zpow_sub_one₀ (by norm_num)]; ring
            rw [this]
            exact zpow_le_zpow_right₀ (by norm_num) (by omega)
          cases rm <;> simp [RM.nearest] at hn <;> linarith [c3.1]
      unfold RoundsSub at b3
      split at b3
      · next hc =>
        rw [b3]
        refine ⟨⟨0, by simp⟩, ?_⟩
        rw [sub_zero]
        by_contra hcon
        push Not at hcon
        rcases lt_abs.1 hcon with hcon | hcon
        · have := (RoundsPrec.self_zpow rm hP (EMIN - (P : ℤ))).mono hP b1 hcon.le
          linarith [le_abs_self t, hc.2.2]
        · have := b1.mono hP (RoundsPrec.self_neg_zpow rm hP (EMIN - (P : ℤ))) (by linarith)
          linarith [neg_abs_le t, hc.2.2]
      · obtain ⟨k, hk, hh⟩ := b3
        have h2 : |t - v.toK| ≤ 2 ^ (EMIN - (P : ℤ)) / 2 := by
          cases rm <;> simp [RM.nearest] at hn <;> exact hh.1
        refine ⟨⟨k, hk⟩, ?_⟩
        have h3 := abs_sub_le X t v.toK
        linarith
  | inf s =>
    exfalso
    rw [hr] at h
    obtain ⟨_, t, h1, h2⟩ := h
    have h3 := h1.abs_le hP hX.le
    linarith
  | nan e => rw [hr] at h; exact absurd h id

/-- `3/4` of the smallest positive number rounded up. -/
example : ∃ v, Op.apply .mul (.num exThreeQuarters) (.num exMinPos) 64 .up = .num v ∧
    64 * v.m.m.length = precBits 64 ∧
    RoundsFmt .up (precBits 64) (Op.exact .mul (exThreeQuarters.toK : ℚ) exMinPos.toK) v.toK :=
  C10_underflow_directed_partial .mul exThreeQuarters exMinPos exThreeQuarters_WF exMinPos_WF trivial
    64 ValidP_64 .up (by decide) (by decide) (by
      show |(exThreeQuarters.toK : ℚ) * exMinPos.toK| < _
      rw [exThreeQuarters_val, exMinPos_val, abs_of_pos (mul_pos (by norm_num) (two_zpow_pos _))]
      have hle : (2 : ℚ) ^ (EMIN - 64) ≤ 2 ^ (EMIN - 1) := zpow_le_zpow_right₀ (by norm_num) (by omega)
      have hu : (0 : ℚ) < 2 ^ (EMIN - 64) := two_zpow_pos _
      linarith)

end AF
