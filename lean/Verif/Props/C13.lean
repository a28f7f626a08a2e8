import Verif.Props.C12
/-!
# C13: equality means equal value and is an equivalence on non-NaN numbers

The full claim fails in the code: `2^-65 == 0` holds while `0 == 2^-65` does not. It holds whenever
the pairs are not a tiny number against a zero of the same sign (see `CmpOk`); reflexivity and the
behaviour at infinities and NaN hold without restriction.
-/

namespace AF

/-- `2^-65`, 64 bits. -/
def ex65 : Num := { e := -64, s := .pos, m := { m := [MSB], n := 64 }, inexact := false }

theorem ex65_WF : ex65.WF := Num.WF_of_check (by decide)

theorem ex65_pos : (0 : ℚ) < ex65.toK := by
  unfold Num.toK ex65
  simp only [Sign.toK, one_mul]
  exact mul_pos (by norm_num [val, MSB]) (two_zpow_pos _)

/-- A nonzero number equals zero. -/
theorem C13_value_refuted : ¬ ∀ x y : Num, x.WF → y.WF →
    (BF.eq (.num x) (.num y) = true ↔ (x.toK : ℚ) = y.toK) := by
  intro h
  have := (h ex65 (Num.zero 64 .pos false) ex65_WF (zero64_WF _)).1 (by decide)
  rw [zero_toK] at this
  exact absurd this ex65_pos.ne'

/-- Equality is not symmetric. -/
theorem C13_symm_refuted : ¬ ∀ x y : Num, x.WF → y.WF →
    BF.eq (.num x) (.num y) = true → BF.eq (.num y) (.num x) = true := by
  intro h
  have := h ex65 (Num.zero 64 .pos false) ex65_WF (zero64_WF _) (by decide)
  exact absurd this (by decide)

theorem C13_eq_iff_value_partial (x y : Num) (hx : x.WF) (hy : y.WF) (hc : CmpOk x y) :
    BF.eq (.num x) (.num y) = true ↔ (x.toK : ℚ) = y.toK := by
  rw [← cmp_eq_zero hx hy hc]
  simp [BF.eq, BF.cmp]

/-- `0 == -0`. -/
example : BF.eq (.num (Num.zero 64 .pos false)) (.num (Num.zero 100 .neg false)) = true :=
  (C13_eq_iff_value_partial _ _ (zero64_WF _) (zero_WF (by decide) _ _)
    (Or.inl (zero_toK _ _ _))).2 (by rw [zero_toK, zero_toK])

theorem C13_refl (x : BF) (hx : x.WF) (h : x.isNan = false) : BF.eq x x = true := by
  cases x with
  | num v => exact (C13_eq_iff_value_partial v v hx hx CmpOk.refl).2 rfl
  | inf s => cases s <;> rfl
  | nan e => simp [BF.isNan] at h

example : BF.eq (.num exB) (.num exB) = true := C13_refl (.num exB) exB_WF rfl

theorem C13_nan (x y : BF) (h : x.isNan = true ∨ y.isNan = true) : BF.eq x y = false := by
  cases x <;> cases y <;> simp_all [BF.isNan, BF.eq, BF.cmp]

theorem C13_symm_partial (x y : BF) (hx : x.WF) (hy : y.WF)
    (hc : ∀ v w, x = .num v → y = .num w → CmpOk v w ∧ CmpOk w v) :
    BF.eq x y = BF.eq y x := by
  cases x with
  | num v => cases y with
    | num w =>
      obtain ⟨h1, h2⟩ := hc v w rfl rfl
      rw [Bool.eq_iff_iff, C13_eq_iff_value_partial v w hx hy h1,
        C13_eq_iff_value_partial w v hy hx h2, eq_comm]
    | inf s => cases s <;> rfl
    | nan e => rfl
  | inf s => cases y with
    | num w => cases s <;> rfl
    | inf t => cases s <;> cases t <;> rfl
    | nan e => rfl
  | nan e => cases y <;> rfl

theorem C13_trans_partial (x y z : BF) (hx : x.WF) (hy : y.WF) (hz : z.WF)
    (hc : ∀ u v w, x = .num u → y = .num v → z = .num w → CmpOk u v ∧ CmpOk v w ∧ CmpOk u w)
    (h1 : BF.eq x y = true) (h2 : BF.eq y z = true) : BF.eq x z = true := by
  cases x with
  | num u => cases y with
    | num v => cases z with
      | num w =>
        obtain ⟨a, b, c⟩ := hc u v w rfl rfl rfl
        rw [C13_eq_iff_value_partial _ _ hx hy a] at h1
        rw [C13_eq_iff_value_partial _ _ hy hz b] at h2
        rw [C13_eq_iff_value_partial _ _ hx hz c, h1, h2]
      | inf s => cases s <;> simp [BF.eq, BF.cmp] at h2
      | nan e => simp [BF.eq, BF.cmp] at h2
    | inf s => cases s <;> simp [BF.eq, BF.cmp] at h1
    | nan e => simp [BF.eq, BF.cmp] at h1
  | inf s => cases y with
    | num v => cases s <;> simp [BF.eq, BF.cmp, Sign.toInt] at h1
    | inf t => cases z with
      | num w => cases t <;> simp [BF.eq, BF.cmp, Sign.toInt] at h2
      | inf r => cases s <;> cases t <;> cases r <;> simp_all [BF.eq, BF.cmp, Sign.toInt]
      | nan e => simp [BF.eq, BF.cmp] at h2
    | nan e => simp [BF.eq, BF.cmp] at h1
  | nan e => simp [BF.eq, BF.cmp] at h1

end AF
