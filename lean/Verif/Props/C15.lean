import Verif.Props.C12
/-!
# C15: infinities and NaN order as on the extended real line
-/

namespace AF

/-- `x < y` as decided by `partial_cmp`. -/
def BF.Lt (x y : BF) : Prop := BF.partialCmp x y = some .lt

theorem C15_cmp_none_iff (x y : BF) : BF.cmp x y = none ↔ x.isNan = true ∨ y.isNan = true := by
  cases x with
  | num v => cases y with
    | num w => simp [BF.cmp, BF.isNan]
    | inf s => cases s <;> simp [BF.cmp, BF.isNan]
    | nan e => simp [BF.cmp, BF.isNan]
  | inf s => cases y <;> simp [BF.cmp, BF.isNan]
  | nan e => simp [BF.cmp, BF.isNan]

theorem C15_partial_cmp_none_iff (x y : BF) :
    BF.partialCmp x y = none ↔ x.isNan = true ∨ y.isNan = true := by
  rw [← C15_cmp_none_iff]
  unfold BF.partialCmp
  cases h : BF.cmp x y with
  | none => simp
  | some c => simp only [reduceCtorEq, iff_false]; split <;> [simp; (split <;> simp)]

theorem C15_inf_order (v : Num) :
    BF.partialCmp (.inf .pos) (.num v) = some .gt ∧ BF.partialCmp (.num v) (.inf .pos) = some .lt ∧
    BF.partialCmp (.inf .neg) (.num v) = some .lt ∧ BF.partialCmp (.num v) (.inf .neg) = some .gt ∧
    BF.partialCmp (.inf .pos) (.inf .neg) = some .gt ∧
    BF.partialCmp (.inf .neg) (.inf .pos) = some .lt ∧
    BF.partialCmp (.inf .pos) (.inf .pos) = some .eq ∧
    BF.partialCmp (.inf .neg) (.inf .neg) = some .eq := by
  refine ⟨?_, ?_, ?_, ?_, ?_, ?_, ?_, ?_⟩ <;> rfl

/-- Transitivity of `<` for triples with an infinity or a NaN. -/
theorem C15_trans (x y z : BF)
    (h : x.isInf = true ∨ y.isInf = true ∨ z.isInf = true ∨
      x.isNan = true ∨ y.isNan = true ∨ z.isNan = true)
    (hxy : BF.Lt x y) (hyz : BF.Lt y z) : BF.Lt x z := by
  unfold BF.Lt at *
  cases x with
  | nan e => simp [BF.partialCmp, BF.cmp] at hxy
  | inf s =>
    cases y with
    | nan e => simp [BF.partialCmp, BF.cmp] at hxy
    | num v => cases z with
      | nan e => simp [BF.partialCmp, BF.cmp] at hyz
      | num w => cases s <;> simp [BF.partialCmp, BF.cmp, Sign.toInt] at hxy ⊢
      | inf t => cases s <;> cases t <;> simp_all [BF.partialCmp, BF.cmp, Sign.toInt]
    | inf t => cases z with
      | nan e => simp [BF.partialCmp, BF.cmp] at hyz
      | num w => cases s <;> cases t <;> simp_all [BF.partialCmp, BF.cmp, Sign.toInt]
      | inf r => cases s <;> cases t <;> cases r <;> simp_all [BF.partialCmp, BF.cmp, Sign.toInt]
  | num u =>
    cases y with
    | nan e => simp [BF.partialCmp, BF.cmp] at hxy
    | num v => cases z with
      | nan e => simp [BF.partialCmp, BF.cmp] at hyz
      | num w => simp [BF.isInf, BF.isNan] at h
      | inf t => cases t <;> simp_all [BF.partialCmp, BF.cmp]
    | inf t => cases z with
      | nan e => simp [BF.partialCmp, BF.cmp] at hyz
      | num w => cases t <;> simp_all [BF.partialCmp, BF.cmp, Sign.toInt]
      | inf r => cases t <;> cases r <;> simp_all [BF.partialCmp, BF.cmp, Sign.toInt]

/-- A number is below `+Inf` and above `-Inf`, so the hypotheses can be met. -/
example : BF.Lt (.inf .neg) (.inf .pos) :=
  C15_trans (.inf .neg) (.num exA) (.inf .pos) (Or.inl rfl) rfl rfl

end AF
