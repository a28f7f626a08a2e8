import Verif.Props.C11
/-!
# C40: directed rounding encloses the exact result

Results which are numbers, subnormal ones included, enclose the exact result. The full claim is false
for the code when the result overflows: `max + max` rounded `Down` (or `ToZero`) is `+Inf`.
-/

namespace AF

/-- The extended-real meaning of "`r` is at most `X`". -/
def BF.atMost (r : BF) (X : ℚ) : Prop :=
  match r with
  | .num v => (v.toK : ℚ) ≤ X
  | .inf s => s = .neg
  | .nan _ => False

theorem C40_refuted : ¬ ∀ (op : Op) (x y : Num), x.WF → y.WF → op.Dom (y.toK : ℚ) →
    ∀ p, ValidP p → (op.apply (.num x) (.num y) p .down).atMost (op.exact x.toK y.toK) := by
  intro h
  have h1 := h .add exMax exMax exMax_WF exMax_WF trivial 64 ValidP_64
  have h2 : Op.apply .add (.num exMax) (.num exMax) 64 .down = .inf .pos := by decide
  rw [h2] at h1
  cases h1

/-- Missing from the full claim: results which overflow to an infinity. -/
theorem C40_down_partial (op : Op) (x y : Num) (hx : x.WF) (hy : y.WF)
    (hd : op.Dom (y.toK : ℚ)) (p : Nat) (hp : ValidP p) (v : Num)
    (hv : op.apply (.num x) (.num y) p .down = .num v) :
    (v.toK : ℚ) ≤ op.exact x.toK y.toK := by
  have h1 := op.delivers (K := ℚ) hx hy hd hp .down
  rw [hv] at h1
  obtain ⟨u, _, k, _, h, _⟩ := (Delivers.directed h1 rfl).rounds
  exact h

/-- Missing from the full claim: results which overflow to an infinity. -/
theorem C40_up_partial (op : Op) (x y : Num) (hx : x.WF) (hy : y.WF)
    (hd : op.Dom (y.toK : ℚ)) (p : Nat) (hp : ValidP p) (v : Num)
    (hv : op.apply (.num x) (.num y) p .up = .num v) :
    op.exact x.toK y.toK ≤ (v.toK : ℚ) := by
  have h1 := op.delivers (K := ℚ) hx hy hd hp .up
  rw [hv] at h1
  obtain ⟨u, _, k, _, h, _⟩ := (Delivers.directed h1 rfl).rounds
  exact h

/-- Missing from the full claim: results which overflow to an infinity. -/
theorem C40_toZero_partial (op : Op) (x y : Num) (hx : x.WF) (hy : y.WF)
    (hd : op.Dom (y.toK : ℚ)) (p : Nat) (hp : ValidP p) (v : Num)
    (hv : op.apply (.num x) (.num y) p .toZero = .num v) :
    |(v.toK : ℚ)| ≤ |op.exact x.toK y.toK| := by
  have h1 := op.delivers (K := ℚ) hx hy hd hp .toZero
  rw [hv] at h1
  obtain ⟨u, _, k, _, h, _⟩ := (Delivers.directed h1 rfl).rounds
  exact h

/-- `FromZero` never decreases the magnitude; an infinite result does not either, and has the sign of
the exact result (`C11_infinity_sign`). -/
theorem C40_fromZero (op : Op) (x y : Num) (hx : x.WF) (hy : y.WF)
    (hd : op.Dom (y.toK : ℚ)) (p : Nat) (hp : ValidP p) :
    (∃ s, op.apply (.num x) (.num y) p .fromZero = .inf s) ∨
    ∃ v, op.apply (.num x) (.num y) p .fromZero = .num v ∧
      |op.exact x.toK y.toK| ≤ |(v.toK : ℚ)| := by
  have h1 := op.delivers (K := ℚ) hx hy hd hp .fromZero
  rcases C11_number_or_infinity op x y hx hy hd p hp .fromZero with ⟨v, hv, _⟩ | h
  · right
    refine ⟨v, hv, ?_⟩
    rw [hv] at h1
    obtain ⟨u, _, k, _, h, _⟩ := (Delivers.directed h1 rfl).rounds
    exact h
  · exact Or.inl h

/-- A difference of different precisions, rounded down. -/
example : ∃ v, Op.apply .sub (.num exA) (.num exB) 64 .down = .num v ∧
    (v.toK : ℚ) ≤ Op.exact .sub exA.toK exB.toK := by
  obtain ⟨v, hv, _⟩ | ⟨s, hs⟩ := C11_number_or_infinity .sub exA exB exA_WF exB_WF trivial 64 ValidP_64 .down
  · exact ⟨v, hv, C40_down_partial .sub exA exB exA_WF exB_WF trivial 64 ValidP_64 v hv⟩
  · exfalso
    have : (Op.apply .sub (.num exA) (.num exB) 64 .down).isInf = false := by decide
    rw [hs] at this
    cases this

end AF
