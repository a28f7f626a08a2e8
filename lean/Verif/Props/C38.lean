import Verif.Props.C12
/-!
# C38: min, max and clamp obey their contracts

They are built on `cmp`, so the full claim is false for the code where `cmp` is wrong
(`C38_refuted`); it is proved for all other arguments, infinities included.
-/

namespace AF

/-- `cmp` is right on the pair: see `CmpOk`; a pair with an infinity is always fine. -/
def BF.CmpOk : BF → BF → Prop
  | .num x, .num y => AF.CmpOk x y
  | _, _ => True

/-- Non-NaN arguments on which `cmp` is right: its sign is that of the order. -/
theorem cmpU_spec {x y : BF} (hx : x.WF) (hy : y.WF) (hxn : x.isNan = false) (hyn : y.isNan = false)
    (hc : BF.CmpOk x y) : (0 < BF.cmpU x y ↔ ¬ BF.Le x y) ∧ (BF.cmpU x y < 0 ↔ ¬ BF.Le y x) := by
  cases x with
  | nan e => simp [BF.isNan] at hxn
  | inf s =>
    cases y with
    | nan e => simp [BF.isNan] at hyn
    | inf t => cases s <;> cases t <;> simp [BF.cmpU, BF.cmp, BF.Le, Sign.toInt]
    | num v => cases s <;> simp [BF.cmpU, BF.cmp, BF.Le, Sign.toInt]
  | num u =>
    cases y with
    | nan e => simp [BF.isNan] at hyn
    | inf t => cases t <;> simp [BF.cmpU, BF.cmp, BF.Le]
    | num v =>
      obtain ⟨h1, h2⟩ := cmp_spec hx hy hc
      simp only [BF.cmpU, BF.cmp, Option.getD_some, BF.Le, not_le]
      exact ⟨h1, h2⟩

theorem BF.Le.total {x y : BF} (hxn : x.isNan = false) (hyn : y.isNan = false) :
    BF.Le x y ∨ BF.Le y x := by
  cases x with
  | nan e => simp [BF.isNan] at hxn
  | inf s =>
    cases y with
    | nan e => simp [BF.isNan] at hyn
    | inf t => cases s <;> cases t <;> simp [BF.Le]
    | num v => cases s <;> simp [BF.Le]
  | num u =>
    cases y with
    | nan e => simp [BF.isNan] at hyn
    | inf t => cases t <;> simp [BF.Le]
    | num v => exact le_total (u.toK : ℚ) v.toK

theorem BF.Le.refl {x : BF} (hxn : x.isNan = false) : BF.Le x x := by
  rcases BF.Le.total hxn hxn with h | h <;> exact h

/-- Missing from the full claim: pairs on which `cmp` is wrong (a tiny number and a zero). -/
theorem C38_max_partial (x y : BF) (hx : x.WF) (hy : y.WF) (hxn : x.isNan = false)
    (hyn : y.isNan = false) (hc : BF.CmpOk x y) :
    (BF.max x y = x ∨ BF.max x y = y) ∧ BF.Le x (BF.max x y) ∧ BF.Le y (BF.max x y) := by
  obtain ⟨_, h2⟩ := cmpU_spec hx hy hxn hyn hc
  unfold BF.max
  rw [hxn, hyn]
  simp only [Bool.or_false, Bool.false_eq_true, if_false]
  by_cases h : BF.cmpU x y < 0
  · rw [if_pos h]
    have h3 := h2.1 h
    exact ⟨Or.inr rfl, (BF.Le.total hxn hyn).resolve_right h3, BF.Le.refl hyn⟩
  · rw [if_neg h]
    have h3 : BF.Le y x := by by_contra hcon; exact h (h2.2 hcon)
    exact ⟨Or.inl rfl, BF.Le.refl hxn, h3⟩

/-- Missing from the full claim: pairs on which `cmp` is wrong (a tiny number and a zero). -/
theorem C38_min_partial (x y : BF) (hx : x.WF) (hy : y.WF) (hxn : x.isNan = false)
    (hyn : y.isNan = false) (hc : BF.CmpOk x y) :
    (BF.min x y = x ∨ BF.min x y = y) ∧ BF.Le (BF.min x y) x ∧ BF.Le (BF.min x y) y := by
  obtain ⟨h2, _⟩ := cmpU_spec hx hy hxn hyn hc
  unfold BF.min
  rw [hxn, hyn]
  simp only [Bool.or_false, Bool.false_eq_true, if_false]
  by_cases h : BF.cmpU x y > 0
  · rw [if_pos h]
    have h3 := h2.1 h
    exact ⟨Or.inr rfl, (BF.Le.total hxn hyn).resolve_left h3, BF.Le.refl hyn⟩
  · rw [if_neg h]
    have h3 : BF.Le x y := by by_contra hcon; exact h (h2.2 hcon)
    exact ⟨Or.inl rfl, BF.Le.refl hxn, h3⟩

/-- Missing from the full claim: triples with a pair on which `cmp` is wrong. -/
theorem C38_clamp_partial (x lo hi : BF) (hx : x.WF) (hlo : lo.WF) (hhi : hi.WF)
    (hxn : x.isNan = false) (hlon : lo.isNan = false) (hhin : hi.isNan = false)
    (hle : BF.Le lo hi) (h1 : BF.CmpOk x lo) (h2 : BF.CmpOk x hi) (h3 : BF.CmpOk hi lo) :
    BF.Le lo (BF.clamp x lo hi) ∧ BF.Le (BF.clamp x lo hi) hi ∧
      (BF.Le lo x → BF.Le x hi → BF.clamp x lo hi = x) := by
  obtain ⟨_, a2⟩ := cmpU_spec hx hlo hxn hlon h1
  obtain ⟨b1, _⟩ := cmpU_spec hx hhi hxn hhin h2
  obtain ⟨_, c2⟩ := cmpU_spec hhi hlo hhin hlon h3
  have hc : ¬ BF.cmpU hi lo < 0 := fun h => c2.1 h hle
  unfold BF.clamp
  rw [hxn, hlon, hhin]
  simp only [Bool.or_false, Bool.false_or, decide_eq_true_eq]
  rw [if_neg hc]
  by_cases h4 : BF.cmpU x lo < 0
  · rw [if_pos h4]
    exact ⟨BF.Le.refl hlon, hle, fun h => absurd h (a2.1 h4)⟩
  · rw [if_neg h4]
    have h5 : BF.Le lo x := by by_contra hcon; exact h4 (a2.2 hcon)
    by_cases h6 : BF.cmpU x hi > 0
    · rw [if_pos h6]
      exact ⟨hle, BF.Le.refl hhin, fun _ h => absurd h (b1.1 h6)⟩
    · rw [if_neg h6]
      have h7 : BF.Le x hi := by by_contra hcon; exact h6 (b1.2 hcon)
      exact ⟨h5, h7, fun _ _ => rfl⟩

/-- NaN arguments give NaN. -/
theorem C38_nan (x y z : BF) (h : x.isNan = true ∨ y.isNan = true) :
    (BF.max x y).isNan = true ∧ (BF.min x y).isNan = true ∧ (BF.clamp x y z).isNan = true ∧
    (BF.clamp x z y).isNan = true ∧ (BF.clamp z x y).isNan = true := by
  have h' : (x.isNan || y.isNan) = true := by simpa using h
  refine ⟨?_, ?_, ?_, ?_, ?_⟩
  · unfold BF.max; rw [if_pos h']; rfl
  · unfold BF.min; rw [if_pos h']; rfl
  all_goals
    unfold BF.clamp
    rw [if_pos (by rcases h with h | h <;> simp [h])]; rfl

/-- Bounds in the wrong order give NaN. Missing from the full claim: bounds on which `cmp` is wrong. -/
theorem C38_clamp_order_partial (x lo hi : BF) (hlo : lo.WF) (hhi : hi.WF)
    (hlon : lo.isNan = false) (hhin : hi.isNan = false) (hc : BF.CmpOk hi lo) (hgt : ¬ BF.Le lo hi) :
    (BF.clamp x lo hi).isNan = true := by
  obtain ⟨_, c2⟩ := cmpU_spec hhi hlo hhin hlon hc
  unfold BF.clamp
  rw [if_pos (by simp [c2.2 hgt])]; rfl

/-- The maximum of `2^-1000` and `0` is `0` in the code. -/
theorem C38_refuted : ¬ ∀ x y : BF, x.WF → y.WF → x.isNan = false → y.isNan = false →
    BF.Le x (BF.max x y) := by
  intro h
  have h1 := h (.num exTiny) (.num (Num.zero 64 .pos false)) exTiny_WF (zero64_WF _) rfl rfl
  have e : BF.max (.num exTiny) (.num (Num.zero 64 .pos false)) = .num (Num.zero 64 .pos false) := by
    decide
  rw [e] at h1
  have h2 : (exTiny.toK : ℚ) ≤ (Num.zero 64 .pos false).toK := h1
  rw [zero_toK] at h2
  exact absurd exTiny_pos (not_lt.2 h2)

example : (BF.max (.num exA) (.num exB) = .num exA ∨ BF.max (.num exA) (.num exB) = .num exB) ∧
    BF.Le (.num exA) (BF.max (.num exA) (.num exB)) ∧ BF.Le (.num exB) (BF.max (.num exA) (.num exB)) :=
  C38_max_partial (.num exA) (.num exB) exA_WF exB_WF rfl rfl
    (Or.inr (Or.inl (by rw [exB_val]; norm_num)))

end AF
