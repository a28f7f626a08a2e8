import Verif.SpecOp
import Verif.Lemmas.ExtDiv
/-!
# What `add`, `sub`, `mul` and `div` have in common
-/

namespace AF
set_option linter.unusedSectionVars false

variable {K : Type*} [Field K] [LinearOrder K] [IsStrictOrderedRing K]

/-- The inexact mark taken over from the operands. -/
def Op.ix : Op → Num → Num → Bool
  | .add => addIx
  | .sub => addIx
  | .mul => mulIx
  | .div => divIx

theorem Op.delivers (op : Op) {x y : Num} (hx : x.WF) (hy : y.WF) (hd : op.Dom (y.toK : K)) {p : Nat}
    (hp : ValidP p) (rm : RM) :
    DeliversBF rm (precBits p) (op.exact (x.toK : K) y.toK) (op.ix x y)
      (op.apply (.num x) (.num y) p rm) := by
  cases op
  · exact BF.add_delivers hx hy hp rm
  · exact BF.sub_delivers hx hy hp rm
  · exact BF.mul_delivers hx hy hp rm
  · exact BF.div_delivers hx hy hd hp rm

/-- A well-formed number is on the grid of every format at least as precise. -/
theorem Num.WF.repr {x : Num} (hx : x.WF) {P : Nat} (hl : 64 * x.m.m.length ≤ P) (rm : RM) :
    RoundsFmt rm P (x.toK : K) x.toK := by
  by_cases hz : x.isZero = true
  · have := hx.toK_eq_zero (K := K).2 hz
    exact Or.inl ⟨this, this⟩
  rw [Bool.not_eq_true] at hz
  obtain ⟨q, h1, h2, h3, _⟩ := Num.WF.mag (K := K) hx hz
  refine Or.inr ⟨q, h1, h2, ?_⟩
  rw [h3]
  have e : (x.toK : K) = ((x.s.toInt * (val x.m.m * 2 ^ (P - 64 * x.m.m.length) : ℕ) : ℤ) : K) *
      2 ^ (x.e - (P : ℤ)) := by
    have hs : ((x.s.toInt : ℤ) : K) = x.s.toK := by cases x.s <;> simp [Sign.toInt, Sign.toK]
    unfold Num.toK
    push_cast
    rw [hs]
    have e2 : (2 : K) ^ (x.e - ((64 * x.m.m.length : ℕ) : ℤ)) =
        2 ^ (P - 64 * x.m.m.length) * 2 ^ (x.e - (P : ℤ)) := by
      rw [← zpow_natCast, two_zpow_mul]; congr 1; omega
    push_cast at e2
    rw [e2]
    ring
  rw [e]
  exact Rounds.self rm (two_zpow_pos _) _

/-- An exact result which is itself a number of at most `P` bits is delivered as it is. -/
theorem DeliversBF.repr {rm : RM} {P : Nat} (hP : 0 < P) {X : K} {ix : Bool} {r : BF}
    (h : DeliversBF rm P X ix r) {w : Num} (hw : w.WF) (hl : 64 * w.m.m.length ≤ P)
    (hX : X = w.toK) : ∃ v, r = .num v ∧ 64 * v.m.m.length = P ∧ v.toK = X := by
  have hr : RoundsFmt rm P X X := by rw [hX]; exact hw.repr hl rm
  cases r with
  | num v =>
    refine ⟨v, rfl, h.2.1, ?_⟩
    rcases h.2.2.2.2.2 with h | ⟨hn, h1, t, h2, h3, h4⟩
    · exact h.unique hP hr
    · rcases hr with ⟨h0, _⟩ | ⟨q, a1, a2, a3⟩
      · obtain ⟨v', e1, _, e2⟩ := DeliversBF.zero h h0
        injection e1 with e1
        rw [h0, e1]; exact e2
      · have hq : max q EMIN = EMIN := by
          have : q - 1 < EMIN - 1 := (zpow_lt_zpow_iff_right₀ (by norm_num)).1 (lt_of_le_of_lt a1 h1)
          omega
        rw [hq] at a3
        obtain ⟨k, hk, _⟩ := a3
        have hXP : RoundsPrec rm P X X := by
          refine Or.inr ⟨q, a1, a2, ?_⟩
          have : X = ((k * 2 ^ (EMIN - q).toNat : ℤ) : K) * 2 ^ (q - (P : ℤ)) := by
            rw [hk]; push_cast
            rw [mul_assoc, ← zpow_natCast, two_zpow_mul]; congr 2; omega
          rw [this]
          exact Rounds.self rm (two_zpow_pos _) _
        have ht : t = X := h2.unique hP hXP
        subst ht
        unfold RoundsSub at h4
        have hu := two_zpow_pos (K := K) (EMIN - (P : ℤ))
        have hk0 : k ≠ 0 := by
          rintro rfl
          rw [Int.cast_zero, zero_mul] at hk
          rw [hk, abs_zero] at a1
          exact absurd a1 (not_le.2 (two_zpow_pos _))
        have hge : (2 : K) ^ (EMIN - (P : ℤ)) ≤ |t| := by
          rw [hk, abs_mul, abs_of_pos hu]
          have : (1 : K) ≤ |(k : K)| := by
            rw [← Int.cast_abs]; exact_mod_cast Int.one_le_abs hk0
          nlinarith
        rw [if_neg (fun hc => absurd hc.2.2 (not_lt.2 hge))] at h4
        rw [hk] at h4 ⊢
        exact h4.unique hu (Rounds.self rm hu k)
  | inf s =>
    exfalso
    obtain ⟨_, t, h1, h2⟩ := h
    have hXlt : |X| < (2 : K) ^ EMAX := by rw [hX]; exact hw.abs_lt_emax
    rcases le_or_gt ((2 : K) ^ (EMIN - 1)) |X| with hc | hc
    · have : t = X := h1.unique hP (hr.toPrec hc)
      rw [this] at h2
      exact absurd hXlt (not_lt.2 h2)
    · have h3 := h1.abs_le hP hc.le
      have h4 : (2 : K) ^ (EMIN - 1) < 2 ^ EMAX :=
        zpow_lt_zpow_right₀ (by norm_num) (by have := EMIN_lt_EMAX; omega)
      linarith
  | nan e => exact absurd h id

/-- Infinity is returned exactly when the rounded exact value is out of range. -/
theorem DeliversBF.inf_iff {rm : RM} {P : Nat} (hP : 0 < P) {X : K} {ix : Bool} {r : BF}
    (h : DeliversBF rm P X ix r) :
    (∃ s, r = .inf s) ↔ ∃ t : K, RoundsPrec rm P X t ∧ (2 : K) ^ EMAX ≤ |t| := by
  cases r with
  | num v =>
    have := Delivers.error_iff hP (show Delivers rm P X ix (.ok v) from h)
    constructor
    · rintro ⟨s, hs⟩; exact absurd hs (by simp)
    · intro ht
      obtain ⟨er, he⟩ := this.2 ht
      exact absurd he (by simp)
  | inf s => exact ⟨fun _ => h.2, fun _ => ⟨s, rfl⟩⟩
  | nan e => exact absurd h id

end AF
