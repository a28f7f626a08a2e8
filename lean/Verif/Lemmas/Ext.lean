import Verif.SpecExt
import Verif.Lemmas.Deliver
import Verif.Lemmas.Mul
/-!
# Lifting the number-level results to `BigFloat`
-/

namespace AF
set_option linter.unusedSectionVars false

variable {K : Type*} [Field K] [LinearOrder K] [IsStrictOrderedRing K]

theorem precBits_pos {p : Nat} (h : 0 < p) : 0 < precBits p := by unfold precBits; omega

theorem ValidP.roundP {p : Nat} (h : ValidP p) : roundP p = precBits p := by
  have h1 := h.lt
  have h0 := h.pos
  unfold precBits at h1 ⊢
  unfold AF.roundP
  rw [Nat.min_eq_left (by unfold USIZE_MAX; omega), Nat.mul_comm]

theorem PMAX_eq : PMAX = 2 ^ 62 - 2 ^ 31 - 1 := by unfold PMAX; norm_num

theorem ValidP.lt_PMAX {p : Nat} (h : ValidP p) : AF.roundP p < PMAX := by
  rw [h.roundP, PMAX_eq]; exact h.lt

theorem Delivers.toBF {rm : RM} {P : Nat} {X : K} {ix : Bool} {r : Except Err Num}
    (h : Delivers rm P X ix r) (a b : Bool) : DeliversBF rm P X ix (BF.resultToExt r a b) := by
  cases r with
  | ok v => exact h
  | error e =>
    obtain ⟨h1, h2⟩ := h
    rcases h1 with ⟨hx, rfl⟩ | ⟨hx, rfl⟩
    · exact ⟨Or.inl ⟨hx, rfl⟩, h2⟩
    · exact ⟨Or.inr ⟨hx, rfl⟩, h2⟩

theorem BF.add_delivers {x y : Num} (hx : x.WF) (hy : y.WF) {p : Nat} (hp : ValidP p) (rm : RM) :
    DeliversBF rm (precBits p) (x.toK + y.toK : K) (addIx x y) (BF.add (.num x) (.num y) p rm) := by
  have h := addSub_spec (K := K) hx hy hp.pos hp.lt_PMAX true rm
  rw [hp.roundP] at h
  exact h.toBF _ _

theorem BF.sub_delivers {x y : Num} (hx : x.WF) (hy : y.WF) {p : Nat} (hp : ValidP p) (rm : RM) :
    DeliversBF rm (precBits p) (x.toK - y.toK : K) (addIx x y) (BF.sub (.num x) (.num y) p rm) := by
  have h := addSub_spec (K := K) hx hy hp.pos hp.lt_PMAX false rm
  rw [hp.roundP] at h
  simp only [Bool.false_eq_true, if_false, ← sub_eq_add_neg] at h
  exact h.toBF _ _

theorem BF.mul_delivers {x y : Num} (hx : x.WF) (hy : y.WF) {p : Nat} (hp : ValidP p) (rm : RM) :
    DeliversBF rm (precBits p) (x.toK * y.toK : K) (mulIx x y) (BF.mul (.num x) (.num y) p rm) := by
  have h := mulGeneral_spec (K := K) hx hy hp.pos hp.lt_PMAX rm
  rw [hp.roundP] at h
  exact h.toBF _ _

/-- In the normal range a delivered result is a number, the exact value correctly rounded. -/
theorem DeliversBF.normal {rm : RM} {P : Nat} {X : K} {ix : Bool} {r : BF}
    (h : DeliversBF rm P X ix r) (hn : NormalRange rm P X) :
    ∃ v, r = .num v ∧ 64 * v.m.m.length = P ∧ RoundsPrec rm P X v.toK := by
  cases r with
  | num v => exact ⟨v, rfl, h.2.1, Delivers.normal h hn.1⟩
  | inf s =>
    obtain ⟨_, t, h1, h2⟩ := h
    exact absurd (hn.2 t h1) (not_lt.2 h2)
  | nan e => exact absurd h id

theorem DeliversBF.zero {rm : RM} {P : Nat} {X : K} {ix : Bool} {r : BF}
    (h : DeliversBF rm P X ix r) (hX : X = 0) : ∃ v, r = .num v ∧ 64 * v.m.m.length = P ∧ v.toK = (0 : K) := by
  subst hX
  cases r with
  | num v =>
    refine ⟨v, rfl, h.2.1, ?_⟩
    rcases h.2.2.2.2.2 with h | ⟨_, _, t, h1, _, h3⟩
    · rcases h with h | ⟨q, h1, _⟩
      · exact h.2
      · rw [abs_zero] at h1; exact absurd h1 (not_le.2 (two_zpow_pos _))
    · have ht : t = 0 := by
        rcases h1 with h | ⟨q, h1, _⟩
        · exact h.2
        · rw [abs_zero] at h1; exact absurd h1 (not_le.2 (two_zpow_pos _))
      subst ht
      unfold RoundsSub at h3
      split at h3
      · exact h3
      · exact h3.zero (two_zpow_pos _)
  | inf s =>
    obtain ⟨⟨h, _⟩ | ⟨h, _⟩, _⟩ := h
    · exact absurd h (lt_irrefl _)
    · exact absurd h (lt_irrefl _)
  | nan e => exact absurd h id

end AF
