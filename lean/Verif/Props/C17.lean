import Verif.Lemmas.Op
import Verif.Lemmas.Comm
/-!
# C17: negation, abs and sign operations are exact and consistent
-/

namespace AF

theorem C17_neg_involution (x : BF) : x.neg.neg = x := by
  cases x with
  | num v => cases v with | mk e s m i => cases s <;> rfl
  | inf s => cases s <;> rfl
  | nan e => rfl

theorem invSign_eq_neg (x : Num) : x.invSign = x.neg := by
  cases x with | mk e s m i => cases s <;> rfl

theorem C17_neg_value (x : Num) (hx : x.WF) :
    ∃ v, BF.neg (.num x) = .num v ∧ v.WF ∧ (v.toK : ℚ) = -x.toK ∧ v.m = x.m ∧ v.e = x.e ∧
      v.inexact = x.inexact ∧ v.s ≠ x.s := by
  refine ⟨x.neg, by rw [← invSign_eq_neg]; rfl,
    ⟨hx.wf, hx.bits, hx.emin, hx.emax, hx.norm, hx.sized⟩, ?_, rfl, rfl, rfl, ?_⟩
  · unfold Num.toK Num.neg
    by_cases h : x.s = .pos
    · simp [h, Sign.invert, Sign.toK]
    · have h' : x.s = .neg := by cases h2 : x.s <;> simp_all
      simp [h', Sign.invert, Sign.toK]
  · unfold Num.neg
    by_cases h : x.s = .pos
    · simp [h, Sign.invert]
    · have h' : x.s = .neg := by cases h2 : x.s <;> simp_all
      simp [h', Sign.invert]

theorem C17_abs_value (x : Num) (hx : x.WF) :
    ∃ v, BF.abs (.num x) = .num v ∧ v.WF ∧ (v.toK : ℚ) = |x.toK| ∧ v.m = x.m ∧ v.e = x.e ∧
      v.s = .pos := by
  refine ⟨x.abs, rfl, ⟨hx.wf, hx.bits, hx.emin, hx.emax, hx.norm, hx.sized⟩, ?_, rfl, rfl, rfl⟩
  rw [Num.abs_val]
  simp [Num.toK, Num.abs, Sign.toK]

theorem C17_set_sign (x : Num) (hx : x.WF) (s : Sign) :
    ∃ v, BF.setSign (.num x) s = .num v ∧ v.WF ∧ |(v.toK : ℚ)| = |x.toK| ∧ v.m = x.m ∧ v.e = x.e ∧
      v.inexact = x.inexact ∧ v.s = s := by
  refine ⟨x.setSign s, rfl, ⟨hx.wf, hx.bits, hx.emin, hx.emax, hx.norm, hx.sized⟩, ?_, rfl, rfl, rfl, rfl⟩
  rw [Num.abs_val, Num.abs_val]
  rfl

/-- `inv_sign` is the operation behind `neg`. -/
theorem C17_inv_sign (x : BF) : x.invSign = x.neg := rfl

theorem addSub_ne_div (x y : Num) (p : Nat) (op : Bool) (rm : RM) :
    x.addSub y p op rm false ≠ .error .divisionByZero := by
  have hsp : ∀ (v : Num) (q : Nat), v.setPrecision q rm ≠ .error .divisionByZero := by
    intro v q
    unfold Num.setPrecision Num.setPrecisionInternal
    dsimp only
    split_ifs <;> simp
  unfold Num.addSub
  dsimp only
  by_cases hp : roundP p ≥ PMAX
  · rw [if_pos hp]; simp
  rw [if_neg hp]
  by_cases h1 : x.isZero = true
  · rw [if_pos h1]; exact hsp _ _
  rw [if_neg h1]
  by_cases h2 : y.isZero = true
  · rw [if_pos h2]; exact hsp _ _
  rw [if_neg h2]
  cases hn1 : x.normalize with
  | error e => rw [normalize_error hn1]; simp
  | ok r1 =>
    cases hn2 : y.normalize with
    | error e => rw [normalize_error hn2]; simp
    | ok r2 =>
      dsimp only
      split_ifs <;> first | exact finish_ne_div _ _ _ _ _ | simp

theorem addSub_neg (x y : Num) (hy : y.WF) (p : Nat) (rm : RM) :
    x.addSub y p false rm false = x.addSub y.neg p true rm false := by
  have hz : y.neg.isZero = y.isZero := rfl
  have hc : x.absCmp y.neg = x.absCmp y := rfl
  have hi : y.neg.inexact = y.inexact := rfl
  have hs : y.neg.s = y.s.invert := rfl
  unfold Num.addSub
  dsimp only
  rw [hz, hc, hi, hs]
  by_cases hp : roundP p ≥ PMAX
  · rw [if_pos hp, if_pos hp]
  rw [if_neg hp, if_neg hp]
  by_cases h1 : x.isZero = true
  · rw [if_pos h1, if_pos h1]; simp
  rw [if_neg h1, if_neg h1]
  by_cases h2 : y.isZero = true
  · rw [if_pos h2, if_pos h2]
  rw [if_neg h2, if_neg h2]
  cases hn1 : x.normalize with
  | error e => rfl
  | ok r1 =>
    have hn : y.neg.normalize = y.normalize ∨ y.normalize = .error (.exponentOverflow y.s) := by
      have e1 : y.neg.isSubnormal = y.isSubnormal := rfl
      have e2 : y.neg.e = y.e := rfl
      have e3 : y.neg.m = y.m := rfl
      unfold Num.normalize
      dsimp only
      rw [e1, e2, e3]
      by_cases h : y.isSubnormal = true
      · rw [if_pos h, if_pos h]
        by_cases h' : y.e - (y.m.normilize.1 : Int) ≤ IMIN2
        · rw [if_pos h', if_pos h']; right; rfl
        · rw [if_neg h', if_neg h']; left; rfl
      · rw [if_neg h, if_neg h]; left; rfl
    rcases hn with hn | hn
    · rw [hn]
      cases hn2 : y.normalize with
      | error e => rfl
      | ok r2 =>
        dsimp only
        have hcond : ((decide (x.s ≠ y.s) && false) || (!false && decide (x.s = y.s))) =
            ((decide (x.s ≠ y.s.invert) && true) || (!true && decide (x.s = y.s.invert))) := by
          cases x.s <;> cases y.s <;> decide
        rw [hcond]
        simp only [Bool.false_eq_true, if_false, if_true]
    · exfalso
      obtain ⟨_, _, h, _⟩ := normalize_spec (K := ℚ) hy (by simpa using h2)
      rw [hn] at h
      cases h

/-- Subtraction returns the very number that adding the negation returns (all bits and flags equal), for
every precision, those rejected included, and for every kind of operand. -/
theorem C17_sub_is_add_neg (x y : BF) (hy : y.WF) (p : Nat) (rm : RM) :
    BF.sub x y p rm = BF.add x y.neg p rm := by
  cases x with
  | nan e => cases y <;> rfl
  | inf s =>
    cases y with
    | num v => rfl
    | nan e => rfl
    | inf s' => cases s <;> cases s' <;> rfl
  | num u =>
    cases y with
    | nan e => rfl
    | inf s' => cases s' <;> rfl
    | num v =>
      show BF.resultToExt (u.addSub v p false rm false) _ _ =
        BF.resultToExt (u.addSub v.invSign p true rm false) _ _
      rw [invSign_eq_neg, ← addSub_neg u v hy]
      exact resultToExt_congr (addSub_ne_div _ _ _ _ _) _ _ _ _

example : (BF.neg (.num exB)).neg = .num exB := C17_neg_involution _
example : BF.sub (.num exA) (.num exB) 64 .up = BF.add (.num exA) (BF.neg (.num exB)) 64 .up :=
  C17_sub_is_add_neg (.num exA) (.num exB) exB_WF _ _

end AF
