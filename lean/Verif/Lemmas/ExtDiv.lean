import Verif.Model.ExtDiv
import Verif.Lemmas.NumDiv
import Verif.Lemmas.Ext
import Verif.Lemmas.Samples
/-!
# Lifting the division results to `BigFloat`
-/

namespace AF
set_option linter.unusedSectionVars false

variable {K : Type*} [Field K] [LinearOrder K] [IsStrictOrderedRing K]

theorem BF.div_delivers {x y : Num} (hx : x.WF) (hy : y.WF) (hy0 : (y.toK : K) ≠ 0) {p : Nat}
    (hp : ValidP p) (rm : RM) :
    DeliversBF rm (precBits p) (x.toK / y.toK : K) (divIx x y) (BF.div (.num x) (.num y) p rm) := by
  have hz : y.isZero = false := by
    rw [← Bool.not_eq_true]; exact fun h => hy0 (hy.toK_eq_zero.2 h)
  have h := div_spec (K := K) hx hy hz hp.pos hp.lt_PMAX rm
  rw [hp.roundP] at h
  exact h.toBF _ _

theorem ONE_WF : Num.ONE.WF := Num.WF_of_check (by decide)

theorem ONE_toK : (Num.ONE.toK : K) = 1 := by
  have h : val Num.ONE.m.m = 2 ^ 127 := by decide
  unfold Num.toK
  rw [h]
  show Sign.toK Sign.pos * ((2 ^ 127 : ℕ) : K) * (2 : K) ^ ((1 : ℤ) - ((64 * 2 : ℕ) : ℤ)) = 1
  push_cast
  norm_num [Sign.toK]

theorem BF.reciprocal_delivers {x : Num} (hx : x.WF) (hx0 : (x.toK : K) ≠ 0) {p : Nat}
    (hp : ValidP p) (rm : RM) :
    DeliversBF rm (precBits p) (1 / x.toK : K) x.inexact (BF.reciprocal (.num x) p rm) := by
  have hz : x.isZero = false := by
    rw [← Bool.not_eq_true]; exact fun h => hx0 (hx.toK_eq_zero.2 h)
  have h := div_spec (K := K) ONE_WF hx hz hp.pos hp.lt_PMAX rm
  rw [hp.roundP, ONE_toK] at h
  exact h.toBF _ _

end AF
