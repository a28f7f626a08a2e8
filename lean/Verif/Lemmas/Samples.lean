import Verif.Lemmas.Ext
import Mathlib.Tactic.NormNum
/-!
# Concrete numbers used in the examples beside the property theorems
-/

namespace AF

/-- An executable check of the number invariant. -/
def Num.checkWF (x : Num) : Bool :=
  x.m.m.all (· < B) && decide (val x.m.m < 2 ^ x.m.n) &&
  (decide (x.m.n = 0) || decide (2 ^ (x.m.n - 1) ≤ val x.m.m)) &&
  decide (EMIN ≤ x.e) && decide (x.e ≤ EMAX) &&
  (!(decide (0 < x.m.n) && decide (x.m.n < 64 * x.m.m.length)) || decide (x.e = EMIN)) &&
  decide (64 * x.m.m.length ≤ 4611686016279904256)

theorem Num.WF_of_check {x : Num} (h : x.checkWF = true) : x.WF := by
  unfold Num.checkWF at h
  simp only [Bool.and_eq_true, Bool.or_eq_true, decide_eq_true_eq, Bool.not_eq_true',
    Bool.and_eq_false_iff, decide_eq_false_iff_not, List.all_eq_true] at h
  obtain ⟨⟨⟨⟨⟨⟨h1, h2⟩, h3⟩, h4⟩, h5⟩, h6⟩, h7⟩ := h
  refine ⟨h1, ?_, h4, h5, ?_, by norm_num; exact h7⟩
  · apply le_antisymm
    · rcases h3 with h3 | h3
      · omega
      · by_cases h0 : x.m.n = 0
        · omega
        · have : x.m.n - 1 < Nat.size (val x.m.m) := Nat.lt_size.2 h3
          omega
    · exact Nat.size_le.2 h2
  · intro a b
    rcases h6 with h6 | h6
    · omega
    · exact h6

variable {K : Type*} [Field K] [LinearOrder K] [IsStrictOrderedRing K]

theorem NormalRange.of_bounds {rm : RM} {P : Nat} (hP : 0 < P) {X : K} {a b : ℤ}
    (ha : (2 : K) ^ a ≤ |X|) (hb : |X| ≤ (2 : K) ^ b) (ha' : EMIN - 1 ≤ a) (hb' : b < EMAX) :
    NormalRange rm P X := by
  refine ⟨le_trans (zpow_le_zpow_right₀ (by norm_num) ha') ha, fun t ht => ?_⟩
  exact lt_of_le_of_lt (ht.abs_le hP hb) (zpow_lt_zpow_right₀ (by norm_num) hb')

/-- `1 + 2^-63`, 64 bits. -/
def exA : Num := { e := 1, s := .pos, m := { m := [MSB + 1], n := 64 }, inexact := false }

/-- `-(2^127 + 2^64*3 + 5) * 2^-130`, about `-1/8`, 128 bits. -/
def exB : Num := { e := -2, s := .neg, m := { m := [5, MSB + 3], n := 128 }, inexact := false }

theorem exA_WF : exA.WF := Num.WF_of_check (by decide)
theorem exB_WF : exB.WF := Num.WF_of_check (by decide)

theorem exA_val : (exA.toK : ℚ) = 9223372036854775809 / 9223372036854775808 := by
  norm_num [Num.toK, exA, Sign.toK, val, MSB]

theorem exB_val : (exB.toK : ℚ) =
    -170141183460469231787027535937012760581 / 1361129467683753853853498429727072845824 := by
  norm_num [Num.toK, exB, Sign.toK, val, MSB, B, zpow_neg]

theorem ValidP_64 : ValidP 64 := ⟨by norm_num, by decide⟩
theorem ValidP_100 : ValidP 100 := ⟨by norm_num, by decide⟩

end AF
