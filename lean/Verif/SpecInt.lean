import Verif.SpecNum
import Mathlib.Algebra.Order.Field.Rat
import Mathlib.Data.Rat.Floor
import Mathlib.Tactic.Linarith
/-!
# Specification: truncation toward zero
-/

namespace AF

/-- Truncation toward zero. -/
def truncQ (x : ℚ) : ℤ := if 0 ≤ x then ⌊x⌋ else ⌈x⌉

theorem truncQ_sign (s : Sign) (a : ℚ) (ha : 0 ≤ a) : (truncQ (s.toK * a) : ℚ) = s.toK * ⌊a⌋ := by
  unfold truncQ
  cases s with
  | pos => simp [Sign.toK, ha]
  | neg =>
    simp only [Sign.toK, neg_mul, one_mul]
    by_cases h : 0 ≤ -a
    · have h0 : a = 0 := by linarith
      rw [h0]; simp
    · rw [if_neg h, Int.ceil_neg]; push_cast; rfl

end AF
