import Mathlib.Analysis.Real.Sqrt
import Mathlib.Data.Nat.Factorial.Basic
import Mathlib.Topology.Algebra.InfiniteSum.Real
/-!
# The series of Chudnovsky and Chudnovsky

`chudPi` is the right-hand side of the formula of D. and G. Chudnovsky,
`pi = 426880 * sqrt(10005) / sum (-1)^j (6j)! (13591409 + 545140134 j) / ((3j)! (j!)^3 640320^(3j))`.
That the formula holds is a classical theorem which Mathlib does not have; it is not assumed here.
-/

namespace AF

/-- One term of the series. -/
noncomputable def chudTerm (j : ℕ) : ℝ :=
  (-1) ^ j * ((6 * j).factorial * (13591409 + 545140134 * j)) /
    ((3 * j).factorial * j.factorial ^ 3 * 640320 ^ (3 * j))

/-- The number that the series gives. -/
noncomputable def chudPi : ℝ := 426880 * Real.sqrt 10005 / ∑' j, chudTerm j

end AF
