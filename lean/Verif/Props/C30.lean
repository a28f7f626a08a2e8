import Verif.Lemmas.SqrtRem
import Verif.Lemmas.CbrtRem
/-!
# C30: the integer roots are exact floors

`sqrt_rem` and `cbrt_rem` take the words of an integer and return the words of the root and of the
remainder. The slices are those of the callers: the top word is not zero and, for the cube root, the
length is not `2` modulo `3` (`Mantissa::cbrt` always passes a multiple of three).
-/

namespace AF

theorem C30_sqrt_rem (m : List Nat) (hm : Wf m) (hl : 0 < m.length) (ht : B ^ (m.length - 1) ≤ val m) :
    val (sqrtRem m).1 = Nat.sqrt (val m) ∧
      val (sqrtRem m).1 * val (sqrtRem m).1 + val (sqrtRem m).2 = val m ∧
      Wf (sqrtRem m).1 ∧ Wf (sqrtRem m).2 := by
  obtain ⟨h1, h2, h3, h4, _⟩ := sqrtRem_spec ⟨hm, hl, ht⟩
  refine ⟨?_, h3.symm, h1.1, h2⟩
  rw [Nat.eq_sqrt]
  constructor
  · omega
  · have : (val (sqrtRem m).1 + 1) * (val (sqrtRem m).1 + 1) =
        val (sqrtRem m).1 * val (sqrtRem m).1 + 2 * val (sqrtRem m).1 + 1 := by ring
    omega

theorem C30_cbrt_rem (m : List Nat) (hm : Wf m) (hl : 0 < m.length) (ht : B ^ (m.length - 1) ≤ val m)
    (h3 : m.length % 3 ≠ 2) :
    val (cbrtRem m).1 ^ 3 + val (cbrtRem m).2 = val m ∧ val m < (val (cbrtRem m).1 + 1) ^ 3 ∧
      Wf (cbrtRem m).1 ∧ Wf (cbrtRem m).2 := by
  obtain ⟨h1, h2, h4, h5⟩ := cbrtRem_spec ⟨hm, hl, ht⟩ h3
  exact ⟨h4.symm, h5, h1.1, h2⟩

/-- A number of four words. -/
example : val (sqrtRem [5, 0, 7, 3]).1 = Nat.sqrt (val [5, 0, 7, 3]) :=
  (C30_sqrt_rem [5, 0, 7, 3] (by unfold Wf; decide) (by decide) (by decide)).1

/-- A number of three words. -/
example : val [5, 7, 3] < (val (cbrtRem [5, 7, 3]).1 + 1) ^ 3 :=
  (C30_cbrt_rem [5, 7, 3] (by unfold Wf; decide) (by decide) (by decide) (by decide)).2.1

end AF
