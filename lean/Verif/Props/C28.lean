import Verif.Lemmas.Mul
/-!
# C28: word-level multiplication is exact for all operand sizes

`mulWords` models `mul_unbalanced` and below it the schoolbook, Toom-2, Toom-3 and FFT routines, chosen by
the operand lengths, step by step. Only where the FFT routine would cut its operands into 64 parts, which takes
operands of `2^26` words and more together, the model uses a contract for it, see DESIGN.md and C57.
-/

namespace AF

theorem C28_mul_words_exact (a b : List Nat) (ha : Wf a) (hb : Wf b) (len : Nat)
    (hlen : a.length + b.length ≤ len) :
    (mulWords a b len).length = len ∧ Wf (mulWords a b len) ∧
      val (mulWords a b len) = val a * val b :=
  mulWords_spec ha hb hlen

example : val (mulWords [B - 1, B - 1, 5] [B - 1, 7] 5) = val [B - 1, B - 1, 5] * val [B - 1, 7] :=
  (C28_mul_words_exact [B - 1, B - 1, 5] [B - 1, 7] (by unfold Wf; decide) (by unfold Wf; decide) 5
    (by decide)).2.2

end AF
