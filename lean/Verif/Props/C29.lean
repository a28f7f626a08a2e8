import Verif.Lemmas.Div
/-!
# C29: word-level division is exact for all operand sizes

`divWords` models `div_unbalanced`, which selects between the schoolbook algorithm, the recursive one
and block-wise division by the lengths of the operands. Whatever it selects, the result is the
integer quotient and remainder. The divisor must have its top bit set, which its callers ensure; the
schoolbook routine itself also accepts divisors with leading zero bits.
-/

namespace AF

theorem C29_div_words_exact (a b : List Nat) (ha : Wf a) (hb : Wf b) (hb0 : 0 < b.length)
    (htop : 2 ^ 63 ≤ b.getLastD 0) :
    Wf (divWords a b).1 ∧ Wf (divWords a b).2 ∧
      val (divWords a b).1 = val a / val b ∧ val (divWords a b).2 = val a % val b := by
  have hT : TopSet b := by
    refine ⟨hb, hb0, ?_⟩
    obtain ⟨l, x, rfl⟩ : ∃ l x, b = l ++ [x] :=
      ⟨b.dropLast, b.getLast (by rintro rfl; simp at hb0), (List.dropLast_append_getLast _).symm⟩
    rw [List.getLastD_concat] at htop
    rw [val_append, List.length_append, List.length_singleton, pow_succ]
    have : val [x] = x := by simp [val]
    rw [this]
    calc B ^ l.length * B = B ^ l.length * (2 * 2 ^ 63) := by rw [B_eq]; norm_num
      _ ≤ B ^ l.length * (2 * x) := Nat.mul_le_mul_left _ (by omega)
      _ ≤ _ := by
        have : B ^ l.length * (2 * x) = 2 * (B ^ l.length * x) := by ring
        omega
  obtain ⟨h, _, _⟩ := divWords_spec ha hT
  exact ⟨h.1, h.2.1, h.quot, h.rem⟩

/-- A division of 4 words by 3 words. -/
example : val (divWords [1, 2, 3, 4] [7, 0, 2 ^ 63]).2 = val [1, 2, 3, 4] % val [7, 0, 2 ^ 63] :=
  (C29_div_words_exact [1, 2, 3, 4] [7, 0, 2 ^ 63] (by unfold Wf; decide) (by unfold Wf; decide)
    (by decide) (by decide)).2.2.2

/-- The schoolbook routine divides by any divisor whose top word is not zero. -/
theorem C29_div_basic_exact (a b : List Nat) (ha : Wf a) (hb : Wf b) (hb0 : 0 < b.length)
    (htop : b.getLastD 0 ≠ 0) (hl : b.length ≤ a.length) :
    val (divBasic a b).1 = val a / val b ∧ val (divBasic a b).2 = val a % val b ∧
      (divBasic a b).1.length = a.length - b.length + 1 ∧ (divBasic a b).2.length = b.length := by
  have ht : wd b (b.length - 1) ≠ 0 := by
    obtain ⟨l, x, rfl⟩ : ∃ l x, b = l ++ [x] :=
      ⟨b.dropLast, b.getLast (by rintro rfl; simp at hb0), (List.dropLast_append_getLast _).symm⟩
    rw [List.getLastD_concat] at htop
    unfold wd
    simpa using htop
  obtain ⟨h, h2, h3⟩ := divBasic_spec ha hb hl hb0 ht
  exact ⟨h.quot, h.rem, h2, h3⟩

example : val (divBasic [1, 2, 3, 4] [7, 5]).1 = val [1, 2, 3, 4] / val [7, 5] :=
  (C29_div_basic_exact [1, 2, 3, 4] [7, 5] (by unfold Wf; decide) (by unfold Wf; decide)
    (by decide) (by decide) (by decide)).1

end AF
