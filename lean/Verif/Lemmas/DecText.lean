import Verif.Lemmas.DecNone
import Verif.Lemmas.Format
/-!
# The decimal text of a number denotes its digits
-/

namespace AF

/-- The text made from the digits of a normal number. -/
theorem format_of_digits {x : Num} {rm : RM} {tp : List TenPow} {d : Digits} (h : (x.convToDec rm tp).1 = .ok d)
    (hs : x.isSubnormal = false) (hlo : EMIN ≤ d.2.2) (hhi : d.2.2 ≤ EMAX) (h9 : ∀ v ∈ d.2.1, v ≤ 9) :
    ∃ l : Lit, l.Valid .dec ∧ ((BF.num x).format .dec rm tp).1 = .ok (l.text .dec) ∧ (l.value .dec : ℚ) = radixVal 10 d := by
  have hf : ((BF.num x).format .dec rm tp).1 = .ok (x.digitsText .dec d) := by
    unfold BF.format Num.format Num.convertToRadix
    dsimp only
    generalize x.convToDec rm tp = c at h
    rcases c with ⟨c1, c2⟩
    dsimp only at h
    subst h
    rfl
  obtain ⟨s, ds, e⟩ := d
  cases ds with
  | nil =>
    refine ⟨⟨if s = .neg then ['-'] else [], ['0'], true, ['0'], none⟩, ?_, ?_, ?_⟩
    · have h0 : IsDig .dec '0' := ⟨0, by decide, by decide⟩
      refine ⟨?_, by simpa using h0, by simpa using h0, by simp, by simp, by simp⟩
      cases s <;> simp [IsSign]
    · rw [hf]; cases s <;> rfl
    · have h1 : digNat Radix.dec.num (digs (['0'] ++ ['0'])) = 0 := by decide
      unfold Lit.value radixVal
      dsimp only
      rw [h1]
      simp [digNat]
  | cons d0 ds =>
    dsimp only at hlo hhi h9
    have h0 : d0 < Radix.dec.num := by have := h9 d0 (by simp); simp [Radix.num]; omega
    have hd : ∀ v ∈ ds, v < Radix.dec.num := fun v hv => by have := h9 v (by simp [hv]); simp [Radix.num]; omega
    refine ⟨litOf false .dec s d0 ds e, litOf_valid h0 hd hlo hhi, ?_, ?_⟩
    · rw [hf, litOf_text, hs]
    · have hex := exp_chars (rdx := .dec) (if e < 1 then (e - 1).natAbs else (e - 1).toNat) (by
        unfold EMIN at hlo; unfold EMAX at hhi
        split <;> omega)
      have habs : (litOf false .dec s d0 ds e).expAbs .dec = if e < 1 then (e - 1).natAbs else (e - 1).toNat := by
        unfold Lit.expAbs litOf
        simpa using hex.2.2
      have hval : (litOf false .dec s d0 ds e).expVal .dec = e - 1 := by
        unfold Lit.expVal
        rw [habs]
        unfold litOf
        simp only
        by_cases he : e < 1
        · simp only [if_pos he]; omega
        · simp only [if_neg he]; simp; omega
      have hdig : digs ((litOf false .dec s d0 ds e).int ++ (litOf false .dec s d0 ds e).frac) = d0 :: ds := by
        unfold litOf
        simp only [Bool.false_eq_true, if_false]
        rw [show [digitChar d0] ++ ds.map digitChar = (d0 :: ds).map digitChar from rfl, digs_map (by
          intro v hv; rcases List.mem_cons.1 hv with rfl | hv
          · exact h0
          · exact hd v hv)]
      have hsg : (litOf false .dec s d0 ds e).sign = s := by
        unfold Lit.sign litOf; cases s <;> simp
      have hfl : (litOf false .dec s d0 ds e).frac.length = ds.length := by
        unfold litOf; simp
      unfold Lit.value radixVal
      rw [hval, hdig, hsg, hfl]
      simp only [Radix.num, List.length_cons]
      congr 2
      push_cast
      ring

/-- The same for a number above the subnormal range, with the sign and a property of the digits. -/
theorem format_of_conv {x : Num} (hx : x.WF) (hx0 : (x.toK : ℚ) ≠ 0) (he : EMIN < x.e) {rm : RM} {tp : List TenPow} {n : Nat}
    {R : ℚ → Prop} (h : ∃ d : Digits, (x.convToDec rm tp).1 = .ok d ∧ (d.1 = x.s ∧ EMIN ≤ d.2.2 ∧ d.2.2 ≤ EMAX) ∧
      d.2.1.length ≤ n ∧ (∀ v ∈ d.2.1, v ≤ 9) ∧ R (radixVal 10 d)) :
    ∃ (d : Digits) (l : Lit), ((BF.num x).convertToRadix .dec rm tp).1 = .ok d ∧ d.1 = x.s ∧ d.2.1.length ≤ n ∧
      (∀ v ∈ d.2.1, v ≤ 9) ∧ R (radixVal 10 d) ∧ ((BF.num x).format .dec rm tp).1 = .ok (l.text .dec) ∧ l.Valid .dec ∧
      (l.value .dec : ℚ) = radixVal 10 d := by
  obtain ⟨d, d1, ⟨d2, d3, d4⟩, d5, d6, d7⟩ := h
  have hn := (normal_of_e hx hx0 he).1
  have hs : x.isSubnormal = false := by
    unfold Num.isSubnormal Mantissa.isSubnormal Mantissa.maxBitLen
    simp; omega
  obtain ⟨l, l1, l2, l3⟩ := format_of_digits d1 hs d3 d4 d6
  exact ⟨d, l, d1, d2, d5, d6, d7, l2, l1, l3⟩

end AF
