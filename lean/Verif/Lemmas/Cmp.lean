import Verif.Lemmas.Ext
/-!
# Comparison of numbers
-/

namespace AF
set_option linter.unusedSectionVars false

variable {K : Type*} [Field K] [LinearOrder K] [IsStrictOrderedRing K]

theorem Num.abs_pos_of {x : Num} (h : x.WF) (hz : x.isZero = false) : 0 < |(x.toK : K)| := by
  rw [abs_pos]; intro hc
  rw [h.toK_eq_zero.1 hc] at hz; simp at hz

theorem cmp_spec {x y : Num} (hx : x.WF) (hy : y.WF) (hc : CmpOk x y) :
    (0 < x.cmp y ↔ (y.toK : ℚ) < x.toK) ∧ (x.cmp y < 0 ↔ (x.toK : ℚ) < y.toK) := by
  unfold Num.cmp
  by_cases hxz : x.isZero = true
  · have hx0 := (hx.toK_eq_zero (K := ℚ)).2 hxz
    by_cases hyz : y.isZero = true
    · have hy0 := (hy.toK_eq_zero (K := ℚ)).2 hyz
      rw [hxz, hyz, hx0, hy0]; simp
    · rw [Bool.not_eq_true] at hyz
      have hp := Num.abs_pos_of (K := ℚ) hy hyz
      rw [hxz, hyz, hx0, Num.toK_eq y]
      simp only [Bool.and_false, Bool.false_eq_true, if_false]
      have ha : x.absCmp y = -1 := by unfold Num.absCmp; rw [hxz, hyz]; simp
      rw [ha]
      cases hs : x.s <;> cases ht : y.s <;> simp [Sign.toInt, Sign.toK] <;>
        first | exact ⟨hp, hp.le⟩ | exact ⟨hp.le, hp⟩ | skip
      all_goals first
        | (exact abs_pos.1 hp)
        | (constructor <;> first | exact abs_pos.1 hp | linarith)
  · rw [Bool.not_eq_true] at hxz
    have hp := Num.abs_pos_of (K := ℚ) hx hxz
    by_cases hyz : y.isZero = true
    · have hy0 := (hy.toK_eq_zero (K := ℚ)).2 hyz
      rw [hxz, hyz, hy0]
      simp only [Bool.false_and, Bool.false_eq_true, if_false]
      by_cases hs : x.s = y.s
      · -- same sign: the length condition
        have hcond : y.e = 0 ∧ (2 : ℚ) ^ (-(64 * y.m.m.length : ℕ) : ℤ) ≤ |(x.toK : ℚ)| := by
          rcases hc with h | h | h | h
          · rw [h, abs_zero] at hp; exact absurd hp (lt_irrefl _)
          · exact absurd hy0 h
          · exact absurd hs h
          · exact h
        obtain ⟨e1, m1, _, hm1, hv1, hl1, _, he1⟩ := normalize_spec (K := ℚ) hx hxz
        have hf := frac_lt_one (K := ℚ) hm1.1
        have he : -((64 * y.m.m.length : ℕ) : ℤ) < e1 := by
          by_contra hcc
          push Not at hcc
          have h1 : (2 : ℚ) ^ e1 ≤ 2 ^ (-((64 * y.m.m.length : ℕ) : ℤ)) := zpow_mono_two hcc
          have h2 : frac m1.m * (2 : ℚ) ^ e1 < 1 * 2 ^ e1 :=
            mul_lt_mul_of_pos_right hf (two_zpow_pos _)
          rw [hv1] at hcond
          linarith [hcond.2]
        have hyn : y.m.n = 0 := by
          have := hy.bits; rw [hy.isZero_iff.1 hyz] at this; simpa using this
        have ha : x.absCmp y = 1 := by
          unfold Num.absCmp
          rw [hxz]
          simp only [Bool.false_eq_true, if_false]
          rw [if_pos]
          have hn := hx.n_le
          rw [hcond.1, hyn]
          simp only [Mantissa.maxBitLen]
          push_cast at he he1 hn ⊢
          omega
        rw [if_neg (by simpa using hs), ha, Num.toK_eq x]
        cases x.s <;> simp [Sign.toInt, Sign.toK] <;> exact abs_pos.1 hp
      · rw [if_pos hs, Num.toK_eq x]
        cases x.s <;> simp [Sign.toInt, Sign.toK] <;> exact abs_pos.1 hp
    · rw [Bool.not_eq_true] at hyz
      have hq := Num.abs_pos_of (K := ℚ) hy hyz
      obtain ⟨h1, h2⟩ := absCmp_spec (K := ℚ) hx hy hxz hyz
      rw [hxz, hyz]
      simp only [Bool.and_false, Bool.false_eq_true, if_false]
      by_cases hs : x.s = y.s
      · rw [if_neg (by simpa using hs), Num.toK_eq x, Num.toK_eq y, hs]
        cases y.s
        · simp only [Sign.toInt, Sign.toK, neg_mul, one_mul, neg_lt_neg_iff]
          rw [← h1, ← h2]; constructor <;> constructor <;> intro h <;> omega
        · simp only [Sign.toInt, Sign.toK, one_mul]
          rw [← h1, ← h2]; constructor <;> constructor <;> intro h <;> omega
      · rw [if_pos hs, Num.toK_eq x, Num.toK_eq y]
        cases hxs : x.s <;> cases hys : y.s
        · rw [hxs, hys] at hs; exact absurd rfl hs
        · simp only [Sign.toInt, Sign.toK, neg_mul, one_mul]
          constructor
          · constructor
            · intro h; norm_num at h
            · intro h; linarith
          · constructor
            · intro _; linarith
            · intro _; norm_num
        · simp only [Sign.toInt, Sign.toK, neg_mul, one_mul]
          constructor
          · constructor
            · intro _; linarith
            · intro _; norm_num
          · constructor
            · intro h; norm_num at h
            · intro h; linarith
        · rw [hxs, hys] at hs; exact absurd rfl hs

theorem cmp_eq_zero {x y : Num} (hx : x.WF) (hy : y.WF) (hc : CmpOk x y) :
    x.cmp y = 0 ↔ (x.toK : ℚ) = y.toK := by
  obtain ⟨h1, h2⟩ := cmp_spec hx hy hc
  constructor
  · intro h
    rw [h] at h1 h2
    exact le_antisymm (not_lt.1 (fun h => absurd (h1.2 h) (lt_irrefl _)))
      (not_lt.1 (fun h => absurd (h2.2 h) (lt_irrefl _)))
  · intro h
    rw [h] at h1 h2
    have a : ¬ 0 < x.cmp y := fun h => absurd (h1.1 h) (lt_irrefl _)
    have b : ¬ x.cmp y < 0 := fun h => absurd (h2.1 h) (lt_irrefl _)
    omega

theorem CmpOk.refl {x : Num} : CmpOk x x := by
  by_cases h : (x.toK : ℚ) = 0
  · exact Or.inl h
  · exact Or.inr (Or.inl h)

end AF
