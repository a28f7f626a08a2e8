import Verif.Lemmas.Op
/-!
# C48: half-ulp error bound

`q` is the exponent of the exact result `X`, `2^(q-P)` the unit in the last place at `P` bits.
-/

namespace AF

theorem C48_half_ulp (op : Op) (x y : Num) (hx : x.WF) (hy : y.WF)
    (hd : op.Dom (y.toK : ℚ)) (p : Nat) (hp : ValidP p) (rm : RM) (hrm : rm = .toEven ∨ rm = .toOdd)
    (hn : NormalRange rm (precBits p) (op.exact (x.toK : ℚ) y.toK)) :
    ∃ v, op.apply (.num x) (.num y) p rm = .num v ∧
      ∀ q : ℤ, (2 : ℚ) ^ (q - 1) ≤ |op.exact (x.toK : ℚ) y.toK| →
        |op.exact (x.toK : ℚ) y.toK| < (2 : ℚ) ^ q →
        |op.exact (x.toK : ℚ) y.toK - v.toK| ≤ (2 : ℚ) ^ (q - (precBits p : ℤ)) / 2 := by
  obtain ⟨v, h1, _, h2⟩ := (op.delivers (K := ℚ) hx hy hd hp rm).normal hn
  refine ⟨v, h1, fun q a1 a2 => ?_⟩
  rcases h2 with ⟨h0, _⟩ | ⟨q', b1, b2, b3⟩
  · rw [h0, abs_zero] at a1
    exact absurd a1 (not_le.2 (two_zpow_pos _))
  · have hq : q' = q := by
      have e1 : q - 1 < q' := (zpow_lt_zpow_iff_right₀ (by norm_num)).1 (lt_of_le_of_lt a1 b2)
      have e2 : q' - 1 < q := (zpow_lt_zpow_iff_right₀ (by norm_num)).1 (lt_of_le_of_lt b1 a2)
      omega
    subst hq
    rcases hrm with rfl | rfl <;> exact b3.choose_spec.2.1

example : ∃ v, BF.div (.num exA) (.num exB) 100 .toEven = .num v ∧
      ∀ q : ℤ, (2 : ℚ) ^ (q - 1) ≤ |(exA.toK : ℚ) / exB.toK| →
        |(exA.toK : ℚ) / exB.toK| < (2 : ℚ) ^ q →
        |(exA.toK : ℚ) / exB.toK - v.toK| ≤ (2 : ℚ) ^ (q - (128 : ℤ)) / 2 :=
  C48_half_ulp .div exA exB exA_WF exB_WF (by show (exB.toK : ℚ) ≠ 0; rw [exB_val]; norm_num) 100
    ValidP_100 .toEven (Or.inl rfl)
    (NormalRange.of_bounds (by decide) (a := 1) (b := 5)
      (by show _ ≤ |(exA.toK : ℚ) / exB.toK|
          rw [exA_val, exB_val, abs_of_neg (by norm_num)]; norm_num)
      (by show |(exA.toK : ℚ) / exB.toK| ≤ _
          rw [exA_val, exB_val, abs_of_neg (by norm_num)]; norm_num) (by decide) (by decide))

end AF
