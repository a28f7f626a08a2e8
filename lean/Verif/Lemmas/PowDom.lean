import Verif.Lemmas.PowStuck
/-!
# The general power: the logarithm of a number is not too small
-/

namespace AF

open Num

theorem log_low {x : Num} (hx : x.WF) (h0 : (x.toK : ℝ) ≠ 0) (h1 : |(x.toK : ℝ)| ≠ 1) :
    (2 : ℝ) ^ (-((64 * x.m.m.length : ℕ) : ℤ) - 1) ≤ |Real.log (|(x.toK : ℝ)|)| := by
  have hlt := hx.abs_lt_zpow (K := ℝ)
  have hv := Num.abs_val (K := ℝ) x
  obtain ⟨L, hL⟩ : ∃ L, L = 64 * x.m.m.length := ⟨_, rfl⟩
  rw [← hL] at hv ⊢
  obtain ⟨X, hX⟩ : ∃ X, X = |(x.toK : ℝ)| := ⟨_, rfl⟩
  rw [← hX] at hv h1 hlt ⊢
  have hX0 : 0 < X := hX ▸ abs_pos.2 h0
  have hp : (2 : ℝ) ^ (-(L : ℤ)) = 2 * 2 ^ (-(L : ℤ) - 1) := by
    rw [← zpow_one_add₀ (by norm_num)]; congr 1; ring
  have hp0 : (0 : ℝ) < 2 ^ (-(L : ℤ) - 1) := by positivity
  have hp1 : (2 : ℝ) ^ (-(L : ℤ)) ≤ 1 := zpow_le_one_of_nonpos₀ (by norm_num) (by omega)
  have hb : ∀ d : ℝ, d ≤ Real.log X ∨ d ≤ -Real.log X → d ≤ |Real.log X| := by
    rintro d (h | h)
    · exact le_trans h (le_abs_self _)
    · exact le_trans h (neg_le_abs _)
  have hup := Real.log_le_sub_one_of_pos hX0
  have hdn := Real.one_sub_inv_le_log_of_pos hX0
  rcases lt_or_ge X 2 with h2 | h2
  · rcases le_or_gt X (1 / 2) with h3 | h3
    · refine hb _ (Or.inr ?_)
      linarith
    · have he : 0 ≤ x.e := by
        by_contra hc
        have : (2 : ℝ) ^ x.e ≤ 2 ^ (-1 : ℤ) := zpow_le_zpow_right₀ (by norm_num) (by omega)
        norm_num at this
        linarith
      have hd : (2 : ℝ) ^ (-(L : ℤ)) ≤ |X - 1| := by
        have hLL : (2 : ℝ) ^ L * 2 ^ (-(L : ℤ)) = 1 := by
          rw [← zpow_natCast, ← zpow_add₀ (by norm_num)]; simp
        have e1 : X - 1 = (((val x.m.m : ℤ) * 2 ^ x.e.toNat - 2 ^ L : ℤ) : ℝ) * 2 ^ (-(L : ℤ)) := by
          push_cast
          rw [sub_mul, hLL, hv, mul_assoc, ← zpow_natCast, ← zpow_add₀ (by norm_num)]
          congr 3
          omega
        have hn : ((val x.m.m : ℤ) * 2 ^ x.e.toNat - 2 ^ L : ℤ) ≠ 0 := by
          intro h
          rw [h] at e1
          simp at e1
          exact h1 (by linarith)
        have hge : (1 : ℝ) ≤ |(((val x.m.m : ℤ) * 2 ^ x.e.toNat - 2 ^ L : ℤ) : ℝ)| := by
          have := Int.one_le_abs hn
          exact_mod_cast this
        rw [e1, abs_mul, abs_of_pos (show (0 : ℝ) < 2 ^ (-(L : ℤ)) by positivity)]
        have : (0 : ℝ) < 2 ^ (-(L : ℤ)) := by positivity
        nlinarith
      rcases lt_or_gt_of_ne h1 with h4 | h4
      · rw [abs_of_neg (by linarith)] at hd
        refine hb _ (Or.inr ?_)
        linarith
      · rw [abs_of_pos (by linarith)] at hd
        refine hb _ (Or.inl (le_trans ?_ hdn))
        have : 1 - X⁻¹ = (X - 1) / X := by field_simp
        rw [this, le_div_iff₀ hX0]
        nlinarith
  · refine hb _ (Or.inl (le_trans ?_ hdn))
    have : X⁻¹ ≤ 1 / 2 := by rw [inv_le_comm₀ hX0 (by norm_num)]; norm_num; exact h2
    linarith

/-- The conditions on the arguments in a more convenient form. -/
theorem PowArgs.of {x n : Num} (hx : x.WF) (hn : n.WF) (h0 : (x.toK : ℚ) ≠ 0) (h1 : |(x.toK : ℚ)| ≠ 1) (hn0 : (n.toK : ℚ) ≠ 0)
    (he : EMIN + 2 ^ 16 ≤ n.e) (hl : 64 * x.m.m.length ≤ 2 ^ 15)
    (ht : Real.exp |n.toK * Real.log (|(x.toK : ℝ)|)| ≤ 2 ^ (EMAX - 5)) : PowArgs x n := by
  have h0' : (x.toK : ℝ) ≠ 0 := by rw [← toK_ratCast x]; exact_mod_cast h0
  have h1' : |(x.toK : ℝ)| ≠ 1 := by
    rw [← toK_ratCast x, ← Rat.cast_abs]; exact_mod_cast h1
  refine ⟨hx, hn, h0', h1', ?_, ht⟩
  have hE : EMIN = -2 ^ 31 := rfl
  have hnz : n.isZero = false := by
    rw [← Bool.not_eq_true]; exact fun h => hn0 (hn.toK_eq_zero.2 h)
  obtain ⟨q, q1, -, q3, -⟩ := hn.mag (K := ℝ) hnz
  have hlow := log_low hx h0' h1'
  rw [abs_mul]
  have h2 : (2 : ℝ) ^ EMIN ≤ 2 ^ (q - 1) * 2 ^ (-((64 * x.m.m.length : ℕ) : ℤ) - 1) := by
    rw [← zpow_add₀ (by norm_num)]
    exact zpow_le_zpow_right₀ (by norm_num) (by omega)
  exact le_trans h2 (mul_le_mul q1 hlow (by positivity) (abs_nonneg _))

end AF
