import Verif.Lemmas.ExprErr
/-!
# Additions and subtractions in the expressions of `expr!`
-/

namespace AF

theorem big_of_gap {A B : ℝ} (h : |B| ≤ |A| / 2) : |A| ≤ 2 * |A + B| ∧ |B| ≤ 2 * |A + B| := by
  have h1 := abs_sub_abs_le_abs_sub A (-B)
  rw [abs_neg, sub_neg_eq_add] at h1
  have := abs_nonneg B
  constructor <;> linarith

theorem big_of_sign {A B : ℝ} (h : 0 ≤ A * B) : |A| ≤ |A + B| ∧ |B| ≤ |A + B| := by
  have h1 := abs_add_eq_add_abs_iff A B
  have h2 : |A + B| = |A| + |B| := by
    rw [h1]
    rcases le_total 0 A with hA | hA <;> rcases le_total 0 B with hB | hB
    · exact Or.inl ⟨hA, hB⟩
    · rcases eq_or_lt_of_le hA with h0 | h0
      · exact Or.inr ⟨h0.symm.le, hB⟩
      · exact Or.inl ⟨hA, nonneg_of_mul_nonneg_right h h0⟩
    · rcases eq_or_lt_of_le hB with h0 | h0
      · exact Or.inr ⟨hA, h0.symm.le⟩
      · exact Or.inl ⟨nonneg_of_mul_nonneg_left h h0, hB⟩
    · exact Or.inr ⟨hA, hB⟩
  rw [h2]
  constructor <;> linarith [abs_nonneg A, abs_nonneg B]

/-- The sign given to the second operand. -/
def sgnOf (sub : Bool) : ℝ := if sub then -1 else 1

theorem abs_sgnOf (sub : Bool) (y : ℝ) : |sgnOf sub * y| = |y| := by
  cases sub <;> simp [sgnOf]

/-- The operands are not much larger than the result, if the check passed. -/
theorem sum_big {x y v : Num} {sub : Bool} {errs : List Nat} {id : Nat} {S' : ℝ}
    (hx : (2 : ℝ) ^ (x.e - 1) ≤ |(x.toK : ℝ)| ∧ |(x.toK : ℝ)| < 2 ^ x.e)
    (hy : (2 : ℝ) ^ (y.e - 1) ≤ |(y.toK : ℝ)| ∧ |(y.toK : ℝ)| < 2 ^ y.e)
    (hv : (2 : ℝ) ^ (v.e - 1) ≤ |S'|) (hS : S' = x.toK + sgnOf sub * y.toK)
    (hi : (x.inexact || y.inexact) = true) (he : 1 ≤ errs.getD id 0)
    (hc : MExpr.cancelled sub (.num x) (.num y) (.num v) errs id = none) :
    |(x.toK : ℝ)| ≤ 2 ^ errs.getD id 0 * |S'| ∧ |(y.toK : ℝ)| ≤ 2 ^ errs.getD id 0 * |S'| := by
  have hC2 : (2 : ℝ) ≤ 2 ^ errs.getD id 0 := by
    calc (2 : ℝ) = 2 ^ 1 := by norm_num
      _ ≤ _ := pow_le_pow_right₀ (by norm_num) he
  have hle2 : 2 * |S'| ≤ 2 ^ errs.getD id 0 * |S'| := mul_le_mul_of_nonneg_right hC2 (abs_nonneg _)
  unfold MExpr.cancelled at hc
  simp only [BF.inexact, hi, if_true, BF.exponent, BF.sign, Option.some.injEq] at hc
  by_cases hg : (x.e - y.e).natAbs ≤ 1
  · by_cases hs : x.s = y.s ↔ sub = true
    · rw [if_pos ⟨hg, hs⟩] at hc
      have h1 : (max x.e y.e - v.e).natAbs + 1 ≤ errs.getD id 0 := by
        by_contra h
        rw [if_pos (by omega)] at hc
        cases hc
      have h2 : ∀ e : ℤ, e ≤ max x.e y.e → (2 : ℝ) ^ e ≤ 2 ^ errs.getD id 0 * |S'| := by
        intro e h3
        calc (2 : ℝ) ^ e ≤ 2 ^ ((errs.getD id 0 : ℤ) + (v.e - 1)) := zpow_le_zpow_right₀ (by norm_num) (by omega)
          _ = 2 ^ errs.getD id 0 * 2 ^ (v.e - 1) := by rw [zpow_add₀ (by norm_num), zpow_natCast]
          _ ≤ _ := mul_le_mul_of_nonneg_left hv (by positivity)
      exact ⟨le_trans hx.2.le (h2 _ (le_max_left _ _)), le_trans hy.2.le (h2 _ (le_max_right _ _))⟩
    · have h3 : 0 ≤ (x.toK : ℝ) * (sgnOf sub * y.toK) := by
        rw [Num.toK_eq x, Num.toK_eq y]
        have := mul_nonneg (abs_nonneg (x.toK : ℝ)) (abs_nonneg (y.toK : ℝ))
        generalize |(x.toK : ℝ)| = A at *
        generalize |(y.toK : ℝ)| = B at *
        cases hsx : x.s <;> cases hsy : y.s <;> cases sub <;> simp [hsx, hsy, sgnOf, Sign.toK] at hs ⊢ <;> linarith
      obtain ⟨h4, h5⟩ := big_of_sign h3
      rw [← hS] at h4 h5
      rw [abs_sgnOf] at h5
      have := abs_nonneg S'
      constructor <;> linarith
  · have h3 : ∀ {a b : Num}, (2 : ℝ) ^ (a.e - 1) ≤ |(a.toK : ℝ)| → |(b.toK : ℝ)| < 2 ^ b.e → b.e + 2 ≤ a.e → |(b.toK : ℝ)| ≤ |(a.toK : ℝ)| / 2 := by
      intro a b h4 h5 h6
      have h7 : (2 : ℝ) ^ b.e * 2 ≤ 2 ^ (a.e - 1) := by
        rw [← zpow_add_one₀ (by norm_num)]
        exact zpow_le_zpow_right₀ (by norm_num) (by omega)
      linarith
    rcases le_total x.e y.e with h | h
    · obtain ⟨h4, h5⟩ := big_of_gap (A := sgnOf sub * y.toK) (B := x.toK) (by rw [abs_sgnOf]; exact h3 hy.1 hx.2 (by omega))
      rw [add_comm, ← hS] at h4 h5
      rw [abs_sgnOf] at h4
      constructor <;> linarith
    · obtain ⟨h4, h5⟩ := big_of_gap (A := x.toK) (B := sgnOf sub * y.toK) (by rw [abs_sgnOf]; exact h3 hx.1 hy.2 (by omega))
      rw [← hS] at h4 h5
      rw [abs_sgnOf] at h5
      constructor <;> linarith

theorem sum_node {P : Nat} {X Y a b c L : ℝ} {x y : Num} {sub : Bool} {errs : List Nat} {id : Nat} {r : BF}
    (hr : DeliversBF .none P ((x.toK : ℝ) + sgnOf sub * y.toK) (addIx x y) r)
    (hx : Ev a X x) (hy : Ev b Y y) (ha : a ≤ 1 / 2 ^ 10) (hb : b ≤ 1 / 2 ^ 10) (ha0 : 0 ≤ a) (hb0 : 0 ≤ b)
    (hR : InRange (X + sgnOf sub * Y)) (hM : max |X| |Y| ≤ L * |X + sgnOf sub * Y|) (hL : (a + b) * L ≤ 1 / 16)
    (he : 1 ≤ errs.getD id 0) (hcan : MExpr.cancelled sub (.num x) (.num y) r errs id = none)
    (hε : (2 : ℝ) ^ (1 - (P : ℤ)) ≤ 1 / 2 ^ 10) (hc1 : c ≤ 1 / 16)
    (hc : 9 / 8 * (9 / 8 * (a + b) * 2 ^ errs.getD id 0 + 2 ^ (1 - (P : ℤ))) ≤ c) :
    ∃ v, r = .num v ∧ Ev c (X + sgnOf sub * Y) v := by
  have hε0 : (0 : ℝ) < 2 ^ (1 - (P : ℤ)) := by positivity
  obtain ⟨hzx, hmx⟩ := hx.bounds (le_trans ha (by norm_num))
  obtain ⟨hzy, hmy⟩ := hy.bounds (le_trans hb (by norm_num))
  obtain ⟨-, -, hX⟩ := abs_near hx.near (le_trans ha (by norm_num))
  obtain ⟨-, -, hY⟩ := abs_near hy.near (le_trans hb (by norm_num))
  have hd : |((x.toK : ℝ) + sgnOf sub * y.toK) - (X + sgnOf sub * Y)| ≤ a * |X| + b * |Y| := by
    rw [show ((x.toK : ℝ) + sgnOf sub * y.toK) - (X + sgnOf sub * Y) = (x.toK - X) + sgnOf sub * (y.toK - Y) by ring]
    refine le_trans (abs_add_le _ _) ?_
    rw [abs_sgnOf]
    exact add_le_add hx.near hy.near
  have hC0 : (1 : ℝ) ≤ 2 ^ errs.getD id 0 := one_le_pow₀ (by norm_num)
  have hixeq : addIx x y = (x.inexact || y.inexact) := by unfold addIx; rw [hzx, hzy]; rfl
  have hn : |((x.toK : ℝ) + sgnOf sub * y.toK) - (X + sgnOf sub * Y)| ≤ 1 / 16 * |X + sgnOf sub * Y| := by
    refine le_trans hd ?_
    have h1 := mul_le_mul_of_nonneg_left (le_trans (le_max_left _ _) hM) ha0
    have h2 := mul_le_mul_of_nonneg_left (le_trans (le_max_right _ _) hM) hb0
    have h3 := mul_le_mul_of_nonneg_right hL (abs_nonneg (X + sgnOf sub * Y))
    have e : (a + b) * L * |X + sgnOf sub * Y| = a * (L * |X + sgnOf sub * Y|) + b * (L * |X + sgnOf sub * Y|) := by ring
    linarith
  have hS : ∀ h : (x.inexact || y.inexact) = false, (x.toK : ℝ) + sgnOf sub * y.toK = X + sgnOf sub * Y := by
    intro h
    simp only [Bool.or_eq_false_iff] at h
    rw [hx.exact h.1, hy.exact h.2]
  by_cases hi : (x.inexact || y.inexact) = true
  · obtain ⟨v, v1, v2, v3, v4, v5⟩ := deliver_near hr hR hn
    obtain ⟨n1, n2, -⟩ := abs_near hn le_rfl
    have hve : (2 : ℝ) ^ EMIN ≤ |(v.toK : ℝ)| := by
      have h3 := hR.1
      rw [zpow_add_one₀ (by norm_num)] at h3
      have h4 : (0 : ℝ) < 2 ^ EMIN := by positivity
      have h5 := (abs_near v3 (le_trans hε (by norm_num))).1
      linarith
    have hzv : v.isZero = false := by
      rw [← Bool.not_eq_true]
      intro hz
      rw [v2.toK_eq_zero.2 hz, abs_zero] at hve
      have : (0 : ℝ) < 2 ^ EMIN := by positivity
      linarith
    have hmv := v2.mag_normal hzv (v2.e_of_abs hve)
    rw [v1] at hcan
    obtain ⟨b1, b2⟩ := sum_big hmx hmy (le_trans hmv.1 v4) rfl hi he hcan
    generalize (2 : ℝ) ^ errs.getD id 0 = C at *
    refine ev_finish hr hR (φ := 153 / 128 * (a + b) * C) ?_ ?_ ?_ ?_
    · refine le_trans hd ?_
      have h1 : |X| ≤ 153 / 128 * C * |X + sgnOf sub * Y| := by
        have := mul_le_mul_of_nonneg_left n2 (show 0 ≤ C by linarith)
        linarith
      have h2 : |Y| ≤ 153 / 128 * C * |X + sgnOf sub * Y| := by
        have := mul_le_mul_of_nonneg_left n2 (show 0 ≤ C by linarith)
        linarith
      have h3 := mul_le_mul_of_nonneg_left h1 ha0
      have h4 := mul_le_mul_of_nonneg_left h2 hb0
      have e : 153 / 128 * (a + b) * C * |X + sgnOf sub * Y| = a * (153 / 128 * C * |X + sgnOf sub * Y|) + b * (153 / 128 * C * |X + sgnOf sub * Y|) := by ring
      linarith
    · have : 0 ≤ (a + b) * C := by positivity
      generalize (a + b) * C = z at *
      have e : 9 / 8 * (a + b) * C = 9 / 8 * ((a + b) * C) := by ring
      have e2 : 153 / 128 * (a + b) * C = 153 / 128 * ((a + b) * C) := by ring
      nlinarith
    · have h0 : 0 ≤ (a + b) * C := by positivity
      nlinarith
    · intro h; rw [hixeq, hi] at h; cases h
  · rw [Bool.not_eq_true] at hi
    have h0 := hS hi
    have hz : 0 ≤ 9 / 8 * (a + b) * 2 ^ errs.getD id 0 := by positivity
    refine ev_finish hr hR (φ := 0) ?_ (by norm_num) ?_ (fun _ => h0)
    · rw [h0]; simp
    · generalize 9 / 8 * (a + b) * 2 ^ errs.getD id 0 = z at *
      linarith

end AF
