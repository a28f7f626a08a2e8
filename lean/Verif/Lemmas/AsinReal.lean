import Verif.Lemmas.AtanFun
import Verif.Model.Asin
/-!
# The arcsine as an arctangent
-/

namespace AF

theorem arctan_ge_div {a : ℝ} (ha : 0 ≤ a) : a / (1 + a * a) ≤ Real.arctan a := by
  have h1 : 0 ≤ Real.arctan a := Real.arctan_nonneg.2 ha
  have h2 := Real.sin_le (x := 2 * Real.arctan a) (by linarith)
  rw [Real.sin_two_mul, Real.sin_arctan, Real.cos_arctan] at h2
  have h3 : 0 < 1 + a ^ 2 := by positivity
  have h4 : 2 * (a / √(1 + a ^ 2)) * (1 / √(1 + a ^ 2)) = 2 * (a / (1 + a * a)) := by
    have := Real.mul_self_sqrt h3.le
    rw [show 1 + a * a = 1 + a ^ 2 by ring, ← this]
    have hs : 0 < √(1 + a ^ 2) := Real.sqrt_pos.2 h3
    rw [this]
    field_simp
    rw [Real.sq_sqrt h3.le]
  rw [h4] at h2
  linarith

theorem arctan_sub_le {a b : ℝ} (ha : 0 ≤ a) (hb : a ≤ b) : Real.arctan b - Real.arctan a ≤ (b - a) / (1 + a * a) := by
  have hab : 0 ≤ a * b := mul_nonneg ha (by linarith)
  have h := Real.arctan_add (x := b) (y := -a) (by nlinarith)
  rw [Real.arctan_neg] at h
  have h1 : 0 ≤ (b + -a) / (1 - b * -a) := div_nonneg (by linarith) (by nlinarith)
  have h2 := abs_arctan_le ((b + -a) / (1 - b * -a))
  rw [abs_of_nonneg h1, abs_of_nonneg (Real.arctan_nonneg.2 h1)] at h2
  have h3 : (b + -a) / (1 - b * -a) ≤ (b - a) / (1 + a * a) := by
    rw [show b + -a = b - a by ring, show 1 - b * -a = 1 + a * b by ring]
    exact div_le_div_of_nonneg_left (by linarith) (by nlinarith) (by nlinarith)
  linarith

/-- A relative error of the argument of the arctangent. -/
theorem arctan_rel {D d ε : ℝ} (hD : 0 < D) (hε : ε ≤ 1 / 2) (h : |d - D| ≤ D * ε) :
    |Real.arctan d - Real.arctan D| ≤ Real.arctan D * (2 * ε) := by
  obtain ⟨h1, h2⟩ := abs_le.1 h
  have hε0 : 0 ≤ ε := by
    have := le_trans (abs_nonneg _) h
    exact nonneg_of_mul_nonneg_right this hD
  have hD2 : D / 2 ≤ d := by nlinarith
  rcases le_total d D with hd | hd
  · have k1 := arctan_sub_le (a := d) (b := D) (by linarith) hd
    have k2 := arctan_ge_div (a := d) (by linarith)
    have k3 := Real.arctan_mono hd
    rw [abs_of_nonpos (by linarith)]
    have k4 : (D - d) / (1 + d * d) ≤ (2 * ε) * (d / (1 + d * d)) := by
      rw [← mul_div_assoc]
      refine div_le_div_of_nonneg_right ?_ (by nlinarith [mul_self_nonneg d])
      nlinarith
    have k5 : (2 * ε) * (d / (1 + d * d)) ≤ (2 * ε) * Real.arctan D := mul_le_mul_of_nonneg_left (by linarith) (by linarith)
    linarith
  · have k1 := arctan_sub_le hD.le hd
    have k2 := arctan_ge_div hD.le
    have k3 := Real.arctan_mono hd
    rw [abs_of_nonneg (by linarith)]
    have k4 : (d - D) / (1 + D * D) ≤ (2 * ε) * (D / (1 + D * D)) := by
      rw [← mul_div_assoc]
      refine div_le_div_of_nonneg_right ?_ (by positivity)
      nlinarith
    have k5 : (2 * ε) * (D / (1 + D * D)) ≤ (2 * ε) * Real.arctan D := mul_le_mul_of_nonneg_left k2 (by linarith)
    linarith

/-- The computation of the argument of the arctangent, in real numbers. -/
theorem asin_quot {A T δ η xx t s d : ℝ} (hA : 0 < A) (hT0 : 0 < T) (hT : T = 1 - A * A) (hδ0 : 0 < δ) (hη : η ≤ 1 / 64) (hδ : δ = T * η)
    (a1 : A * A * (1 - δ) ≤ xx) (a2 : xx ≤ A * A) (b1 : (1 - xx) * (1 - δ) ≤ t) (b2 : t ≤ 1 - xx)
    (c1 : √t * (1 - δ) ≤ s) (c2 : s ≤ √t) (e1 : A / s * (1 - δ) ≤ d) (e2 : d ≤ A / s) :
    |d - A / √T| ≤ A / √T * (3 * η) := by
  have hη0 : 0 < η := by
    rw [hδ] at hδ0
    exact (mul_pos_iff_of_pos_left hT0).1 hδ0
  have hT1 : T < 1 := by rw [hT]; nlinarith
  have hδη : δ ≤ η := by rw [hδ]; nlinarith
  have hS : 0 < √T := Real.sqrt_pos.2 hT0
  obtain ⟨S, hSe⟩ : ∃ S, S = √T := ⟨_, rfl⟩
  have t1 : T * (1 - δ) ≤ t := le_trans (mul_le_mul_of_nonneg_right (by linarith) (by linarith)) b1
  have t2 : t ≤ T * (1 + η) := by
    have : A * A * δ ≤ δ := by nlinarith
    rw [hδ] at this a1
    nlinarith
  have ht0 : 0 < t := lt_of_lt_of_le (mul_pos hT0 (by linarith)) t1
  have r1 : √T * (1 - δ) ≤ √t := by
    apply Real.le_sqrt_of_sq_le
    rw [mul_pow, Real.sq_sqrt hT0.le]
    nlinarith
  have r2 : √t ≤ √T * (1 + η) := by
    apply Real.sqrt_le_iff.2
    refine ⟨by positivity, ?_⟩
    rw [mul_pow, Real.sq_sqrt hT0.le]
    nlinarith
  have s1 : √T * (1 - 2 * η) ≤ s := by
    refine le_trans ?_ (le_trans (mul_le_mul_of_nonneg_right r1 (by linarith)) c1)
    rw [mul_assoc]
    exact mul_le_mul_of_nonneg_left (by nlinarith) hS.le
  have s2 : s ≤ √T * (1 + η) := le_trans c2 r2
  rw [← hSe] at s1 s2 hS ⊢
  have hs0 : 0 < s := lt_of_lt_of_le (mul_pos hS (by linarith)) s1
  obtain ⟨D, hD⟩ : ∃ D, D = A / S := ⟨_, rfl⟩
  have hD0 : 0 < D := by rw [hD]; positivity
  have hAD : A = D * S := by rw [hD]; field_simp
  rw [← hD]
  have u1 : A / s ≤ D * (1 + 3 * η) := by
    rw [div_le_iff₀ hs0, hAD]
    have g1 : D * (1 + 3 * η) * (S * (1 - 2 * η)) ≤ D * (1 + 3 * η) * s := mul_le_mul_of_nonneg_left s1 (by positivity)
    have g2 : 1 ≤ (1 + 3 * η) * (1 - 2 * η) := by nlinarith
    have g3 : D * S * 1 ≤ D * S * ((1 + 3 * η) * (1 - 2 * η)) := mul_le_mul_of_nonneg_left g2 (by positivity)
    linarith
  have u2 : D * (1 - 2 * η) ≤ A / s * (1 - δ) := by
    have g1 : D * (1 - η) ≤ A / s := by
      rw [le_div_iff₀ hs0, hAD]
      have g1 : D * (1 - η) * s ≤ D * (1 - η) * (S * (1 + η)) := mul_le_mul_of_nonneg_left s2 (mul_nonneg hD0.le (by linarith))
      have g2 : (1 - η) * (1 + η) ≤ 1 := by nlinarith
      have g3 : D * S * ((1 - η) * (1 + η)) ≤ D * S * 1 := mul_le_mul_of_nonneg_left g2 (by positivity)
      linarith
    refine le_trans ?_ (mul_le_mul_of_nonneg_right g1 (by linarith))
    rw [mul_assoc]
    exact mul_le_mul_of_nonneg_left (by nlinarith) hD0.le
  have : 0 < D * η := by positivity
  rw [abs_le]
  constructor <;> linarith

/-- A directed rounding is off by less than a unit. -/
theorem directed_rel {rm : RM} (hd : rm = .up ∨ rm = .down ∨ rm = .toZero ∨ rm = .fromZero) {P : Nat} {y r : ℝ}
    (h : RoundsPrec rm P y r) : |r - y| ≤ |y| * 2 ^ (1 - (P : ℤ)) := by
  rcases h with ⟨h1, h2⟩ | ⟨q, h1, h2, k, -, h4⟩
  · rw [h1, h2]; simp
  have hu : (2 : ℝ) ^ (q - (P : ℤ)) ≤ |y| * 2 ^ (1 - (P : ℤ)) := by
    rw [show q - (P : ℤ) = q - 1 + (1 - P) by ring, zpow_add₀ (by norm_num)]
    exact mul_le_mul_of_nonneg_right h1 (by positivity)
  refine le_trans ?_ hu
  have hs : ∀ a b : ℝ, 0 ≤ a * b → |a - b| = |(|a| - |b|)| := by
    intro a b hab
    rcases abs_cases a with ⟨e, _⟩ | ⟨e, _⟩ <;> rcases abs_cases b with ⟨e', _⟩ | ⟨e', _⟩ <;> rw [e, e']
    · rcases (mul_nonneg_iff.1 hab) with h | h
      · linarith
      · have : a = 0 := by linarith
        rw [this]; simp
    · rcases (mul_nonneg_iff.1 hab) with h | h
      · linarith
      · have : b = 0 := by linarith
        rw [this]; simp
    · rw [← abs_neg]; congr 1; ring
  rcases hd with rfl | rfl | rfl | rfl <;> dsimp only at h4
  · rw [abs_le]; constructor <;> linarith [h4.1, h4.2]
  · rw [abs_le]; constructor <;> linarith [h4.1, h4.2]
  · rw [abs_sub_comm, hs y r h4.2.2, abs_le]; constructor <;> linarith [h4.1, h4.2.1]
  · rw [abs_sub_comm, hs y r h4.2.2, abs_le]; constructor <;> linarith [h4.1, h4.2.1]

/-- The bounds of `FunRounded` as a relative error. -/
theorem FunRounded.rel {rm : RM} {P : Nat} {y : ℝ} {v : Num} (hy : (2 : ℝ) ^ (EMIN - 1) ≤ |y|) (h : FunRounded rm P y v) :
    |(v.toK : ℝ) - y| ≤ |y| * (2 ^ (1 - (P : ℤ)) * 2) := by
  have hδ : (0 : ℝ) < 2 ^ (1 - (P : ℤ)) := by positivity
  have h60 : (2 : ℝ) ^ (-60 : ℤ) ≤ 1 / 2 := by norm_num
  have e : (2 : ℝ) ^ (1 - (P : ℤ)) = 2 * 2 ^ (-(P : ℤ)) := by rw [sub_eq_add_neg, zpow_add₀ (by norm_num), zpow_one]
  have hδ' : (0 : ℝ) < 2 ^ (-(P : ℤ)) := by positivity
  have h0 := h.none
  have h1 := h.nearest
  generalize (2 : ℝ) ^ (-60 : ℤ) = z at h60 h0 h1
  have key : (rm = .up ∨ rm = .down ∨ rm = .toZero ∨ rm = .fromZero) → |(v.toK : ℝ) - y| ≤ |y| * (2 ^ (1 - (P : ℤ)) * 2) := by
    intro hd
    exact le_trans (directed_rel hd ((h.directed hd).toPrec hy)) (mul_le_mul_of_nonneg_left (by linarith) (abs_nonneg _))
  cases rm with
  | none =>
    refine le_trans (h0 rfl) (mul_le_mul_of_nonneg_left (mul_le_mul_of_nonneg_left (by linarith) hδ.le) (abs_nonneg _))
  | toEven =>
    refine le_trans (h1 (Or.inl rfl)) (mul_le_mul_of_nonneg_left ?_ (abs_nonneg _))
    nlinarith
  | toOdd =>
    refine le_trans (h1 (Or.inr rfl)) (mul_le_mul_of_nonneg_left ?_ (abs_nonneg _))
    nlinarith
  | up => exact key (by tauto)
  | down => exact key (by tauto)
  | toZero => exact key (by tauto)
  | fromZero => exact key (by tauto)

end AF
