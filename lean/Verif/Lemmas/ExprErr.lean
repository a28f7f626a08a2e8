import Verif.SpecExpr
import Verif.Lemmas.ExtDiv
import Verif.Lemmas.NumRoot
import Verif.Lemmas.AtanSer2
import Verif.Lemmas.DecApx
/-!
# Errors of the expressions of `expr!`
-/

namespace AF

theorem InRange.ne {S : ℝ} (h : InRange S) : S ≠ 0 := by
  have : 0 < |S| := lt_of_lt_of_le (by positivity) h.1
  exact abs_pos.1 this

/-- A value `v` of the round for the exact value `X`, with relative error at most `a`. -/
structure Ev (a X : ℝ) (v : Num) : Prop where
  wf : v.WF
  rng : InRange X
  near : |v.toK - X| ≤ a * |X|
  exact : v.inexact = false → (v.toK : ℝ) = X

theorem abs_near {a A B : ℝ} (h : |A - B| ≤ a * |B|) (ha : a ≤ 1 / 16) : 15 / 16 * |B| ≤ |A| ∧ |A| ≤ 17 / 16 * |B| ∧ |B| ≤ 9 / 8 * |A| := by
  have h1 := abs_sub_abs_le_abs_sub A B
  have h2 := abs_sub_abs_le_abs_sub B A
  rw [abs_sub_comm B A] at h2
  have h3 := mul_le_mul_of_nonneg_right ha (abs_nonneg B)
  refine ⟨by linarith, by linarith, ?_⟩
  have := abs_nonneg A
  linarith

theorem Ev.bounds {a X : ℝ} {v : Num} (h : Ev a X v) (ha : a ≤ 1 / 16) : v.isZero = false ∧ (2 : ℝ) ^ (v.e - 1) ≤ |(v.toK : ℝ)| ∧ |(v.toK : ℝ)| < 2 ^ v.e := by
  obtain ⟨h1, -, -⟩ := abs_near h.near ha
  have h2 : (2 : ℝ) ^ EMIN ≤ |(v.toK : ℝ)| := by
    have h3 := h.rng.1
    rw [zpow_add_one₀ (by norm_num)] at h3
    have : (0 : ℝ) < 2 ^ EMIN := by positivity
    linarith
  have hz : v.isZero = false := by
    rw [← Bool.not_eq_true]
    intro hz
    rw [h.wf.toK_eq_zero.2 hz, abs_zero] at h2
    have : (0 : ℝ) < 2 ^ EMIN := by positivity
    linarith
  exact ⟨hz, h.wf.mag_normal hz (h.wf.e_of_abs h2)⟩

theorem Ev.ne {a X : ℝ} {v : Num} (h : Ev a X v) (ha : a ≤ 1 / 16) : (v.toK : ℝ) ≠ 0 := by
  have h1 := (h.bounds ha).2.1
  exact abs_pos.1 (lt_of_lt_of_le (by positivity) h1)

theorem Ev.theta {a X : ℝ} {v : Num} (h : Ev a X v) : ∃ θ, |θ| ≤ a ∧ (v.toK : ℝ) = X * (1 + θ) := by
  have hX := h.rng.ne
  refine ⟨(v.toK - X) / X, ?_, ?_⟩
  · rw [abs_div, div_le_iff₀ (abs_pos.2 hX)]
    exact h.near
  · field_simp
    ring

/-- A rounded operation. -/
theorem deliver_near {P : Nat} {S S' : ℝ} {ix : Bool} {r : BF} (h : DeliversBF .none P S' ix r) (hS : InRange S)
    (hn : |S' - S| ≤ 1 / 16 * |S|) :
    ∃ v, r = .num v ∧ v.WF ∧ |(v.toK : ℝ) - S'| ≤ 2 ^ (1 - (P : ℤ)) * |S'| ∧ |(v.toK : ℝ)| ≤ |S'| ∧
      (v.inexact = false → ix = false ∧ (v.toK : ℝ) = S') := by
  obtain ⟨h1, h2, -⟩ := abs_near hn le_rfl
  have hlo : (2 : ℝ) ^ (EMIN - 1) ≤ |S'| := by
    have h3 := hS.1
    rw [show EMIN + 1 = EMIN - 1 + 1 + 1 by ring, zpow_add_one₀ (by norm_num), zpow_add_one₀ (by norm_num)] at h3
    have : (0 : ℝ) < 2 ^ (EMIN - 1) := by positivity
    linarith
  have hhi : |S'| < 2 ^ EMAX := by
    have h3 := hS.2
    have h4 : (2 : ℝ) ^ EMAX = 2 ^ (EMAX - 1) * 2 := by rw [← zpow_add_one₀ (by norm_num)]; congr 1
    rw [h4]
    have := abs_nonneg S
    linarith
  have hle : ∀ t : ℝ, RoundsPrec .none P S' t → |t| ≤ |S'| := by
    rintro t (⟨h5, h6⟩ | ⟨q, -, -, k, -, h6, -⟩)
    · rw [h5, h6]
    · exact h6
  cases r with
  | num v =>
    have h5 := Delivers.normal h hlo
    refine ⟨v, rfl, h.1, by rw [mul_comm]; exact h5.none_abs, hle _ h5, fun hv => ?_⟩
    have h6 := h.2.2.2.2.1
    rw [hv] at h6
    constructor
    · cases hi : ix
      · rfl
      · exact absurd (h6.2 (Or.inl hi)) (by simp)
    · by_contra hc
      exact absurd (h6.2 (Or.inr hc)) (by simp)
  | inf s =>
    obtain ⟨_, t, h5, h6⟩ := h
    exact absurd (hle t h5) (by linarith)
  | nan e => exact absurd h id

theorem ev_finish {P : Nat} {S S' a φ : ℝ} {ix : Bool} {r : BF} (h : DeliversBF .none P S' ix r) (hS : InRange S)
    (hn : |S' - S| ≤ φ * |S|) (hφ : φ ≤ 1 / 16) (ha : φ + 17 / 16 * 2 ^ (1 - (P : ℤ)) ≤ a) (hx : ix = false → S' = S) :
    ∃ v, r = .num v ∧ Ev a S v := by
  obtain ⟨v, v1, v2, v3, v4, v5⟩ := deliver_near h hS (le_trans hn (mul_le_mul_of_nonneg_right hφ (abs_nonneg _)))
  refine ⟨v, v1, v2, hS, ?_, fun hv => ?_⟩
  · obtain ⟨-, h2, -⟩ := abs_near hn hφ
    have h3 : (v.toK : ℝ) - S = (v.toK - S') + (S' - S) := by ring
    have hε : (0 : ℝ) < 2 ^ (1 - (P : ℤ)) := by positivity
    generalize (2 : ℝ) ^ (1 - (P : ℤ)) = ε at *
    have h4 := mul_le_mul_of_nonneg_left h2 hε.le
    have h5 := mul_le_mul_of_nonneg_right ha (abs_nonneg S)
    rw [h3]
    refine le_trans (abs_add_le _ _) ?_
    have e : (φ + 17 / 16 * ε) * |S| = φ * |S| + ε * (17 / 16 * |S|) := by ring
    linarith
  · obtain ⟨h1, h2⟩ := v5 hv
    rw [h2, hx h1]

section Nodes

variable {w : Nat} (hw : ValidP w) {X Y a b : ℝ} {x y : Num}

include hw

theorem mul_node (hx : Ev a X x) (hy : Ev b Y y) (ha : a ≤ 1 / 2 ^ 10) (hb : b ≤ 1 / 2 ^ 10) (hR : InRange (X * Y)) {c : ℝ}
    (hc : 9 / 8 * (a + b + 2 ^ (1 - (precBits w : ℤ))) ≤ c) : ∃ v, BF.mul (.num x) (.num y) w .none = .num v ∧ Ev c (X * Y) v := by
  obtain ⟨θ, t1, t2⟩ := hx.theta
  obtain ⟨η, e1, e2⟩ := hy.theta
  have ha0 : 0 ≤ a := le_trans (abs_nonneg _) t1
  have hb0 : 0 ≤ b := le_trans (abs_nonneg _) e1
  have hε : (0 : ℝ) < 2 ^ (1 - (precBits w : ℤ)) := by positivity
  refine ev_finish (BF.mul_delivers hx.wf hy.wf hw .none) hR (φ := 9 / 8 * (a + b)) ?_ ?_ ?_ ?_
  · rw [t2, e2, show X * (1 + θ) * (Y * (1 + η)) - X * Y = (θ + η + θ * η) * (X * Y) by ring, abs_mul]
    refine mul_le_mul_of_nonneg_right ?_ (abs_nonneg _)
    have h1 : |θ * η| ≤ a * (1 / 2 ^ 10) := by
      rw [abs_mul]; exact mul_le_mul t1 (le_trans e1 hb) (abs_nonneg _) ha0
    refine le_trans (abs_add_three _ _ _) ?_
    generalize |θ * η| = z at *
    norm_num at h1
    linarith
  · norm_num at ha hb
    linarith
  · linarith
  · intro hi
    have h1 : x.inexact = false ∧ y.inexact = false := by
      unfold mulIx at hi
      rw [(hx.bounds (le_trans ha (by norm_num))).1, (hy.bounds (le_trans hb (by norm_num))).1] at hi
      simpa using hi
    rw [hx.exact h1.1, hy.exact h1.2]

theorem div_node (hx : Ev a X x) (hy : Ev b Y y) (ha : a ≤ 1 / 2 ^ 10) (hb : b ≤ 1 / 2 ^ 10) (hR : InRange (X / Y)) {c : ℝ}
    (hc : 9 / 8 * (a + b + 2 ^ (1 - (precBits w : ℤ))) ≤ c) : ∃ v, BF.div (.num x) (.num y) w .none = .num v ∧ Ev c (X / Y) v := by
  obtain ⟨θ, t1, t2⟩ := hx.theta
  obtain ⟨η, e1, e2⟩ := hy.theta
  have hY := hy.rng.ne
  have ha0 : 0 ≤ a := le_trans (abs_nonneg _) t1
  have hb0 : 0 ≤ b := le_trans (abs_nonneg _) e1
  have hε : (0 : ℝ) < 2 ^ (1 - (precBits w : ℤ)) := by positivity
  have hb1 : b ≤ 1 / 1024 := le_trans hb (by norm_num)
  have hη := abs_le.1 e1
  have h1η : 0 < 1 + η := by linarith
  refine ev_finish (BF.div_delivers hx.wf hy.wf (hy.ne (le_trans hb (by norm_num))) hw .none) hR (φ := 9 / 8 * (a + b)) ?_ ?_ ?_ ?_
  · rw [t2, e2, show X * (1 + θ) / (Y * (1 + η)) - X / Y = ((θ - η) / (1 + η)) * (X / Y) by field_simp; ring, abs_mul]
    refine mul_le_mul_of_nonneg_right ?_ (abs_nonneg _)
    rw [abs_div, abs_of_pos h1η, div_le_iff₀ h1η]
    have h2 := le_trans (abs_sub θ η) (add_le_add t1 e1)
    refine le_trans h2 ?_
    have h3 : 8 / 9 ≤ 1 + η := by linarith
    have := mul_le_mul_of_nonneg_left h3 (show 0 ≤ 9 / 8 * (a + b) by positivity)
    linarith
  · norm_num at ha
    linarith
  · linarith
  · intro hi
    have h1 : x.inexact = false ∧ y.inexact = false := by
      unfold divIx at hi
      rw [(hx.bounds (le_trans ha (by norm_num))).1] at hi
      simpa using hi
    rw [hx.exact h1.1, hy.exact h1.2]

theorem recip_node (hx : Ev a X x) (ha : a ≤ 1 / 2 ^ 10) (hR : InRange (1 / X)) {c : ℝ}
    (hc : 9 / 8 * (a + 2 ^ (1 - (precBits w : ℤ))) ≤ c) : ∃ v, BF.reciprocal (.num x) w .none = .num v ∧ Ev c (1 / X) v := by
  obtain ⟨η, e1, e2⟩ := hx.theta
  have hX := hx.rng.ne
  have ha0 : 0 ≤ a := le_trans (abs_nonneg _) e1
  have hε : (0 : ℝ) < 2 ^ (1 - (precBits w : ℤ)) := by positivity
  have ha1 : a ≤ 1 / 1024 := le_trans ha (by norm_num)
  have hη := abs_le.1 e1
  have h1η : 0 < 1 + η := by linarith
  refine ev_finish (BF.reciprocal_delivers hx.wf (hx.ne (le_trans ha (by norm_num))) hw .none) hR (φ := 9 / 8 * a) ?_ ?_ ?_ ?_
  · rw [e2, show 1 / (X * (1 + η)) - 1 / X = (-η / (1 + η)) * (1 / X) by field_simp; ring, abs_mul]
    refine mul_le_mul_of_nonneg_right ?_ (abs_nonneg _)
    rw [abs_div, abs_of_pos h1η, div_le_iff₀ h1η, abs_neg]
    refine le_trans e1 ?_
    have h3 : 8 / 9 ≤ 1 + η := by linarith
    have := mul_le_mul_of_nonneg_left h3 (show 0 ≤ 9 / 8 * a by positivity)
    linarith
  · linarith
  · linarith
  · intro hi
    rw [hx.exact hi]

theorem sqrt_node (hx : Ev a X x) (ha : a ≤ 1 / 2 ^ 10) (hX : 0 < X) (hR : InRange (Real.sqrt X)) {c : ℝ}
    (hc : 9 / 8 * (a + 2 ^ (1 - (precBits w : ℤ))) ≤ c) : ∃ v, BF.sqrt (.num x) w .none = .num v ∧ Ev c (Real.sqrt X) v := by
  obtain ⟨η, e1, e2⟩ := hx.theta
  have ha0 : 0 ≤ a := le_trans (abs_nonneg _) e1
  have hε : (0 : ℝ) < 2 ^ (1 - (precBits w : ℤ)) := by positivity
  have ha1 : a ≤ 1 / 1024 := le_trans ha (by norm_num)
  have hη := abs_le.1 e1
  have h1η : 0 < 1 + η := by linarith
  have hpos : 0 < (x.toK : ℝ) := by rw [e2]; positivity
  have hs : x.s = .pos := by
    have h := Num.toK_eq (K := ℝ) x
    cases hs : x.s
    · rw [hs] at h; simp only [Sign.toK, neg_mul, one_mul] at h
      have := abs_nonneg (x.toK : ℝ)
      linarith
    · rfl
  refine ev_finish (BF.sqrt_delivers (K := ℝ) hx.wf (Or.inl hs) hw .none (Real.sqrt_nonneg x.toK) (Real.mul_self_sqrt hpos.le)) hR (φ := a) ?_ ?_ ?_ ?_
  · rw [e2, Real.sqrt_mul hX.le, show Real.sqrt X * Real.sqrt (1 + η) - Real.sqrt X = (Real.sqrt (1 + η) - 1) * Real.sqrt X by ring, abs_mul]
    refine mul_le_mul_of_nonneg_right (le_trans ?_ e1) (abs_nonneg _)
    have h2 : η = (Real.sqrt (1 + η) - 1) * (Real.sqrt (1 + η) + 1) := by
      have := Real.mul_self_sqrt h1η.le
      linarith
    have h3 := Real.sqrt_nonneg (1 + η)
    conv_rhs => rw [h2]
    rw [abs_mul]
    refine le_mul_of_one_le_right (abs_nonneg _) ?_
    rw [abs_of_pos (by linarith)]
    linarith
  · linarith
  · linarith
  · intro hi
    rw [hx.exact hi]

theorem cbrt_node (hx : Ev a X x) (ha : a ≤ 1 / 2 ^ 10) (hY : Y ^ 3 = X) (hR : InRange Y) {c : ℝ}
    (hc : 4 / 3 * (a + 2 ^ (1 - (precBits w : ℤ))) ≤ c) : ∃ v, BF.cbrt (.num x) w .none = .num v ∧ Ev c Y v := by
  obtain ⟨η, e1, e2⟩ := hx.theta
  have ha0 : 0 ≤ a := le_trans (abs_nonneg _) e1
  have hε : (0 : ℝ) < 2 ^ (1 - (precBits w : ℤ)) := by positivity
  have ha1 : a ≤ 1 / 1024 := le_trans ha (by norm_num)
  have hη := abs_le.1 e1
  have h1η : 0 < 1 + η := by linarith
  obtain ⟨t, ht⟩ : ∃ t : ℝ, t ^ 3 = 1 + η := by
    refine ⟨(1 + η) ^ ((1 : ℝ) / 3), ?_⟩
    rw [← Real.rpow_natCast, ← Real.rpow_mul h1η.le]
    norm_num
  refine ev_finish (BF.cbrt_delivers (K := ℝ) hx.wf hw .none (y := Y * t) (by rw [mul_pow, hY, ht, e2])) hR (φ := 4 / 3 * a) ?_ ?_ ?_ ?_
  · rw [show Y * t - Y = (t - 1) * Y by ring, abs_mul]
    refine mul_le_mul_of_nonneg_right ?_ (abs_nonneg _)
    have h2 : η = (t - 1) * (t * t + t + 1) := by linear_combination -ht
    have h3 : 3 / 4 ≤ t * t + t + 1 := by nlinarith [mul_self_nonneg (t + 1 / 2)]
    have h4 : |η| = |t - 1| * (t * t + t + 1) := by rw [h2, abs_mul, abs_of_pos (by linarith : (0 : ℝ) < t * t + t + 1)]
    have h5 := mul_le_mul_of_nonneg_left h3 (abs_nonneg (t - 1))
    linarith
  · linarith
  · linarith
  · intro hi
    have h6 : η = 0 := by
      have h7 := hx.exact hi
      rw [e2] at h7
      have hX := hx.rng.ne
      have : X * η = 0 := by linarith
      rcases mul_eq_zero.1 this with h | h
      · exact absurd h hX
      · exact h
    have h8 : t = 1 := by
      rw [h6] at ht
      have h9 : (t - 1) * (t * t + t + 1) = 0 := by linear_combination ht
      have h3 : 3 / 4 ≤ t * t + t + 1 := by nlinarith [mul_self_nonneg (t + 1 / 2)]
      rcases mul_eq_zero.1 h9 with h | h
      · linarith
      · linarith
    rw [h8, mul_one]

end Nodes

end AF
