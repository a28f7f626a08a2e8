import Verif.Lemmas.AcosFun
import Verif.Model.Trig
/-!
# Numbers with a bounded absolute error
-/

namespace AF

set_option linter.unusedSectionVars false

variable {δ : ℝ} {P P₁ P₂ p : Nat} {X Y : ℝ} {x y v : Num}

/-- A truncated operation; the result may be below the normal range. -/
theorem abs_step (hp : PrecOk δ p P) {ix : Bool} {r : Except Err Num} (h : Delivers .none (roundP p) Y ix r)
    (h2 : |Y| ≤ 2 ^ 64) {s : ℝ} (hs : (2 : ℝ) ^ (EMIN - 1) ≤ s * 2 ^ (1 - (P : ℤ))) :
    ∃ v, r = .ok v ∧ v.WF ∧ 64 * v.m.m.length = P ∧ |(v.toK : ℝ) - Y| ≤ max |Y| s * δ := by
  rw [hp.eq] at h
  have hs0 : 0 < s := by
    by_contra hc
    have h1 : (0 : ℝ) < 2 ^ (EMIN - 1) := by positivity
    have h3 : (0 : ℝ) < 2 ^ (1 - (P : ℤ)) := by positivity
    nlinarith
  have hδ : 0 ≤ δ := le_trans (by positivity) hp.err
  by_cases hlo : (2 : ℝ) ^ (EMIN - 1) ≤ |Y|
  · obtain ⟨v, v1, v2, v3, v4, -⟩ := h.apx hlo h2
    refine ⟨v, v1, v2, v3, le_trans v4 ?_⟩
    exact mul_le_mul (le_max_left _ _) hp.err (by positivity) (le_trans hs0.le (le_max_right _ _))
  · push Not at hlo
    obtain ⟨v, rfl⟩ := h.no_error h2
    refine ⟨v, rfl, h.1, h.2.1, ?_⟩
    have hf : RoundsFmt .none P Y v.toK := by
      rcases h.2.2.2.2.2 with h | h
      · exact h
      · cases h.1
    have h3 : |(v.toK : ℝ) - Y| ≤ |Y| := by
      rcases hf with ⟨a, b⟩ | ⟨q, -, -, k, -, a1, -, a3⟩
      · rw [a, b]; simp
      · rw [abs_le]
        rcases le_total 0 Y with hY | hY
        · rw [abs_of_nonneg hY] at a1 ⊢
          obtain ⟨b1, b2⟩ := abs_le.1 a1
          constructor
          · by_contra hc
            push Not at hc
            nlinarith
          · linarith
        · rw [abs_of_nonpos hY] at a1 ⊢
          obtain ⟨b1, b2⟩ := abs_le.1 a1
          constructor
          · linarith
          · by_contra hc
            push Not at hc
            nlinarith
    refine le_trans h3 (le_trans hlo.le (le_trans hs ?_))
    exact mul_le_mul (le_max_right _ _) hp.err (by positivity) (le_trans hs0.le (le_max_right _ _))

/-- The number `v` of `P` bits is `Y` up to the absolute error `E * δ`. -/
structure Ab (δ : ℝ) (P E : Nat) (Y : ℝ) (v : Num) : Prop where
  wf : v.WF
  len : 64 * v.m.m.length = P
  err : |(v.toK : ℝ) - Y| ≤ E * δ

theorem Ab.mono (hd : DOk δ) {E M : Nat} (h : Ab δ P E Y v) (hE : E ≤ M) : Ab δ P M Y v :=
  ⟨h.wf, h.len, le_trans h.err (mul_le_mul_of_nonneg_right (by exact_mod_cast hE) hd.nonneg)⟩

theorem Ab.of_rl (hd : DOk δ) {ℓ N : Nat} (h : Rl δ P ℓ N Y v) (hY : |Y| ≤ 1) : Ab δ P N Y v := by
  obtain ⟨θ, h1, h2⟩ := h.err
  refine ⟨h.wf, h.len, ?_⟩
  rw [h1, show Y * (1 + θ) - Y = Y * θ by ring, abs_mul]
  calc |Y| * |θ| ≤ 1 * (N * δ) := mul_le_mul hY h2 (abs_nonneg _) (by norm_num)
    _ = _ := one_mul _

theorem Ab.of_lo (hd : DOk δ) {ℓ N : Nat} (h : Lo δ P ℓ N Y v) (hY : Y ≤ 1) : Ab δ P N Y v :=
  Ab.of_rl hd (Rl.of_lo hd h) (by rw [abs_of_pos h.Xpos]; exact hY)

theorem Ab.exact (hw : v.WF) (hl : 64 * v.m.m.length = P) (hv : (v.toK : ℝ) = Y) : Ab δ P 0 Y v :=
  ⟨hw, hl, by rw [hv]; simp⟩

theorem one_scale (hP : P ≤ 2 ^ 30) : (2 : ℝ) ^ (EMIN - 1) ≤ 1 * 2 ^ (1 - (P : ℤ)) := by
  rw [one_mul]
  exact zpow_le_zpow_right₀ (by norm_num) (by unfold EMIN; omega)

theorem cast_small (hd : DOk δ) {E : Nat} (hE : E ≤ 2 ^ 60) : (E : ℝ) * δ ≤ 1 / 2 ^ 40 := by
  have hE' : (E : ℝ) ≤ 2 ^ 60 := by exact_mod_cast hE
  refine le_trans (mul_le_mul hE' hd.small hd.nonneg (by positivity)) ?_
  norm_num

theorem cast_prod (hd : DOk δ) {E₁ E₂ : Nat} (h : E₁ * E₂ ≤ 2 ^ 100) : (E₁ : ℝ) * δ * (E₂ * δ) ≤ δ := by
  have h' : (E₁ : ℝ) * E₂ ≤ 2 ^ 100 := by exact_mod_cast h
  have h0 := hd.nonneg
  have h1 : (E₁ : ℝ) * E₂ * δ ≤ 1 := by
    refine le_trans (mul_le_mul h' hd.small h0 (by positivity)) ?_
    norm_num
  calc (E₁ : ℝ) * δ * (E₂ * δ) = E₁ * E₂ * δ * δ := by ring
    _ ≤ 1 * δ := mul_le_mul_of_nonneg_right h1 h0
    _ = δ := one_mul _

theorem Ab.mul (hd : DOk δ) (hp : PrecOk δ p P) (hP : P ≤ 2 ^ 30) {E₁ E₂ : Nat} (hx : Ab δ P₁ E₁ X x) (hy : Ab δ P₂ E₂ Y y)
    (hX : |X| ≤ 1) (hY : |Y| ≤ 1) (h1 : E₁ ≤ 2 ^ 60) (h2 : E₂ ≤ 2 ^ 60) (h12 : E₁ * E₂ ≤ 2 ^ 100) :
    ∃ v, x.mul y p .none = .ok v ∧ Ab δ P (E₁ + E₂ + 3) (X * Y) v := by
  have hs := mulGeneral_spec (K := ℝ) hx.wf hy.wf hp.pos (by rw [hp.eq]; exact hp.lt) .none
  have e1 := hx.err
  have e2 := hy.err
  have c1 := cast_small hd h1
  have c2 := cast_small hd h2
  have c3 := cast_prod hd h12
  have h0 := hd.nonneg
  have hsm := hd.small
  have key : |(x.toK : ℝ) * y.toK - X * Y| ≤ (E₁ + E₂ + 1) * δ := by
    rw [show (x.toK : ℝ) * y.toK - X * Y = X * (y.toK - Y) + (x.toK - X) * Y + (x.toK - X) * (y.toK - Y) by ring]
    refine le_trans (abs_add_three _ _ _) ?_
    rw [abs_mul, abs_mul, abs_mul]
    have a1 : |X| * |(y.toK : ℝ) - Y| ≤ 1 * (E₂ * δ) := mul_le_mul hX e2 (abs_nonneg _) (by norm_num)
    have a2 : |(x.toK : ℝ) - X| * |Y| ≤ E₁ * δ * 1 := mul_le_mul e1 hY (abs_nonneg _) (by positivity)
    have a3 : |(x.toK : ℝ) - X| * |(y.toK : ℝ) - Y| ≤ E₁ * δ * (E₂ * δ) := mul_le_mul e1 e2 (abs_nonneg _) (by positivity)
    linarith
  have hXY : |X * Y| ≤ 1 := by rw [abs_mul]; exact mul_le_one₀ hX (abs_nonneg _) hY
  have hsmall : (E₁ + E₂ + 1 : ℝ) * δ ≤ 1 := by
    have : (1 : ℝ) / 2 ^ 100 ≤ 1 / 4 := by norm_num
    have : (1 : ℝ) / 2 ^ 40 ≤ 1 / 4 := by norm_num
    linarith
  have hb : |(x.toK : ℝ) * y.toK| ≤ 2 := by
    have := abs_sub_abs_le_abs_sub ((x.toK : ℝ) * y.toK) (X * Y)
    linarith
  obtain ⟨v, v1, v2, v3, v4⟩ := abs_step hp hs (le_trans hb (by norm_num)) (s := 1) (one_scale hP)
  refine ⟨v, v1, v2, v3, ?_⟩
  have h5 : max |(x.toK : ℝ) * y.toK| 1 * δ ≤ 2 * δ :=
    mul_le_mul_of_nonneg_right (max_le hb (by norm_num)) h0
  have h6 := abs_sub_le (v.toK : ℝ) (x.toK * y.toK) (X * Y)
  push_cast
  linarith

theorem Ab.add (hd : DOk δ) (hp : PrecOk δ p P) (hP : P ≤ 2 ^ 30) {E₁ E₂ : Nat} (hx : Ab δ P₁ E₁ X x) (hy : Ab δ P₂ E₂ Y y)
    (hX : |X + Y| ≤ 1) (h1 : E₁ ≤ 2 ^ 60) (h2 : E₂ ≤ 2 ^ 60) :
    ∃ v, x.add y p .none = .ok v ∧ Ab δ P (E₁ + E₂ + 2) (X + Y) v := by
  have hs := addSub_spec (K := ℝ) hx.wf hy.wf hp.pos (by rw [hp.eq]; exact hp.lt) true .none
  rw [if_pos rfl] at hs
  have c1 := cast_small hd h1
  have c2 := cast_small hd h2
  have h0 := hd.nonneg
  have key : |(x.toK : ℝ) + y.toK - (X + Y)| ≤ (E₁ + E₂) * δ := by
    rw [show (x.toK : ℝ) + y.toK - (X + Y) = (x.toK - X) + (y.toK - Y) by ring]
    refine le_trans (abs_add_le _ _) ?_
    linarith [hx.err, hy.err]
  have hb : |(x.toK : ℝ) + y.toK| ≤ 2 := by
    have := abs_sub_abs_le_abs_sub ((x.toK : ℝ) + y.toK) (X + Y)
    have : (1 : ℝ) / 2 ^ 40 ≤ 1 / 4 := by norm_num
    linarith
  obtain ⟨v, v1, v2, v3, v4⟩ := abs_step hp hs (le_trans hb (by norm_num)) (s := 1) (one_scale hP)
  refine ⟨v, v1, v2, v3, ?_⟩
  have h5 : max |(x.toK : ℝ) + y.toK| 1 * δ ≤ 2 * δ :=
    mul_le_mul_of_nonneg_right (max_le hb (by norm_num)) h0
  have h6 := abs_sub_le (v.toK : ℝ) (x.toK + y.toK) (X + Y)
  push_cast
  linarith

/-- The product with a number known up to a relative error; the error is relative to that factor. -/
theorem Ab.mul_rl (hd : DOk δ) (hp : PrecOk δ p P) {E N ℓ : Nat} (hx : Ab δ P₁ E X x) (hy : Rl δ P₂ ℓ N Y y)
    (hX : |X| ≤ 1) (hY : |Y| ≤ 1) (h1 : E ≤ 2 ^ 60) (h2 : N ≤ 2 ^ 60) (h12 : E * N ≤ 2 ^ 100) (hℓ : ℓ + P ≤ 2 ^ 31) :
    ∃ v, x.mul y p .none = .ok v ∧ v.WF ∧ 64 * v.m.m.length = P ∧ |(v.toK : ℝ) - X * Y| ≤ (E + N + 3 : ℕ) * δ * |Y| := by
  have hs := mulGeneral_spec (K := ℝ) hx.wf hy.wf hp.pos (by rw [hp.eq]; exact hp.lt) .none
  obtain ⟨θ, t1, t2⟩ := hy.err
  have e1 := hx.err
  have c1 := cast_small hd h1
  have c2 := cast_small hd h2
  have c3 := cast_prod hd h12
  have h0 := hd.nonneg
  have hsm := hd.small
  have hYp : 0 < |Y| := lt_of_lt_of_le (by positivity) hy.lb
  have key : |(x.toK : ℝ) * y.toK - X * Y| ≤ (E + N + 1) * δ * |Y| := by
    rw [t1, show (x.toK : ℝ) * (Y * (1 + θ)) - X * Y = (X * θ + (x.toK - X) + (x.toK - X) * θ) * Y by ring, abs_mul]
    refine mul_le_mul_of_nonneg_right ?_ hYp.le
    refine le_trans (abs_add_three _ _ _) ?_
    rw [abs_mul, abs_mul]
    have a1 : |X| * |θ| ≤ 1 * (N * δ) := mul_le_mul hX t2 (abs_nonneg _) (by norm_num)
    have a3 : |(x.toK : ℝ) - X| * |θ| ≤ E * δ * (N * δ) := mul_le_mul e1 t2 (abs_nonneg _) (by positivity)
    linarith
  have hsmall : (E + N + 1 : ℝ) * δ ≤ 1 := by
    have : (1 : ℝ) / 2 ^ 100 ≤ 1 / 4 := by norm_num
    have : (1 : ℝ) / 2 ^ 40 ≤ 1 / 4 := by norm_num
    linarith
  have hb : |(x.toK : ℝ) * y.toK| ≤ 2 * |Y| := by
    have a1 := abs_sub_abs_le_abs_sub ((x.toK : ℝ) * y.toK) (X * Y)
    have a2 : |X * Y| ≤ 1 * |Y| := by rw [abs_mul]; exact mul_le_mul_of_nonneg_right hX hYp.le
    have a3 : (E + N + 1 : ℝ) * δ * |Y| ≤ 1 * |Y| := mul_le_mul_of_nonneg_right hsmall hYp.le
    linarith
  obtain ⟨v, v1, v2, v3, v4⟩ := abs_step hp hs (le_trans hb (le_trans (mul_le_mul_of_nonneg_left hY (by norm_num)) (by norm_num)))
    (s := |Y|) (by
      refine le_trans ?_ (mul_le_mul_of_nonneg_right hy.lb (by positivity))
      rw [← zpow_add₀ (by norm_num)]
      exact zpow_le_zpow_right₀ (by norm_num) (by unfold EMIN; omega))
  refine ⟨v, v1, v2, v3, ?_⟩
  have h5 : max |(x.toK : ℝ) * y.toK| |Y| * δ ≤ 2 * |Y| * δ :=
    mul_le_mul_of_nonneg_right (max_le hb (by linarith)) h0
  have h6 := abs_sub_le (v.toK : ℝ) (x.toK * y.toK) (X * Y)
  push_cast
  linarith

/-- A sum whose second summand is small. -/
theorem scaled_sum (hd : DOk δ) {ℓ N E : Nat} {A T : ℝ} {a t : Num} (ha : Rl δ P₁ ℓ N A a)
    (ht : |(t.toK : ℝ) - T| ≤ E * δ * |A|) (hT : |T| ≤ |A| / 2) (hN : N ≤ 2 ^ 58) (hE : E ≤ 2 ^ 58) :
    ∃ η : ℝ, (a.toK : ℝ) + t.toK = (A + T) * (1 + η) ∧ |η| ≤ (2 * (N + E) : ℕ) * δ ∧ |A| / 2 ≤ |A + T| := by
  obtain ⟨θ, t1, t2⟩ := ha.err
  have hA : 0 < |A| := lt_of_lt_of_le (by positivity) ha.lb
  have h3 : |A| / 2 ≤ |A + T| := by
    have := abs_sub_abs_le_abs_sub A (-T)
    rw [abs_neg, sub_neg_eq_add] at this
    linarith
  have hne : A + T ≠ 0 := abs_pos.1 (by linarith)
  refine ⟨(A * θ + (t.toK - T)) / (A + T), ?_, ?_, h3⟩
  · rw [t1]; field_simp; ring
  · rw [abs_div, div_le_iff₀ (by linarith)]
    have h4 : |A * θ + (t.toK - T)| ≤ |A| * (N * δ) + E * δ * |A| := by
      refine le_trans (abs_add_le _ _) (add_le_add ?_ ht)
      rw [abs_mul]
      exact mul_le_mul_of_nonneg_left t2 hA.le
    have h5 : |A| * (N * δ) + E * δ * |A| = (2 * (N + E) : ℕ) * δ * (|A| / 2) := by push_cast; ring
    rw [h5] at h4
    have h6 : 0 ≤ (2 * (N + E) : ℕ) * δ := mul_nonneg (Nat.cast_nonneg _) hd.nonneg
    exact le_trans h4 (mul_le_mul_of_nonneg_left h3 h6)

theorem scaled_add (hd : DOk δ) (hp : PrecOk δ p P) {ℓ N E : Nat} {A T : ℝ} {a t : Num} (ha : Rl δ P₁ ℓ N A a) (hA1 : |A| ≤ 4) (htw : t.WF)
    (ht : |(t.toK : ℝ) - T| ≤ E * δ * |A|) (hT : |T| ≤ |A| / 2) (hN : N ≤ 2 ^ 56) (hE : E ≤ 2 ^ 56) (hℓ : ℓ ≤ 2 ^ 31 - 32) :
    (∃ v, a.add t p .none = .ok v ∧ Rl δ P (ℓ + 1) (2 * (N + E) + 2) (A + T) v) ∧
      (∃ v, t.add a p .none = .ok v ∧ Rl δ P (ℓ + 1) (2 * (N + E) + 2) (A + T) v) := by
  obtain ⟨η, e1, e2, e3⟩ := scaled_sum hd ha ht hT (by omega) (by omega)
  have hA : 0 < |A| := lt_of_lt_of_le (by positivity) ha.lb
  have hsm := cast_small hd (E := 2 * (N + E)) (by omega)
  have h40 : (1 : ℝ) / 2 ^ 40 ≤ 1 / 2 := by norm_num
  have hη := abs_le.1 (le_trans e2 (le_trans hsm h40))
  have hη1 : |1 + η| = 1 + η := abs_of_nonneg (by linarith)
  have hAT : |A + T| ≤ 6 := by
    have := abs_add_le A T
    linarith
  have hlo : (2 : ℝ) ^ (EMIN - 1) ≤ |(a.toK : ℝ) + t.toK| := by
    rw [e1, abs_mul, hη1]
    have h1 : |A| / 2 * (1 / 2) ≤ |A + T| * (1 + η) := mul_le_mul e3 (by linarith) (by norm_num) (abs_nonneg _)
    refine le_trans ?_ h1
    have h2 : (2 : ℝ) ^ (EMIN - 1) ≤ 2 ^ (-(ℓ : ℤ)) * 2 ^ (-2 : ℤ) := by
      rw [← zpow_add₀ (by norm_num)]
      exact zpow_le_zpow_right₀ (by norm_num) (by unfold EMIN; omega)
    have h3 := ha.lb
    rw [show (2 : ℝ) ^ (-2 : ℤ) = 1 / 4 by norm_num] at h2
    linarith
  have hhi : |(a.toK : ℝ) + t.toK| ≤ 2 ^ 64 := by
    rw [e1, abs_mul, hη1]
    have : |A + T| * (1 + η) ≤ 6 * 2 := mul_le_mul hAT (by linarith) (by linarith) (by norm_num)
    norm_num; linarith
  have fin : ∀ v : Num, v.WF → 64 * v.m.m.length = P → (∃ θ, (v.toK : ℝ) = (a.toK + t.toK) * (1 + θ) ∧ |θ| ≤ δ) →
      Rl δ P (ℓ + 1) (2 * (N + E) + 2) (A + T) v := by
    rintro v v2 v3 ⟨θ, f1, f2⟩
    refine ⟨v2, v3, ⟨η + θ + η * θ, by rw [f1, e1]; ring, ?_⟩, ?_⟩
    · refine le_trans (abs_add_three _ _ _) ?_
      rw [abs_mul]
      have h1 : |η| * |θ| ≤ 1 / 2 * δ := mul_le_mul (abs_le.2 hη |>.trans (by norm_num)) f2 (abs_nonneg _) (by norm_num)
      push_cast at e2 ⊢
      linarith [hd.nonneg]
    · refine le_trans ?_ e3
      have := ha.lb
      rw [show (-((ℓ + 1 : ℕ) : ℤ)) = -(ℓ : ℤ) - 1 by push_cast; ring, zpow_sub₀ (by norm_num), zpow_one]
      linarith
  constructor
  · obtain ⟨v, v1, v2, v3, v4⟩ := rel_add hp ha.wf htw hlo hhi
    exact ⟨v, v1, fin v v2 v3 v4⟩
  · obtain ⟨v, v1, v2, v3, v4⟩ := rel_add hp htw ha.wf (by rw [add_comm]; exact hlo) (by rw [add_comm]; exact hhi)
    exact ⟨v, v1, fin v v2 v3 (by rw [add_comm (t.toK : ℝ)] at v4; exact v4)⟩

end AF
