import Verif.Lemmas.ExpRect
import Verif.Model.Log
/-!
# Negative numbers below a real value in magnitude, and sums whose small part may have many truncations
-/

namespace AF

set_option linter.unusedSectionVars false

/-- The negative number `v` of `P` bits has a magnitude below `X`, by at most `N` truncations; `X` is at least `2^-ℓ`. -/
structure LoN (δ : ℝ) (P ℓ N : Nat) (X : ℝ) (v : Num) : Prop where
  wf : v.WF
  len : 64 * v.m.m.length = P
  le : -v.toK ≤ X
  ge : X * (1 - δ) ^ N ≤ -v.toK
  lb : (2 : ℝ) ^ (-(ℓ : ℤ)) ≤ X

variable {δ : ℝ} {P ℓ N : Nat} {X : ℝ} {v : Num}

theorem LoN.Xpos (h : LoN δ P ℓ N X v) : 0 < X := lt_of_lt_of_le (by positivity) h.lb

theorem LoN.neg (hd : DOk δ) (h : LoN δ P ℓ N X v) : (v.toK : ℝ) < 0 := by
  have := lt_of_lt_of_le (mul_pos h.Xpos (hd.pow_pos N)) h.ge
  linarith

theorem LoN.nz (hd : DOk δ) (h : LoN δ P ℓ N X v) : v.isZero = false := by
  rw [← Bool.not_eq_true, ← h.wf.toK_eq_zero (K := ℝ)]
  exact (h.neg hd).ne

theorem LoN.mono (hd : DOk δ) (h : LoN δ P ℓ N X v) {M ℓ' : Nat} (hN : N ≤ M) (hℓ : ℓ ≤ ℓ') : LoN δ P ℓ' M X v where
  wf := h.wf
  len := h.len
  le := h.le
  ge := le_trans (mul_le_mul_of_nonneg_left (hd.anti hN) h.Xpos.le) h.ge
  lb := le_trans (zpow_le_zpow_right₀ (by norm_num) (by omega)) h.lb

theorem LoN.relb (h : LoN δ P ℓ N X v) {ℓ' : Nat} (hl : (2 : ℝ) ^ (-(ℓ' : ℤ)) ≤ X) : LoN δ P ℓ' N X v :=
  ⟨h.wf, h.len, h.le, h.ge, hl⟩

theorem LoN.exact {v : Num} (hw : v.WF) (hl : 64 * v.m.m.length = P) (hv : -(v.toK : ℝ) = X)
    (hb : (2 : ℝ) ^ (-(ℓ : ℤ)) ≤ X) : LoN δ P ℓ 0 X v :=
  ⟨hw, hl, hv.le, by rw [pow_zero, mul_one, hv], hb⟩

/-- A truncated operation with a negative result. -/
theorem LoN.step (hd : DOk δ) {p : Nat} (hp : PrecOk δ p P) {X Y : ℝ} {ix : Bool} {r : Except Err Num}
    (h : Delivers .none (roundP p) Y ix r) (h1 : -Y ≤ X) (h2 : X * (1 - δ) ^ N ≤ -Y) (h3 : (2 : ℝ) ^ (-(ℓ : ℤ)) ≤ X)
    (hℓ : ℓ ≤ 2 ^ 31 - 16) (hN : N ≤ 2 ^ 90) (hX : X ≤ 2 ^ 64) :
    ∃ v, r = .ok v ∧ LoN δ P ℓ (N + 1) X v ∧ (ix = true → v.inexact = true) := by
  have hX0 : 0 < X := lt_of_lt_of_le (by positivity) h3
  have hY0 : 0 < -Y := lt_of_lt_of_le (mul_pos hX0 (hd.pow_pos N)) h2
  have ha : |Y| = -Y := abs_of_neg (by linarith)
  have hhalf := hd.pow hN
  rw [hp.eq] at h
  cases r with
  | ok v =>
    have hlo : (2 : ℝ) ^ (EMIN - 1) ≤ |Y| := by
      rw [ha]
      refine le_trans ?_ h2
      have h4 : X * (1 / 2) ≤ X * (1 - δ) ^ N := mul_le_mul_of_nonneg_left hhalf hX0.le
      refine le_trans ?_ h4
      have h5 : (2 : ℝ) ^ (EMIN - 1) ≤ 2 ^ (-(ℓ : ℤ)) * (1 / 2) := by
        rw [show (1 / 2 : ℝ) = 2 ^ (-1 : ℤ) by norm_num, ← zpow_add₀ (by norm_num)]
        exact zpow_le_zpow_right₀ (by norm_num) (by unfold EMIN; omega)
      linarith
    obtain ⟨g1, g2, g3⟩ := (h.normal hlo).none_rel
    have hv : (v.toK : ℝ) ≤ 0 := by
      by_contra hc
      push Not at hc
      nlinarith
    rw [ha, abs_of_nonpos hv] at g1 g2
    refine ⟨v, rfl, ⟨h.1, h.2.1, le_trans g1 h1, ?_, h3⟩, fun hi => h.2.2.2.2.1.2 (Or.inl hi)⟩
    refine le_trans ?_ g2
    rw [pow_succ, ← mul_assoc]
    have h6 := hp.err
    exact mul_le_mul h2 (by linarith) hd.base.1 hY0.le
  | error e =>
    exfalso
    obtain ⟨_, t, h3, h4⟩ := h
    obtain ⟨g1, -, -⟩ := h3.none_rel
    rw [ha] at g1
    have : (2 : ℝ) ^ (65 : ℤ) ≤ 2 ^ EMAX := zpow_le_zpow_right₀ (by norm_num) (by unfold EMAX; norm_num)
    have h5 : (2 : ℝ) ^ (65 : ℤ) = 2 * 2 ^ 64 := by norm_num
    have : (0 : ℝ) < 2 ^ 64 := by positivity
    linarith

variable {P₁ P₂ ℓ₁ ℓ₂ N₁ N₂ p : Nat} {Y : ℝ} {x y : Num}

/-- A positive times a negative number. -/
theorem Lo.mulN (hd : DOk δ) (hp : PrecOk δ p P) (hx : Lo δ P₁ ℓ₁ N₁ X x) (hy : LoN δ P₂ ℓ₂ N₂ Y y)
    (hℓ : ℓ₁ + ℓ₂ ≤ 2 ^ 31 - 16) (hN : N₁ + N₂ ≤ 2 ^ 90) (hX : X * Y ≤ 2 ^ 64) :
    ∃ v, x.mul y p .none = .ok v ∧ LoN δ P (ℓ₁ + ℓ₂) (N₁ + N₂ + 1) (X * Y) v := by
  have hs := mulGeneral_spec (K := ℝ) hx.wf hy.wf hp.pos (by rw [hp.eq]; exact hp.lt) .none
  have hy0 := hy.neg hd
  obtain ⟨v, h1, h2, h3⟩ := LoN.step (N := N₁ + N₂) (ℓ := ℓ₁ + ℓ₂) (X := X * Y) hd hp hs
    (by
      rw [← mul_neg]
      exact mul_le_mul hx.le hy.le (by linarith) hx.Xpos.le) (by
      rw [pow_add, show X * Y * ((1 - δ) ^ N₁ * (1 - δ) ^ N₂) = X * (1 - δ) ^ N₁ * (Y * (1 - δ) ^ N₂) by ring, ← mul_neg]
      exact mul_le_mul hx.ge hy.ge (mul_pos hy.Xpos (hd.pow_pos _)).le (hx.pos hd).le) (by
      rw [show (-((ℓ₁ + ℓ₂ : ℕ) : ℤ)) = -(ℓ₁ : ℤ) + -(ℓ₂ : ℤ) by push_cast; ring, zpow_add₀ (by norm_num)]
      exact mul_le_mul hx.lb hy.lb (by positivity) hx.Xpos.le) hℓ hN hX
  exact ⟨v, h1, h2⟩

/-- A negative times a positive number. -/
theorem LoN.mul (hd : DOk δ) (hp : PrecOk δ p P) (hx : LoN δ P₁ ℓ₁ N₁ X x) (hy : Lo δ P₂ ℓ₂ N₂ Y y)
    (hℓ : ℓ₁ + ℓ₂ ≤ 2 ^ 31 - 16) (hN : N₁ + N₂ ≤ 2 ^ 90) (hX : X * Y ≤ 2 ^ 64) :
    ∃ v, x.mul y p .none = .ok v ∧ LoN δ P (ℓ₁ + ℓ₂) (N₁ + N₂ + 1) (X * Y) v := by
  have hs := mulGeneral_spec (K := ℝ) hx.wf hy.wf hp.pos (by rw [hp.eq]; exact hp.lt) .none
  have hx0 := hx.neg hd
  obtain ⟨v, h1, h2, h3⟩ := LoN.step (N := N₁ + N₂) (ℓ := ℓ₁ + ℓ₂) (X := X * Y) hd hp hs
    (by
      rw [← neg_mul]
      exact mul_le_mul hx.le hy.le (hy.pos hd).le hx.Xpos.le) (by
      rw [pow_add, show X * Y * ((1 - δ) ^ N₁ * (1 - δ) ^ N₂) = X * (1 - δ) ^ N₁ * (Y * (1 - δ) ^ N₂) by ring, ← neg_mul]
      exact mul_le_mul hx.ge hy.ge (mul_pos hy.Xpos (hd.pow_pos _)).le (by linarith)) (by
      rw [show (-((ℓ₁ + ℓ₂ : ℕ) : ℤ)) = -(ℓ₁ : ℤ) + -(ℓ₂ : ℤ) by push_cast; ring, zpow_add₀ (by norm_num)]
      exact mul_le_mul hx.lb hy.lb (by positivity) hx.Xpos.le) hℓ hN hX
  exact ⟨v, h1, h2⟩

/-- The square of a negative number. -/
theorem LoN.sq (hd : DOk δ) (hp : PrecOk δ p P) (hx : LoN δ P₁ ℓ N X x)
    (hℓ : ℓ + ℓ ≤ 2 ^ 31 - 16) (hN : N + N ≤ 2 ^ 90) (hX : X * X ≤ 2 ^ 64) :
    ∃ v, x.mul x p .none = .ok v ∧ Lo δ P (ℓ + ℓ) (N + N + 1) (X * X) v := by
  have hs := mulGeneral_spec (K := ℝ) hx.wf hx.wf hp.pos (by rw [hp.eq]; exact hp.lt) .none
  have hx0 := hx.neg hd
  obtain ⟨v, h1, h2, h3⟩ := Lo.step (N := N + N) (ℓ := ℓ + ℓ) (X := X * X) hd hp hs
    (by
      rw [← neg_mul_neg]
      exact mul_le_mul hx.le hx.le (by linarith) hx.Xpos.le) (by
      rw [pow_add, show X * X * ((1 - δ) ^ N * (1 - δ) ^ N) = X * (1 - δ) ^ N * (X * (1 - δ) ^ N) by ring, ← neg_mul_neg x.toK]
      exact mul_le_mul hx.ge hx.ge (mul_pos hx.Xpos (hd.pow_pos _)).le (by linarith)) (by
      rw [show (-((ℓ + ℓ : ℕ) : ℤ)) = -(ℓ : ℤ) + -(ℓ : ℤ) by push_cast; ring, zpow_add₀ (by norm_num)]
      exact mul_le_mul hx.lb hx.lb (by positivity) hx.Xpos.le) hℓ hN hX
  exact ⟨v, h1, h2⟩

/-- In a sum whose second part is small, the truncations of that part count for one. -/
theorem wsum (hd : DOk δ) {A Y : ℝ} {N₁ N₂ : Nat} (hA : 0 ≤ A) (hY : 0 ≤ Y) (hN : N₁ ≤ 2 ^ 90) (h : 2 * Y * N₂ ≤ A) :
    (A + Y) * (1 - δ) ^ (N₁ + 1) ≤ A * (1 - δ) ^ N₁ + Y * (1 - δ) ^ N₂ := by
  have q1 := hd.pow hN
  have q2 := hd.pow_le N₁
  have h0 := hd.nonneg
  have h1 := one_add_mul_le_pow (a := -δ) (by linarith [hd.base.1]) N₂
  rw [← sub_eq_add_neg] at h1
  rw [pow_succ]
  generalize (1 - δ) ^ N₁ = q at q1 q2
  generalize (1 - δ) ^ N₂ = q' at h1
  have e1 : Y * (1 + N₂ * -δ) ≤ Y * q' := mul_le_mul_of_nonneg_left h1 hY
  have e2 : 2 * Y * N₂ * δ ≤ A * δ := mul_le_mul_of_nonneg_right h h0
  have e3 : A * δ * (1 / 2) ≤ A * δ * q := mul_le_mul_of_nonneg_left q1 (mul_nonneg hA h0)
  have e4 : Y * (q * (1 - δ)) ≤ Y * 1 := by
    refine mul_le_mul_of_nonneg_left ?_ hY
    have := mul_le_mul q2 hd.base.2 hd.base.1 (by norm_num)
    linarith
  nlinarith only [e1, e2, e3, e4]

/-- The sum of a negative number and a small one. -/
theorem LoN.addw (hd : DOk δ) (hp : PrecOk δ p P) (hx : LoN δ P₁ ℓ₁ N₁ X x) (hy : LoN δ P₂ ℓ₂ N₂ Y y)
    (hℓ : ℓ₁ ≤ 2 ^ 31 - 16) (hN : N₁ < 2 ^ 90) (hX : X + Y ≤ 2 ^ 64) (hw : 2 * Y * N₂ ≤ X) :
    ∃ v, x.add y p .none = .ok v ∧ LoN δ P ℓ₁ (N₁ + 2) (X + Y) v := by
  have hs := addSub_spec (K := ℝ) hx.wf hy.wf hp.pos (by rw [hp.eq]; exact hp.lt) true .none
  rw [if_pos rfl] at hs
  obtain ⟨v, h1, h2, h3⟩ := LoN.step (N := N₁ + 1) (ℓ := ℓ₁) (X := X + Y) hd hp hs
    (by rw [neg_add]; exact add_le_add hx.le hy.le) (by
      rw [neg_add]
      exact le_trans (wsum hd hx.Xpos.le hy.Xpos.le (by omega) hw) (add_le_add hx.ge hy.ge)) (by
      have := hy.Xpos
      have := hx.lb
      linarith) hℓ hN hX
  exact ⟨v, h1, h2⟩

/-- The same, with the small one first. -/
theorem LoN.addw' (hd : DOk δ) (hp : PrecOk δ p P) (hx : LoN δ P₁ ℓ₁ N₁ X x) (hy : LoN δ P₂ ℓ₂ N₂ Y y)
    (hℓ : ℓ₁ ≤ 2 ^ 31 - 16) (hN : N₁ < 2 ^ 90) (hX : X + Y ≤ 2 ^ 64) (hw : 2 * Y * N₂ ≤ X) :
    ∃ v, y.add x p .none = .ok v ∧ LoN δ P ℓ₁ (N₁ + 2) (X + Y) v := by
  have hs := addSub_spec (K := ℝ) hy.wf hx.wf hp.pos (by rw [hp.eq]; exact hp.lt) true .none
  rw [if_pos rfl] at hs
  obtain ⟨v, h1, h2, h3⟩ := LoN.step (N := N₁ + 1) (ℓ := ℓ₁) (X := X + Y) hd hp hs
    (by rw [neg_add, add_comm]; exact add_le_add hx.le hy.le) (by
      rw [neg_add, add_comm (-y.toK)]
      exact le_trans (wsum hd hx.Xpos.le hy.Xpos.le (by omega) hw) (add_le_add hx.ge hy.ge)) (by
      have := hy.Xpos
      have := hx.lb
      linarith) hℓ hN hX
  exact ⟨v, h1, h2⟩

/-- The exponent of a negative number that is not subnormal. -/
theorem exp_boundsN {v : Num} (hv : v.WF) (h : (2 : ℝ) ^ EMIN ≤ -v.toK) :
    (2 : ℝ) ^ (v.e - 1) ≤ -v.toK ∧ -(v.toK : ℝ) < 2 ^ v.e := by
  have h0 : (0 : ℝ) < -v.toK := lt_of_lt_of_le (by positivity) h
  have hz : v.isZero = false := by
    rw [← Bool.not_eq_true, ← hv.toK_eq_zero (K := ℝ)]
    intro hc
    rw [hc] at h0
    norm_num at h0
  obtain ⟨q, h1, h2, h3, -⟩ := hv.mag (K := ℝ) hz
  rw [abs_of_neg (by linarith)] at h1 h2
  have h4 := (zpow_lt_zpow_iff_right₀ (by norm_num : (1 : ℝ) < 2)).1 (lt_of_le_of_lt h h2)
  have h5 : v.e = q := by omega
  rw [h5]
  exact ⟨h1, h2⟩

theorem LoN.exp (hd : DOk δ) (h : LoN δ P ℓ N X v) (hℓ : ℓ ≤ 2 ^ 31 - 16)
    (hN : N ≤ 2 ^ 90) : (2 : ℝ) ^ (v.e - 1) ≤ -v.toK ∧ -(v.toK : ℝ) < 2 ^ v.e := by
  refine exp_boundsN h.wf (le_trans ?_ h.ge)
  have h1 : X * (1 / 2) ≤ X * (1 - δ) ^ N := mul_le_mul_of_nonneg_left (hd.pow hN) h.Xpos.le
  have h2 := h.lb
  have h3 : (2 : ℝ) ^ EMIN ≤ 2 ^ (-(ℓ : ℤ)) * (1 / 2) := by
    rw [show (1 / 2 : ℝ) = 2 ^ (-1 : ℤ) by norm_num, ← zpow_add₀ (by norm_num)]
    exact zpow_le_zpow_right₀ (by norm_num) (by unfold EMIN; omega)
  linarith

end AF
