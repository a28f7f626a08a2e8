import Verif.Lemmas.LogSeries
import Verif.Lemmas.ExpRect
import Verif.Lemmas.DecApx
import Verif.Lemmas.Powi
import Verif.Model.Atan
/-!
# Numbers close to a real value on either side
-/

namespace AF

set_option linter.unusedSectionVars false

/-- The number `v` of `P` bits is `Y` up to the relative error `N * δ`; `Y` is at least `2^-ℓ` in magnitude. -/
structure Rl (δ : ℝ) (P ℓ N : Nat) (Y : ℝ) (v : Num) : Prop where
  wf : v.WF
  len : 64 * v.m.m.length = P
  err : ∃ θ, (v.toK : ℝ) = Y * (1 + θ) ∧ |θ| ≤ N * δ
  lb : (2 : ℝ) ^ (-(ℓ : ℤ)) ≤ |Y|

variable {δ : ℝ} {P ℓ N p : Nat} {Y : ℝ} {v : Num}

theorem emin_le {ℓ : Nat} (h : ℓ ≤ 2 ^ 31 - 16) : (2 : ℝ) ^ (EMIN - 1) ≤ 2 ^ (-(ℓ : ℤ)) :=
  zpow_le_zpow_right₀ (by norm_num) (by unfold EMIN; omega)

/-- A truncated operation on a value in range. -/
theorem rel_step (hp : PrecOk δ p P) {ix : Bool} {r : Except Err Num} (h : Delivers .none (roundP p) Y ix r)
    (h1 : (2 : ℝ) ^ (EMIN - 1) ≤ |Y|) (h2 : |Y| ≤ 2 ^ 64) :
    ∃ v, r = .ok v ∧ v.WF ∧ 64 * v.m.m.length = P ∧ (∃ θ, (v.toK : ℝ) = Y * (1 + θ) ∧ |θ| ≤ δ) := by
  rw [hp.eq] at h
  have hY : 0 < |Y| := lt_of_lt_of_le (by positivity) h1
  cases r with
  | ok v =>
    have g := (h.normal h1).none_abs
    refine ⟨v, rfl, h.1, h.2.1, v.toK / Y - 1, ?_, ?_⟩
    · have : Y ≠ 0 := abs_pos.1 hY
      field_simp; ring
    · have hY0 : Y ≠ 0 := abs_pos.1 hY
      rw [show v.toK / Y - 1 = (v.toK - Y) / Y by field_simp, abs_div, div_le_iff₀ hY, mul_comm]
      exact le_trans g (mul_le_mul_of_nonneg_left hp.err hY.le)
  | error e =>
    exfalso
    obtain ⟨_, t, h3, h4⟩ := h
    obtain ⟨g1, -, -⟩ := h3.none_rel
    have : (2 : ℝ) ^ (65 : ℤ) ≤ 2 ^ EMAX := zpow_le_zpow_right₀ (by norm_num) (by unfold EMAX; norm_num)
    have h5 : (2 : ℝ) ^ (65 : ℤ) = 2 * 2 ^ 64 := by norm_num
    have : (0 : ℝ) < 2 ^ 64 := by positivity
    linarith

/-- An operation on a value in range that rounds away from zero. -/
theorem rel_step_fz (hp : PrecOk δ p P) {ix : Bool} {r : Except Err Num} (h : Delivers .fromZero (roundP p) Y ix r)
    (h0 : DOk δ) (h1 : (2 : ℝ) ^ (EMIN - 1) ≤ |Y|) (h2 : |Y| ≤ 2 ^ 64) :
    ∃ v, r = .ok v ∧ v.WF ∧ 64 * v.m.m.length = P ∧ (∃ θ, (v.toK : ℝ) = Y * (1 + θ) ∧ |θ| ≤ δ) := by
  rw [hp.eq] at h
  have hY : 0 < |Y| := lt_of_lt_of_le (by positivity) h1
  have hY0 : Y ≠ 0 := abs_pos.1 hY
  cases r with
  | ok v =>
    obtain ⟨c, c1, c2, c3⟩ := (h.normal h1).fromZero_rel hY0
    refine ⟨v, rfl, h.1, h.2.1, c - 1, by rw [c1]; ring, ?_⟩
    rw [abs_of_nonneg (by linarith)]
    have := hp.err
    linarith
  | error e =>
    exfalso
    obtain ⟨_, t, h3, h4⟩ := h
    obtain ⟨c, c1, c2, c3⟩ := h3.fromZero_rel hY0
    have : (2 : ℝ) ^ (66 : ℤ) ≤ 2 ^ EMAX := zpow_le_zpow_right₀ (by norm_num) (by unfold EMAX; norm_num)
    have h5 : (2 : ℝ) ^ (66 : ℤ) = 4 * 2 ^ 64 := by norm_num
    have h6 : (0 : ℝ) < 2 ^ 64 := by positivity
    have h7 := hp.err
    have h8 := h0.small
    have h9 : (1 : ℝ) / 2 ^ 100 ≤ 1 := by norm_num
    have h10 : |t| ≤ 2 ^ 64 * 2 := by
      rw [c1, abs_mul, abs_of_nonneg (show 0 ≤ c by linarith)]
      exact mul_le_mul h2 (by linarith) (by linarith) h6.le
    linarith

/-- Addition. -/
theorem rel_add (hp : PrecOk δ p P) {a b : Num} (ha : a.WF) (hb : b.WF)
    (h1 : (2 : ℝ) ^ (EMIN - 1) ≤ |(a.toK : ℝ) + b.toK|) (h2 : |(a.toK : ℝ) + b.toK| ≤ 2 ^ 64) :
    ∃ v, a.add b p .none = .ok v ∧ v.WF ∧ 64 * v.m.m.length = P ∧
      (∃ θ, (v.toK : ℝ) = (a.toK + b.toK) * (1 + θ) ∧ |θ| ≤ δ) := by
  have hs := addSub_spec (K := ℝ) ha hb hp.pos (by rw [hp.eq]; exact hp.lt) true .none
  rw [if_pos rfl] at hs
  exact rel_step hp hs h1 h2

/-- Subtraction. -/
theorem rel_sub (hp : PrecOk δ p P) {a b : Num} (ha : a.WF) (hb : b.WF)
    (h1 : (2 : ℝ) ^ (EMIN - 1) ≤ |(a.toK : ℝ) - b.toK|) (h2 : |(a.toK : ℝ) - b.toK| ≤ 2 ^ 64) :
    ∃ v, a.sub b p .none = .ok v ∧ v.WF ∧ 64 * v.m.m.length = P ∧
      (∃ θ, (v.toK : ℝ) = (a.toK - b.toK) * (1 + θ) ∧ |θ| ≤ δ) := by
  have hs := addSub_spec (K := ℝ) ha hb hp.pos (by rw [hp.eq]; exact hp.lt) false .none
  rw [if_neg (by simp), ← sub_eq_add_neg] at hs
  exact rel_step hp hs h1 h2

/-- The composition of relative errors. -/
theorem rel_comp (hd : DOk δ) {N M : Nat} (hN : N ≤ 2 ^ 44) (hM : M ≤ 2 ^ 44) {a b : ℝ} (ha : |a| ≤ N * δ) (hb : |b| ≤ M * δ) :
    ∃ c, (1 + a) * (1 + b) = 1 + c ∧ |c| ≤ (N + M + 1 : ℕ) * δ := by
  refine ⟨a + b + a * b, by ring, ?_⟩
  have hN' : (N : ℝ) ≤ 2 ^ 44 := by exact_mod_cast hN
  have hM' : (M : ℝ) ≤ 2 ^ 44 := by exact_mod_cast hM
  have h0 := hd.nonneg
  have h1 := hd.small
  have hb1 : |b| ≤ 1 / 2 ^ 56 := by
    refine le_trans hb (le_trans (mul_le_mul hM' h1 h0 (by positivity)) ?_)
    norm_num
  have hab : |a * b| ≤ δ := by
    rw [abs_mul]
    calc |a| * |b| ≤ (2 ^ 44 * δ) * (1 / 2 ^ 56) := mul_le_mul (le_trans ha (mul_le_mul_of_nonneg_right hN' h0)) hb1
          (abs_nonneg _) (by positivity)
      _ ≤ δ := by nlinarith
  have h2 : |a + b + a * b| ≤ |a| + |b| + |a * b| := abs_add_three _ _ _
  push_cast
  linarith

theorem Rl.nzY (h : Rl δ P ℓ N Y v) : Y ≠ 0 := abs_pos.1 (lt_of_lt_of_le (by positivity) h.lb)

theorem rel_half (hd : DOk δ) (hN : N ≤ 2 ^ 60) {a : ℝ} (ha : |a| ≤ N * δ) : |a| ≤ 1 / 2 ^ 40 := by
  have hN' : (N : ℝ) ≤ 2 ^ 60 := by exact_mod_cast hN
  refine le_trans ha (le_trans (mul_le_mul hN' hd.small hd.nonneg (by positivity)) ?_)
  norm_num

/-- The magnitude of a number. -/
theorem Rl.mag (hd : DOk δ) (hN : N ≤ 2 ^ 60) (h : Rl δ P ℓ N Y v) :
    |Y| * (1 - 1 / 2 ^ 40) ≤ |(v.toK : ℝ)| ∧ |(v.toK : ℝ)| ≤ |Y| * (1 + 1 / 2 ^ 40) := by
  obtain ⟨θ, h1, h2⟩ := h.err
  have h3 := rel_half hd hN h2
  have h4 := abs_le.1 h3
  rw [h1, abs_mul]
  have h5 : |1 + θ| = 1 + θ := abs_of_nonneg (by
    have : (1 : ℝ) / 2 ^ 40 ≤ 1 := by norm_num
    linarith)
  rw [h5]
  exact ⟨mul_le_mul_of_nonneg_left (by linarith) (abs_nonneg _), mul_le_mul_of_nonneg_left (by linarith) (abs_nonneg _)⟩

theorem Rl.nz (hd : DOk δ) (hN : N ≤ 2 ^ 60) (h : Rl δ P ℓ N Y v) : v.isZero = false := by
  rw [← Bool.not_eq_true, ← h.wf.toK_eq_zero (K := ℝ)]
  have h1 := (h.mag hd hN).1
  have h2 : 0 < |Y| := abs_pos.2 h.nzY
  have h3 : 0 < |Y| * (1 - 1 / 2 ^ 40) := mul_pos h2 (by norm_num)
  exact abs_pos.1 (by linarith)

theorem Rl.of_lo (hd : DOk δ) (h : Lo δ P ℓ N Y v) : Rl δ P ℓ N Y v := by
  have hX := h.Xpos
  refine ⟨h.wf, h.len, ⟨v.toK / Y - 1, by field_simp; ring, ?_⟩, by rw [abs_of_pos hX]; exact h.lb⟩
  have h1 : v.toK / Y ≤ 1 := (div_le_one hX).2 h.le
  have h2 : (1 - δ) ^ N ≤ v.toK / Y := by rw [le_div_iff₀ hX, mul_comm]; exact h.ge
  have h3 := one_add_mul_le_pow (a := -δ) (by linarith [hd.base.1]) N
  rw [← sub_eq_add_neg] at h3
  rw [abs_of_nonpos (by linarith)]
  linarith

theorem Rl.mono (hd : DOk δ) (h : Rl δ P ℓ N Y v) {M ℓ' : Nat} (hN : N ≤ M) (hℓ : ℓ ≤ ℓ') : Rl δ P ℓ' M Y v := by
  obtain ⟨θ, h1, h2⟩ := h.err
  refine ⟨h.wf, h.len, ⟨θ, h1, le_trans h2 (mul_le_mul_of_nonneg_right (by exact_mod_cast hN) hd.nonneg)⟩, ?_⟩
  exact le_trans (zpow_le_zpow_right₀ (by norm_num) (by omega)) h.lb

variable {P₁ P₂ ℓ₁ ℓ₂ N₁ N₂ : Nat} {X : ℝ} {x y : Num}

theorem Rl.mul (hd : DOk δ) (hp : PrecOk δ p P) (hx : Rl δ P₁ ℓ₁ N₁ X x) (hy : Rl δ P₂ ℓ₂ N₂ Y y)
    (hℓ : (2 : ℝ) ^ (-(ℓ : ℤ)) ≤ |X * Y|) (hℓ2 : ℓ ≤ 2 ^ 31 - 32) (hN₁ : N₁ ≤ 2 ^ 40) (hN₂ : N₂ ≤ 2 ^ 40) (hX : |X * Y| ≤ 2 ^ 60) :
    ∃ v, x.mul y p .none = .ok v ∧ Rl δ P ℓ (N₁ + N₂ + 3) (X * Y) v := by
  have hs := mulGeneral_spec (K := ℝ) hx.wf hy.wf hp.pos (by rw [hp.eq]; exact hp.lt) .none
  obtain ⟨a, a1, a2⟩ := hx.err
  obtain ⟨b, b1, b2⟩ := hy.err
  obtain ⟨c, c1, c2⟩ := rel_comp hd (by omega) (by omega) a2 b2
  have e : (x.toK : ℝ) * y.toK = X * Y * (1 + c) := by rw [a1, b1, ← c1]; ring
  have h3 := abs_le.1 (rel_half hd (by omega) c2)
  have h4 : |1 + c| = 1 + c := abs_of_nonneg (by
    have : (1 : ℝ) / 2 ^ 40 ≤ 1 := by norm_num
    linarith)
  have h5 : (1 : ℝ) / 2 ^ 40 ≤ 1 / 2 := by norm_num
  have hpos : (0 : ℝ) ≤ |X * Y| := abs_nonneg _
  obtain ⟨v, v1, v2, v3, t, t1, t2⟩ := rel_step hp hs (by
    rw [e, abs_mul, h4]
    have h6 : (2 : ℝ) ^ (EMIN - 1) ≤ 2 ^ (-(ℓ : ℤ)) * 2 ^ (-1 : ℤ) := by
      rw [← zpow_add₀ (by norm_num)]
      exact zpow_le_zpow_right₀ (by norm_num) (by unfold EMIN; omega)
    refine le_trans h6 (mul_le_mul hℓ ?_ (by positivity) hpos)
    norm_num at *; linarith) (by
    rw [e, abs_mul, h4]
    have : |X * Y| * (1 + c) ≤ 2 ^ 60 * 2 := mul_le_mul hX (by linarith) (by linarith) (by positivity)
    norm_num at this ⊢; linarith)
  obtain ⟨d, d1, d2⟩ := rel_comp (N := N₁ + N₂ + 1) (M := 1) hd (by omega) (by omega) c2 (by rw [Nat.cast_one, one_mul]; exact t2)
  exact ⟨v, v1, v2, v3, ⟨d, by rw [t1, e, ← d1]; ring, d2⟩, hℓ⟩

/-- Division by an exact number. -/
theorem Rl.div (hd : DOk δ) (hp : PrecOk δ p P) (hx : Rl δ P₁ ℓ₁ N X x) {d : Num} {D : ℝ} (hdw : d.WF)
    (hdD : (d.toK : ℝ) = D) (h1 : 1 ≤ |D|) (hℓ : (2 : ℝ) ^ (-(ℓ : ℤ)) ≤ |X / D|) (hℓ2 : ℓ ≤ 2 ^ 31 - 32) (hN : N ≤ 2 ^ 40) (hX : |X| ≤ 2 ^ 60) :
    ∃ v, x.div d p .none = .ok v ∧ Rl δ P ℓ (N + 2) (X / D) v := by
  have hD0 : D ≠ 0 := abs_pos.1 (by linarith)
  have hdz : d.isZero = false := by
    rw [← Bool.not_eq_true, ← hdw.toK_eq_zero (K := ℝ), hdD]
    exact hD0
  have hs := div_spec (K := ℝ) hx.wf hdw hdz hp.pos (by rw [hp.eq]; exact hp.lt) .none
  rw [hdD] at hs
  obtain ⟨c, c1, c2⟩ := hx.err
  have e : (x.toK : ℝ) / D = X / D * (1 + c) := by rw [c1]; ring
  have h3 := abs_le.1 (rel_half hd (by omega) c2)
  have h4 : |1 + c| = 1 + c := abs_of_nonneg (by
    have : (1 : ℝ) / 2 ^ 40 ≤ 1 := by norm_num
    linarith)
  have h5 : (1 : ℝ) / 2 ^ 40 ≤ 1 / 2 := by norm_num
  have hpos : (0 : ℝ) ≤ |X / D| := abs_nonneg _
  have hXD : |X / D| ≤ 2 ^ 60 := by
    rw [abs_div]
    exact le_trans (div_le_self (abs_nonneg _) h1) hX
  obtain ⟨v, v1, v2, v3, t, t1, t2⟩ := rel_step hp hs (by
    rw [e, abs_mul, h4]
    have h6 : (2 : ℝ) ^ (EMIN - 1) ≤ 2 ^ (-(ℓ : ℤ)) * 2 ^ (-1 : ℤ) := by
      rw [← zpow_add₀ (by norm_num)]
      exact zpow_le_zpow_right₀ (by norm_num) (by unfold EMIN; omega)
    refine le_trans h6 (mul_le_mul hℓ ?_ (by positivity) hpos)
    norm_num at *; linarith) (by
    rw [e, abs_mul, h4]
    have : |X / D| * (1 + c) ≤ 2 ^ 60 * 2 := mul_le_mul hXD (by linarith) (by linarith) (by positivity)
    norm_num at this ⊢; linarith)
  obtain ⟨f, d1, d2⟩ := rel_comp (N := N) (M := 1) hd (by omega) (by omega) c2 (by rw [Nat.cast_one, one_mul]; exact t2)
  exact ⟨v, v1, v2, v3, ⟨f, by rw [t1, e, ← d1]; ring, d2⟩, hℓ⟩

/-- The exponent of a number that is not subnormal, of either sign. -/
theorem exp_bounds_abs {v : Num} (hv : v.WF) (h : (2 : ℝ) ^ EMIN ≤ |(v.toK : ℝ)|) :
    (2 : ℝ) ^ (v.e - 1) ≤ |(v.toK : ℝ)| ∧ |(v.toK : ℝ)| < 2 ^ v.e := by
  have h0 : (0 : ℝ) < |(v.toK : ℝ)| := lt_of_lt_of_le (by positivity) h
  have hz : v.isZero = false := by
    rw [← Bool.not_eq_true, ← hv.toK_eq_zero (K := ℝ)]
    exact abs_pos.1 h0
  obtain ⟨q, h1, h2, h3, -⟩ := hv.mag (K := ℝ) hz
  have h4 := (zpow_lt_zpow_iff_right₀ (by norm_num : (1 : ℝ) < 2)).1 (lt_of_le_of_lt h h2)
  have h5 : v.e = q := by omega
  rw [h5]
  exact ⟨h1, h2⟩

/-! ## The generator of the coefficients -/

/-- The generator has delivered the coefficient `k`. -/
structure AtanRep (k : Nat) (g : AtanGen) : Prop where
  wf : g.f.WF
  len : 64 * g.f.m.m.length = 64
  eq : (g.f.toK : ℝ) = (-1) ^ k * (2 * k + 1)

theorem atanGenNew_spec : ∃ g, atanGenNew = .ok g ∧ AtanRep 0 g ∧ g.cost = 64 := by
  obtain ⟨f, f1, f2, f3, f4, -⟩ := fromWord_spec (K := ℝ) (d := 1) (p := 1) (by unfold B; omega) (by norm_num)
    (by unfold PMAX; norm_num)
  unfold atanGenNew
  rw [f1]
  dsimp only
  have h3 : f.m.m.length = 1 := by
    have hk : precBits 1 = 64 := by decide
    omega
  refine ⟨_, rfl, ⟨f2, by dsimp only; rw [h3], by dsimp only; rw [f4]; norm_num⟩, ?_⟩
  dsimp only
  unfold calcAddCost Mantissa.maxBitLen
  rw [h3]

theorem invSign_eq_neg (v : Num) : v.invSign = v.neg := by
  unfold Num.invSign Num.isNegative Num.setSign Num.neg
  cases hs : v.s <;> simp [Sign.invert]

theorem atanNext_spec {k : Nat} {g : AtanGen} (h : AtanRep k g) (hk : k ≤ 2 ^ 60) :
    ∃ c g', atanNext g = .ok (c, g') ∧ AtanRep (k + 1) g' ∧ c = g'.f := by
  unfold atanNext
  have m1 : g.f.m.maxBitLen = 64 := by
    have := h.len
    unfold Mantissa.maxBitLen; omega
  dsimp only
  rw [m1]
  have hpos : (0 : ℝ) < 2 * (k : ℝ) + 1 := by positivity
  obtain ⟨w, w1, w2, w3, w4, -⟩ := fromWord_spec (K := ℝ) (d := 2 * (k + 1) + 1) (p := 64) (by unfold B; omega) (by norm_num)
    (by unfold PMAX; norm_num)
  have hl : 64 * w.m.m.length ≤ 64 := by rw [w3]; decide
  have hr : roundP 64 = 64 := by decide
  rcases Nat.even_or_odd k with hev | hod
  · have hf : (g.f.toK : ℝ) = 2 * k + 1 := by rw [h.eq, hev.neg_one_pow, one_mul]
    have hs : g.f.isPositive = true := by
      unfold Num.isPositive
      rw [toK_sign_pos (K := ℝ) (by rw [hf]; exact hpos)]; rfl
    rw [if_pos hs]
    have ha := addSub_spec (K := ℝ) h.wf TWO_WF (p := 64) (by norm_num) (by decide) true .none
    rw [if_pos rfl, TWO_toK, hf, show (2 * k + 1 : ℝ) + 2 = w.toK by rw [w4]; push_cast; ring, hr] at ha
    obtain ⟨i, i1, i2, i3, i4, -, -⟩ := Delivers.rep w2 (by norm_num) hl ha
    have i5 : g.f.add Num.TWO 64 .none = .ok i := i1
    rw [i5]
    refine ⟨_, _, rfl, ⟨?_, ?_, ?_⟩, rfl⟩ <;> dsimp only <;> rw [invSign_eq_neg]
    · exact i2.neg
    · exact i3
    · rw [Num.toK_neg, i4, w4, hev.add_one.neg_one_pow]; push_cast; ring
  · have hf : (g.f.toK : ℝ) = -(2 * k + 1) := by rw [h.eq, hod.neg_one_pow]; ring
    have hs : ¬ g.f.isPositive = true := by
      unfold Num.isPositive
      rw [toK_sign_neg (K := ℝ) (by rw [hf]; linarith)]; decide
    rw [if_neg hs]
    have ha := addSub_spec (K := ℝ) h.wf TWO_WF (p := 64) (by norm_num) (by decide) false .none
    rw [if_neg (by simp), TWO_toK, hf, show -(2 * k + 1 : ℝ) + -2 = w.neg.toK by
      rw [Num.toK_neg, w4]; push_cast; ring, hr] at ha
    obtain ⟨i, i1, i2, i3, i4, -, -⟩ := Delivers.rep w2.neg (by norm_num) hl ha
    have i5 : g.f.sub Num.TWO 64 .none = .ok i := i1
    rw [i5]
    refine ⟨_, _, rfl, ⟨?_, ?_, ?_⟩, rfl⟩ <;> dsimp only <;> rw [invSign_eq_neg]
    · exact i2.neg
    · exact i3
    · rw [Num.toK_neg, i4, Num.toK_neg, w4, hod.add_one.neg_one_pow]; push_cast; ring

end AF
