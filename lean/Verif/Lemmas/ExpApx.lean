import Verif.Lemmas.ConstLn2
import Verif.Lemmas.NumRoot
import Verif.Model.Exp
import Mathlib.Algebra.Order.Ring.Pow
/-!
# Numbers that bound a real value from below, up to a counted number of truncations
-/

namespace AF

set_option linter.unusedSectionVars false

/-- The unit of the relative errors. -/
structure DOk (δ : ℝ) : Prop where
  nonneg : 0 ≤ δ
  small : δ ≤ 1 / 2 ^ 100

/-- A precision `p` of `P` bits whose truncation error is at most `δ`. -/
structure PrecOk (δ : ℝ) (p P : Nat) : Prop where
  pos : 0 < p
  eq : roundP p = P
  lt : P < PMAX
  err : (2 : ℝ) ^ (1 - (P : ℤ)) ≤ δ

/-- The number `v` of `P` bits is below `X`, by at most `N` truncations; `X` is at least `2^-ℓ`. -/
structure Lo (δ : ℝ) (P ℓ N : Nat) (X : ℝ) (v : Num) : Prop where
  wf : v.WF
  len : 64 * v.m.m.length = P
  le : v.toK ≤ X
  ge : X * (1 - δ) ^ N ≤ v.toK
  lb : (2 : ℝ) ^ (-(ℓ : ℤ)) ≤ X

variable {δ : ℝ}

theorem DOk.base (h : DOk δ) : 0 ≤ 1 - δ ∧ 1 - δ ≤ 1 := by
  have := h.nonneg
  have := h.small
  constructor
  · norm_num at *; linarith
  · linarith

theorem DOk.pow (h : DOk δ) {N : Nat} (hN : N ≤ 2 ^ 90) : 1 / 2 ≤ (1 - δ) ^ N := by
  have h1 := h.nonneg
  have h2 := h.small
  have h3 := one_add_mul_le_pow (a := -δ) (by linarith [h.base.1]) N
  rw [← sub_eq_add_neg] at h3
  refine le_trans ?_ h3
  have h4 : (N : ℝ) ≤ 2 ^ 90 := by exact_mod_cast hN
  have h5 : (N : ℝ) * δ ≤ 2 ^ 90 * (1 / 2 ^ 100) := mul_le_mul h4 h2 h1 (by positivity)
  have h6 : (2 : ℝ) ^ 90 * (1 / 2 ^ 100) ≤ 1 / 2 := by norm_num
  linarith

theorem DOk.pow_pos (h : DOk δ) (N : Nat) : 0 < (1 - δ) ^ N := by
  have := h.small
  apply _root_.pow_pos
  norm_num at *
  linarith

theorem DOk.pow_le (h : DOk δ) (N : Nat) : (1 - δ) ^ N ≤ 1 := pow_le_one₀ h.base.1 h.base.2

theorem DOk.anti (h : DOk δ) {M N : Nat} (hMN : M ≤ N) : (1 - δ) ^ N ≤ (1 - δ) ^ M :=
  pow_le_pow_of_le_one h.base.1 h.base.2 hMN

variable {P ℓ N : Nat} {X : ℝ} {v : Num}

theorem Lo.Xpos (h : Lo δ P ℓ N X v) : 0 < X := lt_of_lt_of_le (by positivity) h.lb

theorem Lo.pos (hd : DOk δ) (h : Lo δ P ℓ N X v) : 0 < (v.toK : ℝ) :=
  lt_of_lt_of_le (mul_pos h.Xpos (hd.pow_pos N)) h.ge

theorem Lo.nz (hd : DOk δ) (h : Lo δ P ℓ N X v) : v.isZero = false := by
  rw [← Bool.not_eq_true, ← h.wf.toK_eq_zero (K := ℝ)]
  exact (h.pos hd).ne'

theorem Lo.mono (hd : DOk δ) (h : Lo δ P ℓ N X v) {M ℓ' : Nat} (hN : N ≤ M) (hℓ : ℓ ≤ ℓ') : Lo δ P ℓ' M X v where
  wf := h.wf
  len := h.len
  le := h.le
  ge := le_trans (mul_le_mul_of_nonneg_left (hd.anti hN) h.Xpos.le) h.ge
  lb := le_trans (zpow_le_zpow_right₀ (by norm_num) (by omega)) h.lb

/-- An exact value. -/
theorem Lo.exact {v : Num} (hw : v.WF) (hl : 64 * v.m.m.length = P) (hv : (v.toK : ℝ) = X)
    (hb : (2 : ℝ) ^ (-(ℓ : ℤ)) ≤ X) : Lo δ P ℓ 0 X v :=
  ⟨hw, hl, hv.le, by rw [pow_zero, mul_one, hv], hb⟩

/-- A truncated operation. -/
theorem Lo.step (hd : DOk δ) {p : Nat} (hp : PrecOk δ p P) {X Y : ℝ} {ix : Bool} {r : Except Err Num}
    (h : Delivers .none (roundP p) Y ix r) (h1 : Y ≤ X) (h2 : X * (1 - δ) ^ N ≤ Y) (h3 : (2 : ℝ) ^ (-(ℓ : ℤ)) ≤ X)
    (hℓ : ℓ ≤ 2 ^ 31 - 16) (hN : N ≤ 2 ^ 90) (hX : X ≤ 2 ^ 64) :
    ∃ v, r = .ok v ∧ Lo δ P ℓ (N + 1) X v ∧ (ix = true → v.inexact = true) := by
  have hX0 : 0 < X := lt_of_lt_of_le (by positivity) h3
  have hY0 : 0 < Y := lt_of_lt_of_le (mul_pos hX0 (hd.pow_pos N)) h2
  have ha : |Y| = Y := abs_of_pos hY0
  have hhalf := hd.pow hN
  rw [hp.eq] at h
  cases r with
  | ok v =>
    have hlo : (2 : ℝ) ^ (EMIN - 1) ≤ |Y| := by
      rw [ha]
      refine le_trans ?_ h2
      have h4 : X * (1 / 2) ≤ X * (1 - δ) ^ N := mul_le_mul_of_nonneg_left hhalf hX0.le
      refine le_trans ?_ h4
      have h5 : (2 : ℝ) ^ (EMIN - 1) ≤ 2 ^ (-(ℓ : ℤ)) * (1 / 2) := by
        rw [show (1 / 2 : ℝ) = 2 ^ (-1 : ℤ) by norm_num, ← zpow_add₀ (by norm_num)]
        exact zpow_le_zpow_right₀ (by norm_num) (by unfold EMIN; omega)
      linarith
    obtain ⟨g1, g2, g3⟩ := (h.normal hlo).none_rel
    have hv : (0 : ℝ) ≤ v.toK := by
      by_contra hc
      push Not at hc
      nlinarith
    rw [ha, abs_of_nonneg hv] at g1 g2
    refine ⟨v, rfl, ⟨h.1, h.2.1, le_trans g1 h1, ?_, h3⟩, fun hi => h.2.2.2.2.1.2 (Or.inl hi)⟩
    refine le_trans ?_ g2
    rw [pow_succ, ← mul_assoc]
    have h6 := hp.err
    exact mul_le_mul h2 (by linarith) hd.base.1 hY0.le
  | error e =>
    exfalso
    obtain ⟨_, t, h3, h4⟩ := h
    obtain ⟨g1, -, -⟩ := h3.none_rel
    rw [ha] at g1
    have : (2 : ℝ) ^ (65 : ℤ) ≤ 2 ^ EMAX := zpow_le_zpow_right₀ (by norm_num) (by unfold EMAX; norm_num)
    have h5 : (2 : ℝ) ^ (65 : ℤ) = 2 * 2 ^ 64 := by norm_num
    have : (0 : ℝ) < 2 ^ 64 := by positivity
    linarith

variable {P₁ P₂ ℓ₁ ℓ₂ N₁ N₂ p : Nat} {Y : ℝ} {x y : Num}

theorem Lo.mul (hd : DOk δ) (hp : PrecOk δ p P) (hx : Lo δ P₁ ℓ₁ N₁ X x) (hy : Lo δ P₂ ℓ₂ N₂ Y y)
    (hℓ : ℓ₁ + ℓ₂ ≤ 2 ^ 31 - 16) (hN : N₁ + N₂ ≤ 2 ^ 90) (hX : X * Y ≤ 2 ^ 64) :
    ∃ v, x.mul y p .none = .ok v ∧ Lo δ P (ℓ₁ + ℓ₂) (N₁ + N₂ + 1) (X * Y) v ∧
      (x.inexact = true ∨ y.inexact = true → v.inexact = true) := by
  have hs := mulGeneral_spec (K := ℝ) hx.wf hy.wf hp.pos (by rw [hp.eq]; exact hp.lt) .none
  obtain ⟨v, h1, h2, h3⟩ := Lo.step (N := N₁ + N₂) (ℓ := ℓ₁ + ℓ₂) (X := X * Y) hd hp hs
    (mul_le_mul hx.le hy.le (hy.pos hd).le hx.Xpos.le) (by
      rw [pow_add, show X * Y * ((1 - δ) ^ N₁ * (1 - δ) ^ N₂) = X * (1 - δ) ^ N₁ * (Y * (1 - δ) ^ N₂) by ring]
      exact mul_le_mul hx.ge hy.ge (mul_pos hy.Xpos (hd.pow_pos _)).le (hx.pos hd).le) (by
      rw [show (-((ℓ₁ + ℓ₂ : ℕ) : ℤ)) = -(ℓ₁ : ℤ) + -(ℓ₂ : ℤ) by push_cast; ring, zpow_add₀ (by norm_num)]
      exact mul_le_mul hx.lb hy.lb (by positivity) hx.Xpos.le) hℓ hN hX
  refine ⟨v, h1, h2, fun hi => h3 ?_⟩
  unfold mulIx
  rw [hx.nz hd, hy.nz hd]
  simpa using hi

theorem Lo.add (hd : DOk δ) (hp : PrecOk δ p P) (hx : Lo δ P₁ ℓ₁ N₁ X x) (hy : Lo δ P₂ ℓ₂ N₂ Y y)
    (hℓ : ℓ₁ ≤ 2 ^ 31 - 16) (hN : max N₁ N₂ ≤ 2 ^ 90) (hX : X + Y ≤ 2 ^ 64) :
    ∃ v, x.add y p .none = .ok v ∧ Lo δ P ℓ₁ (max N₁ N₂ + 1) (X + Y) v ∧
      (x.inexact = true ∨ y.inexact = true → v.inexact = true) := by
  have hs := addSub_spec (K := ℝ) hx.wf hy.wf hp.pos (by rw [hp.eq]; exact hp.lt) true .none
  rw [if_pos rfl] at hs
  have hx' := hx.mono hd (le_max_left N₁ N₂) le_rfl
  have hy' := hy.mono hd (le_max_right N₁ N₂) le_rfl
  obtain ⟨v, h1, h2, h3⟩ := Lo.step (N := max N₁ N₂) (ℓ := ℓ₁) (X := X + Y) hd hp hs
    (add_le_add hx.le hy.le) (by
      rw [add_mul]
      exact add_le_add hx'.ge hy'.ge) (by
      have := hy.Xpos
      have := hx.lb
      linarith) hℓ hN hX
  refine ⟨v, h1, h2, fun hi => h3 ?_⟩
  unfold addIx
  rw [hx.nz hd, hy.nz hd]
  simpa using hi

/-- Adding to a zero. -/
theorem Lo.zero_add (hd : DOk δ) (hp : PrecOk δ p P) {z : Num} (hz : z.WF) (hz0 : (z.toK : ℝ) = 0)
    (hy : Lo δ P₂ ℓ N Y y) (hℓ : ℓ ≤ 2 ^ 31 - 16) (hN : N ≤ 2 ^ 90) (hX : Y ≤ 2 ^ 64) :
    ∃ v, z.add y p .none = .ok v ∧ Lo δ P ℓ (N + 1) Y v := by
  have hs := addSub_spec (K := ℝ) hz hy.wf hp.pos (by rw [hp.eq]; exact hp.lt) true .none
  rw [if_pos rfl, hz0, _root_.zero_add] at hs
  obtain ⟨v, h1, h2, h3⟩ := Lo.step hd hp hs hy.le hy.ge hy.lb hℓ hN hX
  exact ⟨v, h1, h2⟩

/-- Division by an exact integer. -/
theorem Lo.div (hd : DOk δ) (hp : PrecOk δ p P) (hx : Lo δ P₁ ℓ₁ N X x) {d : Num} {D : ℝ} (hdw : d.WF)
    (hdD : (d.toK : ℝ) = D) (h1 : 1 ≤ D) (h2 : D ≤ 2 ^ ℓ₂)
    (hℓ : ℓ₁ + ℓ₂ ≤ 2 ^ 31 - 16) (hN : N ≤ 2 ^ 90) (hX : X ≤ 2 ^ 64) :
    ∃ v, x.div d p .none = .ok v ∧ Lo δ P (ℓ₁ + ℓ₂) (N + 1) (X / D) v ∧ (x.inexact = true → v.inexact = true) := by
  have hD0 : 0 < D := by linarith
  have hdz : d.isZero = false := by
    rw [← Bool.not_eq_true, ← hdw.toK_eq_zero (K := ℝ), hdD]
    exact hD0.ne'
  have hs := div_spec (K := ℝ) hx.wf hdw hdz hp.pos (by rw [hp.eq]; exact hp.lt) .none
  rw [hdD] at hs
  obtain ⟨v, h1, h2, h3⟩ := Lo.step (N := N) (ℓ := ℓ₁ + ℓ₂) (X := X / D) hd hp hs
    (div_le_div_of_nonneg_right hx.le hD0.le) (by
      rw [div_mul_eq_mul_div]
      exact div_le_div_of_nonneg_right hx.ge hD0.le) (by
      rw [le_div_iff₀ hD0]
      refine le_trans ?_ hx.lb
      rw [show (-((ℓ₁ + ℓ₂ : ℕ) : ℤ)) = -(ℓ₁ : ℤ) + -(ℓ₂ : ℤ) by push_cast; ring, zpow_add₀ (by norm_num), mul_assoc]
      have h3 : (2 : ℝ) ^ (-(ℓ₂ : ℤ)) * D ≤ 1 := by
        rw [zpow_neg, zpow_natCast, inv_mul_le_iff₀ (by positivity), mul_one]
        exact h2
      calc (2 : ℝ) ^ (-(ℓ₁ : ℤ)) * (2 ^ (-(ℓ₂ : ℤ)) * D) ≤ 2 ^ (-(ℓ₁ : ℤ)) * 1 :=
            mul_le_mul_of_nonneg_left h3 (by positivity)
        _ = _ := mul_one _) hℓ hN (le_trans (div_le_self hx.Xpos.le h1) hX)
  refine ⟨v, h1, h2, fun hi => h3 ?_⟩
  unfold divIx
  rw [hx.nz hd, hi]
  rfl

/-- The square root. -/
theorem Lo.sqrt (hd : DOk δ) (hp : PrecOk δ p P) (hx : Lo δ P₁ ℓ (2 * N) (X * X) x) (hX0 : 0 < X)
    (hℓ : ℓ ≤ 2 ^ 31 - 16) (hN : N ≤ 2 ^ 90) (hX : X ≤ 2 ^ 64) (hlb : (2 : ℝ) ^ (-(ℓ : ℤ)) ≤ X) :
    ∃ v, x.sqrt p .none = .ok v ∧ Lo δ P ℓ (N + 1) X v ∧ (x.inexact = true → v.inexact = true) := by
  have hx0 := hx.pos hd
  have hs := sqrt_spec (K := ℝ) hx.wf (Or.inl (toK_sign_pos hx0)) hp.pos (by rw [hp.eq]; exact hp.lt) .none
    (Real.sqrt_nonneg _) (Real.mul_self_sqrt hx0.le)
  exact Lo.step hd hp hs (Real.sqrt_le_iff.2 ⟨hX0.le, by rw [sq]; exact hx.le⟩) (by
    apply Real.le_sqrt_of_sq_le
    have := hx.ge
    rw [mul_pow, ← pow_mul, mul_comm N 2, sq]
    exact this) hlb hℓ hN hX

end AF
