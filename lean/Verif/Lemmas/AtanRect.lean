import Verif.Lemmas.AtanLin
/-!
# The series of the arctangent: rectangular splitting
-/

namespace AF

set_option linter.unusedSectionVars false

variable {δ : ℝ} {P : Nat}

/-- An addition of a small number to a sum near `C`. -/
theorem lin_abs {C S t acc part E N : ℝ} (hδ : 0 ≤ δ) (hs : |S + t - C| ≤ |C| * (1 / 24)) (h1 : |acc - S| ≤ |C| * (E * δ))
    (h2 : |part - t| ≤ |C| * (N * δ)) (hE : (E + N) * δ ≤ 1 / 100) :
    (|C| * (9 / 10) ≤ |acc + part| ∧ |acc + part| ≤ |C| * (11 / 10)) ∧
      ∀ {v θ : ℝ}, v = (acc + part) * (1 + θ) → |θ| ≤ δ → |v - (S + t)| ≤ |C| * ((E + N + 2) * δ) := by
  have hA0 : 0 ≤ |C| := abs_nonneg C
  have k1 : |acc + part - (S + t)| ≤ |C| * ((E + N) * δ) := by
    rw [show acc + part - (S + t) = (acc - S) + (part - t) by ring]
    refine le_trans (abs_add_le _ _) ?_
    linarith
  have k2 : |acc + part - C| ≤ |C| * (1 / 10) := by
    rw [show acc + part - C = (acc + part - (S + t)) + (S + t - C) by ring]
    refine le_trans (abs_add_le _ _) ?_
    have := mul_le_mul_of_nonneg_left hE hA0
    linarith
  have k3 : |C| * (9 / 10) ≤ |acc + part| := by
    have := abs_sub_abs_le_abs_sub C (acc + part)
    rw [abs_sub_comm] at this
    linarith
  have k4 : |acc + part| ≤ |C| * (11 / 10) := by
    have := abs_sub_abs_le_abs_sub (acc + part) C
    linarith
  refine ⟨⟨k3, k4⟩, fun {v θ} hv hθ => ?_⟩
  have k5 : |v - (acc + part)| ≤ |C| * (11 / 10) * δ := by
    rw [hv, show (acc + part) * (1 + θ) - (acc + part) = (acc + part) * θ by ring, abs_mul]
    exact mul_le_mul k4 hθ (abs_nonneg _) (by linarith)
  rw [show v - (S + t) = (v - (acc + part)) + (acc + part - (S + t)) by ring]
  refine le_trans (abs_add_le _ _) ?_
  have : 0 ≤ |C| * δ := by positivity
  linarith

theorem atCoef_anti {k j : Nat} (h : k ≤ j) : |atCoef j| ≤ |atCoef k| := by
  rw [abs_atCoef, abs_atCoef]
  apply one_div_le_one_div_of_le (by positivity)
  have : (k : ℝ) ≤ j := by exact_mod_cast h
  linarith

theorem atCoef_pos (k : Nat) : 0 < |atCoef k| := by rw [abs_atCoef]; positivity

theorem atCoef_lb {k : Nat} (hk : k ≤ 2 ^ 40) : (2 : ℝ) ^ (-42 : ℤ) ≤ |atCoef k| := by
  rw [abs_atCoef, le_div_iff₀ (by positivity)]
  have : (k : ℝ) ≤ 1099511627776 := by exact_mod_cast hk
  have e : (2 : ℝ) ^ (-42 : ℤ) = 1 / 4398046511104 := by norm_num
  rw [e, one_div, inv_mul_le_iff₀ (by positivity)]
  linarith

/-- The sums of a row are close to their first term. -/
theorem serSum_at {X : ℝ} (h0 : 0 ≤ X) (h1 : X ≤ 1 / 32) : ∀ (n k : Nat),
    |serSum atCoef X k n| ≤ |atCoef k| * (25 / 24) ∧ (0 < n → |serSum atCoef X k n - atCoef k| ≤ |atCoef k| * (1 / 24))
  | 0, k => by
    rw [serSum_zero, abs_zero]
    exact ⟨by have := atCoef_pos k; linarith, fun h => absurd h (by omega)⟩
  | n + 1, k => by
    have h2 := (serSum_at h0 h1 n (k + 1)).1
    have h3 := atCoef_anti (show k ≤ k + 1 by omega)
    have h4 := atCoef_pos k
    have h5 : |serSum atCoef X k (n + 1) - atCoef k| ≤ |atCoef k| * (1 / 24) := by
      rw [serSum_cons, show ∀ a b : ℝ, a + b - b = a from fun a b => by ring]
      rw [abs_mul, abs_of_nonneg h0]
      have := mul_le_mul (le_trans h2 (mul_le_mul_of_nonneg_right h3 (by norm_num))) h1 h0 (by positivity)
      linarith
    refine ⟨?_, fun _ => h5⟩
    have := abs_sub_abs_le_abs_sub (serSum atCoef X k (n + 1)) (atCoef k)
    linarith

theorem small_mul (hd : DOk δ) {N : Nat} (h : N ≤ 2 ^ 60) : (N : ℝ) * δ ≤ 1 / 100 := by
  have h1 : (N : ℝ) ≤ 2 ^ 60 := by exact_mod_cast h
  refine le_trans (mul_le_mul h1 hd.small hd.nonneg (by positivity)) ?_
  norm_num

theorem inv_sign_coef (j : Nat) (Z : ℝ) : Z / ((-1) ^ j * (2 * (j : ℝ) + 1)) = Z * atCoef j := by
  unfold atCoef
  rcases neg_one_pow_eq_or ℝ j with h | h <;> rw [h]
  · ring
  · rw [neg_one_mul, div_neg]; ring

theorem emin_lt_coef {k : Nat} (hk : k ≤ 2 ^ 40) : (2 : ℝ) ^ (EMIN - 1) ≤ |atCoef k| * (9 / 10) := by
  have h := atCoef_lb hk
  have h1 : (2 : ℝ) ^ (EMIN - 1) ≤ 2 ^ (-42 : ℤ) * (1 / 2) := by
    rw [show (1 / 2 : ℝ) = 2 ^ (-1 : ℤ) by norm_num, ← zpow_add₀ (by norm_num)]
    exact zpow_le_zpow_right₀ (by norm_num) (by unfold EMIN; norm_num)
  have h2 := atCoef_pos k
  generalize (2 : ℝ) ^ (-42 : ℤ) = z at h h1
  generalize (2 : ℝ) ^ (EMIN - 1) = y at h1 ⊢
  linarith

/-- The loop over a row. -/
theorem rowLoop_atan (hd : DOk δ) (hp : PrecOk δ P P) {X : ℝ} {ℓs k n : Nat}
    (hX0 : 0 < X) (hX : X ≤ 1 / 32) (hℓ : ℓs * n + 42 ≤ 2 ^ 31 - 64) (hXl : ∀ m, (2 : ℝ) ^ (-((ℓs * m : ℕ) : ℤ)) ≤ X ^ m)
    (hn : n ≤ 2 ^ 20) (hk : k + n + 1 ≤ 2 ^ 39) :
    ∀ (l : List Num) (m E : Nat) (acc : Num) (g : AtanGen), 0 < m → m + l.length = n + 1 → PowList δ P ℓs 1 X m l →
      AtanRep (k + m) g → acc.WF → 64 * acc.m.m.length = P →
      |(acc.toK : ℝ) - serSum atCoef X (k + 1) m| ≤ |atCoef (k + 1)| * (E * δ) → E + l.length * (2 * n + 6) ≤ 2 ^ 59 →
      ∃ v g', rowLoop atanNext true P l acc g = .ok (v, g') ∧ AtanRep (k + n + 1) g' ∧ v.WF ∧ 64 * v.m.m.length = P ∧
        |(v.toK : ℝ) - serSum atCoef X (k + 1) (n + 1)| ≤
          |atCoef (k + 1)| * (((E + l.length * (2 * n + 6) : ℕ) : ℝ) * δ)
  | [], m, E, acc, g, _, hm, _, hr, h1, h2, h3, _ => by
    simp only [List.length_nil, Nat.add_zero] at hm
    subst hm
    refine ⟨acc, g, rfl, hr, h1, h2, ?_⟩
    simpa using h3
  | x :: l, m, E, acc, g, hm0, hm, hl, hr, h1, h2, h3, hE => by
    rw [List.length_cons] at hm hE ⊢
    have eL : (l.length + 1) * (2 * n + 6) = l.length * (2 * n + 6) + (2 * n + 6) := by ring
    rw [eL] at hE ⊢
    obtain ⟨q1, q2⟩ := hl
    have e1 : ℓs * m ≤ ℓs * n := Nat.mul_le_mul_left _ (by omega)
    obtain ⟨c, g1, c1, c2, c3⟩ := atanNext_spec hr (by omega)
    have hcD : (c.toK : ℝ) = (-1) ^ (k + m + 1) * (2 * ((k + m + 1 : ℕ) : ℝ) + 1) := by rw [c3]; exact c2.eq
    have hcw : c.WF := by rw [c3]; exact c2.wf
    have hDp : (0 : ℝ) < 2 * ((k + m + 1 : ℕ) : ℝ) + 1 := by positivity
    have hDa : |(-1 : ℝ) ^ (k + m + 1) * (2 * ((k + m + 1 : ℕ) : ℝ) + 1)| = 2 * ((k + m + 1 : ℕ) : ℝ) + 1 := by
      rw [abs_mul, abs_pow, abs_neg, abs_one, one_pow, one_mul, abs_of_pos hDp]
    have e3 : X ^ m ≤ 1 := pow_le_one₀ hX0.le (by linarith)
    have e3' : 0 < X ^ m := pow_pos hX0 m
    have hTlb : (2 : ℝ) ^ (-((ℓs * m + 42 : ℕ) : ℤ)) ≤ |X ^ m / ((-1) ^ (k + m + 1) * (2 * ((k + m + 1 : ℕ) : ℝ) + 1))| := by
      rw [inv_sign_coef, abs_mul, abs_of_pos e3', show (-((ℓs * m + 42 : ℕ) : ℤ)) = -((ℓs * m : ℕ) : ℤ) + -42 by push_cast; ring,
        zpow_add₀ (by norm_num)]
      exact mul_le_mul (hXl m) (atCoef_lb (by omega)) (by positivity) e3'.le
    obtain ⟨t, t1, t2⟩ := (Rl.of_lo hd q1).div (ℓ := ℓs * m + 42) hd hp hcw hcD (by
      rw [hDa]
      have : (0 : ℝ) ≤ ((k + m + 1 : ℕ) : ℝ) := Nat.cast_nonneg _
      linarith) hTlb (by omega) (by omega) (by
      rw [abs_of_pos e3']
      norm_num at e3 ⊢; linarith)
    rw [inv_sign_coef] at t2
    have e4 : |X ^ m * atCoef (k + m + 1)| ≤ |atCoef (k + 1)| := by
      rw [abs_mul, abs_of_pos e3']
      have := mul_le_mul e3 (atCoef_anti (show k + 1 ≤ k + m + 1 by omega)) (abs_nonneg _) (by norm_num)
      linarith
    have hpe : |(t.toK : ℝ) - X ^ m * atCoef (k + m + 1)| ≤ |atCoef (k + 1)| * (((2 * n + 4 : ℕ) : ℝ) * δ) := by
      obtain ⟨θ, θ1, θ2⟩ := t2.err
      rw [θ1, show X ^ m * atCoef (k + m + 1) * (1 + θ) - X ^ m * atCoef (k + m + 1) = (X ^ m * atCoef (k + m + 1)) * θ by ring, abs_mul]
      refine mul_le_mul e4 (le_trans θ2 ?_) (abs_nonneg _) (abs_nonneg _)
      exact mul_le_mul_of_nonneg_right (by exact_mod_cast (by omega : (1 + 1) * m + 2 ≤ 2 * n + 4)) hd.nonneg
    have e5 : serSum atCoef X (k + 1) m + X ^ m * atCoef (k + m + 1) = serSum atCoef X (k + 1) (m + 1) := by
      rw [serSum_succ, mul_comm, show k + 1 + m = k + m + 1 by omega]
    have hs := (serSum_at hX0.le hX (m + 1) (k + 1)).2 (by omega)
    rw [← e5] at hs
    obtain ⟨⟨k1, k2⟩, k3⟩ := lin_abs hd.nonneg hs h3 hpe (by
      have := small_mul hd (N := E + (2 * n + 4)) (by omega)
      push_cast at this ⊢; linarith)
    have hc1 := abs_atCoef_le (k + 1)
    obtain ⟨u, u1, u2, u3, θ, u4, u5⟩ := rel_add hp h1 t2.wf (le_trans (emin_lt_coef (by omega)) k1) (by norm_num; linarith)
    have u6 := k3 u4 u5
    rw [e5] at u6
    obtain ⟨v, g', r1, r2, r3, r4, r5⟩ := rowLoop_atan hd hp hX0 hX hℓ hXl hn hk l (m + 1) (E + (2 * n + 6)) u g1 (by omega) (by omega) q2
      (by rw [← add_assoc]; exact c2) u2 u3 (by
        refine le_trans u6 (le_of_eq ?_)
        push_cast; ring) (by omega)
    refine ⟨v, g', ?_, r2, r3, r4, by
      rw [show E + (l.length * (2 * n + 6) + (2 * n + 6)) = E + (2 * n + 6) + l.length * (2 * n + 6) by ring]; exact r5⟩
    unfold rowLoop
    rw [c1]
    dsimp only
    unfold seriesTerm
    rw [if_pos rfl, t1]
    dsimp only
    rw [u1]
    exact r1

/-- From an absolute error to a relative one. -/
theorem Rl.of_abs (hd : DOk δ) {C S : ℝ} {v : Num} {E ℓ : Nat} (hv : v.WF) (hl : 64 * v.m.m.length = P) (hC : C ≠ 0)
    (hS : |S - C| ≤ |C| * (1 / 24)) (h : |(v.toK : ℝ) - S| ≤ |C| * (E * δ)) (hlb : (2 : ℝ) ^ (-(ℓ : ℤ)) ≤ |S|) :
    Rl δ P ℓ (2 * E) S v := by
  have hC0 : 0 < |C| := abs_pos.2 hC
  have h1 : |C| * (1 / 2) ≤ |S| := by
    have := abs_sub_abs_le_abs_sub C S
    rw [abs_sub_comm] at this
    linarith
  have hS0 : 0 < |S| := by linarith
  have hS1 : S ≠ 0 := abs_pos.1 hS0
  refine ⟨hv, hl, ⟨v.toK / S - 1, by field_simp; ring, ?_⟩, hlb⟩
  rw [show (v.toK : ℝ) / S - 1 = (v.toK - S) / S by field_simp, abs_div, div_le_iff₀ hS0]
  refine le_trans h ?_
  have : |C| * (1 / 2) * ((2 * E : ℕ) * δ) ≤ |S| * ((2 * E : ℕ) * δ) :=
    mul_le_mul_of_nonneg_right h1 (mul_nonneg (Nat.cast_nonneg _) hd.nonneg)
  push_cast at this ⊢
  linarith

theorem computeRow_atan (hd : DOk δ) (hp : PrecOk δ P P) {X : ℝ} {ℓs k n : Nat}
    (hX0 : 0 < X) (hX : X ≤ 1 / 32) (hℓ : ℓs * n + 42 ≤ 2 ^ 31 - 64) (hXl : ∀ m, (2 : ℝ) ^ (-((ℓs * m : ℕ) : ℤ)) ≤ X ^ m)
    (hn : n ≤ 128) (hk : k + n + 1 ≤ 2 ^ 39) {l : List Num} {g : AtanGen} (hln : l.length = n)
    (hl : PowList δ P ℓs 1 X 1 l) (hr : AtanRep k g) :
    ∃ v g', computeRow atanNext true P l g = .ok (v, g') ∧ AtanRep (k + n + 1) g' ∧ v.WF ∧ 64 * v.m.m.length = P ∧
      |(v.toK : ℝ) - serSum atCoef X (k + 1) (n + 1)| ≤ |atCoef (k + 1)| * (((2 ^ 16 : ℕ) : ℝ) * δ) := by
  obtain ⟨z, z1, z2, z3, z4, -⟩ := new_spec (K := ℝ) hp.lt
  obtain ⟨c, g1, c1, c2, c3⟩ := atanNext_spec hr (by omega)
  have hcD : (c.toK : ℝ) = (-1) ^ (k + 1) * (2 * ((k + 1 : ℕ) : ℝ) + 1) := by rw [c3]; exact c2.eq
  have hcw : c.WF := by rw [c3]; exact c2.wf
  have hDp : (0 : ℝ) < 2 * ((k + 1 : ℕ) : ℝ) + 1 := by positivity
  have hDa : |(-1 : ℝ) ^ (k + 1) * (2 * ((k + 1 : ℕ) : ℝ) + 1)| = 2 * ((k + 1 : ℕ) : ℝ) + 1 := by
    rw [abs_mul, abs_pow, abs_neg, abs_one, one_pow, one_mul, abs_of_pos hDp]
  have hone : Rl δ (64 * Num.ONE.m.m.length) 0 0 1 Num.ONE := ⟨ONE_WF, rfl, ⟨0, by rw [ONE_toK]; norm_num, by simp⟩, by norm_num⟩
  obtain ⟨r, r1, r2⟩ := hone.div (ℓ := 42) hd hp hcw hcD (by
      rw [hDa]
      have : (0 : ℝ) ≤ ((k + 1 : ℕ) : ℝ) := Nat.cast_nonneg _
      linarith) (by rw [inv_sign_coef, one_mul]; exact atCoef_lb (by omega)) (by omega) (by omega) (by norm_num)
  rw [inv_sign_coef, one_mul] at r2
  have hc1 := abs_atCoef_le (k + 1)
  have hc0 := atCoef_pos (k + 1)
  have hre : |(r.toK : ℝ) - atCoef (k + 1)| ≤ |atCoef (k + 1)| * (((2 : ℕ) : ℝ) * δ) := by
    obtain ⟨θ, θ1, θ2⟩ := r2.err
    rw [θ1, show atCoef (k + 1) * (1 + θ) - atCoef (k + 1) = atCoef (k + 1) * θ by ring, abs_mul]
    exact mul_le_mul_of_nonneg_left (by simpa using θ2) hc0.le
  obtain ⟨⟨k1, k2⟩, k3⟩ := lin_abs (C := atCoef (k + 1)) (S := 0) (acc := (z.toK : ℝ)) (E := 0) hd.nonneg
    (by rw [zero_add, sub_self, abs_zero]; positivity) (by rw [z4]; simp) hre (by
      have := small_mul hd (N := 2) (by omega)
      push_cast at this ⊢; linarith)
  obtain ⟨u, u1, u2, u3, θ, u4, u5⟩ := rel_add hp z2 r2.wf (le_trans (emin_lt_coef (by omega)) k1) (by norm_num; linarith)
  have u6 := k3 u4 u5
  rw [zero_add] at u6
  have e5 : serSum atCoef X (k + 1) 1 = atCoef (k + 1) := by simp [serSum]
  obtain ⟨v, g', w1, w2, w3, w4, w5⟩ := rowLoop_atan hd hp hX0 hX hℓ hXl (by omega) hk l 1 4 u g1 (by omega) (by omega) hl c2 u2 u3 (by
    rw [e5]; refine le_trans u6 (le_of_eq ?_); push_cast; ring) (by
      have : l.length * (2 * n + 6) ≤ 128 * 262 := Nat.mul_le_mul (by omega) (by omega)
      omega)
  have r3 : c.reciprocal P .none = .ok r := r1
  refine ⟨v, g', ?_, w2, w3, w4, le_trans w5 ?_⟩
  · unfold computeRow
    rw [z1]
    dsimp only
    rw [c1]
    dsimp only
    rw [if_pos rfl, r3]
    dsimp only
    rw [u1]
    exact w1
  · refine mul_le_mul_of_nonneg_left (mul_le_mul_of_nonneg_right ?_ hd.nonneg) hc0.le
    have : l.length * (2 * n + 6) ≤ 128 * 262 := Nat.mul_le_mul (by omega) (by omega)
    exact_mod_cast (by omega : 4 + l.length * (2 * n + 6) ≤ 2 ^ 16)

theorem atCoef_one : atCoef 1 = -1 / 3 := by unfold atCoef; norm_num

/-- The loop over the rows. -/
theorem rectLoop_atan (hd : DOk δ) (hp : PrecOk δ P P) {X : ℝ} {ℓs cs niter0 : Nat} {cache : List Num} {xpow : Num}
    (hX0 : 0 < X) (hX : X ≤ 1 / 32) (hcs : 0 < cs) (hcs2 : cs ≤ 128) (hcache : cache.length = cs) (hl : PowList δ P ℓs 1 X 1 cache)
    (hXl : ∀ m, (2 : ℝ) ^ (-((ℓs * m : ℕ) : ℤ)) ≤ X ^ m)
    (hxp : Lo δ P (ℓs * (cs + 1)) (2 * (cs + 1)) (X ^ (cs + 1)) xpow)
    (hℓ : ℓs * (2 * niter0 + cs + 1) ≤ 2 ^ 31 - 1000) (hk : niter0 ≤ 2 ^ 17) :
    ∀ (f r niter : Nat) (acc tp : Num) (g : AtanGen), 0 < r → niter + r * cs = niter0 → cs ≤ niter → niter < f →
      AtanRep (r * (cs + 1)) g → acc.WF → 64 * acc.m.m.length = P →
      |(acc.toK : ℝ) - serSum atCoef X 1 (r * (cs + 1))| ≤ |atCoef 1| * (((r * 2 ^ 21 : ℕ) : ℝ) * δ) →
      Lo δ P (ℓs * (r * (cs + 1))) (3 * (r * (cs + 1))) (X ^ (r * (cs + 1))) tp →
      ∃ acc' tp' niter' g' R, rectLoop atanNext true P cache xpow cs f acc tp niter g = .ok (acc', tp', niter', g') ∧
        0 < R ∧ R * cs ≤ niter0 ∧ AtanRep (R * (cs + 1)) g' ∧ acc'.WF ∧ 64 * acc'.m.m.length = P ∧
        |(acc'.toK : ℝ) - serSum atCoef X 1 (R * (cs + 1))| ≤ |atCoef 1| * (((R * 2 ^ 21 : ℕ) : ℝ) * δ) ∧
        Lo δ P (ℓs * (R * (cs + 1))) (3 * (R * (cs + 1))) (X ^ (R * (cs + 1))) tp'
  | 0, r, niter, acc, tp, g, _, _, _, hf, _, _, _, _, _ => absurd hf (by omega)
  | f + 1, r, niter, acc, tp, g, hr0, hn, hcn, hf, hr, ha1, ha2, ha3, htp => by
    have hrr : r ≤ r * cs := Nat.le_mul_of_pos_right _ hcs
    have hK : r * (cs + 1) = r * cs + r := by ring
    have hM2 : (r + 1) * (cs + 1) = r * (cs + 1) + (cs + 1) := by ring
    have hM3 : (r + 1) * (cs + 1) ≤ 2 * niter0 + cs + 1 := by omega
    have b1 : ℓs * ((r + 1) * (cs + 1)) ≤ 2 ^ 31 - 1000 := le_trans (Nat.mul_le_mul_left _ hM3) hℓ
    rw [hM2] at b1
    generalize r * (cs + 1) = K at hr ha3 htp hK hM2 b1
    have b1' : ℓs * K + ℓs * (cs + 1) ≤ 2 ^ 31 - 1000 := by
      rw [← mul_add]; exact b1
    have b5 : ℓs * (cs + 1) = ℓs * cs + ℓs := by ring
    obtain ⟨v, g1, v1, v2, v3, v4, v5⟩ := computeRow_atan hd hp (ℓs := ℓs) (k := K) (n := cs) hX0 hX (by omega) hXl hcs2 (by omega) hcache hl hr
    have s1 := serSum_at hX0.le hX (cs + 1) (K + 1)
    have hc0 := atCoef_pos (K + 1)
    have s2 := s1.2 (by omega)
    have hSl : (2 : ℝ) ^ (-((43 : ℕ) : ℤ)) ≤ |serSum atCoef X (K + 1) (cs + 1)| := by
      have := abs_sub_abs_le_abs_sub (atCoef (K + 1)) (serSum atCoef X (K + 1) (cs + 1))
      rw [abs_sub_comm] at this
      have h := atCoef_lb (show K + 1 ≤ 2 ^ 40 by omega)
      have e : (2 : ℝ) ^ (-((43 : ℕ) : ℤ)) = 2 ^ (-42 : ℤ) * (1 / 2) := by norm_num
      rw [e]
      generalize (2 : ℝ) ^ (-42 : ℤ) = z at h ⊢
      linarith
    have v6 := Rl.of_abs hd v3 v4 (abs_pos.1 hc0) s2 v5 hSl
    have e2 : X ^ K ≤ 1 := pow_le_one₀ hX0.le (by linarith)
    have e2p : 0 < X ^ K := pow_pos hX0 K
    have e2' : X ^ (cs + 1) ≤ 1 := pow_le_one₀ hX0.le (by linarith)
    have hTle : |serSum atCoef X (K + 1) (cs + 1) * X ^ K| ≤ |atCoef 1| := by
      rw [abs_mul, abs_of_pos e2p]
      have q1 : X ^ K ≤ X := by
        obtain ⟨j, rfl⟩ : ∃ j, K = j + 1 := ⟨K - 1, by omega⟩
        rw [pow_succ]
        exact mul_le_of_le_one_left hX0.le (pow_le_one₀ hX0.le (by linarith))
      have q2 := atCoef_anti (show 1 ≤ K + 1 by omega)
      have q3 := mul_le_mul s1.1 (le_trans q1 hX) e2p.le (by positivity)
      have := atCoef_pos 1
      linarith
    obtain ⟨t, t1, t2⟩ := v6.mul (ℓ := ℓs * K + 43) hd hp (Rl.of_lo hd htp) (by
        rw [abs_mul, abs_of_pos e2p, show (-((ℓs * K + 43 : ℕ) : ℤ)) = -((43 : ℕ) : ℤ) + -((ℓs * K : ℕ) : ℤ) by push_cast; ring,
          zpow_add₀ (by norm_num)]
        exact mul_le_mul hSl (hXl K) (by positivity) (abs_nonneg _)) (by omega) (by norm_num) (by omega)
        (le_trans hTle (le_trans (abs_atCoef_le 1) (by norm_num)))
    have hpe : |(t.toK : ℝ) - serSum atCoef X (K + 1) (cs + 1) * X ^ K| ≤ |atCoef 1| * (((2 ^ 21 - 2 : ℕ) : ℝ) * δ) := by
      obtain ⟨θ, θ1, θ2⟩ := t2.err
      rw [θ1, show ∀ a θ : ℝ, a * (1 + θ) - a = a * θ from fun a θ => by ring, abs_mul]
      refine mul_le_mul hTle (le_trans θ2 ?_) (abs_nonneg _) (abs_nonneg _)
      exact mul_le_mul_of_nonneg_right (by exact_mod_cast (by omega : 2 * 2 ^ 16 + 3 * K + 3 ≤ 2 ^ 21 - 2)) hd.nonneg
    have e3 : serSum atCoef X 1 K + serSum atCoef X (K + 1) (cs + 1) * X ^ K = serSum atCoef X 1 (K + (cs + 1)) := by
      rw [serSum_add X 1 K (cs + 1), mul_comm, add_comm 1 K]
    have hs := (serSum_at hX0.le hX (K + (cs + 1)) 1).2 (by omega)
    rw [← e3] at hs
    obtain ⟨⟨k1, k2⟩, k3⟩ := lin_abs hd.nonneg hs ha3 hpe (by
      have := small_mul hd (N := r * 2 ^ 21 + (2 ^ 21 - 2)) (by omega)
      push_cast at this ⊢; linarith)
    have hc1 := abs_atCoef_le 1
    obtain ⟨u, u1, u2, u3, θ, u4, u5⟩ := rel_add hp ha1 t2.wf (le_trans (emin_lt_coef (by omega)) k1) (by norm_num; linarith)
    have u6 := k3 u4 u5
    rw [e3, ← hM2] at u6
    obtain ⟨w, w1, w2, -⟩ := htp.mul hd hp hxp (by omega) (by omega) (by
      have := mul_le_mul e2 e2' (pow_pos hX0 _).le (by norm_num)
      norm_num at this ⊢; linarith)
    rw [← pow_add] at w2
    have u7 : |(u.toK : ℝ) - serSum atCoef X 1 ((r + 1) * (cs + 1))| ≤ |atCoef 1| * ((((r + 1) * 2 ^ 21 : ℕ) : ℝ) * δ) := by
      refine le_trans u6 (le_of_eq ?_)
      push_cast; ring
    have w3 : Lo δ P (ℓs * ((r + 1) * (cs + 1))) (3 * ((r + 1) * (cs + 1))) (X ^ ((r + 1) * (cs + 1))) w := by
      rw [hM2, show ℓs * (K + (cs + 1)) = ℓs * K + ℓs * (cs + 1) by ring]
      exact w2.mono hd (by omega) le_rfl
    have g3 : AtanRep ((r + 1) * (cs + 1)) g1 := by
      rw [hM2]; exact v2
    have hrs : (r + 1) * cs = r * cs + cs := by ring
    unfold rectLoop
    rw [v1]
    dsimp only
    rw [t1]
    dsimp only
    rw [u1]
    dsimp only
    rw [w1]
    dsimp only
    rw [if_neg (by omega)]
    by_cases hlt : niter - cs < cs
    · rw [if_pos hlt]
      exact ⟨u, w, niter - cs, g1, r + 1, rfl, by omega, by omega, g3, u2, u3, u7, w3⟩
    · rw [if_neg hlt]
      exact rectLoop_atan hd hp hX0 hX hcs hcs2 hcache hl hXl hxp hℓ hk f (r + 1) (niter - cs) u w g1 (by omega) (by omega)
        (by omega) (by omega) g3 u2 u3 u7 w3

end AF
