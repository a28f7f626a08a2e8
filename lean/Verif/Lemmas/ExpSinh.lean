import Verif.Lemmas.ExpReal
/-!
# The hyperbolic sine by its series
-/

namespace AF

set_option linter.unusedSectionVars false

variable {δ : ℝ} {P₀ P : Nat}

theorem FOUR_WF : Num.FOUR.WF := Num.WF_of_check (by decide)

theorem FOUR_toK : (Num.FOUR.toK : ℝ) = 4 := by
  have h : val Num.FOUR.m.m = 4 * 2 ^ 125 := by decide
  unfold Num.toK
  rw [h]
  show Sign.toK Sign.pos * ((4 * 2 ^ 125 : ℕ) : ℝ) * (2 : ℝ) ^ ((3 : ℤ) - ((64 * 2 : ℕ) : ℤ)) = 4
  push_cast
  norm_num [Sign.toK]

theorem roundP_wl {p : Nat} (h : p + 63 ≤ 2 ^ 41) : roundP p = 64 * wordLen p := by
  unfold roundP wordLen
  rw [Nat.min_eq_left (le_trans h (by decide)), Nat.mul_comm]

theorem wordLen_bounds (p : Nat) : p ≤ 64 * wordLen p ∧ 64 * wordLen p ≤ p + 63 := by unfold wordLen; omega

/-- The powers of three are exact. -/
theorem threePow_spec : ∀ n : Nat, n < 2 ^ 29 → ∃ d, Num.threePow n = .ok d ∧ d.WF ∧ d.inexact = false ∧ (d.toK : ℝ) = 3 ^ (n + 1)
  | 0, _ => ⟨Num.THREE, rfl, THREE_WF, rfl, by rw [THREE_toK]; norm_num⟩
  | n + 1, hn => by
    obtain ⟨d, d1, d2, d3, d4⟩ := threePow_spec n (by omega)
    have h := mulGeneral_full (K := ℝ) d2 THREE_WF .none
    have hi : mulIx d Num.THREE = false := by unfold mulIx; rw [d3]; simp [Num.THREE]
    have e : (3 : ℝ) ^ (n + 1) * 3 = ((3 ^ (n + 2) : ℕ) : ℝ) := by push_cast; rw [← pow_succ]
    rw [d4, THREE_toK, hi, e] at h
    rcases h.isNat (by positivity) with ⟨⟨v, v1, v2⟩, -⟩ | ⟨-, h2⟩
    · refine ⟨v, ?_, v2.wf, v2.exact, by rw [v2.eq]; push_cast; rfl⟩
      unfold Num.threePow
      rw [d1]
      exact v1
    · exfalso
      have h3 : ((3 ^ (n + 2) : ℕ) : ℝ) < 2 ^ EMAX := by
        refine lt_emax_of_pow (c := 2) (n := n + 2) (by omega) ?_
        rw [pow_mul]
        exact Nat.pow_lt_pow_left (by norm_num) (by omega)
      linarith

/-- The number `v` lies between the hyperbolic sines of `Z * (1 - δ)^M` and of `Z`. -/
structure LoS (δ : ℝ) (P M : Nat) (Z : ℝ) (v : Num) : Prop where
  wf : v.WF
  len : 64 * v.m.m.length = P
  le : v.toK ≤ Real.sinh Z
  ge : Real.sinh (Z * (1 - δ) ^ M) ≤ v.toK
  ix : v.inexact = true

theorem LoS.lo (hd : DOk δ) {M ℓ : Nat} {Z : ℝ} {v : Num} (h : LoS δ P M Z v) (hM : M ≤ 2 ^ 90)
    (hZ : (2 : ℝ) ^ (-(ℓ : ℤ)) ≤ Z) : Lo δ P (ℓ + 1) 0 v.toK v := by
  refine Lo.exact h.wf h.len rfl (le_trans ?_ h.ge)
  have hZ0 : 0 < Z := lt_of_lt_of_le (by positivity) hZ
  have h1 := mul_le_mul hZ (hd.pow hM) (by norm_num) hZ0.le
  have h2 : Z * (1 - δ) ^ M ≤ Real.sinh (Z * (1 - δ) ^ M) := Real.self_le_sinh_iff.2 (mul_pos hZ0 (hd.pow_pos _)).le
  refine le_trans ?_ (le_trans h1 h2)
  rw [show (-((ℓ + 1 : ℕ) : ℤ)) = -(ℓ : ℤ) - 1 by push_cast; ring, zpow_sub₀ (by norm_num), zpow_one, mul_one_div]

/-- Restoring the argument. -/
theorem sinhRestoreLoop_spec (hd : DOk δ) (hp : PrecOk δ P P) {ℓ : Nat} (hℓ : ℓ ≤ 2 ^ 28) :
    ∀ (n M : Nat) (Z : ℝ) (s : Num), (2 : ℝ) ^ (-(ℓ : ℤ)) ≤ Z → Z * 3 ^ n ≤ 1 → M + 4 * n ≤ 2 ^ 80 → LoS δ P M Z s →
      ∃ v, Num.sinhRestoreLoop P .none n s = .ok v ∧ LoS δ P (M + 4 * n) (Z * 3 ^ n) v
  | 0, M, Z, s, _, _, _, h => ⟨s, rfl, by simpa using h⟩
  | n + 1, M, Z, s, hZ, hZ1, hM, h => by
    have hZ0 : 0 < Z := lt_of_lt_of_le (by positivity) hZ
    have h3 : (1 : ℝ) ≤ 3 ^ n := one_le_pow₀ (by norm_num)
    have hZ3 : Z * 3 ≤ 1 := by
      refine le_trans ?_ hZ1
      rw [pow_succ]
      nlinarith
    have l := h.lo hd (by omega) hZ
    have hs0 : (0 : ℝ) < s.toK := l.Xpos
    have hs2 : (s.toK : ℝ) ≤ 2 := le_trans h.le (sinh_lt_two (by linarith)).le
    have hq : (s.toK : ℝ) * s.toK ≤ 4 := by nlinarith
    have hc : (s.toK : ℝ) * s.toK * s.toK ≤ 8 := by nlinarith
    obtain ⟨a, a1, a2, -⟩ := l.mul hd hp l (by omega) (by norm_num) (by norm_num; linarith)
    obtain ⟨b, b1, b2, b3⟩ := a2.mul hd hp l (by omega) (by norm_num) (by norm_num; linarith)
    have t3 : Lo δ 128 0 0 3 Num.THREE := Lo.exact THREE_WF (by decide) THREE_toK (by norm_num)
    have t4 : Lo δ 128 0 0 4 Num.FOUR := Lo.exact FOUR_WF (by decide) FOUR_toK (by norm_num)
    obtain ⟨c, c1, c2, c3⟩ := l.mul hd hp t3 (by omega) (by norm_num) (by norm_num; linarith)
    obtain ⟨d, d1, d2, -⟩ := b2.mul hd hp t4 (by omega) (by norm_num) (by norm_num; linarith)
    obtain ⟨e, e1, e2, e3⟩ := c2.add hd hp d2 (by omega) (by norm_num) (by norm_num; linarith)
    have ef : ∀ z : ℝ, Real.sinh z * 3 + Real.sinh z * Real.sinh z * Real.sinh z * 4 = Real.sinh (z * 3) := by
      intro z
      rw [mul_comm z 3, Real.sinh_three_mul]; ring
    have hi : e.inexact = true := e3 (Or.inl (c3 (Or.inl h.ix)))
    have hs' : LoS δ P (M + 4) (Z * 3) e := by
      refine ⟨e2.wf, e2.len, le_trans e2.le ?_, le_trans ?_ e2.ge, hi⟩
      · rw [← ef Z]
        have k1 := h.le
        have k2 := mul_le_mul k1 k1 hs0.le (le_trans hs0.le k1)
        have k3 := mul_le_mul k2 k1 hs0.le (le_trans (mul_self_nonneg _) k2)
        linarith
      · have k0 : 0 ≤ Z * (1 - δ) ^ M := (mul_pos hZ0 (hd.pow_pos M)).le
        have k1 := h.ge
        have k4 : 0 ≤ Real.sinh (Z * (1 - δ) ^ M) := Real.sinh_nonneg_iff.2 k0
        have k2 := mul_le_mul k1 k1 k4 hs0.le
        have k3 := mul_le_mul k2 k1 k4 (mul_self_nonneg _)
        have k5 := ef (Z * (1 - δ) ^ M)
        have k6 : Real.sinh (Z * 3 * (1 - δ) ^ (M + 4)) ≤ Real.sinh (Z * (1 - δ) ^ M * 3) * (1 - δ) ^ 4 := by
          rw [pow_add, show Z * 3 * ((1 - δ) ^ M * (1 - δ) ^ 4) = Z * (1 - δ) ^ M * 3 * (1 - δ) ^ 4 by ring]
          exact sinh_scale (hd.pow_pos 4).le (hd.pow_le 4) (by linarith)
        refine le_trans k6 ?_
        have : max (0 + 0 + 1) (0 + 0 + 1 + 0 + 1 + 0 + 1) + 1 = 4 := by norm_num
        rw [this]
        refine mul_le_mul_of_nonneg_right ?_ (hd.pow_pos 4).le
        linarith
    obtain ⟨v, v1, v2⟩ := sinhRestoreLoop_spec hd hp hℓ n (M + 4) (Z * 3) e (by linarith) (by
      rw [mul_assoc, ← pow_succ']; exact hZ1) (by omega) hs'
    refine ⟨v, ?_, ?_⟩
    · unfold Num.sinhRestoreLoop
      rw [a1]; dsimp only
      rw [b1]; dsimp only
      rw [c1]; dsimp only
      rw [d1]; dsimp only
      rw [e1]; dsimp only
      exact v1
    · rw [show M + 4 * (n + 1) = M + 4 + 4 * n by ring, pow_succ', ← mul_assoc]
      exact v2

/-- Extending a number keeps its value. -/
theorem setPrecision_extend {x : Num} (hx : x.WF) {p : Nat} (hp : 0 < p) (hpm : p < PMAX) (hl : 64 * x.m.m.length ≤ p) (rm : RM) :
    ∃ v, x.setPrecision p rm = .ok v ∧ v.WF ∧ v.m.m.length = wordLen p ∧ (v.toK : ℝ) = x.toK ∧ v.s = x.s := by
  have h := setPrecision_spec (K := ℝ) hx hp hpm rm
  cases hr : x.setPrecision p rm with
  | ok v =>
    rw [hr] at h
    exact ⟨v, rfl, h.1.1, h.1.2.1, h.2 hl, h.1.2.2.1⟩
  | error e =>
    exfalso
    rw [hr] at h
    obtain ⟨-, -, t, t1, t2⟩ := h
    have hk : 64 * x.m.m.length ≤ keptBits rm p := by
      unfold keptBits wordLen
      split <;> omega
    have hk0 : 0 < keptBits rm p := by
      unfold keptBits wordLen
      split <;> omega
    have := t1.unique hk0 (hx.roundsPrec_self hk rm)
    rw [this] at t2
    exact absurd (hx.abs_lt_emax (K := ℝ)) (not_lt.2 t2)

/-- Extending a number in mode `None` keeps its value. -/
theorem setPrecision_extendN {x : Num} (hx : x.WF) {p : Nat} (hp : 0 < p) (hpm : p < PMAX) (hl : 64 * x.m.m.length ≤ 64 * wordLen p) :
    ∃ v, x.setPrecision p .none = .ok v ∧ v.WF ∧ v.m.m.length = wordLen p ∧ (v.toK : ℝ) = x.toK ∧ v.s = x.s := by
  have h := setPrecision_spec (K := ℝ) hx hp hpm .none
  have hk : keptBits .none p = 64 * wordLen p := rfl
  have hk0 : 0 < 64 * wordLen p := by unfold wordLen; omega
  cases hr : x.setPrecision p .none with
  | ok v =>
    rw [hr] at h
    exact ⟨v, rfl, h.1.1, h.1.2.1, (hk ▸ h.1.2.2.2.2).unique hk0 (hx.roundsFmt_self hl .none), h.1.2.2.1⟩
  | error e =>
    exfalso
    rw [hr] at h
    obtain ⟨-, -, t, t1, t2⟩ := h
    rw [hk] at t1
    have := t1.unique hk0 (hx.roundsPrec_self hl .none)
    rw [this] at t2
    exact absurd (hx.abs_lt_emax (K := ℝ)) (not_lt.2 t2)

/-- The hyperbolic sine of a number below one. -/
theorem sinhSeries_spec (hd : DOk δ) (hp : PrecOk δ P₀ P₀) {p : Nat} (hp' : PrecOk δ p P₀) (hP1 : 128 ≤ p)
    (hpP : p ≤ P₀) (hP2 : P₀ ≤ 2 ^ 23) {x : Num} (hx : x.WF)
    (hlen : 64 * x.m.m.length = P₀) (hx0 : (0 : ℝ) < x.toK) (hx1 : (x.toK : ℝ) < 1) (hxl : (2 : ℝ) ^ (-(P₀ : ℤ)) ≤ x.toK) :
    ∃ v P M, x.sinhSeries p .none = .ok v ∧ LoS δ P M x.toK v ∧ M ≤ 2 ^ 51 ∧ P₀ ≤ P := by
  obtain ⟨X, hX⟩ : ∃ X : ℝ, X = x.toK := ⟨_, rfl⟩
  rw [← hX] at hx0 hx1 hxl ⊢
  have hb := exp_bounds hx (by
    rw [← hX]
    refine le_trans (zpow_le_zpow_right₀ (by norm_num) ?_) hxl
    unfold EMIN; omega)
  rw [← hX] at hb
  have he0 : x.e ≤ 0 := by
    have h1 := lt_of_le_of_lt hb.1 hx1
    rw [show (1 : ℝ) = 2 ^ (0 : ℤ) by norm_num] at h1
    have := (zpow_lt_zpow_iff_right₀ (by norm_num : (1 : ℝ) < 2)).1 h1
    omega
  have he1 : -(P₀ : ℤ) < x.e := (zpow_lt_zpow_iff_right₀ (by norm_num : (1 : ℝ) < 2)).1 (lt_of_le_of_lt hxl hb.2)
  obtain ⟨g, g1, g2, g3⟩ := sinhGenNew_spec hp' (by unfold PMAX; omega)
  obtain ⟨n, niter, meff, c1, c2, c3, c4, c5⟩ := seriesCostOptimize_spec (p := p) (m := -x.e) hP1 (by omega)
  unfold Num.sinhSeries
  rw [g1]
  dsimp only
  rw [g3, c1]
  dsimp only
  unfold Num.sinhSeriesBody
  dsimp only
  obtain ⟨pA, hpA⟩ : ∃ pA, pA = p + ((n : ℤ) * 5 + 8 - (meff : ℤ)).toNat := ⟨_, rfl⟩
  rw [← hpA]
  have hpA1 : p ≤ pA := by omega
  have hpA2 : pA ≤ 6 * P₀ + 200 := by omega
  obtain ⟨P, hP⟩ : ∃ P, P = 64 * wordLen pA := ⟨_, rfl⟩
  have hPr : roundP pA = P ∧ pA ≤ P ∧ P ≤ pA + 63 ∧ 64 ∣ P := by
    obtain ⟨w1, w2⟩ := wordLen_bounds pA
    rw [hP]
    exact ⟨roundP_wl (by omega), w1, w2, ⟨_, rfl⟩⟩
  have hPr2 : roundP P = P := by
    have := hPr.2.2.1
    rw [roundP_wl (by omega), hP, wordLen_mul]
  have hPm : P < PMAX := by
    have := hPr.2.2.1
    unfold PMAX; omega
  have hP0 : P₀ = 64 * wordLen p := by rw [← hp'.eq, roundP_wl (by omega)]
  have hPP : P₀ ≤ P := by
    rw [hP0, hP]
    unfold wordLen; omega
  have herr : (2 : ℝ) ^ (1 - (P : ℤ)) ≤ δ :=
    le_trans (zpow_le_zpow_right₀ (by norm_num) (by omega)) hp.err
  have hpa : PrecOk δ pA P := ⟨by omega, hPr.1, hPm, herr⟩
  have hpp : PrecOk δ P P := ⟨by omega, hPr2, hPm, herr⟩
  obtain ⟨y, y1, y2, y3, y4, -⟩ := setPrecision_extendN hx (p := pA) (by omega) (by unfold PMAX; omega) (by rw [hlen, ← hP]; exact hPP)
  rw [y1]
  dsimp only
  rw [← hX] at y4
  obtain ⟨L, hL⟩ : ∃ L, L = 2 * (meff + 3) := ⟨_, rfl⟩
  have hy : Lo δ P ((-x.e).toNat + 1) 0 X y := Lo.exact y2 (by rw [y3, hP]) y4 (by
    refine le_trans (zpow_le_zpow_right₀ (by norm_num) ?_) hb.1
    push_cast
    omega)
  -- the reduced argument
  have h3n : (1 : ℝ) ≤ 3 ^ n := one_le_pow₀ (by norm_num)
  obtain ⟨Z, hZ⟩ : ∃ Z : ℝ, Z = X / 3 ^ n := ⟨_, rfl⟩
  have hZX : Z * 3 ^ n = X := by rw [hZ]; field_simp
  have hred : ∃ a, (if n > 0 then y.sinhArgReduce n .none else .ok y) = .ok a ∧ Lo δ P L 1 Z a := by
    by_cases hn : n > 0
    · rw [if_pos hn]
      obtain ⟨d, d1, d2, -, d4⟩ := threePow_spec (n - 1) (by omega)
      rw [Nat.sub_add_cancel hn] at d4
      have hmb : y.m.maxBitLen = P := by
        have := hy.len
        unfold Mantissa.maxBitLen; omega
      obtain ⟨a, a1, a2, -⟩ := hy.div hd hpp d2 d4 h3n (ℓ₂ := 2 * n) (by
        rw [pow_mul]; exact pow_le_pow_left₀ (by norm_num) (by norm_num) n) (by omega) (by norm_num) (by norm_num; linarith)
      refine ⟨a, ?_, ?_⟩
      · unfold Num.sinhArgReduce
        rw [d1, hmb]
        exact a1
      · rw [hZ]
        exact a2.mono hd (by omega) (by omega)
    · rw [if_neg hn]
      have hn0 : n = 0 := by omega
      refine ⟨y, rfl, ?_⟩
      rw [hZ, hn0, pow_zero, div_one]
      exact hy.mono hd (by omega) (by omega)
  obtain ⟨a, a1, a2⟩ := hred
  rw [a1]
  dsimp only
  have hZ0 : 0 < Z := a2.Xpos
  have hZ1 : Z < 1 := by
    rw [hZ]
    exact lt_of_le_of_lt (div_le_self hx0.le h3n) hx1
  have hZZ : Z * Z < 1 := by nlinarith
  have hZZ0 : 0 < Z * Z := by positivity
  have hZZZ : Z * (Z * Z) < 1 := by nlinarith
  have hniter : 6 * niter ≤ P₀ := by
    have : 2 * niter * 3 ≤ 2 * niter * (meff + 3) := Nat.mul_le_mul_left _ (by omega)
    omega
  obtain ⟨xs, s1, s2, -⟩ := a2.mul hd hpa a2 (by omega) (by norm_num) (by norm_num; linarith)
  rw [s1]
  dsimp only
  obtain ⟨xf, f1, f2, -⟩ := a2.mul hd hpa s2 (by omega) (by norm_num) (by norm_num; linarith)
  rw [f1]
  dsimp only
  obtain ⟨v, k, v1, -, v2, v3, v4⟩ := seriesRun_spec hd (sinh_gen hd hp) hpp a2 f2 s2 g2 hZ1.le hZZZ hZZ (by norm_num) (by norm_num)
    (by norm_num) (niter := niter) (by omega) (by omega) (by omega) (by
      have e1 : (L + L + 80) * (4 * niter) = 8 * (2 * niter * (meff + 3)) + 320 * niter := by rw [hL]; ring
      rw [e1]
      omega)
  rw [v1]
  dsimp only
  have hps := sinh_partial hZ0 hZ1.le k
  have hδ := hd.nonneg
  have hLoS : LoS δ P (2 ^ 50 + 4) Z v := by
    refine ⟨v2.wf, v2.len, le_trans v2.le hps.1, ?_, v3⟩
    refine le_trans (sinh_scale (hd.pow_pos _).le (hd.pow_le _) hZ0.le) (le_trans ?_ v2.ge)
    have q1 : Real.sinh Z ≤ (Z + Z * (Z * Z) * serSum sinhCoef (Z * Z) 1 k) * (1 + 4 * δ) := by linarith [hps.2, v4]
    have q2 : (1 + 4 * δ) * (1 - δ) ^ 4 ≤ 1 := by
      have b1 := one_add_mul_le_pow (a := δ) (by linarith) 4
      have b2 : (1 + δ) ^ 4 * (1 - δ) ^ 4 ≤ 1 := by
        rw [← mul_pow]
        refine pow_le_one₀ ?_ ?_
        · exact mul_nonneg (by linarith) hd.base.1
        · nlinarith
      refine le_trans (mul_le_mul_of_nonneg_right ?_ (hd.pow_pos 4).le) b2
      push_cast at b1
      exact b1
    have hS0 := v2.Xpos
    have hpos := hd.pow_pos (2 ^ 50)
    generalize Z + Z * (Z * Z) * serSum sinhCoef (Z * Z) 1 k = S at *
    rw [pow_add]
    generalize (1 - δ) ^ (2 ^ 50) = w at *
    have h4 := hd.pow_pos 4
    calc Real.sinh Z * (w * (1 - δ) ^ 4) ≤ S * (1 + 4 * δ) * (w * (1 - δ) ^ 4) :=
          mul_le_mul_of_nonneg_right q1 (mul_pos hpos h4).le
      _ = S * w * ((1 + 4 * δ) * (1 - δ) ^ 4) := by ring
      _ ≤ S * w * 1 := mul_le_mul_of_nonneg_left q2 (mul_pos hS0 hpos).le
      _ = S * w := mul_one _
  by_cases hn : n > 0
  · rw [if_pos hn]
    obtain ⟨r, r1, r2⟩ := sinhRestoreLoop_spec hd hpp (ℓ := L) (by omega) n (2 ^ 50 + 4) Z v a2.lb (by rw [hZX]; exact hx1.le)
      (by omega) hLoS
    rw [hZX] at r2
    refine ⟨r, P, 2 ^ 50 + 4 + 4 * n, ?_, r2, by omega, hPP⟩
    have hmb : v.m.maxBitLen = P := by
      have := v2.len
      unfold Mantissa.maxBitLen; omega
    unfold Num.sinhArgRestore
    rw [hmb]
    exact r1
  · rw [if_neg hn]
    have hn0 : n = 0 := by omega
    refine ⟨v, P, 2 ^ 50 + 4, rfl, ?_, by norm_num, hPP⟩
    rw [hn0, pow_zero, mul_one] at hZX
    rw [← hZX]
    exact hLoS

end AF
