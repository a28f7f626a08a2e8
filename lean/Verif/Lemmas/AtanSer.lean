import Verif.Lemmas.AtanRect
/-!
# The series of the arctangent
-/

namespace AF

variable {δ : ℝ} {P : Nat}

theorem atSum_serSum (X : ℝ) (n : Nat) : atSum X n = serSum atCoef X 0 n := by
  unfold atSum serSum
  apply Finset.sum_congr rfl
  intro i _
  rw [zero_add]

set_option maxHeartbeats 800000 in
theorem seriesRect_atan (hd : DOk δ) (hp : PrecOk δ P P) {A X : ℝ} (hX : X = A * A)
    {add xf xs : Num} {a niter : Nat} {g : AtanGen} (hA : (2 : ℝ) ^ (-(a : ℤ)) ≤ |A|)
    (ha : add.WF) (hal : 64 * add.m.m.length = P) (haA : (add.toK : ℝ) = A)
    (hf : Rl δ P (3 * a) 4 (A * X) xf) (hs : Lo δ P (2 * a) 1 X xs) (hr : AtanRep 0 g) (hA1 : X ≤ 1 / 32)
    (hn1 : 108 ≤ niter) (hn2 : 16 * niter ≤ P) (hn3 : a * niter ≤ P) (hP : P ≤ 2 ^ 21) (ha2 : a ≤ 700000000) :
    ∃ v, seriesRect atanNext true niter add xf xs g = .ok v ∧ v.WF ∧ 64 * v.m.m.length = P ∧
      |(v.toK : ℝ) - Real.arctan A| ≤ |A| * (((2 ^ 52 : ℕ) : ℝ) * δ) := by
  have hPm : add.m.maxBitLen = P ∧ xf.m.maxBitLen = P ∧ xs.m.maxBitLen = P := by
    have := hf.len
    have := hs.len
    unfold Mantissa.maxBitLen; omega
  obtain ⟨c1, c2, c3⟩ := cacheSize niter hn1 (by omega)
  unfold seriesRect
  dsimp only
  rw [hPm.1, hPm.2.1, hPm.2.2, max_self, max_self]
  generalize min MAX_CACHE (sqrtInt (niter % 2 ^ 32)) = cs at *
  obtain ⟨z, z1, z2, -, z4, -⟩ := new_spec (K := ℝ) hp.lt
  rw [z1]
  dsimp only
  have hX0 := hs.Xpos
  have hX1 : X ≤ 1 := by linarith
  have hA0 : A ≠ 0 := abs_pos.1 (lt_of_lt_of_le (by positivity) hA)
  have hAp : 0 < |A| := abs_pos.2 hA0
  have hAle : |A| ≤ 1 := by
    have := abs_mul_abs_self A
    nlinarith
  have d0 : 2 * a * (4 * niter) ≤ 8 * P := by
    rw [show 2 * a * (4 * niter) = 8 * (a * niter) by ring]; omega
  have d1 : 2 * a * (2 * niter + cs + 1) ≤ 2 * a * (4 * niter) := Nat.mul_le_mul_left _ (by omega)
  have d4 : 2 * a * (cs + 1) ≤ 2 * a * (2 * niter + cs + 1) := Nat.mul_le_mul_left _ (by omega)
  have d7 : 2 * a * (cs + 1) = 2 * a * cs + 2 * a := by ring
  have hXl : ∀ m, (2 : ℝ) ^ (-((2 * a * m : ℕ) : ℤ)) ≤ X ^ m := by
    intro m
    have := pow_le_pow_left₀ (by positivity) hs.lb m
    refine le_trans (le_of_eq ?_) this
    rw [← zpow_natCast, ← zpow_mul]
    congr 1; push_cast; ring
  obtain ⟨l, xpow, p1, p2, p3, p4⟩ := powCache_spec hd hp hs hX1 cs 1 xs (by rw [add_comm 1 cs]; omega) (by omega)
    (by rw [mul_one, mul_one, pow_one]; exact hs.mono hd (by omega) le_rfl)
  rw [add_comm 1 cs] at p4
  rw [p1]
  dsimp only
  obtain ⟨v, g1, v1, v2, v3, v4, v5⟩ := computeRow_atan hd hp (ℓs := 2 * a) (k := 0) (n := cs) hX0 hA1 (by omega) hXl c3
    (by omega) p2 p3 hr
  rw [v1]
  dsimp only
  simp only [Nat.zero_add] at v2 v5
  have hc1 := abs_atCoef_le 1
  have s1 := (serSum_at hX0.le hA1 (cs + 1) 1).2 (by omega)
  obtain ⟨⟨k1, k2⟩, k3⟩ := lin_abs (C := atCoef 1) (S := 0) (acc := (z.toK : ℝ)) (E := 0) hd.nonneg
    (by rw [zero_add]; exact s1) (by rw [z4]; simp) v5 (by
      have := small_mul hd (N := 2 ^ 16) (by omega)
      push_cast at this ⊢; linarith)
  obtain ⟨u, u1, u2, u3, θ, u4, u5⟩ := rel_add hp z2 v3 (le_trans (emin_lt_coef (by omega)) k1) (by norm_num; linarith)
  have u6 := k3 u4 u5
  rw [zero_add] at u6
  rw [u1]
  dsimp only
  rw [if_neg (by omega)]
  obtain ⟨acc, tp, nit, g2, R, r1, r2, r3, r4, r5, r6, r7, r8⟩ := rectLoop_atan hd hp (ℓs := 2 * a)
    (cs := cs) (niter0 := niter) hX0 hA1 c1 c3 p2 p3 hXl p4 (by omega) (by omega)
    (niter + 1) 1 (niter - cs) u xpow g1 (by omega) (by omega) (by omega) (by omega) (by rw [one_mul]; exact v2) u2 u3
    (by
      rw [one_mul, one_mul]
      refine le_trans u6 (mul_le_mul_of_nonneg_left (mul_le_mul_of_nonneg_right ?_ hd.nonneg) (abs_nonneg _))
      norm_num)
    (by rw [one_mul]; exact p4.mono hd (Nat.mul_le_mul_right _ (by omega)) le_rfl)
  rw [r1]
  dsimp only
  have f0 : R ≤ R * cs := Nat.le_mul_of_pos_right _ c1
  obtain ⟨K, hK⟩ : ∃ K, K = R * (cs + 1) := ⟨_, rfl⟩
  have f1 : K = R * cs + R := by rw [hK]; ring
  have f1' : 0 < K := by omega
  rw [← hK] at r4 r7 r8
  have f2 : 2 * a * K ≤ 2 * a * (4 * niter) := Nat.mul_le_mul_left _ (by omega)
  have s2 := (serSum_at hX0.le hA1 K 1).2 f1'
  have hSl : (2 : ℝ) ^ (-((43 : ℕ) : ℤ)) ≤ |serSum atCoef X 1 K| := by
    have := abs_sub_abs_le_abs_sub (atCoef 1) (serSum atCoef X 1 K)
    rw [abs_sub_comm] at this
    have h := atCoef_lb (show 1 ≤ 2 ^ 40 by omega)
    have e : (2 : ℝ) ^ (-((43 : ℕ) : ℤ)) = 2 ^ (-42 : ℤ) * (1 / 2) := by norm_num
    rw [e]
    generalize (2 : ℝ) ^ (-42 : ℤ) = z at h ⊢
    have := atCoef_pos 1
    linarith
  have hSu : |serSum atCoef X 1 K| ≤ 1 := by
    have := (serSum_at hX0.le hA1 K 1).1
    have h3 : |atCoef 1| = 1 / 3 := by rw [atCoef_one]; norm_num [abs_div]
    rw [h3] at this
    linarith
  have r9 := Rl.of_abs hd r5 r6 (abs_pos.1 (atCoef_pos 1)) s2 r7 hSl
  have hAXle : |A * X| ≤ |A| * (1 / 32) := by
    rw [abs_mul, abs_of_pos hX0]; exact mul_le_mul_of_nonneg_left hA1 hAp.le
  have g4 : |serSum atCoef X 1 K * (A * X)| ≤ |A| * (1 / 32) := by
    rw [abs_mul]
    have := mul_le_mul hSu hAXle (abs_nonneg _) (by norm_num)
    linarith
  obtain ⟨b, b1, b2⟩ := r9.mul (ℓ := 43 + 3 * a) hd hp hf (by
      rw [abs_mul, show (-((43 + 3 * a : ℕ) : ℤ)) = -((43 : ℕ) : ℤ) + -((3 * a : ℕ) : ℤ) by push_cast; ring,
          zpow_add₀ (by norm_num)]
      exact mul_le_mul hSl hf.lb (by positivity) (abs_nonneg _)) (by omega) (by omega) (by omega) (by
      refine le_trans g4 (le_trans (mul_le_mul_of_nonneg_right hAle (by norm_num)) (by norm_num)))
  rw [b1]
  dsimp only
  have e3 : X ^ K ≤ 1 := pow_le_one₀ hX0.le hX1
  have e3p : 0 < X ^ K := pow_pos hX0 K
  obtain ⟨t, t1, t2⟩ := (Rl.of_lo hd r8).mul (ℓ := 2 * a * K + 3 * a) hd hp hf (by
      rw [abs_mul, abs_of_pos e3p, show (-((2 * a * K + 3 * a : ℕ) : ℤ)) = -((2 * a * K : ℕ) : ℤ) + -((3 * a : ℕ) : ℤ) by push_cast; ring,
          zpow_add₀ (by norm_num)]
      exact mul_le_mul (hXl K) hf.lb (by positivity) e3p.le) (by omega) (by omega) (by omega) (by
      rw [abs_mul, abs_of_pos e3p]
      have := mul_le_mul e3 hAXle (abs_nonneg _) (by norm_num)
      refine le_trans this (by norm_num; linarith))
  rw [t1]
  dsimp only
  have e4 : X ^ K * (A * X) = A * X ^ (K + 1) := by rw [pow_succ]; ring
  rw [e4] at t2
  have e5 : serSum atCoef X 1 K * (A * X) + A = A * atSum X (K + 1) := by
    rw [atSum_serSum, serSum_cons, zero_add]
    have : atCoef 0 = 1 := by unfold atCoef; norm_num
    rw [this]; ring
  have hbe : |(b.toK : ℝ) - serSum atCoef X 1 K * (A * X)| ≤ |A| * (((2 * (R * 2 ^ 21) + 4 + 3 : ℕ) : ℝ) * δ) := by
    obtain ⟨θ, θ1, θ2⟩ := b2.err
    rw [θ1, show ∀ a θ : ℝ, a * (1 + θ) - a = a * θ from fun a θ => by ring, abs_mul]
    refine mul_le_mul (by linarith) θ2 (abs_nonneg _) (abs_nonneg _)
  obtain ⟨⟨k1, k2⟩, k3⟩ := lin_abs (C := A) (t := A) (part := (add.toK : ℝ)) (N := 0) hd.nonneg
    (by rw [show ∀ a b : ℝ, a + b - b = a from fun a b => by ring]; linarith) hbe (by rw [haA]; simp) (by
      have := small_mul hd (N := 2 * (R * 2 ^ 21) + 4 + 3) (by omega)
      rw [add_zero]; exact this)
  have hem : (2 : ℝ) ^ (EMIN - 1) ≤ |A| * (9 / 10) := by
    have q1 : (2 : ℝ) ^ (EMIN - 1) ≤ 2 ^ (-(a : ℤ)) * (1 / 2) := by
      rw [show (1 / 2 : ℝ) = 2 ^ (-1 : ℤ) by norm_num, ← zpow_add₀ (by norm_num)]
      exact zpow_le_zpow_right₀ (by norm_num) (by unfold EMIN; omega)
    linarith
  obtain ⟨s, s1, s2, s3, θ', s4, s5⟩ := rel_add hp b2.wf ha (le_trans hem k1) (by norm_num; linarith)
  have s6 := k3 s4 s5
  rw [e5] at s6
  rw [s1]
  dsimp only
  rw [if_neg (by simp)]
  have hsm : s.m.maxBitLen = P ∧ t.m.maxBitLen = P := by
    have := t2.len
    unfold Mantissa.maxBitLen; omega
  unfold seriesLinear
  dsimp only
  rw [hPm.2.2, hsm.1, hsm.2, max_self, max_self]
  have hE : 2 * (R * 2 ^ 21) + 4 + 3 + 2 + (2 * P + 64) * (2 ^ 27 + 8) ≤ 2 ^ 52 := by
    have : (2 * P + 64) * (2 ^ 27 + 8) ≤ (2 ^ 22 + 64) * (2 ^ 27 + 8) := Nat.mul_le_mul_right _ (by omega)
    omega
  obtain ⟨w, w1, w2, w3, w4⟩ := linear_atan hd hp hX hA hA1 hs (by omega) (Q := 9 * P + 16) (M := 2 ^ 27) (by omega) (by omega) (by norm_num)
    (2 * P + 64) K _ _ (2 * (R * 2 ^ 21) + 4 + 3 + 2) s t g2 r4 t2
    (le_trans (zpow_le_zpow_right₀ (by norm_num) (by omega)) (hXl K)) s2 s3 (by
      refine le_trans s6 (le_of_eq ?_)
      push_cast; ring) (by omega) (by omega) (by omega) (by omega) (by omega)
  refine ⟨w, w1, w2, w3, le_trans w4 (mul_le_mul_of_nonneg_left (mul_le_mul_of_nonneg_right ?_ hd.nonneg) hAp.le)⟩
  exact_mod_cast hE

theorem seriesRun_atan (hd : DOk δ) (hp : PrecOk δ P P) {A X : ℝ} (hX : X = A * A)
    {add xf xs : Num} {a niter : Nat} {g : AtanGen} (hA : (2 : ℝ) ^ (-(a : ℤ)) ≤ |A|)
    (ha : add.WF) (hal : 64 * add.m.m.length = P) (haA : (add.toK : ℝ) = A)
    (hf : Rl δ P (3 * a) 4 (A * X) xf) (hs : Lo δ P (2 * a) 1 X xs) (hr : AtanRep 0 g) (hA1 : X ≤ 1 / 32) (hP1 : 64 ≤ P)
    (hn2 : 108 ≤ niter → 16 * niter ≤ P) (hn3 : 108 ≤ niter → a * niter ≤ P) (hP : P ≤ 2 ^ 21) (ha2 : a ≤ 700000000) :
    ∃ v, seriesRun atanNext true add xf xs niter g = .ok v ∧ v.WF ∧ 64 * v.m.m.length = P ∧ v.inexact = true ∧
      |(v.toK : ℝ) - Real.arctan A| ≤ |A| * (((2 ^ 52 : ℕ) : ℝ) * δ) := by
  have key : ∃ v, (if (xf.isZero || xs.isZero) = true then seriesFast atanNext true add xf g
    else if niter ≥ RECT_ITER then seriesRect atanNext true niter add xf xs g
    else if true = true then seriesLinear atanNext true add xf xs g
    else seriesHorner atanNext add xf xs g) = .ok v ∧ v.WF ∧ 64 * v.m.m.length = P ∧
      |(v.toK : ℝ) - Real.arctan A| ≤ |A| * (((2 ^ 52 : ℕ) : ℝ) * δ) := by
    rw [if_neg (by rw [hf.nz hd (by norm_num), hs.nz hd]; decide)]
    by_cases hn : niter ≥ RECT_ITER
    · rw [if_pos hn]
      have : RECT_ITER = 108 := by decide
      exact seriesRect_atan hd hp hX hA ha hal haA hf hs hr hA1 (by omega) (hn2 (by omega)) (hn3 (by omega)) hP ha2
    · rw [if_neg hn, if_pos rfl]
      have hPm : add.m.maxBitLen = P ∧ xf.m.maxBitLen = P ∧ xs.m.maxBitLen = P := by
        have := hf.len
        have := hs.len
        unfold Mantissa.maxBitLen; omega
      unfold seriesLinear
      dsimp only
      rw [hPm.1, hPm.2.1, hPm.2.2, max_self, max_self]
      have hE : 0 + (2 * P + 64) * (2 ^ 27 + 8) ≤ 2 ^ 52 := by
        have : (2 * P + 64) * (2 ^ 27 + 8) ≤ (2 ^ 22 + 64) * (2 ^ 27 + 8) := Nat.mul_le_mul_right _ (by omega)
        omega
      obtain ⟨w, w1, w2, w3, w4⟩ := linear_atan hd hp hX hA hA1 hs hP1 (Q := 9 * P + 16) (M := 2 ^ 27) (by omega) (by omega)
        (by norm_num) (2 * P + 64) 0 4 (3 * a) 0 add xf g hr (by rw [zero_add, pow_one]; exact hf)
        (by rw [pow_zero]; exact zpow_le_one_of_nonpos₀ (by norm_num) (by omega)) ha hal (by
          rw [haA]
          have : atSum X (0 + 1) = 1 := by simp [atSum, atCoef]
          rw [this, mul_one, sub_self, abs_zero]; simp) (by omega) (by omega) (by omega) (by omega) (by omega)
      refine ⟨w, w1, w2, w3, le_trans w4 (mul_le_mul_of_nonneg_left (mul_le_mul_of_nonneg_right ?_ hd.nonneg) (abs_nonneg _))⟩
      exact_mod_cast hE
  obtain ⟨v, k1, k2, k3, k4⟩ := key
  refine ⟨{ v with inexact := true }, ?_, ⟨k2.wf, k2.bits, k2.emin, k2.emax, k2.norm, k2.sized⟩, k3, rfl, k4⟩
  unfold seriesRun
  dsimp only
  rw [k1]

end AF
