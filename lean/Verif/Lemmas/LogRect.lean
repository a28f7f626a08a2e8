import Verif.Lemmas.LogSeries
/-!
# The series of the inverse hyperbolic tangent: rectangular splitting
-/

namespace AF

set_option linter.unusedSectionVars false

variable {δ : ℝ} {P : Nat}

/-- The loop over a row. -/
theorem rowLoop_atanh (hd : DOk δ) (hp : PrecOk δ P P) {X : ℝ} {ℓs Ns k T n : Nat}
    (hX0 : 0 < X) (hX : X ≤ 1 / 16) (hℓ : ℓs * n ≤ 2 ^ 31 - 300) (hT : (Ns + 1) * n + 4 ≤ T)
    (hT2 : T + n + 1 ≤ 2 ^ 60) (hk : k + n ≤ 2 ^ 36) :
    ∀ (l : List Num) (m : Nat) (acc : Num) (g : AtanhGen), 0 < m → m + l.length = n + 1 → PowList δ P ℓs Ns X m l →
      AtanhRep P (k + m) g → Lo δ P 40 (T + m) (serSum atanhCoef X (k + 1) m) acc →
      ∃ v g', rowLoop atanhNext false P l acc g = .ok (v, g') ∧ AtanhRep P (k + n + 1) g' ∧
        Lo δ P 40 (T + n + 1) (serSum atanhCoef X (k + 1) (n + 1)) v
  | [], m, acc, g, _, hm, _, hr, hc => by
    simp only [List.length_nil, Nat.add_zero] at hm
    subst hm
    exact ⟨acc, g, rfl, hr, hc⟩
  | x :: l, m, acc, g, hm0, hm, hl, hr, hc => by
    rw [List.length_cons] at hm
    obtain ⟨q1, q2⟩ := hl
    have e1 : ℓs * m ≤ ℓs * n := Nat.mul_le_mul_left _ (by omega)
    have e2 : (Ns + 1) * m ≤ (Ns + 1) * n := Nat.mul_le_mul_left _ (by omega)
    obtain ⟨c, g1, c1, c2, c3⟩ := atanhNext_spec hd hp hr (by omega)
    have e3 : X ^ m ≤ 1 := pow_le_one₀ hX0.le (by linarith)
    have e4 := atanhCoef_le_one (k + m + 1)
    obtain ⟨t, t1, t2, -⟩ := q1.mul hd hp c3 (by omega) (by omega) (by
      have := mul_le_mul e3 e4 (atanhCoef_pos _).le (by norm_num)
      norm_num at this ⊢; linarith)
    have e5 : serSum atanhCoef X (k + 1) m + X ^ m * atanhCoef (k + m + 1) = serSum atanhCoef X (k + 1) (m + 1) := by
      rw [serSum_succ, mul_comm, show k + 1 + m = k + m + 1 by omega]
    have e6 := serSum_atanh_two hX0.le hX (k + 1) (m + 1)
    obtain ⟨u, u1, u2, -⟩ := hc.add hd hp t2 (by omega) (by omega) (by rw [e5]; norm_num; linarith)
    rw [e5] at u2
    obtain ⟨v, g', r1, r2, r3⟩ := rowLoop_atanh hd hp hX0 hX hℓ hT hT2 hk l (m + 1) u g1 (by omega) (by omega) q2
      (by rw [← add_assoc]; exact c2)
      (u2.mono hd (by omega) le_rfl)
    refine ⟨v, g', ?_, r2, r3⟩
    unfold rowLoop
    rw [c1]
    dsimp only
    unfold seriesTerm
    rw [if_neg (by decide), t1]
    dsimp only
    rw [u1]
    exact r1

theorem computeRow_atanh (hd : DOk δ) (hp : PrecOk δ P P) {X : ℝ} {ℓs Ns k T n : Nat}
    (hX0 : 0 < X) (hX : X ≤ 1 / 16) (hℓ : ℓs * n ≤ 2 ^ 31 - 300) (hT : (Ns + 1) * n + 4 ≤ T)
    (hT2 : T + n + 1 ≤ 2 ^ 60) (hk : k + n ≤ 2 ^ 36) {l : List Num} {g : AtanhGen} (hln : l.length = n)
    (hl : PowList δ P ℓs Ns X 1 l) (hr : AtanhRep P k g) :
    ∃ v g', computeRow atanhNext false P l g = .ok (v, g') ∧ AtanhRep P (k + n + 1) g' ∧
        Lo δ P 40 (T + n + 1) (serSum atanhCoef X (k + 1) (n + 1)) v := by
  obtain ⟨z, z1, z2, z3, z4, -⟩ := new_spec (K := ℝ) hp.lt
  obtain ⟨c, g1, c1, c2, c3⟩ := atanhNext_spec hd hp hr (by omega)
  have e4 := atanhCoef_le_one (k + 1)
  obtain ⟨u, u1, u2⟩ := Lo.zero_add hd hp z2 z4 c3 (by omega) (by omega) (by norm_num; linarith)
  unfold computeRow
  rw [z1]
  dsimp only
  rw [c1]
  dsimp only
  rw [if_neg (by decide)]
  dsimp only
  rw [u1]
  dsimp only
  have e5 : serSum atanhCoef X (k + 1) 1 = atanhCoef (k + 1) := by simp [serSum]
  rw [← e5] at u2
  exact rowLoop_atanh hd hp hX0 hX hℓ hT hT2 hk l 1 u g1 (by omega) (by omega) hl c2 (u2.mono hd (by omega) le_rfl)

/-- The loop over the rows. -/
theorem rectLoop_atanh (hd : DOk δ) (hp : PrecOk δ P P) {X : ℝ} {ℓs Ns T T2 cs niter0 : Nat}
    {cache : List Num} {xpow : Num}
    (hX0 : 0 < X) (hX : X ≤ 1 / 16) (hcs : 0 < cs) (hcache : cache.length = cs) (hl : PowList δ P ℓs Ns X 1 cache)
    (hxp : Lo δ P (ℓs * (cs + 1)) ((Ns + 1) * (cs + 1)) (X ^ (cs + 1)) xpow)
    (hℓ : ℓs * (2 * niter0 + cs + 1) ≤ 2 ^ 31 - 1000)
    (hT : (Ns + 1) * cs + 4 ≤ T) (hT2 : T + (Ns + 3) * (2 * niter0 + cs + 1) + 8 ≤ T2) (hT3 : T2 + niter0 ≤ 2 ^ 60)
    (hk : 2 * niter0 + cs ≤ 2 ^ 36) :
    ∀ (f r niter : Nat) (acc tp : Num) (g : AtanhGen), 0 < r → niter + r * cs = niter0 → cs ≤ niter → niter < f →
      AtanhRep P (r * (cs + 1)) g → Lo δ P 40 (T2 + r) (serSum atanhCoef X 1 (r * (cs + 1))) acc →
      Lo δ P (ℓs * (r * (cs + 1))) ((Ns + 2) * (r * (cs + 1))) (X ^ (r * (cs + 1))) tp →
      ∃ acc' tp' niter' g' R, rectLoop atanhNext false P cache xpow cs f acc tp niter g = .ok (acc', tp', niter', g') ∧
        niter' < cs ∧ 0 < R ∧ R * cs ≤ niter0 ∧
        AtanhRep P (R * (cs + 1)) g' ∧ Lo δ P 40 (T2 + R) (serSum atanhCoef X 1 (R * (cs + 1))) acc' ∧
        Lo δ P (ℓs * (R * (cs + 1))) ((Ns + 2) * (R * (cs + 1))) (X ^ (R * (cs + 1))) tp'
  | 0, r, niter, acc, tp, g, _, _, _, hf, _, _, _ => absurd hf (by omega)
  | f + 1, r, niter, acc, tp, g, hr0, hn, hcn, hf, hr, hacc, htp => by
    have hrr : r ≤ r * cs := Nat.le_mul_of_pos_right _ hcs
    have hK : r * (cs + 1) = r * cs + r := by ring
    have hM : r * (cs + 1) + cs + 1 ≤ 2 * niter0 + cs + 1 := by omega
    have hM2 : (r + 1) * (cs + 1) = r * (cs + 1) + (cs + 1) := by ring
    have hM3 : (r + 1) * (cs + 1) ≤ 2 * niter0 + cs + 1 := by omega
    have b1 : ℓs * ((r + 1) * (cs + 1)) ≤ 2 ^ 31 - 1000 := le_trans (Nat.mul_le_mul_left _ hM3) hℓ
    have b3 : (Ns + 3) * ((r + 1) * (cs + 1)) ≤ (Ns + 3) * (2 * niter0 + cs + 1) := Nat.mul_le_mul_left _ hM3
    rw [hM2] at b1 b3
    generalize r * (cs + 1) = K at hr hacc htp hK hM hM2 b1 b3
    have b1' : ℓs * K + ℓs * (cs + 1) ≤ 2 ^ 31 - 1000 := by
      rw [← mul_add]; exact b1
    have b3' : (Ns + 2) * K + (Ns + 2) * (cs + 1) + K + cs + 1 ≤ (Ns + 3) * (2 * niter0 + cs + 1) := by
      refine le_trans (le_of_eq ?_) b3
      ring
    have b4 : (Ns + 2) * (cs + 1) = (Ns + 1) * (cs + 1) + cs + 1 := by ring
    have b5 : ℓs * (cs + 1) = ℓs * cs + ℓs := by ring
    obtain ⟨v, g1, v1, v2, v3⟩ := computeRow_atanh hd hp (ℓs := ℓs) (Ns := Ns) (k := K) (T := T) (n := cs) hX0 hX (by omega) hT
      (by omega) (by omega) hcache hl hr
    have e1 := serSum_atanh_two hX0.le hX (K + 1) (cs + 1)
    have e2 : X ^ K ≤ 1 := pow_le_one₀ hX0.le (by linarith)
    have e2' : X ^ (cs + 1) ≤ 1 := pow_le_one₀ hX0.le (by linarith)
    obtain ⟨t, t1, t2, -⟩ := v3.mul hd hp htp (by omega) (by omega) (by
      have := mul_le_mul e1 e2 (pow_pos hX0 _).le (by norm_num)
      norm_num at this ⊢; linarith)
    have e3 : serSum atanhCoef X 1 K + serSum atanhCoef X (K + 1) (cs + 1) * X ^ K = serSum atanhCoef X 1 (K + (cs + 1)) := by
      rw [serSum_add X 1 K (cs + 1), mul_comm, add_comm 1 K]
    obtain ⟨u, u1, u2, -⟩ := hacc.add hd hp t2 (by omega) (by omega) (by
      rw [e3]
      have := serSum_atanh_two hX0.le hX 1 (K + (cs + 1))
      norm_num; linarith)
    rw [e3] at u2
    obtain ⟨w, w1, w2, -⟩ := htp.mul hd hp hxp (by omega) (by omega) (by
      have := mul_le_mul e2 e2' (pow_pos hX0 _).le (by norm_num)
      norm_num at this ⊢; linarith)
    rw [← pow_add] at w2
    have u3 : Lo δ P 40 (T2 + (r + 1)) (serSum atanhCoef X 1 ((r + 1) * (cs + 1))) u := by
      rw [hM2]
      exact u2.mono hd (by omega) le_rfl
    have w3 : Lo δ P (ℓs * ((r + 1) * (cs + 1))) ((Ns + 2) * ((r + 1) * (cs + 1))) (X ^ ((r + 1) * (cs + 1))) w := by
      rw [hM2, show ℓs * (K + (cs + 1)) = ℓs * K + ℓs * (cs + 1) by ring]
      refine w2.mono hd ?_ le_rfl
      have : (Ns + 2) * (K + (cs + 1)) = (Ns + 2) * K + (Ns + 2) * (cs + 1) := by ring
      rw [this]
      omega
    have g3 : AtanhRep P ((r + 1) * (cs + 1)) g1 := by
      rw [hM2]; exact v2
    have hrs : (r + 1) * cs = r * cs + cs := by ring
    unfold rectLoop
    rw [v1]
    dsimp only
    rw [t1]
    dsimp only
    rw [u1]
    dsimp only
    rw [w1]
    dsimp only
    rw [if_neg (by omega)]
    by_cases hlt : niter - cs < cs
    · rw [if_pos hlt]
      exact ⟨u, w, niter - cs, g1, r + 1, rfl, hlt, by omega, by omega, g3, u3, w3⟩
    · rw [if_neg hlt]
      exact rectLoop_atanh hd hp hX0 hX hcs hcache hl hxp hℓ hT hT2 hT3 hk f (r + 1) (niter - cs) u w g1 (by omega) (by omega)
        (by omega) (by omega) g3 u3 w3

/-- Rectangular splitting, ended by Horner's scheme. -/
theorem seriesRect_atanh (hd : DOk δ) (hp : PrecOk δ P P)
    {add xf xs : Num} {A X : ℝ} {ℓa ℓf ℓs niter : Nat} {g : AtanhGen}
    (ha : LoN δ P ℓa 0 A add) (hf : LoN δ P ℓf 2 (A * X) xf) (hs : Lo δ P ℓs 1 X xs) (hr : AtanhRep P 0 g)
    (hA : A ≤ 1) (hX : X < 1 / 256) (hXP : 2 * X * P ≤ 1)
    (hn1 : 108 ≤ niter) (hn2 : 32 * niter ≤ P) (hP : P ≤ 2 ^ 28)
    (hℓ : ℓs * (4 * niter) + P + ℓa + ℓs + 2 * ℓf + 2000 ≤ 2 ^ 31) :
    ∃ v n, seriesRect atanhNext false niter add xf xs g = .ok v ∧ 0 < n ∧
      LoN δ P ℓa 4 (A + A * X * serSum atanhCoef X 1 n) v ∧
      A * X * X ^ n * atanhCoef (n + 1) ≤ (A + A * X * serSum atanhCoef X 1 n) * δ * (101 / 100) := by
  have hPm : add.m.maxBitLen = P ∧ xf.m.maxBitLen = P ∧ xs.m.maxBitLen = P := by
    have := ha.len
    have := hf.len
    have := hs.len
    unfold Mantissa.maxBitLen; omega
  obtain ⟨c1, c2, c3⟩ := cacheSize niter hn1 (by omega)
  unfold seriesRect
  dsimp only
  rw [hPm.1, hPm.2.1, hPm.2.2, max_self, max_self]
  generalize min MAX_CACHE (sqrtInt (niter % 2 ^ 32)) = cs at *
  obtain ⟨z, z1, z2, -, z4, -⟩ := new_spec (K := ℝ) hp.lt
  rw [z1]
  dsimp only
  have hX0 := hs.Xpos
  have hA0 := ha.Xpos
  have hX16 : X ≤ 1 / 16 := by norm_num at hX ⊢; linarith
  have hX1 : X ≤ 1 := by linarith
  have d1 : ℓs * (2 * niter + cs + 1) ≤ ℓs * (4 * niter) := Nat.mul_le_mul_left _ (by omega)
  have d4 : ℓs * (cs + 1) ≤ ℓs * (2 * niter + cs + 1) := Nat.mul_le_mul_left _ (by omega)
  have d7 : ℓs * (cs + 1) = ℓs * cs + ℓs := by ring
  obtain ⟨l, xpow, p1, p2, p3, p4⟩ := powCache_spec hd hp hs hX1 cs 1 xs (by rw [add_comm 1 cs]; omega) (by omega)
    (by rw [mul_one, mul_one, pow_one]; exact hs.mono hd (by omega) le_rfl)
  rw [add_comm 1 cs] at p4
  rw [p1]
  dsimp only
  obtain ⟨v, g1, v1, v2, v3⟩ := computeRow_atanh hd hp (ℓs := ℓs) (Ns := 1) (k := 0) (T := 2 * cs + 4) (n := cs) hX0 hX16 (by omega)
    (by omega) (by omega) (by omega) p2 p3 hr
  rw [v1]
  dsimp only
  simp only [Nat.zero_add] at v2 v3
  have e1 := serSum_atanh_two hX0.le hX16 1 (cs + 1)
  obtain ⟨u, u1, u2⟩ := Lo.zero_add hd hp z2 z4 v3 (by omega) (by omega) (by norm_num; linarith)
  rw [u1]
  dsimp only
  rw [if_neg (by omega)]
  obtain ⟨T2, hT2⟩ : ∃ T2, T2 = 2 * cs + 4 + 4 * (2 * niter + cs + 1) + 8 := ⟨_, rfl⟩
  obtain ⟨acc, tp, nit, g2, R, r1, r2, r3, r4, r5, r6, r7⟩ := rectLoop_atanh hd hp (ℓs := ℓs) (Ns := 1) (T := 2 * cs + 4)
    (T2 := T2) (cs := cs) (niter0 := niter) hX0 hX16 c1 p2 p3 p4 (by omega) (by omega) (by omega) (by omega) (by omega)
    (niter + 1) 1 (niter - cs) u xpow g1 (by omega) (by omega) (by omega) (by omega) (by rw [one_mul]; exact v2)
    (by rw [one_mul]; exact u2.mono hd (by omega) le_rfl)
    (by rw [one_mul]; exact p4.mono hd (Nat.mul_le_mul_right _ (by omega)) le_rfl)
  rw [r1]
  dsimp only
  have f0 : R ≤ R * cs := Nat.le_mul_of_pos_right _ c1
  obtain ⟨K, hK⟩ : ∃ K, K = R * (cs + 1) := ⟨_, rfl⟩
  have f1 : K = R * cs + R := by rw [hK]; ring
  have f1' : 0 < K := by omega
  rw [← hK] at r5 r6 r7
  have f2 : ℓs * K ≤ ℓs * (4 * niter) := Nat.mul_le_mul_left _ (by omega)
  have e2 := serSum_atanh hX0.le hX16 1 K
  have ec : atanhCoef 1 = 1 / 3 := by unfold atanhCoef; norm_num
  rw [ec] at e2
  have hAX : A * X ≤ X := mul_le_of_le_one_left hX0.le hA
  have hAX0 : 0 < A * X := mul_pos hA0 hX0
  have e2' : serSum atanhCoef X 1 K * (A * X) ≤ 1 / 3 * (16 / 15) * (A * X) := mul_le_mul_of_nonneg_right e2.2 hAX0.le
  obtain ⟨b, b1, b2⟩ := r6.mulN hd hp hf (by omega) (by omega) (by norm_num; linarith)
  rw [b1]
  dsimp only
  have e3 : X ^ K ≤ X := by
    obtain ⟨j, rfl⟩ : ∃ j, K = j + 1 := ⟨K - 1, by omega⟩
    rw [pow_succ]
    exact mul_le_of_le_one_left hX0.le (pow_le_one₀ hX0.le hX1)
  have e3' : X ^ K * (A * X) ≤ X * (A * X) := mul_le_mul_of_nonneg_right e3 hAX0.le
  have e3'' : X * (A * X) ≤ 1 * X := mul_le_mul hX1 hAX hAX0.le (by norm_num)
  obtain ⟨t, t1, t2⟩ := r7.mulN hd hp hf (by omega) (by omega) (by norm_num; linarith)
  rw [t1]
  dsimp only
  have hPr : (0 : ℝ) ≤ P := Nat.cast_nonneg P
  obtain ⟨s, s1, s2⟩ := ha.addw' hd hp b2 (by omega) (by omega) (by norm_num; linarith) (by
    have h1 : ((T2 + R + 2 + 1 : ℕ) : ℝ) ≤ P := by exact_mod_cast (by omega : T2 + R + 2 + 1 ≤ P)
    have h2 : 2 * (serSum atanhCoef X 1 K * (A * X)) * ((T2 + R + 2 + 1 : ℕ) : ℝ) ≤
        2 * (1 / 3 * (16 / 15) * (A * X)) * P := mul_le_mul (by linarith) h1 (by positivity) (by positivity)
    refine le_trans h2 ?_
    rw [show 2 * (1 / 3 * (16 / 15) * (A * X)) * (P : ℝ) = 16 / 45 * A * (2 * X * P) by ring]
    have h3 : 16 / 45 * A * (2 * X * P) ≤ 16 / 45 * A * 1 := mul_le_mul_of_nonneg_left hXP (by positivity)
    linarith)
  rw [s1]
  dsimp only
  rw [if_pos ⟨by unfold MAX_CACHE; omega, rfl⟩]
  have hS0 : 0 ≤ serSum atanhCoef X 1 K * (A * X) := mul_nonneg e2.1 hAX0.le
  have hXK0 : 0 < X ^ K := pow_pos hX0 K
  obtain ⟨w, n, w1, w2, w3, w4⟩ := seriesHorner_atanh hd hp s2 t2 hs r5 (by linarith) (by
      have : X * (A * X) ≤ 1 / 256 * (A * X) := mul_le_mul_of_nonneg_right hX.le hAX0.le
      have : A * X ≤ A * 1 := mul_le_mul_of_nonneg_left hX1 hA0.le
      linarith) (by linarith) hX (by omega) (by omega) (by omega)
    (by omega) (by omega) (by
      have h1 : (((1 + 2) * K + 2 + 1 : ℕ) : ℝ) + (((1 : ℕ) : ℝ) + 2) * ((P / 8 : ℕ) : ℝ) + 8 ≤ 4 * P := by
        have : (1 + 2) * K + 2 + 1 + (1 + 2) * (P / 8) + 8 ≤ 4 * P := by omega
        exact_mod_cast this
      have h2 : 2 * (X ^ K * (A * X)) * ((((1 + 2) * K + 2 + 1 : ℕ) : ℝ) + (((1 : ℕ) : ℝ) + 2) * ((P / 8 : ℕ) : ℝ) + 8) ≤
          2 * (X * (A * X)) * (4 * P) := mul_le_mul (by linarith) h1 (by positivity) (by positivity)
      refine le_trans h2 ?_
      rw [show 2 * (X * (A * X)) * (4 * (P : ℝ)) = 4 * X * A * (2 * X * P) by ring]
      have h3 : 4 * X * A * (2 * X * P) ≤ 4 * X * A * 1 := mul_le_mul_of_nonneg_left hXP (by positivity)
      have h4 : 4 * X * A ≤ 1 * A := mul_le_mul_of_nonneg_right (by linarith) hA0.le
      linarith)
  have e4 : A + serSum atanhCoef X 1 K * (A * X) + X ^ K * (A * X) * serSum atanhCoef X (K + 1) n =
      A + A * X * serSum atanhCoef X 1 (K + n) := by
    rw [serSum_add, add_comm 1 K]; ring
  rw [e4] at w3
  refine ⟨w, K + n, w1, by omega, w3, ?_⟩
  have e5 : A * X * X ^ (K + n) * atanhCoef (K + n + 1) = X ^ K * (A * X) * X ^ n * atanhCoef (K + n + 1) := by
    rw [pow_add]; ring
  rw [e5, ← e4]
  refine le_trans w4 ?_
  refine mul_le_mul_of_nonneg_right (mul_le_mul_of_nonneg_right ?_ hd.nonneg) (by norm_num)
  have := mul_nonneg (mul_pos hXK0 hAX0).le (serSum_atanh hX0.le hX16 (K + 1) n).1
  linarith

/-- `series_run` with the coefficients of the inverse hyperbolic tangent. -/
theorem seriesRun_atanh (hd : DOk δ) (hp : PrecOk δ P P)
    {add xf xs : Num} {A X : ℝ} {ℓa ℓf ℓs niter : Nat} {g : AtanhGen}
    (ha : LoN δ P ℓa 0 A add) (hf : LoN δ P ℓf 2 (A * X) xf) (hs : Lo δ P ℓs 1 X xs) (hr : AtanhRep P 0 g)
    (hA : A ≤ 1) (hX : X < 1 / 256) (hXP : 2 * X * P ≤ 1)
    (hn2 : 108 ≤ niter → 32 * niter ≤ P) (hP : P ≤ 2 ^ 28)
    (hℓ : ℓs * (4 * niter) + P + ℓa + ℓs + 2 * ℓf + 2000 ≤ 2 ^ 31) :
    ∃ v n, seriesRun atanhNext false add xf xs niter g = .ok v ∧ v.inexact = true ∧ 0 < n ∧
      LoN δ P ℓa 4 (A + A * X * serSum atanhCoef X 1 n) v ∧
      A * X * X ^ n * atanhCoef (n + 1) ≤ (A + A * X * serSum atanhCoef X 1 n) * δ * (101 / 100) := by
  have hX0 := hs.Xpos
  have hA0 := ha.Xpos
  have hX16 : X ≤ 1 / 16 := by norm_num at hX ⊢; linarith
  have key : ∃ v n, (if (xf.isZero || xs.isZero) = true then seriesFast atanhNext false add xf g
    else if niter ≥ RECT_ITER then seriesRect atanhNext false niter add xf xs g
    else if false = true then seriesLinear atanhNext false add xf xs g
    else seriesHorner atanhNext add xf xs g) = .ok v ∧ 0 < n ∧ LoN δ P ℓa 4 (A + A * X * serSum atanhCoef X 1 n) v ∧
      A * X * X ^ n * atanhCoef (n + 1) ≤ (A + A * X * serSum atanhCoef X 1 n) * δ * (101 / 100) := by
    rw [if_neg (by rw [hf.nz hd, hs.nz hd]; decide)]
    by_cases hn : niter ≥ RECT_ITER
    · rw [if_pos hn]
      have : RECT_ITER = 108 := by decide
      exact seriesRect_atanh hd hp ha hf hs hr hA hX hXP (by omega) (hn2 (by omega)) hP hℓ
    · rw [if_neg hn, if_neg (by decide)]
      have hAX : A * X ≤ X := mul_le_of_le_one_left hX0.le hA
      have h8 : ((P / 8 : ℕ) : ℝ) ≤ P / 8 := Nat.cast_div_le
      obtain ⟨w, n, w1, w2, w3, w4⟩ := seriesHorner_atanh hd hp ha hf hs hr (by linarith) (by
          have : A * X ≤ A * (1 / 16) := mul_le_mul_of_nonneg_left hX16 hA0.le
          linarith) (by linarith) hX (by omega) (by omega) (by omega)
        (by omega) (by omega) (by
          have h1 : 2 * (A * X) * (((2 : ℕ) : ℝ) + (((1 : ℕ) : ℝ) + 2) * ((P / 8 : ℕ) : ℝ) + 8) ≤
              2 * (A * X) * (3 / 8 * P + 10) :=
            mul_le_mul_of_nonneg_left (by push_cast at *; linarith) (mul_pos two_pos (mul_pos hA0 hX0)).le
          refine le_trans h1 ?_
          rw [show 2 * (A * X) * (3 / 8 * (P : ℝ) + 10) = A * (3 / 8 * (2 * X * P) + 20 * X) by ring]
          exact mul_le_of_le_one_right hA0.le (by linarith))
      rw [Nat.zero_add] at w3 w4
      refine ⟨w, n, w1, w2, w3.mono hd (by omega) le_rfl, le_trans w4 ?_⟩
      refine mul_le_mul_of_nonneg_right (mul_le_mul_of_nonneg_right ?_ hd.nonneg) (by norm_num)
      have := mul_nonneg (mul_pos hA0 hX0).le (serSum_atanh hX0.le hX16 1 n).1
      linarith
  obtain ⟨v, n, k1, k2, k3, k4⟩ := key
  refine ⟨{ v with inexact := true }, n, ?_, rfl, k2, ?_, k4⟩
  · unfold seriesRun
    rw [k1]
  · exact ⟨⟨k3.wf.wf, k3.wf.bits, k3.wf.emin, k3.wf.emax, k3.wf.norm, k3.wf.sized⟩, k3.len, k3.le, k3.ge, k3.lb⟩

end AF
