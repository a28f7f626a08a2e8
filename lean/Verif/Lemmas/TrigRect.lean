import Verif.Lemmas.TrigSer
/-!
# Power series with coefficients of either sign: rectangular splitting
-/

namespace AF

set_option linter.unusedSectionVars false

variable {δ : ℝ} {P₀ P : Nat} {G : Type} {next : G → Except Err (Num × G)} {Rep : Nat → Nat → G → Prop} {a : Nat → ℝ}

/-- The loop over a row. -/
theorem rowLoop_ab (hd : DOk δ) (hg : GenRl δ P₀ next Rep a) (hp : PrecOk δ P P) (hP : P ≤ 2 ^ 30) {X : ℝ} {ℓs Ns k W n : Nat}
    (hX0 : 0 < X) (hX : X ≤ 1) (hℓ : 80 * (k + n + 1) ≤ 2 ^ 31 - 300) (hW : (Ns + 1) * n + 8 * (k + n + 1) + 5 ≤ W)
    (hW2 : W ≤ 2 ^ 40) (hW3 : W * (n + 1) ≤ 2 ^ 58) (hk : k + n ≤ 2 ^ 30) :
    ∀ (l : List Num) (m : Nat) (acc : Num) (g : G), 0 < m → m + l.length = n + 1 → PowList δ P ℓs Ns X m l →
      Rep (80 * (k + m)) (k + m) g → Ab δ P (W * m) (serSum a X (k + 1) m) acc →
      ∃ v g', rowLoop next false P l acc g = .ok (v, g') ∧ Rep (80 * (k + n + 1)) (k + n + 1) g' ∧
        Ab δ P (W * (n + 1)) (serSum a X (k + 1) (n + 1)) v
  | [], m, acc, g, _, hm, _, hr, hc => by
    simp only [List.length_nil, Nat.add_zero] at hm
    subst hm
    exact ⟨acc, g, rfl, hr, hc⟩
  | x :: l, m, acc, g, hm0, hm, hl, hr, hc => by
    rw [List.length_cons] at hm
    obtain ⟨q1, q2⟩ := hl
    have e2 : (Ns + 1) * m ≤ (Ns + 1) * n := Nat.mul_le_mul_left _ (by omega)
    obtain ⟨c, g1, c1, c2, c3⟩ := hg.next hr (by omega) (by omega)
    have e3 : X ^ m ≤ 1 := pow_le_one₀ hX0.le hX
    have hxa := Ab.of_lo hd q1 e3
    have hca := Ab.of_rl hd c3 (hg.le_one _)
    obtain ⟨t, t1, t2⟩ := hxa.mul hd hp hP hca (by rw [abs_of_pos (pow_pos hX0 _)]; exact e3) (hg.le_one _) (by omega) (by omega)
      (le_trans (Nat.mul_le_mul (show (Ns + 1) * m ≤ 2 ^ 40 by omega) (show 8 * (k + m + 1) ≤ 2 ^ 40 by omega)) (by norm_num))
    have e5 : serSum a X (k + 1) m + X ^ m * a (k + m + 1) = serSum a X (k + 1) (m + 1) := by
      rw [serSum_succ, mul_comm, show k + 1 + m = k + m + 1 by omega]
    have e7 : W * (m + 1) ≤ W * (n + 1) := Nat.mul_le_mul_left _ (by omega)
    have e8 : W * (m + 1) = W * m + W := by ring
    obtain ⟨u, u1, u2⟩ := hc.add hd hp hP t2 (by rw [e5]; exact serSum_abs_one hg hX0.le hX _ _) (by omega) (by omega)
    rw [e5] at u2
    obtain ⟨v, g', r1, r2, r3⟩ := rowLoop_ab hd hg hp hP hX0 hX hℓ hW hW2 hW3 hk l (m + 1) u g1 (by omega) (by omega) q2
      (by rw [show 80 * (k + (m + 1)) = 80 * (k + m) + 80 by ring]; exact c2)
      (u2.mono hd (by omega))
    refine ⟨v, g', ?_, r2, r3⟩
    unfold rowLoop
    rw [c1]
    dsimp only
    unfold seriesTerm
    rw [if_neg (by decide), t1]
    dsimp only
    rw [u1]
    exact r1

theorem computeRow_ab (hd : DOk δ) (hg : GenRl δ P₀ next Rep a) (hp : PrecOk δ P P) (hP : P ≤ 2 ^ 30) {X : ℝ} {ℓs Ns k W n : Nat}
    (hX0 : 0 < X) (hX : X ≤ 1) (hℓ : 80 * (k + n + 1) ≤ 2 ^ 31 - 300) (hW : (Ns + 1) * n + 8 * (k + n + 1) + 5 ≤ W)
    (hW2 : W ≤ 2 ^ 40) (hW3 : W * (n + 1) ≤ 2 ^ 58) (hk : k + n ≤ 2 ^ 30) {l : List Num} {g : G} (hln : l.length = n)
    (hl : PowList δ P ℓs Ns X 1 l) (hr : Rep (80 * k) k g) :
    ∃ v g', computeRow next false P l g = .ok (v, g') ∧ Rep (80 * (k + n + 1)) (k + n + 1) g' ∧
        Ab δ P (W * (n + 1)) (serSum a X (k + 1) (n + 1)) v := by
  obtain ⟨z, z1, z2, z3, z4, -⟩ := new_spec (K := ℝ) hp.lt
  obtain ⟨c, g1, c1, c2, c3⟩ := hg.next hr (by omega) (by omega)
  have hca := Ab.of_rl hd c3 (hg.le_one _)
  have hz : Ab δ (64 * z.m.m.length) 0 0 z := Ab.exact z2 rfl z4
  obtain ⟨u, u1, u2⟩ := hz.add hd hp hP hca (by rw [zero_add]; exact hg.le_one _) (by omega) (by omega)
  rw [zero_add, zero_add] at u2
  unfold computeRow
  rw [z1]
  dsimp only
  rw [c1]
  dsimp only
  rw [if_neg (by decide)]
  dsimp only
  rw [u1]
  dsimp only
  have e5 : serSum a X (k + 1) 1 = a (k + 1) := by simp [serSum]
  rw [← e5] at u2
  exact rowLoop_ab hd hg hp hP hX0 hX hℓ hW hW2 hW3 hk l 1 u g1 (by omega) (by omega) hl
    (by rw [show 80 * (k + 1) = 80 * k + 80 by ring]; exact c2)
    (u2.mono hd (M := W * 1) (by omega))

/-- The loop over the rows. -/
theorem rectLoop_ab (hd : DOk δ) (hg : GenRl δ P₀ next Rep a) (hp : PrecOk δ P P) (hP : P ≤ 2 ^ 30) {X : ℝ} {ℓs Ns W T cs niter0 : Nat}
    {cache : List Num} {xpow : Num}
    (hX0 : 0 < X) (hX : X ≤ 1) (hcs : 0 < cs) (hcache : cache.length = cs) (hl : PowList δ P ℓs Ns X 1 cache)
    (hxp : Lo δ P (ℓs * (cs + 1)) ((Ns + 1) * (cs + 1)) (X ^ (cs + 1)) xpow)
    (hℓ : (ℓs + 80) * (2 * niter0 + cs + 1) ≤ 2 ^ 31 - 1000)
    (hW : (Ns + 9) * (2 * niter0 + cs + 1) + 5 ≤ W) (hW2 : W ≤ 2 ^ 38) (hW3 : W * (cs + 1) ≤ 2 ^ 50)
    (hT : W * (cs + 1) + W + 5 ≤ T) (hT2 : T * (niter0 + 1) ≤ 2 ^ 56) (hk : 2 * niter0 + cs ≤ 2 ^ 28) :
    ∀ (f r niter : Nat) (acc tp : Num) (g : G), 0 < r → niter + r * cs = niter0 → cs ≤ niter → niter < f →
      Rep (80 * (r * (cs + 1))) (r * (cs + 1)) g → Ab δ P (T * r) (serSum a X 1 (r * (cs + 1))) acc →
      Lo δ P (ℓs * (r * (cs + 1))) ((Ns + 2) * (r * (cs + 1))) (X ^ (r * (cs + 1))) tp →
      ∃ acc' tp' niter' g' R, rectLoop next false P cache xpow cs f acc tp niter g = .ok (acc', tp', niter', g') ∧
        niter' < cs ∧ 0 < R ∧ R * cs ≤ niter0 ∧
        Rep (80 * (R * (cs + 1))) (R * (cs + 1)) g' ∧ Ab δ P (T * R) (serSum a X 1 (R * (cs + 1))) acc' ∧
        Lo δ P (ℓs * (R * (cs + 1))) ((Ns + 2) * (R * (cs + 1))) (X ^ (R * (cs + 1))) tp'
  | 0, r, niter, acc, tp, g, _, _, _, hf, _, _, _ => absurd hf (by omega)
  | f + 1, r, niter, acc, tp, g, hr0, hn, hcn, hf, hr, hacc, htp => by
    have hrr : r ≤ r * cs := Nat.le_mul_of_pos_right _ hcs
    have hK : r * (cs + 1) = r * cs + r := by ring
    have hM : r * (cs + 1) + cs + 1 ≤ 2 * niter0 + cs + 1 := by omega
    have hM2 : (r + 1) * (cs + 1) = r * (cs + 1) + (cs + 1) := by ring
    have hM3 : (r + 1) * (cs + 1) ≤ 2 * niter0 + cs + 1 := by omega
    have b1 : (ℓs + 80) * ((r + 1) * (cs + 1)) ≤ 2 ^ 31 - 1000 := le_trans (Nat.mul_le_mul_left _ hM3) hℓ
    have b2 : (Ns + 9) * ((r + 1) * (cs + 1)) + 5 ≤ W := le_trans (Nat.add_le_add_right (Nat.mul_le_mul_left _ hM3) 5) hW
    rw [hM2] at b1 b2
    have hT3 : T * (r + 1) ≤ T * (niter0 + 1) := Nat.mul_le_mul_left _ (by omega)
    have hT4 : T * (r + 1) = T * r + T := by ring
    generalize r * (cs + 1) = K at hr hacc htp hK hM hM2 b1 b2
    have b1' : ℓs * K + ℓs * (cs + 1) + 80 * K + 80 * (cs + 1) ≤ 2 ^ 31 - 1000 := by
      rw [show ℓs * K + ℓs * (cs + 1) + 80 * K + 80 * (cs + 1) = (ℓs + 80) * (K + (cs + 1)) by ring]; exact b1
    have b2' : (Ns + 1) * cs + 8 * (K + cs + 1) + 5 ≤ W := by
      refine le_trans ?_ b2
      have : (Ns + 9) * (K + (cs + 1)) = (Ns + 1) * cs + 8 * (K + cs + 1) + ((Ns + 1) * (K + 1)) := by ring
      rw [this]; omega
    have b3' : (Ns + 2) * K + (Ns + 2) * (cs + 1) ≤ W := by
      refine le_trans ?_ b2
      have : (Ns + 9) * (K + (cs + 1)) = (Ns + 2) * K + (Ns + 2) * (cs + 1) + 7 * (K + (cs + 1)) := by ring
      rw [this]; omega
    have b4 : (Ns + 2) * (cs + 1) = (Ns + 1) * (cs + 1) + cs + 1 := by ring
    have b5 : ℓs * (cs + 1) = ℓs * cs + ℓs := by ring
    obtain ⟨v, g1, v1, v2, v3⟩ := computeRow_ab hd hg hp hP (ℓs := ℓs) (Ns := Ns) (k := K) (W := W) (n := cs) hX0 hX (by omega) b2'
      (by omega) (by omega) (by omega) hcache hl hr
    have e1 := serSum_abs_one hg hX0.le hX K (cs + 1)
    have e2 : X ^ K ≤ 1 := pow_le_one₀ hX0.le hX
    have e2' : X ^ (cs + 1) ≤ 1 := pow_le_one₀ hX0.le hX
    have htpa := Ab.of_lo hd htp e2
    obtain ⟨t, t1, t2⟩ := v3.mul hd hp hP htpa e1 (by rw [abs_of_pos (pow_pos hX0 _)]; exact e2) (by omega) (by omega)
      (le_trans (Nat.mul_le_mul hW3 (show (Ns + 2) * K ≤ 2 ^ 40 by omega)) (by norm_num))
    have e3 : serSum a X 1 K + serSum a X (K + 1) (cs + 1) * X ^ K = serSum a X 1 (K + (cs + 1)) := by
      rw [serSum_add X 1 K (cs + 1), mul_comm, add_comm 1 K]
    obtain ⟨u, u1, u2⟩ := hacc.add hd hp hP t2 (by
      rw [e3]
      exact serSum_abs_one hg hX0.le hX 0 _) (by omega) (by omega)
    rw [e3] at u2
    obtain ⟨w, w1, w2, -⟩ := htp.mul hd hp hxp (by omega) (by omega) (by
      have := mul_le_mul e2 e2' (pow_pos hX0 _).le (by norm_num)
      norm_num at this ⊢; linarith)
    rw [← pow_add] at w2
    have u3 : Ab δ P (T * (r + 1)) (serSum a X 1 ((r + 1) * (cs + 1))) u := by
      rw [hM2]
      exact u2.mono hd (by omega)
    have w3 : Lo δ P (ℓs * ((r + 1) * (cs + 1))) ((Ns + 2) * ((r + 1) * (cs + 1))) (X ^ ((r + 1) * (cs + 1))) w := by
      rw [hM2, show ℓs * (K + (cs + 1)) = ℓs * K + ℓs * (cs + 1) by ring]
      refine w2.mono hd ?_ le_rfl
      have : (Ns + 2) * (K + (cs + 1)) = (Ns + 2) * K + (Ns + 2) * (cs + 1) := by ring
      rw [this]
      omega
    have g3 : Rep (80 * ((r + 1) * (cs + 1))) ((r + 1) * (cs + 1)) g1 := by
      rw [hM2]; exact v2
    have hrs : (r + 1) * cs = r * cs + cs := by ring
    unfold rectLoop
    rw [v1]
    dsimp only
    rw [t1]
    dsimp only
    rw [u1]
    dsimp only
    rw [w1]
    dsimp only
    rw [if_neg (by omega)]
    by_cases hlt : niter - cs < cs
    · rw [if_pos hlt]
      exact ⟨u, w, niter - cs, g1, r + 1, rfl, hlt, by omega, by omega, g3, u3, w3⟩
    · rw [if_neg hlt]
      exact rectLoop_ab hd hg hp hP hX0 hX hcs hcache hl hxp hℓ hW hW2 hW3 hT hT2 hk f (r + 1) (niter - cs) u w g1 (by omega) (by omega)
        (by omega) (by omega) g3 u3 w3

set_option maxHeartbeats 800000 in
/-- Rectangular splitting, ended by Horner's scheme. -/
theorem seriesRect_rl (hd : DOk δ) (hg : GenRl δ P₀ next Rep a) (hp : PrecOk δ P P)
    {add xf xs : Num} {A F X : ℝ} {ℓa Na ℓf Nf ℓs Ns niter : Nat} {g : G}
    (ha : Rl δ P ℓa Na A add) (hf : Rl δ P ℓf Nf F xf) (hs : Lo δ P ℓs Ns X xs) (hr : Rep 0 0 g)
    (hA : |A| ≤ 1) (hFA : |F| ≤ |A| / 4) (hX : X < 1) (hna : Na ≤ 2 ^ 10) (hnf : Nf ≤ 2 ^ 10) (hns : Ns ≤ 7)
    (hn1 : 108 ≤ niter) (hn2 : niter ≤ 2 ^ 17) (hP : 0 < P) (hPa : P + ℓa ≤ 2 ^ 21)
    (hℓ : (ℓs + 80) * (4 * niter) + P + ℓa + ℓs + 2 * ℓf + 2000 ≤ 2 ^ 31) :
    ∃ v n, seriesRect next false niter add xf xs g = .ok v ∧ 0 < n ∧
      Rl δ P (ℓa + 2) (2 ^ 55) (A + F * serSum a X 1 n) v ∧
      |F| * X ^ n * |a (n + 1)| ≤ 8 * δ * |A| := by
  have hmax : ∀ {ℓ N : Nat} {Z : ℝ} {z : Num}, Rl δ P ℓ N Z z → z.m.maxBitLen = P := by
    intro ℓ N Z z h
    have := h.len
    unfold Mantissa.maxBitLen; omega
  obtain ⟨c1, c2, c3⟩ := cacheSize niter hn1 (by omega)
  unfold seriesRect
  dsimp only
  rw [hmax ha, hmax hf, hmax (Rl.of_lo hd hs), max_self, max_self]
  generalize min MAX_CACHE (sqrtInt (niter % 2 ^ 32)) = cs at *
  obtain ⟨z, z1, z2, -, z4, -⟩ := new_spec (K := ℝ) hp.lt
  rw [z1]
  dsimp only
  have hX0 := hs.Xpos
  have hδ := hd.nonneg
  have hA0 : 0 ≤ |A| := abs_nonneg _
  have hF0 : 0 ≤ |F| := abs_nonneg _
  have d1 : (ℓs + 80) * (2 * niter + cs + 1) ≤ (ℓs + 80) * (4 * niter) := Nat.mul_le_mul_left _ (by omega)
  have d2 : (Ns + 9) * (2 * niter + cs + 1) ≤ 2 ^ 4 * 2 ^ 19 := Nat.mul_le_mul (by omega) (by omega)
  have d4 : (ℓs + 80) * (cs + 1) ≤ (ℓs + 80) * (2 * niter + cs + 1) := Nat.mul_le_mul_left _ (by omega)
  have d5 : (Ns + 9) * (cs + 1) ≤ (Ns + 9) * (2 * niter + cs + 1) := Nat.mul_le_mul_left _ (by omega)
  have d6 : ℓs * (cs + 1) + 80 * (cs + 1) = (ℓs + 80) * (cs + 1) := by ring
  have d7 : ℓs * (cs + 1) = ℓs * cs + ℓs := by ring
  have d8 : (Ns + 1) * (cs + 1) + 8 * (cs + 1) = (Ns + 9) * (cs + 1) := by ring
  have d9 : (Ns + 1) * (cs + 1) = (Ns + 1) * cs + (Ns + 1) := by ring
  have d10 : 2 ^ 24 * (cs + 1) ≤ 2 ^ 24 * 2 ^ 8 := Nat.mul_le_mul_left _ (by omega)
  have d11 : 2 ^ 33 * (niter + 1) ≤ 2 ^ 33 * 2 ^ 18 := Nat.mul_le_mul_left _ (by omega)
  obtain ⟨l, xpow, p1, p2, p3, p4⟩ := powCache_spec hd hp hs hX.le cs 1 xs (by rw [add_comm 1 cs]; omega) (by rw [add_comm 1 cs]; omega)
    (by rw [mul_one, mul_one, pow_one]; exact hs.mono hd (by omega) le_rfl)
  rw [add_comm 1 cs] at p4
  rw [p1]
  dsimp only
  have hr' : Rep (80 * 0) 0 g := hr
  obtain ⟨v, g1, v1, v2, v3⟩ := computeRow_ab hd hg hp (by omega) (ℓs := ℓs) (Ns := Ns) (k := 0) (W := 2 ^ 24) (n := cs) hX0 hX.le (by omega)
    (by omega) (by omega) (by omega) (by omega) p2 p3 hr'
  rw [v1]
  dsimp only
  simp only [Nat.zero_add] at v2 v3
  have hz : Ab δ (64 * z.m.m.length) 0 0 z := Ab.exact z2 rfl z4
  obtain ⟨u, u1, u2⟩ := hz.add hd hp (by omega) v3 (by rw [zero_add]; exact serSum_abs_one hg hX0.le hX.le 0 _) (by omega) (by omega)
  rw [zero_add, zero_add] at u2
  rw [u1]
  dsimp only
  rw [if_neg (by omega)]
  obtain ⟨acc, tp, nit, g2, R, r1, r2, r3, r4, r5, r6, r7⟩ := rectLoop_ab hd hg hp (by omega) (ℓs := ℓs) (Ns := Ns) (W := 2 ^ 24)
    (T := 2 ^ 33) (cs := cs) (niter0 := niter) hX0 hX.le c1 p2 p3 p4 (by omega) (by omega) (by omega) (by omega) (by omega) (by omega) (by omega)
    (niter + 1) 1 (niter - cs) u xpow g1 (by omega) (by omega) (by omega) (by omega) (by rw [one_mul]; exact v2)
    (by rw [one_mul]; exact u2.mono hd (M := 2 ^ 33 * 1) (by omega))
    (by rw [one_mul]; exact p4.mono hd (Nat.mul_le_mul_right _ (by omega)) le_rfl)
  rw [r1]
  dsimp only
  have f0 : R ≤ R * cs := Nat.le_mul_of_pos_right _ c1
  obtain ⟨K, hK⟩ : ∃ K, K = R * (cs + 1) := ⟨_, rfl⟩
  have f1 : K = R * cs + R := by rw [hK]; ring
  rw [← hK] at r5 r6 r7
  have f2 : ℓs * K + 80 * K ≤ (ℓs + 80) * (4 * niter) := by
    rw [show ℓs * K + 80 * K = (ℓs + 80) * K by ring]
    exact Nat.mul_le_mul_left _ (by omega)
  have f3 : (Ns + 2) * K ≤ 2 ^ 4 * 2 ^ 19 := Nat.mul_le_mul (by omega) (by omega)
  have f4 : 2 ^ 33 * R ≤ 2 ^ 33 * 2 ^ 17 := Nat.mul_le_mul_left _ (by omega)
  have e2 := serSum_abs_one hg hX0.le hX.le 0 K
  rw [Nat.zero_add] at e2
  obtain ⟨b, b1, b2, b3, b4⟩ := r6.mul_rl hd hp hf e2 (by linarith) (by omega) (by omega)
    (le_trans (Nat.mul_le_mul (show 2 ^ 33 * R ≤ 2 ^ 50 by omega) hnf) (by norm_num)) (by omega)
  rw [b1]
  dsimp only
  have e3 : X ^ K ≤ 1 := pow_le_one₀ hX0.le hX.le
  have e3' : |X ^ K * F| ≤ |F| := by
    rw [abs_mul, abs_of_pos (pow_pos hX0 K)]
    exact mul_le_of_le_one_left hF0 e3
  have hr7 := Rl.of_lo hd r7
  obtain ⟨t, t1, t2⟩ := hr7.mul hd hp hf (ℓ := ℓs * K + ℓf) (by
      rw [abs_mul]
      refine le_trans (le_of_eq ?_) (mul_le_mul hr7.lb hf.lb (by positivity) (abs_nonneg _))
      rw [← zpow_add₀ (by norm_num)]; congr 1; push_cast; ring) (by omega) (by omega) (by omega)
    (le_trans e3' (by norm_num; linarith))
  rw [t1]
  dsimp only
  have b5 : |(b.toK : ℝ) - serSum a X 1 K * F| ≤ (2 ^ 33 * R + Nf + 3 : ℕ) * δ * |A| :=
    le_trans b4 (mul_le_mul_of_nonneg_left (by linarith) (mul_nonneg (Nat.cast_nonneg _) hδ))
  have b6 : |serSum a X 1 K * F| ≤ |A| / 4 := by
    rw [abs_mul]
    calc |serSum a X 1 K| * |F| ≤ 1 * |F| := mul_le_mul_of_nonneg_right e2 hF0
      _ ≤ _ := by rw [one_mul]; exact hFA
  obtain ⟨-, s, s1, s2⟩ := scaled_add hd hp ha (by linarith) b2 b5 (by linarith) (by omega) (by omega) (by omega)
  rw [s1]
  dsimp only
  rw [if_pos ⟨by unfold MAX_CACHE; omega, rfl⟩]
  have hA2 : |A| * (3 / 4) ≤ |A + serSum a X 1 K * F| := by
    have := abs_sub_abs_le_abs_sub A (-(serSum a X 1 K * F))
    rw [abs_neg, sub_neg_eq_add] at this
    linarith
  have hA3 : |A + serSum a X 1 K * F| ≤ |A| * 2 := by
    have := abs_add_le A (serSum a X 1 K * F)
    linarith
  obtain ⟨w, n, w1, w2, w4, w5⟩ := seriesHorner_rl hd hg hp s2 t2 hs r5 (by linarith) (by linarith) (by linarith) hX (by omega) (by omega)
    (by omega) (by omega) (by omega) hP (by omega)
  have e4 : A + serSum a X 1 K * F + X ^ K * F * serSum a X (K + 1) n = A + F * serSum a X 1 (K + n) := by
    rw [serSum_add, add_comm 1 K]; ring
  rw [e4] at w4
  refine ⟨w, K + n, w1, by omega, w4.mono hd (by omega) le_rfl, ?_⟩
  · have e5 : |F| * X ^ (K + n) * |a (K + n + 1)| = |X ^ K * F| * X ^ n * |a (K + n + 1)| := by
      rw [pow_add, abs_mul, abs_of_pos (pow_pos hX0 K)]; ring
    rw [e5]
    refine le_trans w5 ?_
    calc 4 * δ * |A + serSum a X 1 K * F| ≤ 4 * δ * (|A| * 2) := mul_le_mul_of_nonneg_left hA3 (by linarith)
      _ = _ := by ring

/-- `series_run` for a series that is not given by divisors. -/
theorem seriesRun_rl (hd : DOk δ) (hg : GenRl δ P₀ next Rep a) (hp : PrecOk δ P P)
    {add xf xs : Num} {A F X : ℝ} {ℓa Na ℓf Nf ℓs Ns niter : Nat} {g : G}
    (ha : Rl δ P ℓa Na A add) (hf : Rl δ P ℓf Nf F xf) (hs : Lo δ P ℓs Ns X xs) (hr : Rep 0 0 g)
    (hA : |A| ≤ 1) (hFA : |F| ≤ |A| / 4) (hX : X < 1) (hna : Na ≤ 2 ^ 10) (hnf : Nf ≤ 2 ^ 10) (hns : Ns ≤ 7)
    (hn2 : niter ≤ 2 ^ 17) (hP : 0 < P) (hPa : P + ℓa ≤ 2 ^ 21)
    (hℓ : (ℓs + 80) * (4 * niter) + P + ℓa + ℓs + 2 * ℓf + 2000 ≤ 2 ^ 31) :
    ∃ v n, seriesRun next false add xf xs niter g = .ok v ∧ 0 < n ∧
      Rl δ P (ℓa + 2) (2 ^ 55) (A + F * serSum a X 1 n) v ∧ v.inexact = true ∧
      |F| * X ^ n * |a (n + 1)| ≤ 8 * δ * |A| := by
  have hδ := hd.nonneg
  have hA0 : 0 ≤ |A| := abs_nonneg _
  have key : ∃ v n, (if (xf.isZero || xs.isZero) = true then seriesFast next false add xf g
    else if niter ≥ RECT_ITER then seriesRect next false niter add xf xs g
    else if false = true then seriesLinear next false add xf xs g
    else seriesHorner next add xf xs g) = .ok v ∧ 0 < n ∧ Rl δ P (ℓa + 2) (2 ^ 55) (A + F * serSum a X 1 n) v ∧
      |F| * X ^ n * |a (n + 1)| ≤ 8 * δ * |A| := by
    rw [if_neg (by rw [hf.nz hd (by omega), hs.nz hd]; decide)]
    by_cases hn : niter ≥ RECT_ITER
    · rw [if_pos hn]
      have : RECT_ITER = 108 := by decide
      exact seriesRect_rl hd hg hp ha hf hs hr hA hFA hX hna hnf hns (by omega) hn2 hP hPa hℓ
    · rw [if_neg hn, if_neg (by decide)]
      obtain ⟨w, n, w1, w2, w4, w5⟩ := seriesHorner_rl hd hg hp ha hf hs hr (by linarith) (by linarith) (by linarith) hX (by omega) (by omega)
        (by omega) (by omega) (by omega) hP (by omega)
      rw [Nat.zero_add] at w4 w5
      refine ⟨w, n, w1, w2, w4.mono hd (by omega) (by omega), le_trans w5 ?_⟩
      exact mul_le_mul_of_nonneg_right (by linarith) hA0
  obtain ⟨v, n, k1, k2, k3, k4⟩ := key
  refine ⟨{ v with inexact := true }, n, ?_, k2, ?_, rfl, k4⟩
  · unfold seriesRun
    rw [k1]
  · exact ⟨⟨k3.wf.wf, k3.wf.bits, k3.wf.emin, k3.wf.emax, k3.wf.norm, k3.wf.sized⟩, k3.len, k3.err, k3.lb⟩

end AF
