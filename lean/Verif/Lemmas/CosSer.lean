import Verif.Lemmas.SinNum
/-!
# The sum of a power series that starts with one: absolute errors

The coefficients are known to the precision `P₀`, the sum is kept at the larger precision `P`.
-/

namespace AF

set_option linter.unusedSectionVars false

variable {δ : ℝ} {P₀ P p : Nat} {G : Type} {next : G → Except Err (Num × G)} {Rep : Nat → Nat → G → Prop} {a : Nat → ℝ}

/-- A sum of the size of one. -/
theorem unit_add (hp : PrecOk δ p P) {x y : Num} (hx : x.WF) (hy : y.WF) (h1 : 1 / 4 ≤ (x.toK : ℝ) + y.toK) (h2 : (x.toK : ℝ) + y.toK ≤ 2) :
    ∃ v, x.add y p .none = .ok v ∧ v.WF ∧ 64 * v.m.m.length = P ∧ |(v.toK : ℝ) - (x.toK + y.toK)| ≤ 2 * 2 ^ (1 - (P : ℤ)) := by
  have hs := addSub_spec (K := ℝ) hx hy hp.pos (by rw [hp.eq]; exact hp.lt) true .none
  rw [if_pos rfl, hp.eq] at hs
  have ha : |(x.toK : ℝ) + y.toK| = x.toK + y.toK := abs_of_pos (by linarith)
  obtain ⟨v, v1, v2, v3, v4, -⟩ := hs.apx (by
    rw [ha]
    refine le_trans (b := (2 : ℝ) ^ (-2 : ℤ)) (zpow_le_zpow_right₀ (by norm_num) (by unfold EMIN; omega)) ?_
    norm_num; linarith) (by rw [ha]; exact le_trans h2 (by norm_num))
  refine ⟨v, v1, v2, v3, le_trans v4 ?_⟩
  rw [ha]
  exact mul_le_mul_of_nonneg_right h2 (by positivity)

set_option maxHeartbeats 800000 in
/-- Horner's scheme. -/
theorem seriesHorner_ab (hd : DOk δ) (hg : GenRl δ P₀ next Rep a) (hp : PrecOk δ P P)
    {add xf xs : Num} {F X : ℝ} {ℓf Nf ℓs Ns ℓg k : Nat} {g : G}
    (ha : add.WF) (hal : 64 * add.m.m.length = P) (ha1 : 1 / 2 ≤ (add.toK : ℝ)) (ha2 : (add.toK : ℝ) ≤ 3 / 2)
    (hf : Rl δ P ℓf Nf F xf) (hs : Lo δ P ℓs Ns X xs) (hr : Rep ℓg k g)
    (hF : |F| ≤ 1 / 8) (hX : X < 1) (hnf : Nf ≤ 2 ^ 40) (hns : Ns ≤ 2 ^ 10)
    (hℓ : ℓg + P + 400 + ℓs + ℓf ≤ 2 ^ 31) (hk : k ≤ 2 ^ 22) (hPa : 0 < P) (hPb : P ≤ 2 ^ 22) :
    ∃ v n, seriesHorner next add xf xs g = .ok v ∧ 0 < n ∧ v.WF ∧ 64 * v.m.m.length = P ∧
      |(v.toK : ℝ) - (add.toK + F * serSum a X (k + 1) n)| ≤ (2 ^ 52 + Nf : ℕ) * δ * |F| + 2 * 2 ^ (1 - (P : ℤ)) ∧
      |F| * X ^ n * |a (k + n + 1)| ≤ 4 * 2 ^ (1 - (P : ℤ)) := by
  have hmax : ∀ {ℓ N : Nat} {Z : ℝ} {z : Num}, Rl δ P ℓ N Z z → z.m.maxBitLen = P := by
    intro ℓ N Z z h
    have := h.len
    unfold Mantissa.maxBitLen; omega
  unfold seriesHorner
  dsimp only
  rw [show add.m.maxBitLen = P by unfold Mantissa.maxBitLen; omega, hmax hf, hmax (Rl.of_lo hd hs), max_self, max_self]
  -- exponents
  have haa : |(add.toK : ℝ)| = add.toK := abs_of_pos (by linarith)
  have ae := exp_bounds_abs ha (by
    rw [haa]
    refine le_trans (b := (2 : ℝ) ^ (-1 : ℤ)) (zpow_le_zpow_right₀ (by norm_num) (by unfold EMIN; omega)) ?_
    norm_num; linarith)
  rw [haa] at ae
  have fe := hf.exp hd (by omega) (by omega)
  have se := hs.exp hd (by omega) (by omega)
  have fe0 : xf.e ≤ 0 := by
    have := hf.exp_le hd (by omega) (by omega) (j := -1) (by rw [zpow_neg, zpow_one]; linarith)
    omega
  have se0 : xs.e ≤ 0 := by
    have := hs.exp_le_zero hd (by omega) (by omega) (j := 0) (by simpa using hX)
    simpa using this
  have ae2 : 0 ≤ add.e := by
    have h1 : (2 : ℝ) ^ (-1 : ℤ) < 2 ^ add.e := lt_of_le_of_lt (by norm_num; linarith) ae.2
    have := (zpow_lt_zpow_iff_right₀ (by norm_num : (1 : ℝ) < 2)).1 h1
    omega
  obtain ⟨lim, hlim⟩ : ∃ lim : ℤ, lim = (P : ℤ) - add.e := ⟨_, rfl⟩
  rw [← hlim]
  have hlim1 : lim.toNat ≤ P := by omega
  obtain ⟨Nc, hNc⟩ : ∃ Nc, Nc = 8 * (k + lim.toNat + 3) := ⟨_, rfl⟩
  obtain ⟨ℓc, hℓc⟩ : ∃ ℓc, ℓc = ℓg + P + 82 := ⟨_, rfl⟩
  obtain ⟨cache, g', r1, cp, r2, r3⟩ := hornerCollect_rl hd hg (lim := lim) (xe := xs.e) (xp0 := -xf.e - xs.e) (ℓg := ℓg)
    (ℓc := ℓc) (Nc := Nc) (k := k) se0 (by omega) (by omega) (by omega) (by omega) (by omega) hNc (lim.toNat + 3)
    (-xf.e - xs.e) 0 g [] (by simp) (by simp) ⟨trivial, by simp, Or.inl ⟨rfl, rfl, hr⟩⟩
  rw [r1]
  dsimp only
  obtain ⟨J, hJ⟩ : ∃ J, J = cache.length := ⟨_, rfl⟩
  have hJ1 := r2.few
  rw [← hJ] at hJ1 r3
  have hcb := collect_bound_rl hd hg r2 (by omega) (by omega)
  rw [← hJ] at hcb
  -- the last coefficient
  have hrep : ∃ ℓ, Rep ℓ (k + J) g' ∧ ℓ ≤ ℓc := by
    rcases r2.state with ⟨h1, h2, h3⟩ | ⟨c, cs, h1, h2, h3⟩
    · rw [hJ, h1]; exact ⟨ℓg, h3, by omega⟩
    · rw [hJ]; exact ⟨ℓc, h3, le_rfl⟩
  obtain ⟨ℓ, h1, h2⟩ := hrep
  obtain ⟨last, g'', e1, -, e3⟩ := hg.next h1 (by omega) (by omega)
  rw [e1]
  dsimp only
  have e4 : Ab δ P₀ (Nc + 8) (serSum a X (k + cache.length + 1) 1) last := by
    have h3 : serSum a X (k + cache.length + 1) 1 = a (k + J + 1) := by rw [hJ]; simp [serSum]
    rw [h3]
    exact (Ab.of_rl hd e3 (hg.le_one _)).mono hd (by omega)
  have hm : (Ns + Nc + 5) * J ≤ 2 ^ 28 * 2 ^ 23 := Nat.mul_le_mul (by omega) (by omega)
  obtain ⟨v, v1, Pv, v2⟩ := hornerEval_ab hd hg hp (by omega) hs hX.le (ℓc := ℓc) (Nc := Nc) (k := k) (by omega) (by omega) cache last 1
    (Nc + 8) P₀ r2.coefs (by rw [← hJ]; omega) e4
  rw [v1]
  dsimp only
  rw [← hJ, add_comm 1 J] at v2
  have hX0 := hs.Xpos
  have hb := serSum_abs_one hg hX0.le hX.le k (J + 1)
  have hδ := hd.nonneg
  obtain ⟨E, hE⟩ : ∃ E, E = Nc + 8 + (Ns + Nc + 5) * J := ⟨_, rfl⟩
  rw [← hE] at v2
  have hE1 : E ≤ 2 ^ 51 + 2 ^ 30 := by omega
  obtain ⟨t, t1, t2, t3, t4⟩ := v2.mul_rl hd hp hf hb (by linarith) (by omega) (by omega)
    (le_trans (Nat.mul_le_mul (show E ≤ 2 ^ 52 by omega) hnf) (by norm_num)) (by omega)
  rw [t1]
  dsimp only
  have t6 : |serSum a X (k + 1) (J + 1) * F| ≤ 1 / 8 := by
    rw [abs_mul]
    calc |serSum a X (k + 1) (J + 1)| * |F| ≤ 1 * |F| := mul_le_mul_of_nonneg_right hb (abs_nonneg _)
      _ ≤ _ := by rw [one_mul]; exact hF
  have t5 : |(t.toK : ℝ) - serSum a X (k + 1) (J + 1) * F| ≤ (2 ^ 52 + Nf : ℕ) * δ * |F| := by
    refine le_trans t4 (mul_le_mul_of_nonneg_right (mul_le_mul_of_nonneg_right ?_ hδ) (abs_nonneg _))
    exact_mod_cast (show E + Nf + 3 ≤ 2 ^ 52 + Nf by omega)
  have t7 : |(t.toK : ℝ)| ≤ 1 / 4 := by
    have c1 := cast_small hd (E := 2 ^ 52 + Nf) (by omega)
    have h1 : ((2 ^ 52 + Nf : ℕ) : ℝ) * δ * |F| ≤ 1 / 2 ^ 40 * (1 / 8) := mul_le_mul c1 hF (abs_nonneg _) (by norm_num)
    have h2 := abs_sub_abs_le_abs_sub (t.toK : ℝ) (serSum a X (k + 1) (J + 1) * F)
    have h3 : (1 : ℝ) / 2 ^ 40 * (1 / 8) ≤ 1 / 8 := by norm_num
    linarith only [le_trans t5 (le_trans h1 h3), h2, t6]
  obtain ⟨b1, b2⟩ := abs_le.1 t7
  obtain ⟨u, u1, u2, u3, u4⟩ := unit_add hp ha t2 (by linarith) (by linarith)
  refine ⟨u, J + 1, u1, by omega, u2, u3, ?_, ?_⟩
  · rw [mul_comm F]
    have e5 : (u.toK : ℝ) - (add.toK + serSum a X (k + 1) (J + 1) * F) =
        (t.toK - serSum a X (k + 1) (J + 1) * F) + (u.toK - (add.toK + t.toK)) := by ring
    rw [e5]
    exact le_trans (abs_add_le _ _) (add_le_add t5 u4)
  · -- the first term left out
    have q1 : (X * (1 - δ) ^ Ns) ^ (J + 1) ≤ (2 ^ xs.e) ^ (J + 1) :=
      pow_le_pow_left₀ (mul_pos hX0 (hd.pow_pos _)).le (le_trans hs.ge se.2.le) _
    have q2 : |F| * (1 - 1 / 2 ^ 40) ≤ 2 ^ xf.e := le_trans (hf.mag hd (by omega)).1 fe.2.le
    have q3 : |a (k + (J + 1) + 1)| * (1 - 1 / 2 ^ 40) ≤ 2 ^ (-cp) :=
      le_trans (mul_le_mul_of_nonneg_right (hg.anti (by omega)) (by norm_num)) hcb
    have q4 : |F| * (1 - 1 / 2 ^ 40) * (X * (1 - δ) ^ Ns) ^ (J + 1) * (|a (k + (J + 1) + 1)| * (1 - 1 / 2 ^ 40)) ≤
        2 ^ xf.e * (2 ^ xs.e) ^ (J + 1) * 2 ^ (-cp) := by
      refine mul_le_mul (mul_le_mul q2 q1 ?_ (by positivity)) q3 ?_ (by positivity)
      · exact pow_nonneg (mul_pos hX0 (hd.pow_pos _)).le _
      · exact mul_nonneg (abs_nonneg _) (by norm_num)
    have q5 : (2 : ℝ) ^ xf.e * (2 ^ xs.e) ^ (J + 1) * 2 ^ (-cp) ≤ 2 ^ (add.e - 1) * 2 ^ (1 - (P : ℤ)) := by
      rw [← zpow_natCast, ← zpow_mul, ← zpow_add₀ (by norm_num), ← zpow_add₀ (by norm_num), ← zpow_add₀ (by norm_num)]
      refine zpow_le_zpow_right₀ (by norm_num) ?_
      push_cast
      have : xs.e * ((J : ℤ) + 1) = (J : ℤ) * xs.e + xs.e := by ring
      omega
    have q6 : (2 : ℝ) ^ (add.e - 1) * 2 ^ (1 - (P : ℤ)) ≤ 3 / 2 * 2 ^ (1 - (P : ℤ)) :=
      mul_le_mul_of_nonneg_right (le_trans ae.1 ha2) (by positivity)
    have hm2 : Ns * (J + 1) ≤ 2 ^ 60 := by
      refine le_trans (Nat.mul_le_mul hns (show J + 1 ≤ 2 ^ 36 by omega)) (by norm_num)
    have q7 := hd.pow (N := Ns * (J + 1)) (by omega)
    have q8 : |F| * (1 - 1 / 2 ^ 40) * (X * (1 - δ) ^ Ns) ^ (J + 1) * (|a (k + (J + 1) + 1)| * (1 - 1 / 2 ^ 40)) =
        |F| * X ^ (J + 1) * |a (k + (J + 1) + 1)| * ((1 - δ) ^ (Ns * (J + 1)) * ((1 - 1 / 2 ^ 40) * (1 - 1 / 2 ^ 40))) := by
      rw [mul_pow, pow_mul (1 - δ)]; ring
    rw [q8] at q4
    have q9 : 0 ≤ |F| * X ^ (J + 1) * |a (k + (J + 1) + 1)| :=
      mul_nonneg (mul_nonneg (abs_nonneg _) (pow_nonneg hX0.le _)) (abs_nonneg _)
    have q10 := mul_le_mul_of_nonneg_left (mul_le_mul q7 (show (9 / 10 : ℝ) ≤ (1 - 1 / 2 ^ 40) * (1 - 1 / 2 ^ 40) by norm_num)
      (by norm_num) (hd.pow_pos _).le) q9
    have q12 : (0 : ℝ) < 2 ^ (1 - (P : ℤ)) := by positivity
    linarith

set_option maxHeartbeats 800000 in
/-- Rectangular splitting, ended by Horner's scheme. -/
theorem seriesRect_ab (hd : DOk δ) (hg : GenRl δ P₀ next Rep a) (hp : PrecOk δ P P)
    {add xf xs : Num} {F X : ℝ} {ℓf Nf ℓs Ns niter : Nat} {g : G}
    (ha : add.WF) (hal : 64 * add.m.m.length = P) (ha1 : (add.toK : ℝ) = 1)
    (hf : Rl δ P ℓf Nf F xf) (hs : Lo δ P ℓs Ns X xs) (hr : Rep 0 0 g)
    (hF : |F| ≤ 1 / 8) (hX : X < 1) (hnf : Nf ≤ 2 ^ 10) (hns : Ns ≤ 7)
    (hn1 : 108 ≤ niter) (hn2 : niter ≤ 2 ^ 17) (hP : 0 < P) (hPa : P ≤ 2 ^ 21)
    (hℓ : (ℓs + 80) * (4 * niter) + P + ℓs + 2 * ℓf + 2000 ≤ 2 ^ 31) :
    ∃ v n, seriesRect next false niter add xf xs g = .ok v ∧ 0 < n ∧ v.WF ∧ 64 * v.m.m.length = P ∧
      |(v.toK : ℝ) - (1 + F * serSum a X 1 n)| ≤ 2 ^ 54 * δ * |F| + 4 * 2 ^ (1 - (P : ℤ)) ∧
      |F| * X ^ n * |a (n + 1)| ≤ 4 * 2 ^ (1 - (P : ℤ)) := by
  have hmax : ∀ {ℓ N : Nat} {Z : ℝ} {z : Num}, Rl δ P ℓ N Z z → z.m.maxBitLen = P := by
    intro ℓ N Z z h
    have := h.len
    unfold Mantissa.maxBitLen; omega
  obtain ⟨c1, c2, c3⟩ := cacheSize niter hn1 (by omega)
  unfold seriesRect
  dsimp only
  rw [show add.m.maxBitLen = P by unfold Mantissa.maxBitLen; omega, hmax hf, hmax (Rl.of_lo hd hs), max_self, max_self]
  generalize min MAX_CACHE (sqrtInt (niter % 2 ^ 32)) = cs at *
  obtain ⟨z, z1, z2, -, z4, -⟩ := new_spec (K := ℝ) hp.lt
  rw [z1]
  dsimp only
  have hX0 := hs.Xpos
  have hδ := hd.nonneg
  have hF0 : 0 ≤ |F| := abs_nonneg _
  have d1 : (ℓs + 80) * (2 * niter + cs + 1) ≤ (ℓs + 80) * (4 * niter) := Nat.mul_le_mul_left _ (by omega)
  have d2 : (Ns + 9) * (2 * niter + cs + 1) ≤ 2 ^ 4 * 2 ^ 19 := Nat.mul_le_mul (by omega) (by omega)
  have d4 : (ℓs + 80) * (cs + 1) ≤ (ℓs + 80) * (2 * niter + cs + 1) := Nat.mul_le_mul_left _ (by omega)
  have d5 : (Ns + 9) * (cs + 1) ≤ (Ns + 9) * (2 * niter + cs + 1) := Nat.mul_le_mul_left _ (by omega)
  have d6 : ℓs * (cs + 1) + 80 * (cs + 1) = (ℓs + 80) * (cs + 1) := by ring
  have d7 : ℓs * (cs + 1) = ℓs * cs + ℓs := by ring
  have d8 : (Ns + 1) * (cs + 1) + 8 * (cs + 1) = (Ns + 9) * (cs + 1) := by ring
  have d9 : (Ns + 1) * (cs + 1) = (Ns + 1) * cs + (Ns + 1) := by ring
  have d10 : 2 ^ 24 * (cs + 1) ≤ 2 ^ 24 * 2 ^ 8 := Nat.mul_le_mul_left _ (by omega)
  have d11 : 2 ^ 33 * (niter + 1) ≤ 2 ^ 33 * 2 ^ 18 := Nat.mul_le_mul_left _ (by omega)
  obtain ⟨l, xpow, p1, p2, p3, p4⟩ := powCache_spec hd hp hs hX.le cs 1 xs (by rw [add_comm 1 cs]; omega) (by rw [add_comm 1 cs]; omega)
    (by rw [mul_one, mul_one, pow_one]; exact hs.mono hd (by omega) le_rfl)
  rw [add_comm 1 cs] at p4
  rw [p1]
  dsimp only
  have hr' : Rep (80 * 0) 0 g := hr
  obtain ⟨v, g1, v1, v2, v3⟩ := computeRow_ab hd hg hp (by omega) (ℓs := ℓs) (Ns := Ns) (k := 0) (W := 2 ^ 24) (n := cs) hX0 hX.le (by omega)
    (by omega) (by omega) (by omega) (by omega) p2 p3 hr'
  rw [v1]
  dsimp only
  simp only [Nat.zero_add] at v2 v3
  have hz : Ab δ (64 * z.m.m.length) 0 0 z := Ab.exact z2 rfl z4
  obtain ⟨u, u1, u2⟩ := hz.add hd hp (by omega) v3 (by rw [zero_add]; exact serSum_abs_one hg hX0.le hX.le 0 _) (by omega) (by omega)
  rw [zero_add, zero_add] at u2
  rw [u1]
  dsimp only
  rw [if_neg (by omega)]
  obtain ⟨acc, tp, nit, g2, R, r1, r2, r3, r4, r5, r6, r7⟩ := rectLoop_ab hd hg hp (by omega) (ℓs := ℓs) (Ns := Ns) (W := 2 ^ 24)
    (T := 2 ^ 33) (cs := cs) (niter0 := niter) hX0 hX.le c1 p2 p3 p4 (by omega) (by omega) (by omega) (by omega) (by omega) (by omega) (by omega)
    (niter + 1) 1 (niter - cs) u xpow g1 (by omega) (by omega) (by omega) (by omega) (by rw [one_mul]; exact v2)
    (by rw [one_mul]; exact u2.mono hd (M := 2 ^ 33 * 1) (by omega))
    (by rw [one_mul]; exact p4.mono hd (Nat.mul_le_mul_right _ (by omega)) le_rfl)
  rw [r1]
  dsimp only
  have f0 : R ≤ R * cs := Nat.le_mul_of_pos_right _ c1
  obtain ⟨K, hK⟩ : ∃ K, K = R * (cs + 1) := ⟨_, rfl⟩
  have f1 : K = R * cs + R := by rw [hK]; ring
  rw [← hK] at r5 r6 r7
  have f2 : ℓs * K + 80 * K ≤ (ℓs + 80) * (4 * niter) := by
    rw [show ℓs * K + 80 * K = (ℓs + 80) * K by ring]
    exact Nat.mul_le_mul_left _ (by omega)
  have f3 : (Ns + 2) * K ≤ 2 ^ 4 * 2 ^ 19 := Nat.mul_le_mul (by omega) (by omega)
  have f4 : 2 ^ 33 * R ≤ 2 ^ 33 * 2 ^ 17 := Nat.mul_le_mul_left _ (by omega)
  have e2 := serSum_abs_one hg hX0.le hX.le 0 K
  rw [Nat.zero_add] at e2
  obtain ⟨b, b1, b2, b3, b4⟩ := r6.mul_rl hd hp hf e2 (by linarith) (by omega) (by omega)
    (le_trans (Nat.mul_le_mul (show 2 ^ 33 * R ≤ 2 ^ 50 by omega) hnf) (by norm_num)) (by omega)
  rw [b1]
  dsimp only
  have e3 : X ^ K ≤ 1 := pow_le_one₀ hX0.le hX.le
  have e3' : |X ^ K * F| ≤ |F| := by
    rw [abs_mul, abs_of_pos (pow_pos hX0 K)]
    exact mul_le_of_le_one_left hF0 e3
  have hr7 := Rl.of_lo hd r7
  obtain ⟨t, t1, t2⟩ := hr7.mul hd hp hf (ℓ := ℓs * K + ℓf) (by
      rw [abs_mul]
      refine le_trans (le_of_eq ?_) (mul_le_mul hr7.lb hf.lb (by positivity) (abs_nonneg _))
      rw [← zpow_add₀ (by norm_num)]; congr 1; push_cast; ring) (by omega) (by omega) (by omega)
    (le_trans e3' (by norm_num; linarith))
  rw [t1]
  dsimp only
  have hη : (0 : ℝ) < 2 ^ (1 - (P : ℤ)) := by positivity
  have b5 : |(b.toK : ℝ) - serSum a X 1 K * F| ≤ 2 ^ 51 * δ * |F| := by
    refine le_trans b4 (mul_le_mul_of_nonneg_right (mul_le_mul_of_nonneg_right ?_ hδ) hF0)
    exact_mod_cast (show 2 ^ 33 * R + Nf + 3 ≤ 2 ^ 51 by omega)
  have b6 : |serSum a X 1 K * F| ≤ 1 / 8 := by
    rw [abs_mul]
    calc |serSum a X 1 K| * |F| ≤ 1 * |F| := mul_le_mul_of_nonneg_right e2 hF0
      _ ≤ _ := by rw [one_mul]; exact hF
  have hc51 : (2 : ℝ) ^ 51 * δ ≤ 1 / 2 ^ 40 := by
    have := cast_small hd (E := 2 ^ 51) (by norm_num)
    rw [Nat.cast_pow] at this
    exact this
  have b7 : |(b.toK : ℝ)| ≤ 1 / 4 := by
    have h1 : (2 : ℝ) ^ 51 * δ * |F| ≤ 1 / 2 ^ 40 * (1 / 8) := mul_le_mul hc51 hF hF0 (by norm_num)
    have h2 := abs_sub_abs_le_abs_sub (b.toK : ℝ) (serSum a X 1 K * F)
    have h3 : (1 : ℝ) / 2 ^ 40 * (1 / 8) ≤ 1 / 8 := by norm_num
    linarith only [le_trans b5 (le_trans h1 h3), h2, b6]
  obtain ⟨k1, k2⟩ := abs_le.1 b7
  obtain ⟨s, s1, s2, s3, s4⟩ := unit_add hp b2 ha (by linarith) (by linarith)
  rw [s1]
  dsimp only
  rw [if_pos ⟨by unfold MAX_CACHE; omega, rfl⟩]
  have hη1 : (2 : ℝ) ^ (1 - (P : ℤ)) ≤ 1 / 16 := by
    refine le_trans hp.err (le_trans hd.small ?_)
    norm_num
  rw [ha1] at s4
  obtain ⟨s5, s6⟩ := abs_le.1 s4
  obtain ⟨w, n, w1, w2, w3, w4, w5, w6⟩ := seriesHorner_ab hd hg hp s2 s3 (by linarith) (by linarith) t2 hs r5 (le_trans e3' hF) hX (by omega)
    (by omega) (by omega) (by omega) hP (by omega)
  have e4 : serSum a X 1 (K + n) * F = serSum a X 1 K * F + X ^ K * F * serSum a X (K + 1) n := by
    rw [serSum_add, add_comm 1 K]; ring
  refine ⟨w, K + n, w1, by omega, w3, w4, ?_, ?_⟩
  · rw [mul_comm F, e4]
    have e5 : (w.toK : ℝ) - (1 + (serSum a X 1 K * F + X ^ K * F * serSum a X (K + 1) n)) =
        (w.toK - (s.toK + X ^ K * F * serSum a X (K + 1) n)) + (s.toK - (b.toK + 1)) + (b.toK - serSum a X 1 K * F) := by ring
    rw [e5]
    refine le_trans (abs_add_three _ _ _) (le_trans (add_le_add (add_le_add w5 s4) b5) ?_)
    have f5 : ((2 ^ 52 + ((Ns + 2) * K + Nf + 3) : ℕ) : ℝ) * δ * |X ^ K * F| ≤ 2 ^ 53 * δ * |F| := by
      refine mul_le_mul (mul_le_mul_of_nonneg_right ?_ hδ) e3' (abs_nonneg _) (mul_nonneg (by norm_num) hδ)
      have h1 : 2 ^ 52 + ((Ns + 2) * K + Nf + 3) ≤ 2 ^ 53 := by omega
      have h2 := (Nat.cast_le (α := ℝ)).2 h1
      rw [Nat.cast_pow 2 53] at h2
      exact h2
    have f6 : 0 ≤ δ * |F| := mul_nonneg hδ hF0
    have f7 : (2 : ℝ) ^ 54 * δ * |F| = 2 ^ 53 * δ * |F| + 2 ^ 51 * δ * |F| + 3 * 2 ^ 51 * (δ * |F|) := by ring
    rw [f7]
    have f8 : 0 ≤ 3 * 2 ^ 51 * (δ * |F|) := mul_nonneg (by norm_num) f6
    linarith only [f5, f8]
  · have e5 : |F| * X ^ (K + n) * |a (K + n + 1)| = |X ^ K * F| * X ^ n * |a (K + n + 1)| := by
      rw [pow_add, abs_mul, abs_of_pos (pow_pos hX0 K)]; ring
    rw [e5]
    exact w6

/-- `series_run`. -/
theorem seriesRun_ab (hd : DOk δ) (hg : GenRl δ P₀ next Rep a) (hp : PrecOk δ P P)
    {add xf xs : Num} {F X : ℝ} {ℓf Nf ℓs Ns niter : Nat} {g : G}
    (ha : add.WF) (hal : 64 * add.m.m.length = P) (ha1 : (add.toK : ℝ) = 1)
    (hf : Rl δ P ℓf Nf F xf) (hs : Lo δ P ℓs Ns X xs) (hr : Rep 0 0 g)
    (hF : |F| ≤ 1 / 8) (hX : X < 1) (hnf : Nf ≤ 2 ^ 10) (hns : Ns ≤ 7)
    (hn2 : niter ≤ 2 ^ 17) (hP : 0 < P) (hPa : P ≤ 2 ^ 21)
    (hℓ : (ℓs + 80) * (4 * niter) + P + ℓs + 2 * ℓf + 2000 ≤ 2 ^ 31) :
    ∃ v n, seriesRun next false add xf xs niter g = .ok v ∧ 0 < n ∧ v.WF ∧ 64 * v.m.m.length = P ∧ v.inexact = true ∧
      |(v.toK : ℝ) - (1 + F * serSum a X 1 n)| ≤ 2 ^ 54 * δ * |F| + 4 * 2 ^ (1 - (P : ℤ)) ∧
      |F| * X ^ n * |a (n + 1)| ≤ 4 * 2 ^ (1 - (P : ℤ)) := by
  have hδ := hd.nonneg
  have hη : (0 : ℝ) < 2 ^ (1 - (P : ℤ)) := by positivity
  have key : ∃ v n, (if (xf.isZero || xs.isZero) = true then seriesFast next false add xf g
    else if niter ≥ RECT_ITER then seriesRect next false niter add xf xs g
    else if false = true then seriesLinear next false add xf xs g
    else seriesHorner next add xf xs g) = .ok v ∧ 0 < n ∧ v.WF ∧ 64 * v.m.m.length = P ∧
      |(v.toK : ℝ) - (1 + F * serSum a X 1 n)| ≤ 2 ^ 54 * δ * |F| + 4 * 2 ^ (1 - (P : ℤ)) ∧
      |F| * X ^ n * |a (n + 1)| ≤ 4 * 2 ^ (1 - (P : ℤ)) := by
    rw [if_neg (by rw [hf.nz hd (by omega), hs.nz hd]; decide)]
    by_cases hn : niter ≥ RECT_ITER
    · rw [if_pos hn]
      have : RECT_ITER = 108 := by decide
      exact seriesRect_ab hd hg hp ha hal ha1 hf hs hr hF hX hnf hns (by omega) hn2 hP hPa hℓ
    · rw [if_neg hn, if_neg (by decide)]
      obtain ⟨w, n, w1, w2, w3, w4, w5, w6⟩ := seriesHorner_ab hd hg hp ha hal (by rw [ha1]; norm_num) (by rw [ha1]; norm_num) hf hs hr hF hX
        (by omega) (by omega) (by omega) (by omega) hP (by omega)
      rw [Nat.zero_add] at w5 w6
      rw [ha1] at w5
      refine ⟨w, n, w1, w2, w3, w4, le_trans w5 (add_le_add ?_ (by linarith)), w6⟩
      refine mul_le_mul_of_nonneg_right (mul_le_mul_of_nonneg_right ?_ hδ) (abs_nonneg _)
      exact_mod_cast (show 2 ^ 52 + Nf ≤ 2 ^ 54 by omega)
  obtain ⟨v, n, k1, k2, k3, k4, k5, k6⟩ := key
  refine ⟨{ v with inexact := true }, n, ?_, k2, ?_, k4, rfl, k5, k6⟩
  · unfold seriesRun
    rw [k1]
  · exact ⟨k3.wf, k3.bits, k3.emin, k3.emax, k3.norm, k3.sized⟩

end AF
