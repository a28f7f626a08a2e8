import Verif.Lemmas.ExpSeries
/-!
# Power series with positive coefficients: the end of Horner's scheme
-/

namespace AF

set_option linter.unusedSectionVars false

variable {δ : ℝ} {P₀ P : Nat} {G : Type} {next : G → Except Err (Num × G)} {Rep : Nat → Nat → G → Prop} {a : Nat → ℝ}

/-- The state of the loop that collects the coefficients. -/
structure Collect (δ : ℝ) (P₀ : Nat) (Rep : Nat → Nat → G → Prop) (a : Nat → ℝ) (lim : Int) (ℓg ℓc Nc k : Nat) (cp : Int)
    (g : G) (cache : List Num) : Prop where
  coefs : CoefList δ P₀ ℓc Nc a k cache
  few : cache.length ≤ lim.toNat + 1
  state : cache = [] ∧ cp = 0 ∧ Rep ℓg k g ∨ ∃ c cs, cache = c :: cs ∧ cp = -c.e ∧ Rep ℓc (k + cache.length) g

theorem hornerCollect_spec (hd : DOk δ) (hg : GenOk δ P₀ next Rep a) {lim xe xp0 : Int} {ℓg ℓc Nc k : Nat}
    (hxe : xe ≤ 0) (hxp0 : 0 ≤ xp0) (hℓ1 : ℓg + 80 ≤ ℓc) (hℓ2 : lim.toNat + 80 ≤ ℓc) (hℓ : ℓc ≤ 2 ^ 31 - 100)
    (hk : k + lim.toNat + 3 ≤ 2 ^ 36) (hNc : Nc = 4 * (k + lim.toNat + 3)) :
    ∀ (f : Nat) (xp cp : Int) (g : G) (cache : List Num), cache.length + f = lim.toNat + 3 →
      xp = xp0 - cache.length * xe → Collect δ P₀ Rep a lim ℓg ℓc Nc k cp g cache →
      ∃ cache' g', hornerCollect next lim xe f xp cp g cache = .ok (cache', g') ∧
        ∃ cp', Collect δ P₀ Rep a lim ℓg ℓc Nc k cp' g' cache' ∧ lim ≤ xp0 - cache'.length * xe + cp'
  | 0, xp, cp, g, cache, hf, _, hc => absurd hc.few (by omega)
  | f + 1, xp, cp, g, cache, hf, hxp, hc => by
    unfold hornerCollect
    by_cases hlt : xp + cp < lim
    swap
    · rw [if_neg hlt]
      exact ⟨cache, g, rfl, cp, hc, by rw [← hxp]; omega⟩
    rw [if_pos hlt]
    have hxp1 : 0 ≤ xp := by
      rw [hxp]
      have : (cache.length : ℤ) * xe ≤ 0 := mul_nonpos_of_nonneg_of_nonpos (by positivity) hxe
      omega
    have hfew := hc.few
    have key : ∃ ℓ, Rep ℓ (k + cache.length) g ∧ ℓ + 80 ≤ ℓc ∧ cache.length ≤ lim.toNat := by
      rcases hc.state with ⟨h1, h2, h3⟩ | ⟨c, cs, h1, h2, h3⟩
      · rw [h1]; exact ⟨ℓg, h3, hℓ1, by simp⟩
      · have h4 := hc.coefs
        rw [h1] at h4
        obtain ⟨h5, -⟩ := h4
        have hl : cache.length = cs.length + 1 := by rw [h1]; simp
        rw [show k + cs.length + 1 = k + cache.length by omega] at h5
        have h6 := (h5.exp hd (by omega) (by omega)).1
        have h7 : a (k + cache.length) ≤ 2 ^ (-(cache.length : ℤ)) := by
          refine le_trans (hg.decay k cache.length) ?_
          rw [zpow_neg, zpow_natCast, div_eq_mul_inv]
          exact mul_le_of_le_one_left (by positivity) (hg.le_one k)
        have h8 := (zpow_le_zpow_iff_right₀ (by norm_num : (1 : ℝ) < 2)).1 (le_trans h6 (le_trans h5.le h7))
        refine ⟨lim.toNat, hg.relb h3 (le_trans ?_ (le_trans h6 h5.le)), hℓ2, by omega⟩
        exact zpow_le_zpow_right₀ (by norm_num) (by omega)
    obtain ⟨ℓ, k1, k2, k3⟩ := key
    obtain ⟨c, g', e1, e2, e3⟩ := hg.next k1 (by omega) (by omega)
    rw [e1]
    dsimp only
    have e3' : Lo δ P₀ ℓc Nc (a (k + cache.length + 1)) c := e3.mono hd (by omega) k2
    obtain ⟨cache', g'', r1, cp', r2, r3⟩ := hornerCollect_spec hd hg hxe hxp0 hℓ1 hℓ2 hℓ hk hNc f (xp - xe) (-c.e) g' (c :: cache)
      (by rw [List.length_cons]; omega) (by rw [hxp, List.length_cons]; push_cast; ring)
      ⟨⟨e3', hc.coefs⟩, by rw [List.length_cons]; omega, Or.inr ⟨c, cache, rfl, rfl, by
        rw [List.length_cons, ← add_assoc]
        exact hg.relb e2 e3'.lb⟩⟩
    exact ⟨cache', g'', r1, cp', r2, r3⟩

theorem collect_bound (hd : DOk δ) (hg : GenOk δ P₀ next Rep a) {lim : Int} {ℓg ℓc Nc k : Nat} {cp : Int} {g : G} {cache : List Num}
    (h : Collect δ P₀ Rep a lim ℓg ℓc Nc k cp g cache) (hℓ : ℓc ≤ 2 ^ 31 - 100) (hN : Nc ≤ 2 ^ 90) :
    a (k + cache.length) * (1 - δ) ^ Nc ≤ 2 ^ (-cp) := by
  rcases h.state with ⟨h1, h2, -⟩ | ⟨c, cs, h1, h2, -⟩
  · rw [h2, neg_zero, zpow_zero]
    exact mul_le_one₀ (hg.le_one _) (hd.pow_pos _).le (hd.pow_le _)
  · have h4 := h.coefs
    rw [h1] at h4
    obtain ⟨h5, -⟩ := h4
    rw [h2, neg_neg, h1, List.length_cons, ← add_assoc]
    exact le_trans h5.ge (h5.exp hd (by omega) (by omega)).2.le

/-- Horner's scheme adds `n` terms of the series; the first term left out is below `2 * δ` of the sum so far. -/
theorem seriesHorner_spec (hd : DOk δ) (hg : GenOk δ P₀ next Rep a) (hp : PrecOk δ P P)
    {add xf xs : Num} {A F X : ℝ} {ℓa Na ℓf Nf ℓs Ns ℓg k : Nat} {g : G}
    (ha : Lo δ P ℓa Na A add) (hf : Lo δ P ℓf Nf F xf) (hs : Lo δ P ℓs Ns X xs) (hr : Rep ℓg k g)
    (hA : A ≤ 8) (hF : F < 1) (hX : X < 1) (hna : Na ≤ 2 ^ 60) (hnf : Nf ≤ 2 ^ 60) (hns : Ns ≤ 2 ^ 20)
    (hℓ : ℓg + P + ℓa + 400 + ℓs + ℓf ≤ 2 ^ 31) (hk : k ≤ 2 ^ 35) (hPa : 0 < P) :
    ∃ v n, seriesHorner next add xf xs g = .ok v ∧ 0 < n ∧ n ≤ P + ℓa + 8 ∧
      Lo δ P ℓa (Na + Nf + (Ns + 8) * (k + P + ℓa + 10)) (A + F * serSum a X (k + 1) n) v ∧
      F * X ^ n * a (k + n + 1) ≤ 2 * δ * A := by
  have hmax : ∀ {ℓ N : Nat} {Z : ℝ} {z : Num}, Lo δ P ℓ N Z z → z.m.maxBitLen = P := by
    intro ℓ N Z z h
    have := h.len
    unfold Mantissa.maxBitLen; omega
  have hee : ∀ {ℓ N : Nat} {Z : ℝ} {z : Num}, Lo δ P ℓ N Z z → ℓ ≤ 2 ^ 31 - 16 → N ≤ 2 ^ 90 → Z < 1 → z.e ≤ 0 := by
    intro ℓ N Z z h h1 h2 h3
    have := h.exp_le_zero hd h1 h2 (j := 0) (by simpa using h3)
    simpa using this
  unfold seriesHorner
  dsimp only
  rw [hmax ha, hmax hf, hmax hs, max_self, max_self]
  have hpos : 0 < P := hPa
  -- exponents
  have ae := ha.exp hd (by omega) (by omega)
  have fe := hf.exp hd (by omega) (by omega)
  have se := hs.exp hd (by omega) (by omega)
  have fe0 := hee hf (by omega) (by omega) hF
  have se0 := hee hs (by omega) (by omega) hX
  have ae2 : -(ℓa : ℤ) ≤ add.e := by
    have h1 : (2 : ℝ) ^ (-(ℓa : ℤ) - 1) < 2 ^ add.e := by
      refine lt_of_le_of_lt ?_ ae.2
      refine le_trans ?_ ha.ge
      rw [zpow_sub₀ (by norm_num), zpow_one, div_eq_mul_one_div]
      exact mul_le_mul ha.lb (hd.pow (by omega)) (by norm_num) ha.Xpos.le
    have := (zpow_lt_zpow_iff_right₀ (by norm_num : (1 : ℝ) < 2)).1 h1
    omega
  obtain ⟨lim, hlim⟩ : ∃ lim : ℤ, lim = (P : ℤ) - add.e := ⟨_, rfl⟩
  rw [← hlim]
  have hlim1 : lim.toNat ≤ P + ℓa := by omega
  obtain ⟨Nc, hNc⟩ : ∃ Nc, Nc = 4 * (k + lim.toNat + 3) := ⟨_, rfl⟩
  obtain ⟨ℓc, hℓc⟩ : ∃ ℓc, ℓc = ℓg + P + ℓa + 80 := ⟨_, rfl⟩
  obtain ⟨cache, g', r1, cp, r2, r3⟩ := hornerCollect_spec hd hg (lim := lim) (xe := xs.e) (xp0 := -xf.e - xs.e) (ℓg := ℓg)
    (ℓc := ℓc) (Nc := Nc) (k := k) se0 (by omega) (by omega) (by omega) (by omega) (by omega) hNc (lim.toNat + 3)
    (-xf.e - xs.e) 0 g [] (by simp) (by simp) ⟨trivial, by simp, Or.inl ⟨rfl, rfl, hr⟩⟩
  rw [r1]
  dsimp only
  obtain ⟨J, hJ⟩ : ∃ J, J = cache.length := ⟨_, rfl⟩
  have hJ1 := r2.few
  rw [← hJ] at hJ1 r3
  have hcb := collect_bound hd hg r2 (by omega) (by omega)
  rw [← hJ] at hcb
  -- the last coefficient
  have hrep : ∃ ℓ, Rep ℓ (k + J) g' ∧ ℓ ≤ ℓc := by
    rcases r2.state with ⟨h1, h2, h3⟩ | ⟨c, cs, h1, h2, h3⟩
    · rw [hJ, h1]; exact ⟨ℓg, h3, by omega⟩
    · rw [hJ]; exact ⟨ℓc, h3, le_rfl⟩
  obtain ⟨ℓ, h1, h2⟩ := hrep
  obtain ⟨last, g'', e1, -, e3⟩ := hg.next h1 (by omega) (by omega)
  rw [e1]
  dsimp only
  have e4 : Lo δ P₀ (ℓc + 80) (Nc + 4) (serSum a X (k + cache.length + 1) 1) last := by
    have h3 : serSum a X (k + cache.length + 1) 1 = a (k + J + 1) := by rw [hJ]; simp [serSum]
    rw [h3]
    exact e3.mono hd (by omega) (by omega)
  have hco : CoefList δ P₀ (ℓc + 80) Nc a k cache := by
    have := r2.coefs
    clear * - this hd
    induction cache with
    | nil => trivial
    | cons c cs ih => exact ⟨this.1.mono hd le_rfl (by omega), ih this.2⟩
  have hm : (Ns + 2) * J ≤ 2 ^ 60 := by
    refine le_trans (Nat.mul_le_mul (show Ns + 2 ≤ 2 ^ 21 by omega) (show J ≤ 2 ^ 36 by omega)) (by norm_num)
  obtain ⟨v, v1, Pv, v2⟩ := hornerEval_spec hd hg hp hs hX.le (ℓc := ℓc + 80) (Nc := Nc) (k := k) (by omega) cache last 1 (Nc + 4) P₀
    hco (by norm_num) (by omega) (by rw [← hJ]; omega) e4
  rw [v1]
  dsimp only
  rw [← hJ, add_comm 1 J] at v2
  have hb := serSum_bounds hg hs.Xpos.le hX.le (k + 1) (J + 1)
  have hSF : serSum a X (k + 1) (J + 1) * F ≤ 2 := by
    have := mul_le_mul hb.2 hF.le hf.Xpos.le (by norm_num)
    linarith
  obtain ⟨t, t1, t2, -⟩ := v2.mul hd hp hf (by omega) (by omega) (by norm_num; linarith)
  rw [t1]
  dsimp only
  obtain ⟨u, u1, u2, -⟩ := ha.add hd hp t2 (by omega) (by
    rw [max_le_iff]; constructor <;> omega) (by norm_num; linarith)
  refine ⟨u, J + 1, u1, by omega, by omega, ?_, ?_⟩
  · rw [mul_comm F]
    refine u2.mono hd ?_ le_rfl
    have e5 : (Ns + 8) * (k + P + ℓa + 10) = (Ns + 2) * (k + P + ℓa + 10) + 6 * (k + P + ℓa + 10) := by ring
    have e6 : (Ns + 2) * J ≤ (Ns + 2) * (k + P + ℓa + 10) := Nat.mul_le_mul_left _ (by omega)
    rw [e5]
    omega
  · -- the first term left out
    have hX0 := hs.Xpos
    have hF0 := hf.Xpos
    have q1 : (X * (1 - δ) ^ Ns) ^ (J + 1) ≤ (2 ^ xs.e) ^ (J + 1) :=
      pow_le_pow_left₀ (mul_pos hX0 (hd.pow_pos _)).le (le_trans hs.ge se.2.le) _
    have q2 : F * (1 - δ) ^ Nf ≤ 2 ^ xf.e := le_trans hf.ge fe.2.le
    have q3 : a (k + (J + 1) + 1) * (1 - δ) ^ Nc ≤ 2 ^ (-cp) :=
      le_trans (mul_le_mul_of_nonneg_right (hg.anti (by omega)) (hd.pow_pos _).le) hcb
    have q4 : F * (1 - δ) ^ Nf * (X * (1 - δ) ^ Ns) ^ (J + 1) * (a (k + (J + 1) + 1) * (1 - δ) ^ Nc) ≤
        2 ^ xf.e * (2 ^ xs.e) ^ (J + 1) * 2 ^ (-cp) := by
      refine mul_le_mul (mul_le_mul q2 q1 ?_ (by positivity)) q3 ?_ (by positivity)
      · exact pow_nonneg (mul_pos hX0 (hd.pow_pos _)).le _
      · exact (mul_pos (hg.pos _) (hd.pow_pos _)).le
    have q5 : (2 : ℝ) ^ xf.e * (2 ^ xs.e) ^ (J + 1) * 2 ^ (-cp) ≤ 2 ^ (add.e - 1) * 2 ^ (1 - (P : ℤ)) := by
      rw [← zpow_natCast, ← zpow_mul, ← zpow_add₀ (by norm_num), ← zpow_add₀ (by norm_num), ← zpow_add₀ (by norm_num)]
      refine zpow_le_zpow_right₀ (by norm_num) ?_
      push_cast
      have : xs.e * ((J : ℤ) + 1) = (J : ℤ) * xs.e + xs.e := by ring
      omega
    have q6 : (2 : ℝ) ^ (add.e - 1) * 2 ^ (1 - (P : ℤ)) ≤ A * δ :=
      mul_le_mul (le_trans ae.1 ha.le) hp.err (by positivity) ha.Xpos.le
    have hm2 : Ns * (J + 1) ≤ 2 ^ 60 := by
      refine le_trans (Nat.mul_le_mul hns (show J + 1 ≤ 2 ^ 36 by omega)) (by norm_num)
    have q7 := hd.pow (N := Nf + Ns * (J + 1) + Nc) (by omega)
    have q8 : F * (1 - δ) ^ Nf * (X * (1 - δ) ^ Ns) ^ (J + 1) * (a (k + (J + 1) + 1) * (1 - δ) ^ Nc) =
        F * X ^ (J + 1) * a (k + (J + 1) + 1) * (1 - δ) ^ (Nf + Ns * (J + 1) + Nc) := by
      rw [pow_add (1 - δ), pow_add (1 - δ), mul_pow, pow_mul (1 - δ)]; ring
    rw [q8] at q4
    have q9 : 0 < F * X ^ (J + 1) * a (k + (J + 1) + 1) := mul_pos (mul_pos hF0 (pow_pos hX0 _)) (hg.pos _)
    have q10 := mul_le_mul_of_nonneg_left q7 q9.le
    linarith

end AF
