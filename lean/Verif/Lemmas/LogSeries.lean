import Verif.Lemmas.LogApx
import Verif.Lemmas.ExpGen
/-!
# The series of the inverse hyperbolic tangent: coefficients and Horner's scheme
-/

namespace AF

set_option linter.unusedSectionVars false

variable {δ : ℝ} {P : Nat}

/-- The coefficients `1 / (2k+1)`. -/
noncomputable def atanhCoef (k : Nat) : ℝ := 1 / (2 * k + 1)

/-- The generator has delivered the coefficient `k`. -/
structure AtanhRep (P k : Nat) (g : AtanhGen) : Prop where
  oneWf : g.one.WF
  oneLen : 64 * g.one.m.m.length = P
  oneEq : (g.one.toK : ℝ) = 1
  accWf : g.acc.WF
  accLen : 64 * g.acc.m.m.length = 64
  accEq : (g.acc.toK : ℝ) = 2 * k + 1

theorem TWO_WF : Num.TWO.WF := Num.WF_of_check (by decide +kernel)

theorem TWO_toK : (Num.TWO.toK : ℝ) = 2 := by
  have h : val Num.TWO.m.m = 2 * 2 ^ 126 := by decide
  unfold Num.toK
  rw [h]
  show Sign.toK Sign.pos * ((2 * 2 ^ 126 : ℕ) : ℝ) * (2 : ℝ) ^ ((2 : ℤ) - ((64 * 2 : ℕ) : ℤ)) = 2
  push_cast
  norm_num [Sign.toK]

theorem atanhCoef_pos (k : Nat) : 0 < atanhCoef k := by unfold atanhCoef; positivity

theorem atanhCoef_le_one (k : Nat) : atanhCoef k ≤ 1 := by
  unfold atanhCoef
  rw [div_le_one (by positivity)]
  have : (0 : ℝ) ≤ k := Nat.cast_nonneg k
  linarith

theorem atanhCoef_anti {k j : Nat} (h : k ≤ j) : atanhCoef j ≤ atanhCoef k := by
  unfold atanhCoef
  apply one_div_le_one_div_of_le (by positivity)
  have : (k : ℝ) ≤ j := by exact_mod_cast h
  linarith

theorem atanhNext_spec (hd : DOk δ) (hp : PrecOk δ P P) {k : Nat} {g : AtanhGen} (h : AtanhRep P k g)
    (hk : k ≤ 2 ^ 36) :
    ∃ c g', atanhNext g = .ok (c, g') ∧ AtanhRep P (k + 1) g' ∧ Lo δ P 40 1 (atanhCoef (k + 1)) c := by
  unfold atanhNext
  have m1 : g.acc.m.maxBitLen = 64 := by
    have := h.accLen
    unfold Mantissa.maxBitLen; omega
  have m2 : g.one.m.maxBitLen = P := by
    have := h.oneLen
    unfold Mantissa.maxBitLen; omega
  rw [m1, m2]
  have ha := addSub_spec (K := ℝ) h.accWf TWO_WF (p := 64) (by norm_num) (by decide) true .none
  rw [if_pos rfl, TWO_toK, h.accEq] at ha
  obtain ⟨w, w1, w2, w3, w4, -⟩ := fromWord_spec (K := ℝ) (d := 2 * (k + 1) + 1) (p := 64) (by unfold B; omega) (by norm_num)
    (by unfold PMAX; norm_num)
  rw [show (2 * k + 1 : ℝ) + 2 = w.toK by rw [w4]; push_cast; ring, show roundP 64 = 64 by decide] at ha
  obtain ⟨i, i1, i2, i3, i4, -, -⟩ := Delivers.rep w2 (by norm_num) (by rw [w3]; decide) ha
  have i5 : g.acc.add Num.TWO 64 .none = .ok i := i1
  rw [i5]
  dsimp only
  rw [w4] at i4
  have hone : Lo δ P 0 0 1 g.one := Lo.exact h.oneWf h.oneLen h.oneEq (by norm_num)
  have hD : ((2 * (k + 1) + 1 : ℕ) : ℝ) ≤ 2 ^ 40 := by exact_mod_cast (by omega : 2 * (k + 1) + 1 ≤ 2 ^ 40)
  have hD1 : (1 : ℝ) ≤ ((2 * (k + 1) + 1 : ℕ) : ℝ) := by exact_mod_cast (by omega : 1 ≤ 2 * (k + 1) + 1)
  obtain ⟨q, q1, q2, -⟩ := hone.div hd hp i2 i4 hD1 hD (by norm_num) (by norm_num) (by norm_num)
  rw [q1]
  refine ⟨q, _, rfl, ⟨h.oneWf, h.oneLen, h.oneEq, i2, i3, ?_⟩, ?_⟩
  · dsimp only
    rw [i4]; push_cast; ring
  · have e : 1 / ((2 * (k + 1) + 1 : ℕ) : ℝ) = atanhCoef (k + 1) := by unfold atanhCoef; push_cast; ring
    rw [e] at q2
    exact q2.mono hd (by omega) (by omega)

/-- The sums of the series, for a small argument. -/
theorem serSum_atanh {X : ℝ} (h0 : 0 ≤ X) (h1 : X ≤ 1 / 16) (k : Nat) :
    ∀ n, 0 ≤ serSum atanhCoef X k n ∧ serSum atanhCoef X k n ≤ atanhCoef k * (16 / 15) := by
  have key : ∀ n k, serSum atanhCoef X k n ≤ atanhCoef k * (16 / 15) := by
    intro n
    induction n with
    | zero => intro k; rw [serSum_zero]; have := atanhCoef_pos k; linarith
    | succ n ih =>
      intro k
      rw [serSum_cons]
      have h2 := ih (k + 1)
      have h3 := atanhCoef_anti (show k ≤ k + 1 by omega)
      have h4 := atanhCoef_pos k
      have h5 : 0 ≤ serSum atanhCoef X (k + 1) n :=
        Finset.sum_nonneg fun i _ => mul_nonneg (atanhCoef_pos _).le (pow_nonneg h0 _)
      have h6 : serSum atanhCoef X (k + 1) n * X ≤ (atanhCoef k * (16 / 15)) * (1 / 16) :=
        mul_le_mul (le_trans h2 (by linarith)) h1 h0 (by linarith)
      linarith
  intro n
  exact ⟨Finset.sum_nonneg fun i _ => mul_nonneg (atanhCoef_pos _).le (pow_nonneg h0 _), key n k⟩

theorem serSum_atanh_two {X : ℝ} (h0 : 0 ≤ X) (h1 : X ≤ 1 / 16) (k n : Nat) : serSum atanhCoef X k n ≤ 2 := by
  have := (serSum_atanh h0 h1 k n).2
  have := atanhCoef_le_one k
  linarith

theorem serSum_atanh_ge {X : ℝ} (h0 : 0 ≤ X) (k n : Nat) (hn : 0 < n) : atanhCoef k ≤ serSum atanhCoef X k n := by
  obtain ⟨m, rfl⟩ : ∃ m, n = m + 1 := ⟨n - 1, by omega⟩
  rw [serSum_cons]
  have : 0 ≤ serSum atanhCoef X (k + 1) m := Finset.sum_nonneg fun i _ => mul_nonneg (atanhCoef_pos _).le (pow_nonneg h0 _)
  have := mul_nonneg this h0
  linarith

/-- The evaluation loop. -/
theorem hornerEval_atanh (hd : DOk δ) (hp : PrecOk δ P P) {xs : Num} {X : ℝ}
    {ℓs Ns k : Nat} (hxs : Lo δ P ℓs Ns X xs) (hX1 : X ≤ 1 / 16) (hℓ : 40 + ℓs ≤ 2 ^ 31 - 16) :
    ∀ (cs : List Num) (acc : Num) (m Na : Nat), CoefList δ P 40 1 atanhCoef k cs → 0 < m →
      1 ≤ Na → Na + (Ns + 2) * cs.length ≤ 2 ^ 90 → Lo δ P 40 Na (serSum atanhCoef X (k + cs.length + 1) m) acc →
      ∃ v, hornerEval P xs cs acc = .ok v ∧
        Lo δ P 40 (Na + (Ns + 2) * cs.length) (serSum atanhCoef X (k + 1) (m + cs.length)) v
  | [], acc, m, Na, _, _, _, _, h => ⟨acc, rfl, by simpa using h⟩
  | c :: cs, acc, m, Na, hc, hm, hNc, hN, h => by
    rw [List.length_cons] at h hN
    have hX0 := hxs.Xpos
    have e1 : (Ns + 2) * (cs.length + 1) = (Ns + 2) * cs.length + (Ns + 2) := by ring
    rw [e1] at hN
    have hb := serSum_atanh_two hX0.le hX1 (k + (cs.length + 1) + 1) m
    obtain ⟨t, t1, t2, -⟩ := h.mul hd hp hxs hℓ (by omega) (by
      have := mul_le_mul hb hX1 hX0.le (by norm_num)
      norm_num at this ⊢; linarith)
    have hb2 := serSum_atanh_two hX0.le hX1 (k + cs.length + 1) (m + 1)
    have es := serSum_cons (a := atanhCoef) X (k + cs.length + 1) m
    rw [show k + cs.length + 1 + 1 = k + (cs.length + 1) + 1 by omega] at es
    obtain ⟨v, v1, v2, -⟩ := t2.add hd hp hc.1 hℓ (by omega) (by
      rw [← es]; norm_num; linarith)
    rw [← es] at v2
    have v3 : Lo δ P 40 (Na + Ns + 2) (serSum atanhCoef X (k + cs.length + 1) (m + 1)) v := by
      have v4 := v2.mono hd (M := Na + Ns + 2) (by omega) le_rfl
      refine v4.relb (le_trans hc.1.lb ?_)
      exact serSum_atanh_ge hX0.le _ _ (by omega)
    unfold hornerEval
    rw [t1]
    dsimp only
    rw [v1]
    dsimp only
    obtain ⟨w, w1, w2⟩ := hornerEval_atanh hd hp hxs hX1 hℓ cs v (m + 1) (Na + Ns + 2) hc.2 (by omega) (by omega)
      (by omega) v3
    refine ⟨w, w1, ?_⟩
    rw [List.length_cons, e1]
    rw [show m + (cs.length + 1) = m + 1 + cs.length by omega,
      show Na + ((Ns + 2) * cs.length + (Ns + 2)) = Na + Ns + 2 + (Ns + 2) * cs.length by omega]
    exact w2

/-- The state of the loop that collects the coefficients. -/
structure CollectA (δ : ℝ) (P k : Nat) (cp : Int) (g : AtanhGen) (cache : List Num) : Prop where
  coefs : CoefList δ P 40 1 atanhCoef k cache
  few : 8 * cache.length ≤ P
  rep : AtanhRep P (k + cache.length) g
  cp0 : 0 ≤ cp
  cpb : atanhCoef (k + cache.length) * (1 - δ) ≤ 2 ^ (-cp)

theorem hornerCollect_atanh (hd : DOk δ) (hp : PrecOk δ P P) {lim xe xp0 : Int} {k : Nat}
    (hxe : xe ≤ -8) (hxp0 : 0 ≤ xp0) (hl : lim ≤ P + xp0 + xe) (hk : k + P ≤ 2 ^ 36) :
    ∀ (f : Nat) (xp cp : Int) (g : AtanhGen) (cache : List Num), cache.length + f = lim.toNat + 3 →
      (cache.length : ℤ) ≤ max lim 0 →
      xp = xp0 - cache.length * xe → CollectA δ P k cp g cache →
      ∃ cache' g', hornerCollect atanhNext lim xe f xp cp g cache = .ok (cache', g') ∧
        ∃ cp', CollectA δ P k cp' g' cache' ∧ lim ≤ xp0 - cache'.length * xe + cp'
  | 0, xp, cp, g, cache, hf, hm, _, hc => absurd hm (by omega)
  | f + 1, xp, cp, g, cache, hf, hm, hxp, hc => by
    unfold hornerCollect
    by_cases hlt : xp + cp < lim
    swap
    · rw [if_neg hlt]
      exact ⟨cache, g, rfl, cp, hc, by rw [← hxp]; omega⟩
    rw [if_pos hlt]
    have hcp := hc.cp0
    have h8 : (cache.length : ℤ) * xe ≤ (cache.length : ℤ) * (-8) := mul_le_mul_of_nonneg_left hxe (by positivity)
    have hfew := hc.few
    obtain ⟨c, g', e1, e2, e3⟩ := atanhNext_spec hd hp hc.rep (by omega)
    rw [e1]
    dsimp only
    have hce := e3.exp hd (by norm_num) (by norm_num)
    have hc1 : atanhCoef (k + cache.length + 1) < 2 ^ (-((0 : ℕ) : ℤ)) := by
      norm_num
      unfold atanhCoef
      rw [div_lt_one (by positivity)]
      push_cast
      have : (0 : ℝ) ≤ k := Nat.cast_nonneg k
      have : (0 : ℝ) ≤ cache.length := Nat.cast_nonneg _
      linarith
    have hce0 := e3.exp_le_zero hd (by norm_num) (by norm_num) hc1
    obtain ⟨cache', g'', r1, cp', r2, r3⟩ := hornerCollect_atanh hd hp hxe hxp0 hl hk f (xp - xe) (-c.e) g' (c :: cache)
      (by rw [List.length_cons]; omega) (by rw [List.length_cons]; push_cast; omega)
      (by rw [hxp, List.length_cons]; push_cast; ring)
      ⟨⟨e3, hc.coefs⟩, by rw [List.length_cons]; omega, by
        rw [List.length_cons, ← add_assoc]; exact e2, by push_cast at hce0; omega, by
        rw [List.length_cons, ← add_assoc, neg_neg]
        have := e3.ge
        rw [pow_one] at this
        exact le_trans this hce.2.le⟩
    exact ⟨cache', g'', r1, cp', r2, r3⟩

/-- Horner's scheme adds `n` terms of the series to a negative number; the first term left out is below `δ` of it, up
to a hundredth. -/
theorem seriesHorner_atanh (hd : DOk δ) (hp : PrecOk δ P P)
    {add xf xs : Num} {A F X : ℝ} {ℓa Na ℓf Nf ℓs Ns k : Nat} {g : AtanhGen}
    (ha : LoN δ P ℓa Na A add) (hf : LoN δ P ℓf Nf F xf) (hs : Lo δ P ℓs Ns X xs) (hr : AtanhRep P k g)
    (hA : A ≤ 2) (hFA : F ≤ A / 2) (hF1 : F < 1) (hX : X < 1 / 256) (hna : Na ≤ 2 ^ 10) (hnf : Nf ≤ 2 ^ 30) (hns : Ns ≤ 2 ^ 10)
    (hℓ : P + ℓa + 400 + ℓs + ℓf ≤ 2 ^ 31) (hk : k + P ≤ 2 ^ 30)
    (hw : 2 * F * (Nf + (Ns + 2) * ((P / 8 : ℕ) : ℝ) + 8) ≤ A) :
    ∃ v n, seriesHorner atanhNext add xf xs g = .ok v ∧ 0 < n ∧
      LoN δ P ℓa (Na + 2) (A + F * serSum atanhCoef X (k + 1) n) v ∧
      F * X ^ n * atanhCoef (k + n + 1) ≤ A * δ * (101 / 100) := by
  have hPm : add.m.maxBitLen = P ∧ xf.m.maxBitLen = P ∧ xs.m.maxBitLen = P := by
    have := ha.len
    have := hf.len
    have := hs.len
    unfold Mantissa.maxBitLen; omega
  unfold seriesHorner
  dsimp only
  rw [hPm.1, hPm.2.1, hPm.2.2, max_self, max_self]
  -- exponents
  have ae := ha.exp hd (by omega) (by omega)
  have fe := hf.exp hd (by omega) (by omega)
  have se := hs.exp hd (by omega) (by omega)
  have se0 : xs.e ≤ -8 := by
    have := hs.exp_le_zero hd (by omega) (by omega) (j := 8) (by norm_num; norm_num at hX; exact hX)
    simpa using this
  have fa : xf.e ≤ add.e := by
    have h1 : (2 : ℝ) ^ (xf.e - 1) < 2 ^ add.e := by
      refine lt_of_le_of_lt (le_trans fe.1 hf.le) (lt_of_le_of_lt hFA (lt_of_le_of_lt ?_ ae.2))
      refine le_trans ?_ ha.ge
      rw [div_eq_mul_one_div]
      exact mul_le_mul_of_nonneg_left (hd.pow (by omega)) ha.Xpos.le
    have := (zpow_lt_zpow_iff_right₀ (by norm_num : (1 : ℝ) < 2)).1 h1
    omega
  have fe0 : xf.e ≤ 0 := by
    have h1 : (2 : ℝ) ^ (xf.e - 1) < 2 ^ (0 : ℤ) := by
      rw [zpow_zero]
      exact lt_of_le_of_lt (le_trans fe.1 hf.le) hF1
    have := (zpow_lt_zpow_iff_right₀ (by norm_num : (1 : ℝ) < 2)).1 h1
    omega
  obtain ⟨lim, hlim⟩ : ∃ lim : ℤ, lim = (P : ℤ) - add.e := ⟨_, rfl⟩
  rw [← hlim]
  obtain ⟨cache, g', r1, cp, r2, r3⟩ := hornerCollect_atanh hd hp (lim := lim) (xe := xs.e) (xp0 := -xf.e - xs.e)
    (k := k) se0 (by omega) (by omega) (by omega) (lim.toNat + 3)
    (-xf.e - xs.e) 0 g [] (by simp) (by simp) (by simp) ⟨trivial, by simp, by simpa using hr, le_rfl, by
      rw [neg_zero, zpow_zero]
      exact mul_le_one₀ (atanhCoef_le_one _) hd.base.1 hd.base.2⟩
  rw [r1]
  dsimp only
  obtain ⟨J, hJ⟩ : ∃ J, J = cache.length := ⟨_, rfl⟩
  have hJ1 := r2.few
  have hcb := r2.cpb
  rw [← hJ] at hJ1 r3 hcb
  obtain ⟨last, g'', e1, -, e3⟩ := atanhNext_spec hd hp r2.rep (by omega)
  rw [e1]
  dsimp only
  have e4 : Lo δ P 40 1 (serSum atanhCoef X (k + cache.length + 1) 1) last := by
    have h3 : serSum atanhCoef X (k + cache.length + 1) 1 = atanhCoef (k + cache.length + 1) := by simp [serSum]
    rw [h3]
    exact e3
  have hX16 : X ≤ 1 / 16 := by norm_num at hX ⊢; linarith
  have hm : (Ns + 2) * J ≤ (Ns + 2) * (P / 8) := Nat.mul_le_mul_left _ (by omega)
  have hm' : (Ns + 2) * (P / 8) ≤ 2 ^ 11 * 2 ^ 30 := Nat.mul_le_mul (by omega) (by omega)
  obtain ⟨v, v1, v2⟩ := hornerEval_atanh hd hp hs hX16 (k := k) (by omega) cache last 1 1
    r2.coefs (by norm_num) (by omega) (by rw [← hJ]; omega) e4
  rw [v1]
  dsimp only
  rw [← hJ, add_comm 1 J] at v2
  have hX0 := hs.Xpos
  have hF0 := hf.Xpos
  have hb := serSum_atanh hX0.le hX16 (k + 1) (J + 1)
  have hc3 : atanhCoef (k + 1) ≤ 1 / 3 := by
    have := atanhCoef_anti (show 1 ≤ k + 1 by omega)
    refine le_trans this ?_
    unfold atanhCoef
    norm_num
  have hS1 : serSum atanhCoef X (k + 1) (J + 1) ≤ 1 := by linarith [hb.2]
  have hSF : serSum atanhCoef X (k + 1) (J + 1) * F ≤ F := mul_le_of_le_one_left hF0.le hS1
  obtain ⟨t, t1, t2⟩ := v2.mulN hd hp hf (by omega) (by omega) (by norm_num; linarith)
  rw [t1]
  dsimp only
  obtain ⟨u, u1, u2⟩ := ha.addw hd hp t2 (by omega) (by omega) (by norm_num; linarith) (by
    refine le_trans ?_ hw
    have h1 : ((1 + (Ns + 2) * J + Nf + 1 : ℕ) : ℝ) ≤ Nf + (Ns + 2) * ((P / 8 : ℕ) : ℝ) + 8 := by
      have : 1 + (Ns + 2) * J + Nf + 1 ≤ Nf + (Ns + 2) * (P / 8) + 8 := by omega
      exact_mod_cast this
    refine mul_le_mul ?_ h1 (by positivity) (by linarith)
    linarith)
  refine ⟨u, J + 1, u1, by omega, ?_, ?_⟩
  · rw [mul_comm F]
    exact u2
  · -- the first term left out
    have q1 : (X * (1 - δ) ^ Ns) ^ (J + 1) ≤ (2 ^ xs.e) ^ (J + 1) :=
      pow_le_pow_left₀ (mul_pos hX0 (hd.pow_pos _)).le (le_trans hs.ge se.2.le) _
    have q2 : F * (1 - δ) ^ Nf ≤ 2 ^ xf.e := le_trans hf.ge fe.2.le
    have q3 : atanhCoef (k + (J + 1) + 1) * (1 - δ) ≤ 2 ^ (-cp) :=
      le_trans (mul_le_mul_of_nonneg_right (atanhCoef_anti (by omega)) hd.base.1) hcb
    have q4 : F * (1 - δ) ^ Nf * (X * (1 - δ) ^ Ns) ^ (J + 1) * (atanhCoef (k + (J + 1) + 1) * (1 - δ)) ≤
        2 ^ xf.e * (2 ^ xs.e) ^ (J + 1) * 2 ^ (-cp) := by
      refine mul_le_mul (mul_le_mul q2 q1 ?_ (by positivity)) q3 ?_ (by positivity)
      · exact pow_nonneg (mul_pos hX0 (hd.pow_pos _)).le _
      · exact mul_nonneg (atanhCoef_pos _).le hd.base.1
    have q5 : (2 : ℝ) ^ xf.e * (2 ^ xs.e) ^ (J + 1) * 2 ^ (-cp) ≤ 2 ^ (add.e - 1) * 2 ^ (1 - (P : ℤ)) := by
      rw [← zpow_natCast, ← zpow_mul, ← zpow_add₀ (by norm_num), ← zpow_add₀ (by norm_num), ← zpow_add₀ (by norm_num)]
      refine zpow_le_zpow_right₀ (by norm_num) ?_
      push_cast
      have : xs.e * ((J : ℤ) + 1) = (J : ℤ) * xs.e + xs.e := by ring
      omega
    have q6 : (2 : ℝ) ^ (add.e - 1) * 2 ^ (1 - (P : ℤ)) ≤ A * δ :=
      mul_le_mul (le_trans ae.1 ha.le) hp.err (by positivity) ha.Xpos.le
    have hm2 : Ns * (J + 1) ≤ 2 ^ 10 * 2 ^ 31 := Nat.mul_le_mul hns (by omega)
    have q7 : 100 / 101 ≤ (1 - δ) ^ (Nf + Ns * (J + 1) + 1) := by
      have h1 := hd.nonneg
      have h2 := hd.small
      have h3 := one_add_mul_le_pow (a := -δ) (by linarith [hd.base.1]) (Nf + Ns * (J + 1) + 1)
      rw [← sub_eq_add_neg] at h3
      refine le_trans ?_ h3
      have h4 : ((Nf + Ns * (J + 1) + 1 : ℕ) : ℝ) ≤ 2 ^ 50 := by exact_mod_cast (by omega : Nf + Ns * (J + 1) + 1 ≤ 2 ^ 50)
      have h5 : ((Nf + Ns * (J + 1) + 1 : ℕ) : ℝ) * δ ≤ 2 ^ 50 * (1 / 2 ^ 100) := mul_le_mul h4 h2 h1 (by positivity)
      have h6 : (2 : ℝ) ^ 50 * (1 / 2 ^ 100) ≤ 1 / 1000 := by norm_num
      have h7 : (0 : ℝ) ≤ 1 := by norm_num
      linarith
    have q8 : F * (1 - δ) ^ Nf * (X * (1 - δ) ^ Ns) ^ (J + 1) * (atanhCoef (k + (J + 1) + 1) * (1 - δ)) =
        F * X ^ (J + 1) * atanhCoef (k + (J + 1) + 1) * (1 - δ) ^ (Nf + Ns * (J + 1) + 1) := by
      rw [pow_add (1 - δ), pow_add (1 - δ), mul_pow, pow_mul (1 - δ), pow_one]; ring
    rw [q8] at q4
    have q9 : 0 < F * X ^ (J + 1) * atanhCoef (k + (J + 1) + 1) := mul_pos (mul_pos hF0 (pow_pos hX0 _)) (atanhCoef_pos _)
    have q10 := mul_le_mul_of_nonneg_left q7 q9.le
    linarith

end AF
