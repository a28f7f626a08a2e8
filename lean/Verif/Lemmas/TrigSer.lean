import Verif.Lemmas.TrigApx
/-!
# Power series with coefficients of either sign: Horner's scheme
-/

namespace AF

set_option linter.unusedSectionVars false

variable {δ : ℝ} {P₀ P : Nat} {G : Type} {next : G → Except Err (Num × G)} {Rep : Nat → Nat → G → Prop} {a : Nat → ℝ}

theorem Rl.relb {ℓ N : Nat} {X : ℝ} {v : Num} (h : Rl δ P ℓ N X v) {ℓ' : Nat} (hl : (2 : ℝ) ^ (-(ℓ' : ℤ)) ≤ |X|) :
    Rl δ P ℓ' N X v := ⟨h.wf, h.len, h.err, hl⟩

theorem Rl.exp (hd : DOk δ) {ℓ N : Nat} {X : ℝ} {v : Num} (h : Rl δ P ℓ N X v) (hℓ : ℓ ≤ 2 ^ 31 - 16) (hN : N ≤ 2 ^ 60) :
    (2 : ℝ) ^ (v.e - 1) ≤ |(v.toK : ℝ)| ∧ |(v.toK : ℝ)| < 2 ^ v.e := by
  refine exp_bounds_abs h.wf (le_trans ?_ (h.mag hd hN).1)
  have h2 := h.lb
  have h3 : (2 : ℝ) ^ EMIN ≤ 2 ^ (-(ℓ : ℤ)) * (1 / 2) := by
    rw [show (1 / 2 : ℝ) = 2 ^ (-1 : ℤ) by norm_num, ← zpow_add₀ (by norm_num)]
    exact zpow_le_zpow_right₀ (by norm_num) (by unfold EMIN; omega)
  have h4 : |X| * (1 / 2) ≤ |X| * (1 - 1 / 2 ^ 40) := mul_le_mul_of_nonneg_left (by norm_num) (abs_nonneg _)
  linarith

/-- The exponent of a number whose value is below a power of two. -/
theorem Rl.exp_le (hd : DOk δ) {ℓ N : Nat} {X : ℝ} {v : Num} (h : Rl δ P ℓ N X v) (hℓ : ℓ ≤ 2 ^ 31 - 16) (hN : N ≤ 2 ^ 60) {j : ℤ}
    (hX : |X| ≤ 2 ^ j) : v.e ≤ j + 1 := by
  have h1 := (h.exp hd hℓ hN).1
  have h2 := (h.mag hd hN).2
  have h3 : (2 : ℝ) ^ (v.e - 1) < 2 ^ (j + 1) := by
    refine lt_of_le_of_lt (le_trans h1 h2) ?_
    rw [zpow_add_one₀ (by norm_num)]
    have : (0 : ℝ) < 2 ^ j := by positivity
    calc |X| * (1 + 1 / 2 ^ 40) ≤ 2 ^ j * (1 + 1 / 2 ^ 40) := mul_le_mul_of_nonneg_right hX (by norm_num)
      _ < 2 ^ j * 2 := mul_lt_mul_of_pos_left (by norm_num) this
  have := (zpow_lt_zpow_iff_right₀ (by norm_num : (1 : ℝ) < 2)).1 h3
  omega

/-- The exponent of a number is nearly the one of the value. -/
theorem Rl.exp_ge (hd : DOk δ) {ℓ N : Nat} {X : ℝ} {v : Num} (h : Rl δ P ℓ N X v) (hℓ : ℓ ≤ 2 ^ 31 - 16) (hN : N ≤ 2 ^ 60) :
    -(ℓ : ℤ) ≤ v.e := by
  have h1 := (h.exp hd hℓ hN).2
  have h2 := (h.mag hd hN).1
  have h3 : (2 : ℝ) ^ (-(ℓ : ℤ) - 1) < 2 ^ v.e := by
    refine lt_of_le_of_lt (le_trans ?_ h2) h1
    rw [zpow_sub₀ (by norm_num), zpow_one, div_eq_mul_one_div]
    exact mul_le_mul h.lb (by norm_num) (by norm_num) (abs_nonneg _)
  have := (zpow_lt_zpow_iff_right₀ (by norm_num : (1 : ℝ) < 2)).1 h3
  omega

/-- A generator of the coefficients `a 1, a 2, …`: the state `g` with `Rep ℓ k g` has delivered `a k`, which is at least
`2^-ℓ` in magnitude. -/
structure GenRl (δ : ℝ) (P : Nat) {G : Type} (next : G → Except Err (Num × G)) (Rep : Nat → Nat → G → Prop)
    (a : Nat → ℝ) : Prop where
  next : ∀ {ℓ k : Nat} {g}, Rep ℓ k g → ℓ ≤ 2 ^ 31 - 200 → k ≤ 2 ^ 30 → ∃ c g', next g = .ok (c, g') ∧ Rep (ℓ + 80) (k + 1) g' ∧
    Rl δ P (ℓ + 80) (8 * (k + 1)) (a (k + 1)) c
  relb : ∀ {ℓ ℓ' k : Nat} {g}, Rep ℓ k g → (2 : ℝ) ^ (-(ℓ' : ℤ)) ≤ |a k| → Rep ℓ' k g
  half : ∀ k, |a (k + 1)| ≤ |a k| / 2
  one : |a 0| ≤ 1

theorem GenRl.decay (h : GenRl δ P₀ next Rep a) (k : Nat) : ∀ j, |a (k + j)| ≤ |a k| / 2 ^ j
  | 0 => by simp
  | j + 1 => by
    have h1 := h.half (k + j)
    have h2 := h.decay k j
    rw [pow_succ, ← add_assoc, ← div_div]
    linarith

theorem GenRl.le_one (h : GenRl δ P₀ next Rep a) (k : Nat) : |a k| ≤ 1 := by
  have h1 := h.decay 0 k
  rw [Nat.zero_add] at h1
  refine le_trans h1 (le_trans (div_le_self (abs_nonneg _) ?_) h.one)
  exact one_le_pow₀ (by norm_num)

theorem GenRl.anti (h : GenRl δ P₀ next Rep a) {k j : Nat} (hkj : k ≤ j) : |a j| ≤ |a k| := by
  obtain ⟨i, rfl⟩ := Nat.exists_eq_add_of_le hkj
  refine le_trans (h.decay k i) (div_le_self (abs_nonneg _) ?_)
  exact one_le_pow₀ (by norm_num)

theorem serSum_abs (h : GenRl δ P₀ next Rep a) {X : ℝ} (h0 : 0 ≤ X) (h1 : X ≤ 1) (k n : Nat) :
    |serSum a X (k + 1) n| ≤ |a k| := by
  unfold serSum
  have hk := h.half k
  calc |∑ i ∈ Finset.range n, a (k + 1 + i) * X ^ i| ≤ ∑ i ∈ Finset.range n, |a (k + 1 + i) * X ^ i| := Finset.abs_sum_le_sum_abs _ _
    _ ≤ ∑ i ∈ Finset.range n, |a (k + 1)| * (1 / 2 : ℝ) ^ i := by
        refine Finset.sum_le_sum fun i _ => ?_
        rw [abs_mul]
        have h2 := h.decay (k + 1) i
        have h4 : |X ^ i| ≤ 1 := by rw [abs_of_nonneg (pow_nonneg h0 _)]; exact pow_le_one₀ h0 h1
        calc |a (k + 1 + i)| * |X ^ i| ≤ |a (k + 1 + i)| * 1 := mul_le_mul_of_nonneg_left h4 (abs_nonneg _)
          _ ≤ _ := by rw [mul_one, one_div, inv_pow, ← div_eq_mul_inv]; exact h2
    _ = |a (k + 1)| * ∑ i ∈ Finset.range n, (1 / 2 : ℝ) ^ i := by rw [Finset.mul_sum]
    _ ≤ |a (k + 1)| * 2 := mul_le_mul_of_nonneg_left (sum_geometric_two_le n) (abs_nonneg _)
    _ ≤ _ := by linarith

theorem serSum_abs_one (h : GenRl δ P₀ next Rep a) {X : ℝ} (h0 : 0 ≤ X) (h1 : X ≤ 1) (k n : Nat) :
    |serSum a X (k + 1) n| ≤ 1 := le_trans (serSum_abs h h0 h1 k n) (h.le_one k)

/-- The cached coefficients, newest first, down to `a (k + 1)`. -/
def CoefListR (δ : ℝ) (P ℓ N : Nat) (a : Nat → ℝ) (k : Nat) : List Num → Prop
  | [] => True
  | c :: cs => Rl δ P ℓ N (a (k + cs.length + 1)) c ∧ CoefListR δ P ℓ N a k cs

/-- The evaluation loop. -/
theorem hornerEval_ab (hd : DOk δ) (hg : GenRl δ P₀ next Rep a) {p : Nat} (hp : PrecOk δ p P) (hP : P ≤ 2 ^ 30) {xs : Num} {X : ℝ}
    {ℓs Ns ℓc Nc k : Nat} (hxs : Lo δ P ℓs Ns X xs) (hX1 : X ≤ 1) (hNs : Ns ≤ 2 ^ 10) (hNc : Nc ≤ 2 ^ 34) :
    ∀ (cs : List Num) (acc : Num) (m E Pa : Nat), CoefListR δ P₀ ℓc Nc a k cs →
      E + (Ns + Nc + 5) * cs.length ≤ 2 ^ 58 → Ab δ Pa E (serSum a X (k + cs.length + 1) m) acc →
      ∃ v, hornerEval p xs cs acc = .ok v ∧
        ∃ Pv, Ab δ Pv (E + (Ns + Nc + 5) * cs.length) (serSum a X (k + 1) (m + cs.length)) v
  | [], acc, m, E, Pa, _, _, h => ⟨acc, rfl, Pa, by simpa using h⟩
  | c :: cs, acc, m, E, Pa, hc, hN, h => by
    rw [List.length_cons] at h hN
    have hX0 := hxs.Xpos
    have e1 : (Ns + Nc + 5) * (cs.length + 1) = (Ns + Nc + 5) * cs.length + (Ns + Nc + 5) := by ring
    rw [e1] at hN
    have hXa := Ab.of_lo hd hxs hX1
    obtain ⟨t, t1, t2⟩ := h.mul hd hp hP hXa (serSum_abs_one hg hX0.le hX1 _ _) (by rw [abs_of_pos hX0]; exact hX1) (by omega) (by omega)
      (le_trans (Nat.mul_le_mul (show E ≤ 2 ^ 58 by omega) hNs) (by norm_num))
    have es := serSum_cons (a := a) X (k + cs.length + 1) m
    rw [show k + cs.length + 1 + 1 = k + (cs.length + 1) + 1 by omega] at es
    have hca := Ab.of_rl hd hc.1 (hg.le_one _)
    obtain ⟨v, v1, v2⟩ := t2.add hd hp hP hca (by rw [← es]; exact serSum_abs_one hg hX0.le hX1 _ _) (by omega) (by omega)
    rw [← es] at v2
    unfold hornerEval
    rw [t1]
    dsimp only
    rw [v1]
    dsimp only
    obtain ⟨w, w1, Pw, w2⟩ := hornerEval_ab hd hg hp hP hxs hX1 hNs hNc cs v (m + 1) (E + (Ns + Nc + 5)) P hc.2 (by omega)
      (v2.mono hd (by omega))
    refine ⟨w, w1, Pw, ?_⟩
    rw [List.length_cons, e1]
    rw [show m + (cs.length + 1) = m + 1 + cs.length by omega,
      show E + ((Ns + Nc + 5) * cs.length + (Ns + Nc + 5)) = E + (Ns + Nc + 5) + (Ns + Nc + 5) * cs.length by omega]
    exact w2

/-- The state of the loop that collects the coefficients. -/
structure CollectR (δ : ℝ) (P₀ : Nat) (Rep : Nat → Nat → G → Prop) (a : Nat → ℝ) (lim : Int) (ℓg ℓc Nc k : Nat) (cp : Int)
    (g : G) (cache : List Num) : Prop where
  coefs : CoefListR δ P₀ ℓc Nc a k cache
  few : cache.length ≤ lim.toNat + 1
  state : cache = [] ∧ cp = 0 ∧ Rep ℓg k g ∨ ∃ c cs, cache = c :: cs ∧ cp = -c.e ∧ Rep ℓc (k + cache.length) g

theorem hornerCollect_rl (hd : DOk δ) (hg : GenRl δ P₀ next Rep a) {lim xe xp0 : Int} {ℓg ℓc Nc k : Nat}
    (hxe : xe ≤ 0) (hxp0 : 0 ≤ xp0) (hℓ1 : ℓg + 80 ≤ ℓc) (hℓ2 : lim.toNat + 82 ≤ ℓc) (hℓ : ℓc ≤ 2 ^ 31 - 200)
    (hk : k + lim.toNat + 3 ≤ 2 ^ 30) (hNc : Nc = 8 * (k + lim.toNat + 3)) :
    ∀ (f : Nat) (xp cp : Int) (g : G) (cache : List Num), cache.length + f = lim.toNat + 3 →
      xp = xp0 - cache.length * xe → CollectR δ P₀ Rep a lim ℓg ℓc Nc k cp g cache →
      ∃ cache' g', hornerCollect next lim xe f xp cp g cache = .ok (cache', g') ∧
        ∃ cp', CollectR δ P₀ Rep a lim ℓg ℓc Nc k cp' g' cache' ∧ lim ≤ xp0 - cache'.length * xe + cp'
  | 0, xp, cp, g, cache, hf, _, hc => absurd hc.few (by omega)
  | f + 1, xp, cp, g, cache, hf, hxp, hc => by
    unfold hornerCollect
    by_cases hlt : xp + cp < lim
    swap
    · rw [if_neg hlt]
      exact ⟨cache, g, rfl, cp, hc, by rw [← hxp]; omega⟩
    rw [if_pos hlt]
    have hxp1 : 0 ≤ xp := by
      rw [hxp]
      have : (cache.length : ℤ) * xe ≤ 0 := mul_nonpos_of_nonneg_of_nonpos (by positivity) hxe
      omega
    have hfew := hc.few
    have key : ∃ ℓ, Rep ℓ (k + cache.length) g ∧ ℓ + 80 ≤ ℓc ∧ cache.length ≤ lim.toNat := by
      rcases hc.state with ⟨h1, h2, h3⟩ | ⟨c, cs, h1, h2, h3⟩
      · rw [h1]; exact ⟨ℓg, h3, hℓ1, by simp⟩
      · have h4 := hc.coefs
        rw [h1] at h4
        obtain ⟨h5, -⟩ := h4
        have hl : cache.length = cs.length + 1 := by rw [h1]; simp
        rw [show k + cs.length + 1 = k + cache.length by omega] at h5
        have h6 := (h5.exp hd (by omega) (by omega)).1
        have h6' := (h5.mag hd (by omega)).2
        have h7 : |a (k + cache.length)| ≤ 2 ^ (-(cache.length : ℤ)) := by
          refine le_trans (hg.decay k cache.length) ?_
          rw [zpow_neg, zpow_natCast, div_eq_mul_inv]
          exact mul_le_of_le_one_left (by positivity) (hg.le_one k)
        have h8 := h5.exp_le hd (by omega) (by omega) h7
        refine ⟨lim.toNat + 2, hg.relb h3 ?_, by omega, by omega⟩
        have h9 : (2 : ℝ) ^ (-((lim.toNat + 2 : ℕ) : ℤ)) * 2 ≤ 2 ^ (c.e - 1) := by
          rw [← zpow_add_one₀ (by norm_num)]
          exact zpow_le_zpow_right₀ (by norm_num) (by push_cast; omega)
        have h10 : |a (k + cache.length)| * (1 + 1 / 2 ^ 40) ≤ |a (k + cache.length)| * 2 :=
          mul_le_mul_of_nonneg_left (by norm_num) (abs_nonneg _)
        linarith
    obtain ⟨ℓ, k1, k2, k3⟩ := key
    obtain ⟨c, g', e1, e2, e3⟩ := hg.next k1 (by omega) (by omega)
    rw [e1]
    dsimp only
    have e3' : Rl δ P₀ ℓc Nc (a (k + cache.length + 1)) c := e3.mono hd (by omega) k2
    obtain ⟨cache', g'', r1, cp', r2, r3⟩ := hornerCollect_rl hd hg hxe hxp0 hℓ1 hℓ2 hℓ hk hNc f (xp - xe) (-c.e) g' (c :: cache)
      (by rw [List.length_cons]; omega) (by rw [hxp, List.length_cons]; push_cast; ring)
      ⟨⟨e3', hc.coefs⟩, by rw [List.length_cons]; omega, Or.inr ⟨c, cache, rfl, rfl, by
        rw [List.length_cons, ← add_assoc]
        exact hg.relb e2 e3'.lb⟩⟩
    exact ⟨cache', g'', r1, cp', r2, r3⟩

theorem collect_bound_rl (hd : DOk δ) (hg : GenRl δ P₀ next Rep a) {lim : Int} {ℓg ℓc Nc k : Nat} {cp : Int} {g : G} {cache : List Num}
    (h : CollectR δ P₀ Rep a lim ℓg ℓc Nc k cp g cache) (hℓ : ℓc ≤ 2 ^ 31 - 200) (hN : Nc ≤ 2 ^ 60) :
    |a (k + cache.length)| * (1 - 1 / 2 ^ 40) ≤ 2 ^ (-cp) := by
  rcases h.state with ⟨h1, h2, -⟩ | ⟨c, cs, h1, h2, -⟩
  · rw [h2, neg_zero, zpow_zero]
    exact mul_le_one₀ (hg.le_one _) (by norm_num) (by norm_num)
  · have h4 := h.coefs
    rw [h1] at h4
    obtain ⟨h5, -⟩ := h4
    rw [h2, neg_neg, h1, List.length_cons, ← add_assoc]
    exact le_trans (h5.mag hd hN).1 (h5.exp hd (by omega) hN).2.le

set_option maxHeartbeats 800000 in
/-- Horner's scheme adds `n` terms of the series; the first term left out is below `4 * δ` of the sum so far. -/
theorem seriesHorner_rl (hd : DOk δ) (hg : GenRl δ P₀ next Rep a) (hp : PrecOk δ P P)
    {add xf xs : Num} {A F X : ℝ} {ℓa Na ℓf Nf ℓs Ns ℓg k : Nat} {g : G}
    (ha : Rl δ P ℓa Na A add) (hf : Rl δ P ℓf Nf F xf) (hs : Lo δ P ℓs Ns X xs) (hr : Rep ℓg k g)
    (hA : |A| ≤ 4) (hFA : |F| ≤ |A| / 2) (hF : |F| ≤ 1 / 2) (hX : X < 1) (hna : Na ≤ 2 ^ 55) (hnf : Nf ≤ 2 ^ 40) (hns : Ns ≤ 2 ^ 10)
    (hℓ : ℓg + P + ℓa + 400 + ℓs + ℓf ≤ 2 ^ 31) (hk : k ≤ 2 ^ 22) (hPa : 0 < P) (hPb : P + ℓa ≤ 2 ^ 22) :
    ∃ v n, seriesHorner next add xf xs g = .ok v ∧ 0 < n ∧
      Rl δ P (ℓa + 1) (2 * Na + 2 * Nf + 2 ^ 53) (A + F * serSum a X (k + 1) n) v ∧
      |F| * X ^ n * |a (k + n + 1)| ≤ 4 * δ * |A| := by
  have hmax : ∀ {ℓ N : Nat} {Z : ℝ} {z : Num}, Rl δ P ℓ N Z z → z.m.maxBitLen = P := by
    intro ℓ N Z z h
    have := h.len
    unfold Mantissa.maxBitLen; omega
  unfold seriesHorner
  dsimp only
  rw [hmax ha, hmax hf, hmax (Rl.of_lo hd hs), max_self, max_self]
  -- exponents
  have ae := ha.exp hd (by omega) (by omega)
  have fe := hf.exp hd (by omega) (by omega)
  have se := hs.exp hd (by omega) (by omega)
  have fe0 : xf.e ≤ 0 := by
    have := hf.exp_le hd (by omega) (by omega) (j := -1) (by rw [zpow_neg, zpow_one]; linarith)
    omega
  have se0 : xs.e ≤ 0 := by
    have := hs.exp_le_zero hd (by omega) (by omega) (j := 0) (by simpa using hX)
    simpa using this
  have ae2 : -(ℓa : ℤ) ≤ add.e := ha.exp_ge hd (by omega) (by omega)
  obtain ⟨lim, hlim⟩ : ∃ lim : ℤ, lim = (P : ℤ) - add.e := ⟨_, rfl⟩
  rw [← hlim]
  have hlim1 : lim.toNat ≤ P + ℓa := by omega
  obtain ⟨Nc, hNc⟩ : ∃ Nc, Nc = 8 * (k + lim.toNat + 3) := ⟨_, rfl⟩
  obtain ⟨ℓc, hℓc⟩ : ∃ ℓc, ℓc = ℓg + P + ℓa + 82 := ⟨_, rfl⟩
  obtain ⟨cache, g', r1, cp, r2, r3⟩ := hornerCollect_rl hd hg (lim := lim) (xe := xs.e) (xp0 := -xf.e - xs.e) (ℓg := ℓg)
    (ℓc := ℓc) (Nc := Nc) (k := k) se0 (by omega) (by omega) (by omega) (by omega) (by omega) hNc (lim.toNat + 3)
    (-xf.e - xs.e) 0 g [] (by simp) (by simp) ⟨trivial, by simp, Or.inl ⟨rfl, rfl, hr⟩⟩
  rw [r1]
  dsimp only
  obtain ⟨J, hJ⟩ : ∃ J, J = cache.length := ⟨_, rfl⟩
  have hJ1 := r2.few
  rw [← hJ] at hJ1 r3
  have hcb := collect_bound_rl hd hg r2 (by omega) (by omega)
  rw [← hJ] at hcb
  -- the last coefficient
  have hrep : ∃ ℓ, Rep ℓ (k + J) g' ∧ ℓ ≤ ℓc := by
    rcases r2.state with ⟨h1, h2, h3⟩ | ⟨c, cs, h1, h2, h3⟩
    · rw [hJ, h1]; exact ⟨ℓg, h3, by omega⟩
    · rw [hJ]; exact ⟨ℓc, h3, le_rfl⟩
  obtain ⟨ℓ, h1, h2⟩ := hrep
  obtain ⟨last, g'', e1, -, e3⟩ := hg.next h1 (by omega) (by omega)
  rw [e1]
  dsimp only
  have e4 : Ab δ P₀ (Nc + 8) (serSum a X (k + cache.length + 1) 1) last := by
    have h3 : serSum a X (k + cache.length + 1) 1 = a (k + J + 1) := by rw [hJ]; simp [serSum]
    rw [h3]
    exact (Ab.of_rl hd e3 (hg.le_one _)).mono hd (by omega)
  have hm : (Ns + Nc + 5) * J ≤ 2 ^ 28 * 2 ^ 23 := Nat.mul_le_mul (by omega) (by omega)
  obtain ⟨v, v1, Pv, v2⟩ := hornerEval_ab hd hg hp (by omega) hs hX.le (ℓc := ℓc) (Nc := Nc) (k := k) (by omega) (by omega) cache last 1
    (Nc + 8) P₀ r2.coefs (by rw [← hJ]; omega) e4
  rw [v1]
  dsimp only
  rw [← hJ, add_comm 1 J] at v2
  have hX0 := hs.Xpos
  have hb := serSum_abs_one hg hX0.le hX.le k (J + 1)
  have hδ := hd.nonneg
  obtain ⟨E, hE⟩ : ∃ E, E = Nc + 8 + (Ns + Nc + 5) * J := ⟨_, rfl⟩
  rw [← hE] at v2
  have hE1 : E ≤ 2 ^ 51 + 2 ^ 30 := by omega
  obtain ⟨t, t1, t2, t3, t4⟩ := v2.mul_rl hd hp hf hb (by linarith) (by omega) (by omega)
    (le_trans (Nat.mul_le_mul (show E ≤ 2 ^ 52 by omega) hnf) (by norm_num)) (by omega)
  rw [t1]
  dsimp only
  have hA0 : 0 ≤ |A| := abs_nonneg _
  have t5 : |(t.toK : ℝ) - serSum a X (k + 1) (J + 1) * F| ≤ (E + Nf + 3 : ℕ) * δ * |A| := by
    refine le_trans t4 (mul_le_mul_of_nonneg_left (by linarith) (mul_nonneg (Nat.cast_nonneg _) hδ))
  have t6 : |serSum a X (k + 1) (J + 1) * F| ≤ |A| / 2 := by
    rw [abs_mul]
    calc |serSum a X (k + 1) (J + 1)| * |F| ≤ 1 * |F| := mul_le_mul_of_nonneg_right hb (abs_nonneg _)
      _ ≤ _ := by rw [one_mul]; exact hFA
  obtain ⟨⟨u, u1, u2⟩, -⟩ := scaled_add hd hp ha hA t2 t5 t6 (by omega) (by omega) (by omega)
  refine ⟨u, J + 1, u1, by omega, ?_, ?_⟩
  · rw [mul_comm F]
    exact u2.mono hd (by omega) le_rfl
  · -- the first term left out
    have q1 : (X * (1 - δ) ^ Ns) ^ (J + 1) ≤ (2 ^ xs.e) ^ (J + 1) :=
      pow_le_pow_left₀ (mul_pos hX0 (hd.pow_pos _)).le (le_trans hs.ge se.2.le) _
    have q2 : |F| * (1 - 1 / 2 ^ 40) ≤ 2 ^ xf.e := le_trans (hf.mag hd (by omega)).1 fe.2.le
    have q3 : |a (k + (J + 1) + 1)| * (1 - 1 / 2 ^ 40) ≤ 2 ^ (-cp) :=
      le_trans (mul_le_mul_of_nonneg_right (hg.anti (by omega)) (by norm_num)) hcb
    have q4 : |F| * (1 - 1 / 2 ^ 40) * (X * (1 - δ) ^ Ns) ^ (J + 1) * (|a (k + (J + 1) + 1)| * (1 - 1 / 2 ^ 40)) ≤
        2 ^ xf.e * (2 ^ xs.e) ^ (J + 1) * 2 ^ (-cp) := by
      refine mul_le_mul (mul_le_mul q2 q1 ?_ (by positivity)) q3 ?_ (by positivity)
      · exact pow_nonneg (mul_pos hX0 (hd.pow_pos _)).le _
      · exact mul_nonneg (abs_nonneg _) (by norm_num)
    have q5 : (2 : ℝ) ^ xf.e * (2 ^ xs.e) ^ (J + 1) * 2 ^ (-cp) ≤ 2 ^ (add.e - 1) * 2 ^ (1 - (P : ℤ)) := by
      rw [← zpow_natCast, ← zpow_mul, ← zpow_add₀ (by norm_num), ← zpow_add₀ (by norm_num), ← zpow_add₀ (by norm_num)]
      refine zpow_le_zpow_right₀ (by norm_num) ?_
      push_cast
      have : xs.e * ((J : ℤ) + 1) = (J : ℤ) * xs.e + xs.e := by ring
      omega
    have q6 : (2 : ℝ) ^ (add.e - 1) * 2 ^ (1 - (P : ℤ)) ≤ |A| * (1 + 1 / 2 ^ 40) * δ :=
      mul_le_mul (le_trans ae.1 (ha.mag hd (by omega)).2) hp.err (by positivity) (mul_nonneg hA0 (by norm_num))
    have hm2 : Ns * (J + 1) ≤ 2 ^ 60 := by
      refine le_trans (Nat.mul_le_mul hns (show J + 1 ≤ 2 ^ 36 by omega)) (by norm_num)
    have q7 := hd.pow (N := Ns * (J + 1)) (by omega)
    have q8 : |F| * (1 - 1 / 2 ^ 40) * (X * (1 - δ) ^ Ns) ^ (J + 1) * (|a (k + (J + 1) + 1)| * (1 - 1 / 2 ^ 40)) =
        |F| * X ^ (J + 1) * |a (k + (J + 1) + 1)| * ((1 - δ) ^ (Ns * (J + 1)) * ((1 - 1 / 2 ^ 40) * (1 - 1 / 2 ^ 40))) := by
      rw [mul_pow, pow_mul (1 - δ)]; ring
    rw [q8] at q4
    have q9 : 0 ≤ |F| * X ^ (J + 1) * |a (k + (J + 1) + 1)| :=
      mul_nonneg (mul_nonneg (abs_nonneg _) (pow_nonneg hX0.le _)) (abs_nonneg _)
    have q10 := mul_le_mul_of_nonneg_left (mul_le_mul q7 (show (3 / 4 : ℝ) ≤ (1 - 1 / 2 ^ 40) * (1 - 1 / 2 ^ 40) by norm_num)
      (by norm_num) (hd.pow_pos _).le) q9
    have q11 : |A| * (1 + 1 / 2 ^ 40) * δ ≤ |A| * (5 / 4) * δ :=
      mul_le_mul_of_nonneg_right (mul_le_mul_of_nonneg_left (by norm_num) hA0) hδ
    have q12 := mul_nonneg hA0 hδ
    linarith

end AF
