import Verif.Lemmas.ExpHorner
import Verif.Lemmas.FftMul
/-!
# Power series with positive coefficients: rectangular splitting
-/

namespace AF

set_option linter.unusedSectionVars false

variable {δ : ℝ} {P₀ P : Nat} {G : Type} {next : G → Except Err (Num × G)} {Rep : Nat → Nat → G → Prop} {a : Nat → ℝ}

/-- The cached powers of the argument, from the power `j` on. -/
def PowList (δ : ℝ) (P ℓs Ns : Nat) (X : ℝ) : Nat → List Num → Prop
  | _, [] => True
  | j, x :: xs => Lo δ P (ℓs * j) ((Ns + 1) * j) (X ^ j) x ∧ PowList δ P ℓs Ns X (j + 1) xs

theorem powCache_spec (hd : DOk δ) (hp : PrecOk δ P P) {xs : Num} {X : ℝ} {ℓs Ns : Nat} (hs : Lo δ P ℓs Ns X xs)
    (hX : X ≤ 1) : ∀ (n j : Nat) (x : Num), ℓs * (j + n) ≤ 2 ^ 31 - 16 → (Ns + 1) * (j + n) ≤ 2 ^ 90 →
      Lo δ P (ℓs * j) ((Ns + 1) * j) (X ^ j) x →
      ∃ l z, powCache P xs n x = .ok (l, z) ∧ l.length = n ∧ PowList δ P ℓs Ns X j l ∧
        Lo δ P (ℓs * (j + n)) ((Ns + 1) * (j + n)) (X ^ (j + n)) z
  | 0, j, x, _, _, hx => ⟨[], x, rfl, rfl, trivial, hx⟩
  | n + 1, j, x, h1, h2, hx => by
    have e1 : ℓs * (j + (n + 1)) = ℓs * j + ℓs + ℓs * n := by ring
    have e2 : (Ns + 1) * (j + (n + 1)) = (Ns + 1) * j + Ns + 1 + (Ns + 1) * n := by ring
    have e3 : X ^ j ≤ 1 := pow_le_one₀ hs.Xpos.le hX
    obtain ⟨y, y1, y2, -⟩ := hx.mul hd hp hs (by omega) (by omega) (by
      have := mul_le_mul e3 hX hs.Xpos.le (by norm_num)
      norm_num at this ⊢; linarith)
    obtain ⟨l, z, r1, r2, r3, r4⟩ := powCache_spec hd hp hs hX n (j + 1) y (by rw [show j + 1 + n = j + (n + 1) by omega]; exact h1)
      (by rw [show j + 1 + n = j + (n + 1) by omega]; exact h2) (by
        rw [pow_succ, show ℓs * (j + 1) = ℓs * j + ℓs by ring, show (Ns + 1) * (j + 1) = (Ns + 1) * j + Ns + 1 by ring]
        exact y2)
    rw [show j + 1 + n = j + (n + 1) by omega] at r4
    refine ⟨x :: l, z, ?_, by rw [List.length_cons, r2], ⟨hx, r3⟩, r4⟩
    unfold powCache
    rw [y1]
    dsimp only
    rw [r1]

/-- The loop over a row. -/
theorem rowLoop_spec (hd : DOk δ) (hg : GenOk δ P₀ next Rep a) (hp : PrecOk δ P P) {X : ℝ} {ℓs Ns k T n : Nat}
    (hX0 : 0 < X) (hX : X ≤ 1) (hℓ : ℓs * n + 80 * (k + n + 1) ≤ 2 ^ 31 - 300) (hT : (Ns + 1) * n + 4 * (k + n + 1) + 1 ≤ T)
    (hT2 : T + n + 1 ≤ 2 ^ 60) (hk : k + n ≤ 2 ^ 36) :
    ∀ (l : List Num) (m : Nat) (acc : Num) (g : G), 0 < m → m + l.length = n + 1 → PowList δ P ℓs Ns X m l →
      Rep (80 * (k + m)) (k + m) g → Lo δ P (80 * (k + 1)) (T + m) (serSum a X (k + 1) m) acc →
      ∃ v g', rowLoop next false P l acc g = .ok (v, g') ∧ Rep (80 * (k + n + 1)) (k + n + 1) g' ∧
        Lo δ P (80 * (k + 1)) (T + n + 1) (serSum a X (k + 1) (n + 1)) v
  | [], m, acc, g, _, hm, _, hr, hc => by
    simp only [List.length_nil, Nat.add_zero] at hm
    subst hm
    exact ⟨acc, g, rfl, hr, hc⟩
  | x :: l, m, acc, g, hm0, hm, hl, hr, hc => by
    rw [List.length_cons] at hm
    obtain ⟨q1, q2⟩ := hl
    have e1 : ℓs * m ≤ ℓs * n := Nat.mul_le_mul_left _ (by omega)
    have e2 : (Ns + 1) * m ≤ (Ns + 1) * n := Nat.mul_le_mul_left _ (by omega)
    obtain ⟨c, g1, c1, c2, c3⟩ := hg.next hr (by omega) (by omega)
    have e3 : X ^ m ≤ 1 := pow_le_one₀ hX0.le hX
    have e4 := hg.le_one (k + m + 1)
    obtain ⟨t, t1, t2, -⟩ := q1.mul hd hp c3 (by omega) (by omega) (by
      have := mul_le_mul e3 e4 (hg.pos _).le (by norm_num)
      norm_num at this ⊢; linarith)
    have e5 : serSum a X (k + 1) m + X ^ m * a (k + m + 1) = serSum a X (k + 1) (m + 1) := by
      rw [serSum_succ, mul_comm, show k + 1 + m = k + m + 1 by omega]
    have e6 := (serSum_bounds hg hX0.le hX (k + 1) (m + 1)).2
    obtain ⟨u, u1, u2, -⟩ := hc.add hd hp t2 (by omega) (by omega) (by rw [e5]; norm_num; linarith)
    rw [e5] at u2
    obtain ⟨v, g', r1, r2, r3⟩ := rowLoop_spec hd hg hp hX0 hX hℓ hT hT2 hk l (m + 1) u g1 (by omega) (by omega) q2
      (by rw [show 80 * (k + (m + 1)) = 80 * (k + m) + 80 by ring]; exact c2)
      (u2.mono hd (by omega) le_rfl)
    refine ⟨v, g', ?_, r2, r3⟩
    unfold rowLoop
    rw [c1]
    dsimp only
    unfold seriesTerm
    rw [if_neg (by decide), t1]
    dsimp only
    rw [u1]
    exact r1

theorem computeRow_spec (hd : DOk δ) (hg : GenOk δ P₀ next Rep a) (hp : PrecOk δ P P) {X : ℝ} {ℓs Ns k T n : Nat}
    (hX0 : 0 < X) (hX : X ≤ 1) (hℓ : ℓs * n + 80 * (k + n + 1) ≤ 2 ^ 31 - 300) (hT : (Ns + 1) * n + 4 * (k + n + 1) + 1 ≤ T)
    (hT2 : T + n + 1 ≤ 2 ^ 60) (hk : k + n ≤ 2 ^ 36) {l : List Num} {g : G} (hln : l.length = n)
    (hl : PowList δ P ℓs Ns X 1 l) (hr : Rep (80 * k) k g) :
    ∃ v g', computeRow next false P l g = .ok (v, g') ∧ Rep (80 * (k + n + 1)) (k + n + 1) g' ∧
        Lo δ P (80 * (k + 1)) (T + n + 1) (serSum a X (k + 1) (n + 1)) v := by
  obtain ⟨z, z1, z2, z3, z4, -⟩ := new_spec (K := ℝ) hp.lt
  obtain ⟨c, g1, c1, c2, c3⟩ := hg.next hr (by omega) (by omega)
  have e4 := hg.le_one (k + 1)
  obtain ⟨u, u1, u2⟩ := Lo.zero_add hd hp z2 z4 c3 (by omega) (by omega) (by norm_num; linarith)
  unfold computeRow
  rw [z1]
  dsimp only
  rw [c1]
  dsimp only
  rw [if_neg (by decide)]
  dsimp only
  rw [u1]
  dsimp only
  have e5 : serSum a X (k + 1) 1 = a (k + 1) := by simp [serSum]
  rw [← e5] at u2
  exact rowLoop_spec hd hg hp hX0 hX hℓ hT hT2 hk l 1 u g1 (by omega) (by omega) hl
    (by rw [show 80 * (k + 1) = 80 * k + 80 by ring]; exact c2)
    (by rw [show 80 * (k + 1) = 80 * k + 80 by ring]; exact u2.mono hd (by omega) le_rfl)

/-- The loop over the rows. -/
theorem rectLoop_spec (hd : DOk δ) (hg : GenOk δ P₀ next Rep a) (hp : PrecOk δ P P) {X : ℝ} {ℓs Ns T T2 cs niter0 : Nat}
    {cache : List Num} {xpow : Num}
    (hX0 : 0 < X) (hX : X ≤ 1) (hcs : 0 < cs) (hcache : cache.length = cs) (hl : PowList δ P ℓs Ns X 1 cache)
    (hxp : Lo δ P (ℓs * (cs + 1)) ((Ns + 1) * (cs + 1)) (X ^ (cs + 1)) xpow)
    (hℓ : (ℓs + 80) * (2 * niter0 + cs + 1) ≤ 2 ^ 31 - 1000)
    (hT : (Ns + 5) * (2 * niter0 + cs + 1) + 1 ≤ T) (hT2 : T + (Ns + 3) * (2 * niter0 + cs + 1) + 8 ≤ T2) (hT3 : T2 + niter0 ≤ 2 ^ 60)
    (hk : 2 * niter0 + cs ≤ 2 ^ 36) :
    ∀ (f r niter : Nat) (acc tp : Num) (g : G), 0 < r → niter + r * cs = niter0 → cs ≤ niter → niter < f →
      Rep (80 * (r * (cs + 1))) (r * (cs + 1)) g → Lo δ P 80 (T2 + r) (serSum a X 1 (r * (cs + 1))) acc →
      Lo δ P (ℓs * (r * (cs + 1))) ((Ns + 2) * (r * (cs + 1))) (X ^ (r * (cs + 1))) tp →
      ∃ acc' tp' niter' g' R, rectLoop next false P cache xpow cs f acc tp niter g = .ok (acc', tp', niter', g') ∧
        niter' < cs ∧ 0 < R ∧ R * cs ≤ niter0 ∧
        Rep (80 * (R * (cs + 1))) (R * (cs + 1)) g' ∧ Lo δ P 80 (T2 + R) (serSum a X 1 (R * (cs + 1))) acc' ∧
        Lo δ P (ℓs * (R * (cs + 1))) ((Ns + 2) * (R * (cs + 1))) (X ^ (R * (cs + 1))) tp'
  | 0, r, niter, acc, tp, g, _, _, _, hf, _, _, _ => absurd hf (by omega)
  | f + 1, r, niter, acc, tp, g, hr0, hn, hcn, hf, hr, hacc, htp => by
    have hrr : r ≤ r * cs := Nat.le_mul_of_pos_right _ hcs
    have hK : r * (cs + 1) = r * cs + r := by ring
    have hM : r * (cs + 1) + cs + 1 ≤ 2 * niter0 + cs + 1 := by omega
    have hM2 : (r + 1) * (cs + 1) = r * (cs + 1) + (cs + 1) := by ring
    have hM3 : (r + 1) * (cs + 1) ≤ 2 * niter0 + cs + 1 := by omega
    have b1 : (ℓs + 80) * ((r + 1) * (cs + 1)) ≤ 2 ^ 31 - 1000 := le_trans (Nat.mul_le_mul_left _ hM3) hℓ
    have b2 : (Ns + 5) * ((r + 1) * (cs + 1)) + 1 ≤ T := le_trans (Nat.succ_le_succ (Nat.mul_le_mul_left _ hM3)) hT
    have b3 : (Ns + 3) * ((r + 1) * (cs + 1)) ≤ (Ns + 3) * (2 * niter0 + cs + 1) := Nat.mul_le_mul_left _ hM3
    rw [hM2] at b1 b2 b3
    generalize r * (cs + 1) = K at hr hacc htp hK hM hM2 b1 b2 b3
    have b1' : ℓs * K + ℓs * (cs + 1) + 80 * K + 80 * (cs + 1) ≤ 2 ^ 31 - 1000 := by
      rw [show ℓs * K + ℓs * (cs + 1) + 80 * K + 80 * (cs + 1) = (ℓs + 80) * (K + (cs + 1)) by ring]; exact b1
    have b2' : (Ns + 1) * cs + 4 * (K + cs + 1) + 1 ≤ T := by
      refine le_trans ?_ b2
      have : (Ns + 5) * (K + (cs + 1)) = (Ns + 1) * cs + 4 * (K + cs + 1) + ((Ns + 1) * (K + 1)) := by ring
      rw [this]; omega
    have b3' : (Ns + 2) * K + (Ns + 2) * (cs + 1) + K + cs + 1 ≤ (Ns + 3) * (2 * niter0 + cs + 1) := by
      refine le_trans (le_of_eq ?_) b3
      ring
    have b4 : (Ns + 2) * (cs + 1) = (Ns + 1) * (cs + 1) + cs + 1 := by ring
    have b5 : ℓs * (cs + 1) = ℓs * cs + ℓs := by ring
    obtain ⟨v, g1, v1, v2, v3⟩ := computeRow_spec hd hg hp (ℓs := ℓs) (Ns := Ns) (k := K) (T := T) (n := cs) hX0 hX (by omega) b2'
      (by omega) (by omega) hcache hl hr
    have e1 := serSum_bounds hg hX0.le hX (K + 1) (cs + 1)
    have e2 : X ^ K ≤ 1 := pow_le_one₀ hX0.le hX
    have e2' : X ^ (cs + 1) ≤ 1 := pow_le_one₀ hX0.le hX
    obtain ⟨t, t1, t2, -⟩ := v3.mul hd hp htp (by omega) (by omega) (by
      have := mul_le_mul e1.2 e2 (pow_pos hX0 _).le (by norm_num)
      norm_num at this ⊢; linarith)
    have e3 : serSum a X 1 K + serSum a X (K + 1) (cs + 1) * X ^ K = serSum a X 1 (K + (cs + 1)) := by
      rw [serSum_add X 1 K (cs + 1), mul_comm, add_comm 1 K]
    obtain ⟨u, u1, u2, -⟩ := hacc.add hd hp t2 (by omega) (by omega) (by
      rw [e3]
      have := serSum_bounds hg hX0.le hX 1 (K + (cs + 1))
      norm_num; linarith)
    rw [e3] at u2
    obtain ⟨w, w1, w2, -⟩ := htp.mul hd hp hxp (by omega) (by omega) (by
      have := mul_le_mul e2 e2' (pow_pos hX0 _).le (by norm_num)
      norm_num at this ⊢; linarith)
    rw [← pow_add] at w2
    have u3 : Lo δ P 80 (T2 + (r + 1)) (serSum a X 1 ((r + 1) * (cs + 1))) u := by
      rw [hM2]
      exact u2.mono hd (by omega) le_rfl
    have w3 : Lo δ P (ℓs * ((r + 1) * (cs + 1))) ((Ns + 2) * ((r + 1) * (cs + 1))) (X ^ ((r + 1) * (cs + 1))) w := by
      rw [hM2, show ℓs * (K + (cs + 1)) = ℓs * K + ℓs * (cs + 1) by ring]
      refine w2.mono hd ?_ le_rfl
      have : (Ns + 2) * (K + (cs + 1)) = (Ns + 2) * K + (Ns + 2) * (cs + 1) := by ring
      rw [this]
      omega
    have g3 : Rep (80 * ((r + 1) * (cs + 1))) ((r + 1) * (cs + 1)) g1 := by
      rw [hM2]; exact v2
    have hrs : (r + 1) * cs = r * cs + cs := by ring
    unfold rectLoop
    rw [v1]
    dsimp only
    rw [t1]
    dsimp only
    rw [u1]
    dsimp only
    rw [w1]
    dsimp only
    rw [if_neg (by omega)]
    by_cases hlt : niter - cs < cs
    · rw [if_pos hlt]
      exact ⟨u, w, niter - cs, g1, r + 1, rfl, hlt, by omega, by omega, g3, u3, w3⟩
    · rw [if_neg hlt]
      exact rectLoop_spec hd hg hp hX0 hX hcs hcache hl hxp hℓ hT hT2 hT3 hk f (r + 1) (niter - cs) u w g1 (by omega) (by omega)
        (by omega) (by omega) g3 u3 w3

theorem cacheSize (niter : Nat) (h1 : 108 ≤ niter) (h2 : niter < 2 ^ 32) :
    0 < min MAX_CACHE (sqrtInt (niter % 2 ^ 32)) ∧ 2 * min MAX_CACHE (sqrtInt (niter % 2 ^ 32)) ≤ niter ∧
      min MAX_CACHE (sqrtInt (niter % 2 ^ 32)) ≤ 128 := by
  rw [Nat.mod_eq_of_lt h2]
  obtain ⟨b1, b2⟩ := sqrtInt_bounds niter
  have b3 : 10 ≤ Nat.sqrt niter := Nat.le_sqrt.2 (by omega)
  have b4 : Nat.sqrt niter * Nat.sqrt niter ≤ niter := Nat.sqrt_le niter
  have b5 : 10 * Nat.sqrt niter ≤ Nat.sqrt niter * Nat.sqrt niter := Nat.mul_le_mul_right _ b3
  unfold MAX_CACHE
  omega

/-- Rectangular splitting, ended by Horner's scheme. -/
theorem seriesRect_spec (hd : DOk δ) (hg : GenOk δ P₀ next Rep a) (hp : PrecOk δ P P)
    {add xf xs : Num} {A F X : ℝ} {ℓa Na ℓf Nf ℓs Ns niter : Nat} {g : G}
    (ha : Lo δ P ℓa Na A add) (hf : Lo δ P ℓf Nf F xf) (hs : Lo δ P ℓs Ns X xs) (hr : Rep 0 0 g)
    (hA : A ≤ 1) (hF : F < 1) (hX : X < 1) (hna : Na ≤ 2 ^ 10) (hnf : Nf ≤ 2 ^ 10) (hns : Ns ≤ 2 ^ 10)
    (hn1 : 108 ≤ niter) (hn2 : niter ≤ 2 ^ 24) (hP : 0 < P) (hPa : P + ℓa ≤ 2 ^ 28)
    (hℓ : (ℓs + 80) * (4 * niter) + P + ℓa + ℓs + 2 * ℓf + 2000 ≤ 2 ^ 31) :
    ∃ v n, seriesRect next false niter add xf xs g = .ok v ∧ 0 < n ∧
      Lo δ P ℓa (2 ^ 50) (A + F * serSum a X 1 n) v ∧
      F * X ^ n * a (n + 1) ≤ 2 * δ * (A + F * serSum a X 1 n) := by
  have hmax : ∀ {ℓ N : Nat} {Z : ℝ} {z : Num}, Lo δ P ℓ N Z z → z.m.maxBitLen = P := by
    intro ℓ N Z z h
    have := h.len
    unfold Mantissa.maxBitLen; omega
  obtain ⟨c1, c2, c3⟩ := cacheSize niter hn1 (by omega)
  unfold seriesRect
  dsimp only
  rw [hmax ha, hmax hf, hmax hs, max_self, max_self]
  generalize min MAX_CACHE (sqrtInt (niter % 2 ^ 32)) = cs at *
  obtain ⟨z, z1, z2, -, z4, -⟩ := new_spec (K := ℝ) hp.lt
  rw [z1]
  dsimp only
  have hX0 := hs.Xpos
  have hF0 := hf.Xpos
  have hA0 := ha.Xpos
  have d1 : (ℓs + 80) * (2 * niter + cs + 1) ≤ (ℓs + 80) * (4 * niter) := Nat.mul_le_mul_left _ (by omega)
  have d2 : (Ns + 5) * (2 * niter + cs + 1) ≤ 2 ^ 11 * 2 ^ 26 := Nat.mul_le_mul (by omega) (by omega)
  have d3 : (Ns + 3) * (2 * niter + cs + 1) ≤ 2 ^ 11 * 2 ^ 26 := Nat.mul_le_mul (by omega) (by omega)
  have d4 : (ℓs + 80) * (cs + 1) ≤ (ℓs + 80) * (2 * niter + cs + 1) := Nat.mul_le_mul_left _ (by omega)
  have d5 : (Ns + 5) * (cs + 1) ≤ (Ns + 5) * (2 * niter + cs + 1) := Nat.mul_le_mul_left _ (by omega)
  have d6 : ℓs * (cs + 1) + 80 * (cs + 1) = (ℓs + 80) * (cs + 1) := by ring
  have d7 : ℓs * (cs + 1) = ℓs * cs + ℓs := by ring
  have d8 : (Ns + 1) * (cs + 1) + 4 * (cs + 1) = (Ns + 5) * (cs + 1) := by ring
  have d9 : (Ns + 1) * (cs + 1) = (Ns + 1) * cs + (Ns + 1) := by ring
  obtain ⟨l, xpow, p1, p2, p3, p4⟩ := powCache_spec hd hp hs hX.le cs 1 xs (by rw [add_comm 1 cs]; omega) (by rw [add_comm 1 cs]; omega)
    (by rw [mul_one, mul_one, pow_one]; exact hs.mono hd (by omega) le_rfl)
  rw [add_comm 1 cs] at p4
  rw [p1]
  dsimp only
  have hr' : Rep (80 * 0) 0 g := hr
  obtain ⟨v, g1, v1, v2, v3⟩ := computeRow_spec hd hg hp (ℓs := ℓs) (Ns := Ns) (k := 0) (T := 2 ^ 40) (n := cs) hX0 hX.le (by omega)
    (by omega) (by omega) (by omega) p2 p3 hr'
  rw [v1]
  dsimp only
  simp only [Nat.zero_add, mul_one] at v2 v3
  have e1 := serSum_bounds hg hX0.le hX.le 1 (cs + 1)
  obtain ⟨u, u1, u2⟩ := Lo.zero_add hd hp z2 z4 v3 (by omega) (by omega) (by norm_num; linarith)
  rw [u1]
  dsimp only
  rw [if_neg (by omega)]
  obtain ⟨acc, tp, nit, g2, R, r1, r2, r3, r4, r5, r6, r7⟩ := rectLoop_spec hd hg hp (ℓs := ℓs) (Ns := Ns) (T := 2 ^ 40)
    (T2 := 2 ^ 42) (cs := cs) (niter0 := niter) hX0 hX.le c1 p2 p3 p4 (by omega) (by omega) (by omega) (by omega) (by omega)
    (niter + 1) 1 (niter - cs) u xpow g1 (by omega) (by omega) (by omega) (by omega) (by rw [one_mul]; exact v2)
    (by rw [one_mul]; exact u2.mono hd (by omega) le_rfl)
    (by rw [one_mul]; exact p4.mono hd (Nat.mul_le_mul_right _ (by omega)) le_rfl)
  rw [r1]
  dsimp only
  have f0 : R ≤ R * cs := Nat.le_mul_of_pos_right _ c1
  obtain ⟨K, hK⟩ : ∃ K, K = R * (cs + 1) := ⟨_, rfl⟩
  have f1 : K = R * cs + R := by rw [hK]; ring
  rw [← hK] at r5 r6 r7
  have f2 : ℓs * K + 80 * K ≤ (ℓs + 80) * (4 * niter) := by
    rw [show ℓs * K + 80 * K = (ℓs + 80) * K by ring]
    exact Nat.mul_le_mul_left _ (by omega)
  have f3 : (Ns + 2) * K ≤ 2 ^ 11 * 2 ^ 25 := Nat.mul_le_mul (by omega) (by omega)
  have e2 := serSum_bounds hg hX0.le hX.le 1 K
  have e2' : serSum a X 1 K * F ≤ 2 := by
    have := mul_le_mul e2.2 hF.le hF0.le (by norm_num)
    linarith
  obtain ⟨b, b1, b2, -⟩ := r6.mul hd hp hf (by omega) (by omega) (by norm_num; linarith)
  rw [b1]
  dsimp only
  have e3 : X ^ K ≤ 1 := pow_le_one₀ hX0.le hX.le
  have e3' : X ^ K * F < 1 := by
    have := mul_le_mul_of_nonneg_right e3 hF0.le
    linarith
  obtain ⟨t, t1, t2, -⟩ := r7.mul hd hp hf (by omega) (by omega) (by norm_num; linarith)
  rw [t1]
  dsimp only
  obtain ⟨s, s1, s2, -⟩ := b2.add hd hp ha (by omega) (by
    rw [max_le_iff]; constructor <;> omega) (by norm_num; linarith)
  rw [s1]
  dsimp only
  rw [if_pos ⟨by unfold MAX_CACHE; omega, rfl⟩]
  have s3 : Lo δ P ℓa (2 ^ 43) (serSum a X 1 K * F + A) s := by
    refine (s2.mono hd ?_ le_rfl).relb ?_
    · have : max (2 ^ 42 + R + Nf + 1) Na ≤ 2 ^ 43 - 1 := by rw [max_le_iff]; constructor <;> omega
      omega
    · have := ha.lb
      have := mul_nonneg e2.1 hF0.le
      linarith
  obtain ⟨w, n, w1, w2, w3, w4, w5⟩ := seriesHorner_spec hd hg hp s3 t2 hs r5 (by linarith) e3' hX (by omega) (by omega) (by omega)
    (by omega) (by omega) hP
  have e4 : serSum a X 1 K * F + A + X ^ K * F * serSum a X (K + 1) n = A + F * serSum a X 1 (K + n) := by
    rw [serSum_add, add_comm 1 K]; ring
  rw [e4] at w4
  refine ⟨w, K + n, w1, by omega, w4.mono hd ?_ le_rfl, ?_⟩
  · have : (Ns + 8) * (K + P + ℓa + 10) ≤ 2 ^ 11 * 2 ^ 30 := Nat.mul_le_mul (by omega) (by omega)
    omega
  · have e5 : F * X ^ (K + n) * a (K + n + 1) = X ^ K * F * X ^ n * a (K + n + 1) := by rw [pow_add]; ring
    rw [e5, ← e4]
    refine le_trans w5 ?_
    refine mul_le_mul_of_nonneg_left ?_ (by have := hd.nonneg; linarith)
    have := mul_nonneg (mul_pos (pow_pos hX0 K) hF0).le (serSum_bounds hg hX0.le hX.le (K + 1) n).1
    linarith

/-- `series_run` for a series that is not given by divisors. -/
theorem seriesRun_spec (hd : DOk δ) (hg : GenOk δ P₀ next Rep a) (hp : PrecOk δ P P)
    {add xf xs : Num} {A F X : ℝ} {ℓa Na ℓf Nf ℓs Ns niter : Nat} {g : G}
    (ha : Lo δ P ℓa Na A add) (hf : Lo δ P ℓf Nf F xf) (hs : Lo δ P ℓs Ns X xs) (hr : Rep 0 0 g)
    (hA : A ≤ 1) (hF : F < 1) (hX : X < 1) (hna : Na ≤ 2 ^ 10) (hnf : Nf ≤ 2 ^ 10) (hns : Ns ≤ 2 ^ 10)
    (hn2 : niter ≤ 2 ^ 24) (hP : 0 < P) (hPa : P + ℓa ≤ 2 ^ 28)
    (hℓ : (ℓs + 80) * (4 * niter) + P + ℓa + ℓs + 2 * ℓf + 2000 ≤ 2 ^ 31) :
    ∃ v n, seriesRun next false add xf xs niter g = .ok v ∧ 0 < n ∧
      Lo δ P ℓa (2 ^ 50) (A + F * serSum a X 1 n) v ∧ v.inexact = true ∧
      F * X ^ n * a (n + 1) ≤ 2 * δ * (A + F * serSum a X 1 n) := by
  have key : ∃ v n, (if (xf.isZero || xs.isZero) = true then seriesFast next false add xf g
    else if niter ≥ RECT_ITER then seriesRect next false niter add xf xs g
    else if false = true then seriesLinear next false add xf xs g
    else seriesHorner next add xf xs g) = .ok v ∧ 0 < n ∧ Lo δ P ℓa (2 ^ 50) (A + F * serSum a X 1 n) v ∧
      F * X ^ n * a (n + 1) ≤ 2 * δ * (A + F * serSum a X 1 n) := by
    rw [if_neg (by rw [hf.nz hd, hs.nz hd]; decide)]
    by_cases hn : niter ≥ RECT_ITER
    · rw [if_pos hn]
      have : RECT_ITER = 108 := by decide
      exact seriesRect_spec hd hg hp ha hf hs hr hA hF hX hna hnf hns (by omega) hn2 hP hPa hℓ
    · rw [if_neg hn, if_neg (by decide)]
      obtain ⟨w, n, w1, w2, w3, w4, w5⟩ := seriesHorner_spec hd hg hp ha hf hs hr (by linarith) hF hX (by omega) (by omega) (by omega)
        (by omega) (by omega) hP
      refine ⟨w, n, w1, w2, w4.mono hd ?_ le_rfl, ?_⟩
      · have : (Ns + 8) * (0 + P + ℓa + 10) ≤ 2 ^ 11 * 2 ^ 30 := Nat.mul_le_mul (by omega) (by omega)
        omega
      · rw [Nat.zero_add] at w5
        refine le_trans w5 ?_
        refine mul_le_mul_of_nonneg_left ?_ (by have := hd.nonneg; linarith)
        have := mul_nonneg hf.Xpos.le (serSum_bounds hg hs.Xpos.le hX.le 1 n).1
        linarith
  obtain ⟨v, n, k1, k2, k3, k4⟩ := key
  refine ⟨{ v with inexact := true }, n, ?_, k2, ?_, rfl, k4⟩
  · unfold seriesRun
    rw [k1]
  · exact ⟨⟨k3.wf.wf, k3.wf.bits, k3.wf.emin, k3.wf.emax, k3.wf.norm, k3.wf.sized⟩, k3.len, k3.le, k3.ge, k3.lb⟩

end AF
