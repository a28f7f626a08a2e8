import Verif.Lemmas.FunLoop
/-!
# Rounding of a truncated value, and loops that test one
-/

namespace AF

set_option linter.unusedSectionVars false

section
variable {K : Type*} [Field K] [LinearOrder K] [IsStrictOrderedRing K]

/-- A number that is tested to its last bit in a directed mode: every number less than one unit below and less than two
units above rounds to the same result. -/
theorem roundable_trunc [Archimedean K] {x : Num} (hx : x.WF) {p s : Nat} (hp : 0 < p) (hps : p < s)
    (hsL : s = 64 * x.m.m.length) {rm : RM} (hnr : rm.nearest = false)
    (hb : RoundableBits rm (val x.m.m) (64 * x.m.m.length - p) (s - p)) {y : K}
    (hlo : |x.toK| - 2 ^ (x.e - (s : ℤ)) < x.s.toK * y) (hhi : x.s.toK * y < |x.toK| + 2 * 2 ^ (x.e - (s : ℤ))) :
    RoundsFmt rm p y (x.s.toK *
      (rndN rm x.s.isPos (val x.m.m) (64 * x.m.m.length - p) * 2 ^ (x.e - (p : ℤ)))) := by
  obtain ⟨n, hn⟩ : ∃ n, n = 64 * x.m.m.length - p := ⟨_, rfl⟩
  rw [← hn] at hb ⊢
  set V := val x.m.m with hV
  set u : K := (2 : K) ^ (x.e - (p : ℤ)) with hu
  have hu0 : 0 < u := two_zpow_pos _
  have hmag := rndN_RMag (K := K) rm x.s.isPos V n
  set k := rndN rm x.s.isPos V n with hk
  have hXu : |(x.toK : K)| = (V : K) / 2 ^ n * u := by
    rw [Num.abs_val, div_mul_eq_mul_div, mul_div_assoc, hu, ← zpow_natCast, ← zpow_sub₀ (by norm_num)]
    congr 2; omega
  set Y : K := x.s.toK * y / u with hY
  have hyY : y = x.s.toK * (Y * u) := by
    rw [hY, div_mul_cancel₀ _ hu0.ne', ← mul_assoc, toK_mul_self, one_mul]
  have hYu : x.s.toK * y = Y * u := by rw [hY, div_mul_cancel₀ _ hu0.ne']
  have h2 : (2 : K) ^ (x.e - (s : ℤ)) = 1 / 2 ^ n * u := by
    rw [hu, one_div, ← zpow_natCast, ← zpow_neg, two_zpow_mul]; congr 1; omega
  rw [hYu, hXu, h2] at hlo hhi
  have hlo' : (V : K) / 2 ^ n - 1 / 2 ^ n < Y := by
    refine lt_of_mul_lt_mul_right (a := u) ?_ hu0.le
    linarith
  have hhi' : Y < (V : K) / 2 ^ n + 2 * (1 / 2 ^ n) := by
    refine lt_of_mul_lt_mul_right (a := u) ?_ hu0.le
    linarith
  obtain ⟨c, hc⟩ : ∃ c, c = V / 2 ^ n := ⟨_, rfl⟩
  have hVc : V = 2 ^ n * c + V % 2 ^ n := by rw [hc]; exact (Nat.div_add_mod V (2 ^ n)).symm
  have hP : (0 : K) < 2 ^ n := by positivity
  have hcell : (((c : K) < (V : K) / 2 ^ n ∧ (V : K) / 2 ^ n < c + 1) ∧ ((c : K) < Y ∧ Y < c + 1)) ∧
      (rm.nearest = true → ((V : K) / 2 ^ n < c + 1 / 2 ∧ Y < c + 1 / 2) ∨
        ((c : K) + 1 / 2 < (V : K) / 2 ^ n ∧ (c : K) + 1 / 2 < Y)) := by
    unfold RoundableBits at hb
    rw [if_neg (by rw [hnr]; exact Bool.false_ne_true)] at hb
    refine ⟨?_, fun h => absurd h (by rw [hnr]; exact Bool.false_ne_true)⟩
    rw [show s - p = n by omega, Nat.sub_self, pow_zero, Nat.div_one] at hb
    obtain ⟨b1, b2⟩ := hb
    obtain ⟨d, hd⟩ : ∃ d, d = V % 2 ^ n := ⟨_, rfl⟩
    rw [← hd] at b1 b2 hVc
    have hVK : (V : K) / 2 ^ n = c + d / 2 ^ n := by
      rw [hVc]; push_cast; field_simp
    have hd1 : 1 / (2 : K) ^ n ≤ d / 2 ^ n := by
      apply div_le_div_of_nonneg_right _ hP.le
      exact_mod_cast b1
    have hd2 : (d : K) / 2 ^ n + 2 * (1 / 2 ^ n) ≤ 1 := by
      rw [mul_one_div, ← add_div, div_le_one hP]
      exact_mod_cast b2
    have h4 : (0 : K) < 1 / 2 ^ n := by positivity
    rw [hVK] at hlo' hhi' ⊢
    refine ⟨⟨by linarith, by linarith⟩, by linarith, by linarith⟩
  have hmagY := hmag.same_cell hcell.1.1 hcell.1.2 hcell.2
  have hY0 : 0 < Y := lt_of_le_of_lt (Nat.cast_nonneg c) hcell.1.2.1
  have habs : |y| = Y * u := by rw [hyY, abs_toK, abs_of_pos (mul_pos hY0 hu0)]
  -- the exponent of `y`
  have hcp : c + 1 ≤ 2 ^ p := by
    have hlt := val_lt_two_pow hx.wf
    have : c < 2 ^ p := by
      rw [hc, Nat.div_lt_iff_lt_mul (by positivity), ← pow_add]
      exact lt_of_lt_of_le hlt (Nat.pow_le_pow_right (by norm_num) (by omega))
    omega
  have hup : |y| < 2 ^ x.e := by
    rw [habs]
    have h1 : Y < 2 ^ p := by
      have h2 : ((c + 1 : ℕ) : K) ≤ ((2 ^ p : ℕ) : K) := by exact_mod_cast hcp
      push_cast at h2
      exact lt_of_lt_of_le hcell.1.2.2 h2
    calc Y * u < 2 ^ p * u := mul_lt_mul_of_pos_right h1 hu0
      _ = 2 ^ x.e := by rw [hu, ← zpow_natCast, two_zpow_mul]; congr 1; omega
  have hq : ∃ q : ℤ, (2 : K) ^ (q - 1) ≤ |y| ∧ |y| < 2 ^ q ∧ max q EMIN = x.e := by
    by_cases hsub : x.m.n < 64 * x.m.m.length
    · have hy0 : 0 < |y| := by rw [habs]; exact mul_pos hY0 hu0
      obtain ⟨q, h1, h2⟩ := exists_mem_Ico_zpow hy0 (show (1 : K) < 2 by norm_num)
      have hz : x.isZero = false := by
        by_contra hz
        rw [Bool.not_eq_false] at hz
        have hv0 := hx.isZero_iff.1 hz
        have h5 := hcell.1.1.1
        rw [hV, hv0] at h5
        simp only [Nat.cast_zero, zero_div] at h5
        exact absurd h5 (not_lt.2 (Nat.cast_nonneg c))
      have he := hx.norm (hx.n_pos hz) hsub
      refine ⟨q + 1, by rw [add_sub_cancel_right]; exact h1, h2, ?_⟩
      have h3 : q < EMIN := by
        rw [← he]
        exact (zpow_lt_zpow_iff_right₀ (show (1 : K) < 2 by norm_num)).1 (lt_of_le_of_lt h1 hup)
      rw [he]; omega
    · refine ⟨x.e, ?_, hup, max_eq_left hx.emin⟩
      have hnl := hx.n_le
      have h1 : 2 ^ (64 * x.m.m.length - 1) ≤ V := by
        rw [hV, ← Nat.lt_size, ← hx.bits]; omega
      have h2 : 2 ^ (p - 1) ≤ c := by
        rw [hc, Nat.le_div_iff_mul_le (by positivity), ← pow_add]
        exact le_trans (le_of_eq (by congr 1; omega)) h1
      have h3 : (2 : K) ^ (p - 1) ≤ Y := by
        have : ((2 ^ (p - 1) : ℕ) : K) ≤ c := by exact_mod_cast h2
        push_cast at this
        exact this.trans hcell.1.2.1.le
      rw [habs]
      calc (2 : K) ^ (x.e - 1) = 2 ^ (p - 1) * u := by
            rw [hu, ← zpow_natCast, two_zpow_mul]; congr 1; omega
        _ ≤ Y * u := mul_le_mul_of_nonneg_right h3 hu0.le
  obtain ⟨q, q1, q2, q3⟩ := hq
  refine Or.inr ⟨q, q1, q2, ?_⟩
  rw [q3, hyY]
  apply RMag.toRounds' (mul_pos hY0 hu0).le hu0
  rw [mul_div_assoc, div_self hu0.ne', mul_one]
  exact hmagY

end

/-- A value of `w` bits that a round tests to its last bit: its magnitude is that of `y` cut off, but for half a unit in
the last place. -/
structure TruncOk (w : Nat) (y : ℝ) (t : Num) : Prop where
  wf : t.WF
  nz : t.isZero = false
  inexact : t.inexact = true
  len : 64 * t.m.m.length = w
  sign : y = t.s.toK * |y|
  lo : |(t.toK : ℝ)| - 2 ^ (t.e - (w : ℤ)) / 2 ≤ |y|
  hi : |y| ≤ |(t.toK : ℝ)| + 2 ^ (t.e - (w : ℤ)) * (3 / 2)

/-- The relative error, and the exponent. -/
theorem TruncOk.rel {t : Num} {y : ℝ} {w : Nat} (h : TruncOk w y t) (hw : 64 ≤ w) {q : ℤ} (hq : EMIN + 2 ≤ q)
    (hy1 : (2 : ℝ) ^ (q - 1) ≤ |y|) :
    EMIN < t.e ∧ t.isZero = false ∧ (2 : ℝ) ^ (t.e - 1) ≤ |(t.toK : ℝ)| ∧ |(t.toK : ℝ) - y| ≤ |y| * 2 ^ (2 - (w : ℤ)) ∧
      |(|(t.toK : ℝ)| - |y|)| ≤ |y| * 2 ^ (2 - (w : ℤ)) := by
  have hlt := h.wf.abs_lt_zpow (K := ℝ)
  have hE : (0 : ℝ) < 2 ^ t.e := by positivity
  have hs : (2 : ℝ) ^ (t.e - (w : ℤ)) = 2 ^ t.e * 2 ^ (-(w : ℤ)) := by rw [← zpow_add₀ (by norm_num)]; rfl
  have hW : (2 : ℝ) ^ (-(w : ℤ)) ≤ 1 / 256 := by
    rw [show (1 / 256 : ℝ) = 2 ^ (-8 : ℤ) by norm_num]
    exact zpow_le_zpow_right₀ (by norm_num) (by omega)
  have hW0 : (0 : ℝ) < 2 ^ (-(w : ℤ)) := by positivity
  have h2w : (2 : ℝ) ^ (2 - (w : ℤ)) = 4 * 2 ^ (-(w : ℤ)) := by
    rw [show 2 - (w : ℤ) = 2 + -(w : ℤ) by ring, zpow_add₀ (by norm_num)]; norm_num
  have hhi := h.hi
  have hlo := h.lo
  rw [hs] at hhi hlo
  rw [h2w]
  obtain ⟨W, hWe⟩ : ∃ W : ℝ, W = 2 ^ (-(w : ℤ)) := ⟨_, rfl⟩
  rw [← hWe] at hhi hlo hW hW0 ⊢
  obtain ⟨E, hEe⟩ : ∃ E : ℝ, E = 2 ^ t.e := ⟨_, rfl⟩
  rw [← hEe] at hhi hlo hE hlt
  have hEW : E * W ≤ E * (1 / 256) := mul_le_mul_of_nonneg_left hW hE.le
  have he : EMIN < t.e := by
    have h1 : (2 : ℝ) ^ (q - 1) < 2 ^ (t.e + 1) := by
      rw [zpow_add_one₀ (by norm_num), ← hEe]
      linarith
    have := (zpow_lt_zpow_iff_right₀ (by norm_num : (1 : ℝ) < 2)).1 h1
    omega
  have hz := h.nz
  obtain ⟨q', q1, q2, q3, -⟩ := h.wf.mag (K := ℝ) hz
  have hqe : q' = t.e := by omega
  rw [hqe] at q1
  have hE2 : E = 2 * 2 ^ (t.e - 1) := by
    rw [hEe, ← zpow_one_add₀ (by norm_num)]; congr 1; ring
  have hd : |(|(t.toK : ℝ)| - |y|)| ≤ E * W * (3 / 2) := by
    have := mul_pos hE hW0
    rw [abs_le]
    constructor <;> linarith
  have hyE : E * (3 / 8) ≤ |y| := by linarith
  have hd2 : |(|(t.toK : ℝ)| - |y|)| ≤ |y| * (4 * W) := by
    refine le_trans hd ?_
    have := mul_le_mul_of_nonneg_right hyE hW0.le
    linarith
  refine ⟨he, hz, q1, ?_, hd2⟩
  have h3 : (t.toK : ℝ) - y = t.s.toK * (|(t.toK : ℝ)| - |y|) := by
    rw [mul_sub, ← h.sign, ← Num.toK_eq]
  rw [h3, abs_toK]
  exact hd2

/-- What a test of a value does. -/
def TryOk (rm : RM) (pw : Nat) (y : ℝ) (w : Nat) (t : Num) : Prop :=
  ∃ a v', t.trySetPrecision (64 * pw) rm w = .ok (a, v') ∧ (a = true → FunRounded rm (64 * pw) y v') ∧
    (rm = .none ∨ rm.directed = true ∧ ¬ NearGrid (64 * pw) 61 |y| → a = true)

theorem NearGrid.mono {P g g' : Nat} {y : ℝ} (h : NearGrid P g y) (hg : g' ≤ g) : NearGrid P g' y := by
  obtain ⟨q, h1, h2, j, h3⟩ := h
  exact ⟨q, h1, h2, j, le_trans h3 (zpow_le_zpow_right₀ (by norm_num) (by omega))⟩

theorem TestOk.tryOk {t : Num} {y : ℝ} {w : Nat} (h : TestOk w y t) (hy : MidRange y) {pw : Nat} (hp : 0 < pw)
    (hpm : 64 * pw < PMAX) (hpw : 64 * pw + 64 ≤ w) (hw : 64 ∣ w) (rm : RM) : TryOk rm pw y w t := by
  obtain ⟨a, v', h1, h2, h3⟩ := h.try hy hp hpm hpw hw rm
  exact ⟨a, v', h1, h2, fun hh => h3 (hh.imp_right fun g => ⟨g.1, fun g' => g.2 (g'.mono (by norm_num))⟩)⟩

/-- A cut off value, accepted. -/
theorem TruncOk.accept {t : Num} {y : ℝ} {w : Nat} (h : TruncOk w y t) {q : ℤ} (hq1 : EMIN + 2 ≤ q)
    (hy1 : (2 : ℝ) ^ (q - 1) ≤ |y|) {pw : Nat} (hp : 0 < pw)
    (hpm : 64 * pw < PMAX) (hpw : 64 * pw + 64 ≤ w) (hw : 64 ∣ w) {rm : RM} {v : Num}
    (htr : t.trySetPrecision (64 * pw) rm w = .ok (true, v)) : FunRounded rm (64 * pw) y v := by
  obtain ⟨he, hz, ht1, hd, hd'⟩ := h.rel (by omega) hq1 hy1
  have hyp : 0 < |y| := lt_of_lt_of_le (by positivity) hy1
  have hpos : 0 < y → t.s = .pos := by
    intro hy
    cases hs : t.s
    · have := h.sign
      rw [hs] at this
      simp only [Sign.toK] at this
      linarith
    · rfl
  have hneg : y < 0 → t.s = .neg := by
    intro hy
    cases hs : t.s
    · rfl
    · have := h.sign
      rw [hs] at this
      simp only [Sign.toK] at this
      linarith
  have hsy : t.s.toK * y = |y| := by
    conv_lhs => rw [h.sign]
    rw [← mul_assoc, toK_mul_self, one_mul]
  by_cases hdir : rm.directed = true
  · have hrn : rm ≠ .none := by intro h; rw [h] at hdir; cases hdir
    have hnr : rm.nearest = false := by cases rm <;> first | rfl | cases hdir
    obtain ⟨b, d1, d2, d3, d4, d5⟩ := tryPrec_accept (K := ℝ) h.wf h.inexact (by omega) (by omega) h.len.ge hw hrn
      (by rw [hnr]; intro hh; cases hh) htr
    have hR := roundable_trunc (K := ℝ) h.wf (by omega) (by omega) h.len.symm hnr b (y := y)
      (by rw [hsy]; have := h.lo; have hh : (0 : ℝ) < 2 ^ (t.e - (w : ℤ)) := by positivity
          linarith)
      (by rw [hsy]; have := h.hi; have hh : (0 : ℝ) < 2 ^ (t.e - (w : ℤ)) := by positivity
          linarith)
    rw [← d5] at hR
    refine ⟨d1, by rw [d2, wordLen_mul], fun h => by rw [d3, hpos h], fun h => by rw [d3, hneg h], d4, fun _ => hR, ?_, ?_⟩
    · rintro (rfl | rfl) <;> cases hdir
    · rintro rfl; cases hdir
  · have hc' : t.inexact = false ∨ rm = .none ∨ rm = .toEven ∨ rm = .toOdd := by
      right
      cases rm <;> first | exact absurd rfl hdir | simp
    obtain ⟨_, hS⟩ := tryPrec_eq_setPrec (by omega) (by omega) h.len.ge (by omega) hc' htr (Or.inr (Or.inr rfl))
    have hD := setPrecision_delivers (K := ℝ) h.wf hp hpm rm
    rw [hS] at hD
    have hN := hD.normal (le_trans (zpow_le_zpow_right₀ (by norm_num) (by omega)) ht1)
    obtain ⟨g1, g2, g3, g4, g5, g6⟩ := hD
    obtain ⟨W, hW⟩ : ∃ W : ℝ, W = 2 ^ (2 - (w : ℤ)) := ⟨_, rfl⟩
    rw [← hW] at hd hd'
    have hW0 : 0 < W := by rw [hW]; positivity
    have hty : |(t.toK : ℝ)| ≤ |y| * (1 + W) := by
      have := le_abs_self (|(t.toK : ℝ)| - |y|)
      linarith
    have htpos : 0 < |(t.toK : ℝ)| := lt_of_lt_of_le (by positivity) ht1
    have htk := Num.toK_eq (K := ℝ) t
    have aux : ∀ (e : ℝ) (r : ℝ), 0 < e → e ≤ 1 → W ≤ e * 2 ^ (-62 : ℤ) → |r - t.toK| ≤ |(t.toK : ℝ)| * e →
        |r - y| ≤ |y| * (e * (1 + 2 ^ (-60 : ℤ))) := by
      intro e r he0 he1 hWe hr
      have h3 : |r - y| ≤ |r - t.toK| + |t.toK - y| := by
        have := abs_add_le (r - t.toK : ℝ) (t.toK - y)
        simpa using this
      have h4 : |(t.toK : ℝ)| * e ≤ |y| * (1 + W) * e := mul_le_mul_of_nonneg_right hty he0.le
      have h5 : |y| * W ≤ |y| * (e * 2 ^ (-62 : ℤ)) := mul_le_mul_of_nonneg_left hWe hyp.le
      have h6 : |y| * W * e ≤ |y| * W := mul_le_of_le_one_right (by positivity) he1
      have h7 : (2 : ℝ) ^ (-60 : ℤ) = 4 * 2 ^ (-62 : ℤ) := by norm_num
      have h8 : 0 < |y| * (e * 2 ^ (-62 : ℤ)) := by positivity
      rw [h7]
      nlinarith only [h3, h4, h5, h6, h8, hr, hd]
    refine ⟨g1, g2, fun h => ?_, fun h => ?_, g5.2 (Or.inl h.inexact), ?_, ?_, ?_⟩
    · refine g3 ?_
      rw [htk, hpos h]; simp only [Sign.toK, one_mul]; exact htpos
    · refine g4 ?_
      rw [htk, hneg h]; simp only [Sign.toK, neg_mul, one_mul]; linarith
    · rintro (rfl | rfl | rfl | rfl) <;> exact absurd rfl hdir
    · intro hr
      refine aux _ _ (by positivity) (zpow_le_one_of_nonpos₀ (by norm_num) (by omega)) ?_
        (hN.nearest_rel (by rcases hr with rfl | rfl <;> rfl))
      rw [hW, ← zpow_add₀ (by norm_num)]
      exact zpow_le_zpow_right₀ (by norm_num) (by push_cast; omega)
    · rintro rfl
      refine aux _ _ (by positivity) (zpow_le_one_of_nonpos₀ (by norm_num) (by omega)) ?_ hN.none_abs
      rw [hW, ← zpow_add₀ (by norm_num)]
      exact zpow_le_zpow_right₀ (by norm_num) (by push_cast; omega)

theorem TruncOk.tryOk {t : Num} {y : ℝ} {w : Nat} (h : TruncOk w y t) (hy : MidRange y) {pw : Nat} (hp : 0 < pw)
    (hpm : 64 * pw < PMAX) (hpw : 64 * pw + 64 ≤ w) (hw : 64 ∣ w) (rm : RM) : TryOk rm pw y w t := by
  obtain ⟨q, hq1, hq2, hy1, hy2⟩ := hy
  obtain ⟨he, hz, ht1, hd, hcy⟩ := h.rel (by omega) hq1 hy1
  have ht := h.wf
  have hwl := h.len.ge
  have hqlo : (0 : ℝ) < 2 ^ (q - 1) := by positivity
  obtain ⟨T, hT⟩ : ∃ T : ℝ, T = |t.toK| := ⟨_, rfl⟩
  obtain ⟨Y, hY⟩ : ∃ Y : ℝ, Y = |y| := ⟨_, rfl⟩
  unfold TryOk
  rw [← hT, ← hY] at hcy
  rw [← hY] at hy1 hy2 ⊢
  have hy0 : 0 < Y := by linarith
  have hε : (2 : ℝ) ^ (2 - (w : ℤ)) ≤ 1 / 16 := by
    rw [show (1 / 16 : ℝ) = 2 ^ (-4 : ℤ) by norm_num]
    exact zpow_le_zpow_right₀ (by norm_num) (by omega)
  have hYe : Y * (2 : ℝ) ^ (2 - (w : ℤ)) ≤ Y * (1 / 16) := mul_le_mul_of_nonneg_left hε hy0.le
  obtain ⟨c3, c4⟩ := abs_le.1 hcy
  have e1 : (2 : ℝ) ^ q = 2 * 2 ^ (q - 1) := by rw [← zpow_one_add₀ (by norm_num)]; congr 1; ring
  have e2 : (2 : ℝ) ^ (q + 1) = 2 * 2 ^ q := by rw [← zpow_one_add₀ (by norm_num)]; congr 1; ring
  have e3 : (2 : ℝ) ^ (q - 1) = 2 * 2 ^ (q - 1 - 1) := by rw [← zpow_one_add₀ (by norm_num)]; congr 1; ring
  have ht1 : (2 : ℝ) ^ (q - 1 - 1) ≤ T := by linarith
  have ht2 : T < 2 ^ (q + 1) := by linarith
  obtain ⟨a, v', htr, hn, hd⟩ : ∃ a v', t.trySetPrecision (64 * pw) rm w = .ok (a, v') ∧ (rm = .none → a = true) ∧
      (rm.directed = true → a = false → (2 : ℝ) ^ (q - 1) ≤ T → T < 2 ^ q →
        ∃ j : ℤ, |T - (j : ℝ) * 2 ^ (q - ((64 * pw : ℕ) : ℤ))| ≤ (2 : ℝ) ^ (q - (w : ℤ))) := by
    by_cases g1 : T < 2 ^ (q - 1)
    · obtain ⟨a, v', k1, k2, k3⟩ := try_cases_abs ht (q := q - 1) (by omega) (by omega) (hT ▸ ht1) (hT ▸ g1) hp hpm hpw hw hwl rm
      exact ⟨a, v', k1, k2, fun _ _ g2 _ => absurd g1 (not_lt.2 g2)⟩
    · push Not at g1
      by_cases g2 : T < 2 ^ q
      · obtain ⟨a, v', k1, k2, k3⟩ := try_cases_abs ht (q := q) (by omega) (by omega) (hT ▸ g1) (hT ▸ g2) hp hpm hpw hw hwl rm
        exact ⟨a, v', k1, k2, fun h1 h2 _ _ => by rw [hT]; exact k3 h1 h2⟩
      · push Not at g2
        obtain ⟨a, v', k1, k2, k3⟩ := try_cases_abs ht (q := q + 1) (by omega) (by omega)
          (by rw [show q + 1 - 1 = q by ring]; exact hT ▸ g2) (hT ▸ ht2) hp hpm hpw hw hwl rm
        exact ⟨a, v', k1, k2, fun _ _ _ g3 => absurd g3 (not_lt.2 g2)⟩
  refine ⟨a, v', htr, ?_, ?_⟩
  · rintro rfl
    exact h.accept hq1 (hY ▸ hy1) hp hpm hpw hw htr
  · rintro (rfl | ⟨hdir, hng⟩)
    · exact hn rfl
    · by_contra ha
      have ha : a = false := by simpa using ha
      have hsmall : Y * 2 ^ (2 - (w : ℤ)) ≤ 2 ^ (q - ((64 * pw : ℕ) : ℤ) - (61 : ℕ)) := by
        refine le_trans (mul_le_mul_of_nonneg_right hy2.le (by positivity)) ?_
        rw [← zpow_add₀ (by norm_num)]
        exact zpow_le_zpow_right₀ (by norm_num) (by push_cast; omega)
      have key : ∀ (P' : ℕ) (r : ℤ), r = q - ((64 * pw : ℕ) : ℤ) + P' → (2 : ℝ) ^ r = ((2 ^ P' : ℤ) : ℝ) * 2 ^ (q - ((64 * pw : ℕ) : ℤ)) := by
        intro P' r hr
        rw [hr, zpow_add₀ (by norm_num), zpow_natCast]
        push_cast; ring
      by_cases g1 : T < 2 ^ (q - 1)
      · refine hng ⟨q, hy1, hy2, 2 ^ (64 * pw - 1), ?_⟩
        rw [← key (64 * pw - 1) (q - 1) (by omega), abs_of_nonneg (by linarith)]
        linarith
      · push Not at g1
        by_cases g2 : T < 2 ^ q
        · obtain ⟨j, hj⟩ := hd hdir ha g1 g2
          exact hng (nearGrid_of_reject (q := q) hy1 hy2 (η := 2 ^ (2 - (w : ℤ))) hcy
            (zpow_le_zpow_right₀ (by norm_num) (by push_cast; omega)) (w := w) (by push_cast; omega) hj)
        · push Not at g2
          refine hng ⟨q, hy1, hy2, 2 ^ (64 * pw), ?_⟩
          rw [← key (64 * pw) q (by omega), abs_of_nonpos (by linarith)]
          linarith

/-- The loop with either kind of test. -/
def StepTry (rm : RM) (pw : Nat) (y : ℝ) (w : Nat) : LoopStep → Prop
  | .ret r => ∃ v, r = .ok v ∧ FunRounded rm (64 * pw) y v
  | .tst v => TryOk rm pw y w v

section
variable {σ : Type} {step : Nat → σ → Option (LoopStep × σ)} {rm : RM} {ix : Bool}

/-- What the loop returns. -/
theorem roundLoop_try {Inv : Nat → σ → Prop} {y : ℝ} {W w0 pw : Nat}
    (hstep : ∀ w s o s', 64 ∣ w → w0 ≤ w → w ≤ W → Inv w s → step w s = some (o, s') →
      (∀ w', w + 64 ≤ w' → Inv w' s') ∧ StepTry rm pw y w o) :
    ∀ {f pInc w : Nat} {s s' : σ} {r : Except Err Num} {w' : Nat}, Inv w s → 64 ∣ w → 64 ∣ pInc → 0 < pInc → w0 ≤ w →
    roundLoop step (64 * pw) rm ix f pInc w s = some (r, s', w') → w' ≤ W → W ≤ 2 ^ 32 →
    (∀ w'', w' + 64 ≤ w'' → Inv w'' s') ∧ ∃ v, r = .ok v ∧ FunRounded rm (64 * pw) y v := by
  intro f
  induction f with
  | zero => intro pInc w s s' r w' _ _ _ _ _ h; simp [roundLoop] at h
  | succ f ih =>
    intro pInc w s s' r w' hi hw hpi hpi0 h1 h hW h32
    have hge := roundLoop_ge h
    rw [roundLoop] at h
    split at h
    · simp at h
    · rename_i r1 s1 heq
      injection h with h; injection h with h2 h; injection h with h3 h4
      rw [h3] at heq
      obtain ⟨i1, i2⟩ := hstep _ _ _ _ hw h1 (by omega) hi heq
      rw [h2] at i2
      rw [← h4]
      exact ⟨i1, i2⟩
    · rename_i v s1 heq
      obtain ⟨i1, a, v', t1, t2, -⟩ := hstep _ _ _ _ hw h1 (by omega) hi heq
      rw [t1] at h
      cases a with
      | true =>
        injection h with h; injection h with h2 h; injection h with h3 h4
        rw [← h4]
        refine ⟨h3 ▸ i1, v', ?_, t2 rfl⟩
        have hx := (t2 rfl).inexact
        rw [← h2]
        congr 1
        cases v'
        simp only at hx
        simp [hx]
      | false =>
        have hd := Nat.dvd_add hw hpi
        have hge := roundLoop_ge h
        obtain ⟨k1, k2, -⟩ := roundP_step (x := w + pInc) (by omega) hd
        have hp64 : 64 ≤ pInc := Nat.le_of_dvd hpi0 hpi
        exact ih (i1 _ (by omega)) hd k1 (by omega) (by omega) h hW h32

/-- The first round returns in mode `None`, and in the directed modes unless the digits are exceptional. -/
theorem roundLoop_try_number {y : ℝ} {w pw : Nat} {s s' : σ} {o : LoopStep} (hs : step w s = some (o, s'))
    (ho : StepTry rm pw y w o) (hrm : rm = .none ∨ rm.directed = true ∧ ¬ NearGrid (64 * pw) 61 |y|) (f pInc : Nat) :
    ∃ r, roundLoop step (64 * pw) rm ix (f + 1) pInc w s = some (r, s', w) := by
  rw [roundLoop, hs]
  cases o with
  | ret r => exact ⟨r, rfl⟩
  | tst v =>
    obtain ⟨a, v', t1, -, t3⟩ := ho
    dsimp only
    rw [t1, t3 hrm]
    exact ⟨_, rfl⟩

end

end AF
