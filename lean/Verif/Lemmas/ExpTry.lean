import Verif.Lemmas.ExpPos
/-!
# The loop of `exp`
-/

namespace AF

/-- A value with a known relative error, tried at `w` bits, anywhere in the normal range. -/
theorem apx_wide {t : Num} (ht : t.WF) (hix : t.inexact = true) {y c : ℝ} {q : ℤ} (hq1 : EMIN + 2 ≤ q) (hq2 : q + 2 ≤ EMAX)
    (hy1 : (2 : ℝ) ^ (q - 1) ≤ y) (hy2 : y < 2 ^ q)
    (hc : t.toK = y * c) {w : Nat} (c2 : |c - 1| ≤ 2 ^ (-(w : ℤ) - 2)) {pw : Nat} (hp : 0 < pw)
    (hpm : 64 * pw < PMAX) (hpw : 64 * pw + 64 ≤ w) (hw : 64 ∣ w) (hwl : w ≤ 64 * t.m.m.length) (rm : RM) :
    ∃ a v', t.trySetPrecision (64 * pw) rm w = .ok (a, v') ∧
      (a = true → DecOk rm (64 * pw) y v' ∧ v'.inexact = true) ∧
      (rm = .none ∨ rm.directed = true ∧ ¬ NearGrid (64 * pw) 63 y → a = true) := by
  have hqlo : (0 : ℝ) < 2 ^ (q - 1) := by positivity
  have hy0 : 0 < y := by linarith
  have hε : (2 : ℝ) ^ (-(w : ℤ) - 2) ≤ 1 / 16 := by
    rw [show (1 / 16 : ℝ) = 2 ^ (-4 : ℤ) by norm_num]
    exact zpow_le_zpow_right₀ (by norm_num) (by omega)
  obtain ⟨c3, c4⟩ := abs_le.1 c2
  have e1 : (2 : ℝ) ^ q = 2 * 2 ^ (q - 1) := by rw [← zpow_one_add₀ (by norm_num)]; congr 1; ring
  have e2 : (2 : ℝ) ^ (q + 1) = 2 * 2 ^ q := by rw [← zpow_one_add₀ (by norm_num)]; congr 1; ring
  have e3 : (2 : ℝ) ^ (q - 1) = 2 * 2 ^ (q - 1 - 1) := by rw [← zpow_one_add₀ (by norm_num)]; congr 1; ring
  have hcy : |t.toK - y| ≤ y * 2 ^ (-(w : ℤ) - 2) := by
    rw [hc, show y * c - y = y * (c - 1) by ring, abs_mul, abs_of_pos hy0]
    exact mul_le_mul_of_nonneg_left c2 hy0.le
  have ht1 : (2 : ℝ) ^ (q - 1 - 1) ≤ t.toK := by
    have h1 : (2 : ℝ) ^ (q - 1) * (1 / 2) ≤ y * c := mul_le_mul hy1 (by linarith) (by norm_num) hy0.le
    rw [hc]; linarith
  have ht2 : (t.toK : ℝ) < 2 ^ (q + 1) := by
    rw [hc, e2]
    nlinarith
  have ht0 : (0 : ℝ) < t.toK := lt_of_lt_of_le (by positivity) ht1
  have hsm : (2 : ℝ) ^ (EMIN - 1) ≤ 2 ^ (q - 1 - 1) := zpow_le_zpow_right₀ (by norm_num) (by omega)
  obtain ⟨a, v', htr, hn, hd⟩ : ∃ a v', t.trySetPrecision (64 * pw) rm w = .ok (a, v') ∧ (rm = .none → a = true) ∧
      (rm.directed = true → a = false → (2 : ℝ) ^ (q - 1) ≤ t.toK → (t.toK : ℝ) < 2 ^ q →
        ∃ j : ℤ, |t.toK - (j : ℝ) * 2 ^ (q - ((64 * pw : ℕ) : ℤ))| ≤ (2 : ℝ) ^ (q - (w : ℤ))) := by
    by_cases g1 : (t.toK : ℝ) < 2 ^ (q - 1)
    · obtain ⟨a, v', k1, k2, k3⟩ := try_cases ht (q := q - 1) (by omega) (by omega) ht1 g1 hp hpm hpw hw hwl rm
      exact ⟨a, v', k1, k2, fun _ _ g2 _ => absurd g1 (not_lt.2 g2)⟩
    · push Not at g1
      by_cases g2 : (t.toK : ℝ) < 2 ^ q
      · obtain ⟨a, v', k1, k2, k3⟩ := try_cases ht (q := q) (by omega) (by omega) g1 g2 hp hpm hpw hw hwl rm
        exact ⟨a, v', k1, k2, fun h1 h2 _ _ => k3 h1 h2⟩
      · push Not at g2
        obtain ⟨a, v', k1, k2, k3⟩ := try_cases ht (q := q + 1) (by omega) (by omega)
          (by rw [show q + 1 - 1 = q by ring]; exact g2) ht2 hp hpm hpw hw hwl rm
        exact ⟨a, v', k1, k2, fun _ _ _ g3 => absurd g3 (not_lt.2 g2)⟩
  refine ⟨a, v', htr, ?_, ?_⟩
  · rintro rfl
    have := tryPrec_apx (K := ℝ) ht (by rw [abs_of_pos hy0]; exact le_trans hsm (by linarith))
      (by rw [abs_of_pos ht0]; exact le_trans hsm ht1) hc c2 (fun h => by rw [hix] at h; cases h)
      hp hpm hpw hw hwl htr
    exact ⟨this.1, this.2 hix⟩
  · rintro (rfl | ⟨hdir, hng⟩)
    · exact hn rfl
    · by_contra ha
      have ha : a = false := by simpa using ha
      have hsmall : y * 2 ^ (-(w : ℤ) - 2) ≤ 2 ^ (q - ((64 * pw : ℕ) : ℤ) - 63) := by
        refine le_trans (mul_le_mul_of_nonneg_right hy2.le (by positivity)) ?_
        rw [← zpow_add₀ (by norm_num)]
        exact zpow_le_zpow_right₀ (by norm_num) (by push_cast; omega)
      have key : ∀ (P' : ℕ) (r : ℤ), r = q - ((64 * pw : ℕ) : ℤ) + P' → (2 : ℝ) ^ r = ((2 ^ P' : ℤ) : ℝ) * 2 ^ (q - ((64 * pw : ℕ) : ℤ)) := by
        intro P' r hr
        rw [hr, zpow_add₀ (by norm_num), zpow_natCast]
        push_cast; ring
      by_cases g1 : (t.toK : ℝ) < 2 ^ (q - 1)
      · refine hng ⟨q, hy1, hy2, 2 ^ (64 * pw - 1), ?_⟩
        rw [← key (64 * pw - 1) (q - 1) (by omega), abs_of_nonneg (by linarith)]
        have := neg_abs_le (t.toK - y)
        push_cast at hsmall ⊢
        linarith
      · push Not at g1
        by_cases g2 : (t.toK : ℝ) < 2 ^ q
        · obtain ⟨j, hj⟩ := hd hdir ha g1 g2
          exact hng (nearGrid_of_reject (q := q) hy1 hy2 (η := 2 ^ (-(w : ℤ) - 2)) hcy
            (zpow_le_zpow_right₀ (by norm_num) (by push_cast; omega)) (w := w) (by push_cast; omega) hj)
        · push Not at g2
          refine hng ⟨q, hy1, hy2, 2 ^ (64 * pw), ?_⟩
          rw [← key (64 * pw) q (by omega), abs_of_nonpos (by linarith)]
          have := le_abs_self (t.toK - y)
          push_cast at hsmall ⊢
          linarith

variable {x : Num} {w : Nat}

/-- The value that a round of the loop tests. -/
theorem exp_value (h : ArgOk x w) {c : ConstCache (Num × Num)} (hc : CacheOk ERep EValOk c) :
    ∃ v c' r, x.expPositive (w + 2) c = some (.ok v, c') ∧ CacheOk ERep EValOk c' ∧
      (if x.isNegative then Num.ONE.div v (w + 2) .fromZero else .ok v) = .ok r ∧ r.WF ∧
      64 * r.m.m.length = w + 64 ∧ r.inexact = true ∧
      ∃ k, (r.toK : ℝ) = Real.exp x.toK * k ∧ |k - 1| ≤ 2 ^ (-(w : ℤ) - 2) := by
  have hδ0 := wUnit_pos w
  have hδ1 : 2 ^ 60 * wUnit w ≤ 1 / 16 := by
    have := wUnit_le h.ge
    calc 2 ^ 60 * wUnit w ≤ 2 ^ 60 * (1 / 2 ^ 190) := mul_le_mul_of_nonneg_left this (by positivity)
      _ ≤ _ := by norm_num
  have hδ2 : (2 : ℝ) ^ (-(w : ℤ) - 2) = 2 ^ 61 * wUnit w := by
    unfold wUnit
    rw [← zpow_natCast, ← zpow_add₀ (by norm_num)]; congr 1; push_cast; ring
  obtain ⟨v, c', v1, v2, v3, v4, v5, v6, v7⟩ := expPositive_spec h hc
  have hE0 := Real.exp_pos |(x.toK : ℝ)|
  have hsg := Num.toK_eq (K := ℝ) x
  rw [hδ2]
  have htop := h.top
  have hE1 : 1 ≤ Real.exp |(x.toK : ℝ)| := Real.one_le_exp (abs_nonneg _)
  by_cases hn : x.isNegative = true
  · have hs : x.s = .neg := by simpa [Num.isNegative] using hn
    rw [hs] at hsg
    have hx : Real.exp (x.toK : ℝ) = (Real.exp |(x.toK : ℝ)|)⁻¹ := by
      rw [← Real.exp_neg]; congr 1; rw [hsg]; simp [Sign.toK]
    rw [hx]
    obtain ⟨E, hE⟩ : ∃ E, E = Real.exp |(x.toK : ℝ)| := ⟨_, rfl⟩
    obtain ⟨δ, hδ⟩ : ∃ δ, δ = wUnit w := ⟨_, rfl⟩
    rw [← hE] at v6 v7 hE0 htop hE1
    rw [← hδ] at v6 v7 hδ0 hδ1
    have hv0 : (0 : ℝ) < v.toK := lt_of_lt_of_le (mul_pos hE0 (by linarith)) v6
    have hvz : v.isZero = false := by
      rw [← Bool.not_eq_true, ← v3.toK_eq_zero (K := ℝ)]
      exact hv0.ne'
    have hp2 := wUnit_PrecOk h.dvd h.le (k := 2) (by norm_num) (by norm_num)
    have hd := div_spec (K := ℝ) ONE_WF v3 hvz hp2.pos (by rw [hp2.eq]; exact hp2.lt) .fromZero
    rw [hp2.eq, ONE_toK] at hd
    have b1 : E⁻¹ * (1 - 2 ^ 53 * δ) ≤ 1 / v.toK := by
      rw [le_div_iff₀ hv0, inv_mul_eq_div, div_mul_eq_mul_div, div_le_one hE0]
      refine le_trans (mul_le_mul_of_nonneg_left v7 (by linarith)) ?_
      rw [show (1 - 2 ^ 53 * δ) * (E * (1 + 2 ^ 53 * δ)) = E * (1 - (2 ^ 53 * δ) * (2 ^ 53 * δ)) by ring]
      have : 0 ≤ (2 ^ 53 * δ) * (2 ^ 53 * δ) := by positivity
      nlinarith
    have b2 : 1 / v.toK ≤ E⁻¹ * (1 + 2 ^ 54 * δ) := by
      rw [div_le_iff₀ hv0, inv_mul_eq_div, div_mul_eq_mul_div, one_le_div hE0]
      refine le_trans ?_ (mul_le_mul_of_nonneg_left v6 (by linarith))
      rw [show (1 + 2 ^ 54 * δ) * (E * (1 - 2 ^ 53 * δ)) = E * (1 + 2 ^ 53 * δ * (1 - 2 ^ 54 * δ)) by ring]
      have : 0 ≤ 2 ^ 53 * δ * (1 - 2 ^ 54 * δ) := mul_nonneg (by positivity) (by linarith)
      nlinarith
    have hEi : 0 < E⁻¹ := inv_pos.2 hE0
    have hEi1 : E⁻¹ ≤ 1 := inv_le_one_of_one_le₀ hE1
    have hEilo : (2 : ℝ) ^ (-(EMAX - 4)) ≤ E⁻¹ := by
      rw [zpow_neg]
      exact inv_anti₀ hE0 htop
    obtain ⟨r, r1, r2, r3, r4, r5, r6⟩ := fz_step hd (by
        refine le_trans ?_ b1
        refine le_trans ?_ (mul_le_mul hEilo (show (1 / 2 : ℝ) ≤ 1 - 2 ^ 53 * δ by linarith) (by norm_num) hEi.le)
        rw [show (1 / 2 : ℝ) = 2 ^ (-1 : ℤ) by norm_num, ← zpow_add₀ (by norm_num)]
        exact zpow_le_zpow_right₀ (by norm_num) (by unfold EMIN EMAX; norm_num)) (by
        refine le_trans b2 ?_
        have : E⁻¹ * (1 + 2 ^ 54 * δ) ≤ 1 * 2 := mul_le_mul hEi1 (by linarith) (by linarith) (by norm_num)
        refine le_trans this ?_
        rw [show (1 * 2 : ℝ) = 2 ^ (1 : ℤ) by norm_num]
        exact zpow_le_zpow_right₀ (by norm_num) (by unfold EMAX; norm_num)) (by omega)
    rw [wUnit_eq, ← hδ] at r5
    refine ⟨v, c', r, v1, v2, by rw [if_pos hn]; exact r1, r2, r3, r6 ?_, r.toK / E⁻¹, ?_, ?_⟩
    · unfold divIx
      rw [ONE_nz, v5]
      simp
    · rw [← hE]; field_simp
    · have d1 : 1 - 2 ^ 53 * δ ≤ r.toK / E⁻¹ := by
        rw [le_div_iff₀ hEi, mul_comm]
        exact le_trans b1 r4
      have d2 : r.toK / E⁻¹ ≤ (1 + 2 ^ 54 * δ) * (1 + δ) := by
        rw [div_le_iff₀ hEi]
        refine le_trans r5 (le_trans (mul_le_mul_of_nonneg_right b2 (by linarith)) (le_of_eq ?_))
        ring
      rw [← hδ]
      rw [abs_le]
      constructor
      · linarith
      · have : 2 ^ 54 * δ * δ ≤ δ := by nlinarith
        nlinarith
  · have hs : x.s = .pos := by
      cases hxs : x.s
      · simp [Num.isNegative, hxs] at hn
      · rfl
    rw [hs] at hsg
    have hx : Real.exp (x.toK : ℝ) = Real.exp |(x.toK : ℝ)| := by
      congr 1; rw [hsg]; simp [Sign.toK]
    rw [hx]
    refine ⟨v, c', v, v1, v2, by rw [if_neg hn], v3, v4, v5, v.toK / Real.exp |(x.toK : ℝ)|, by field_simp, ?_⟩
    rw [abs_le]
    constructor
    · rw [neg_le_sub_iff_le_add, ← sub_le_iff_le_add, le_div_iff₀ hE0, mul_comm]
      refine le_trans (mul_le_mul_of_nonneg_left ?_ hE0.le) v6
      linarith
    · rw [sub_le_iff_le_add, div_le_iff₀ hE0, mul_comm]
      refine le_trans v7 (mul_le_mul_of_nonneg_left ?_ hE0.le)
      linarith

theorem ArgOk.binade (h : ArgOk x w) : ∃ q : ℤ, EMIN + 2 ≤ q ∧ q + 2 ≤ EMAX ∧
    (2 : ℝ) ^ (q - 1) ≤ Real.exp x.toK ∧ Real.exp x.toK < 2 ^ q := by
  have h1 : Real.exp (x.toK : ℝ) ≤ 2 ^ (EMAX - 4) := le_trans (Real.exp_le_exp.2 (le_abs_self _)) h.top
  have h2 : (2 : ℝ) ^ (-(EMAX - 4)) ≤ Real.exp x.toK := by
    rw [zpow_neg]
    refine le_trans (inv_anti₀ (Real.exp_pos _) h.top) ?_
    rw [← Real.exp_neg]
    exact Real.exp_le_exp.2 (neg_abs_le _)
  obtain ⟨q, q1, q2⟩ := exists_mem_Ico_zpow (Real.exp_pos (x.toK : ℝ)) (by norm_num : (1 : ℝ) < 2)
  refine ⟨q + 1, ?_, ?_, by rw [show q + 1 - 1 = q by ring]; exact q1, q2⟩
  · have := (zpow_lt_zpow_iff_right₀ (by norm_num : (1 : ℝ) < 2)).1 (lt_of_le_of_lt h2 q2)
    unfold EMAX at this
    unfold EMIN; omega
  · have := (zpow_le_zpow_iff_right₀ (by norm_num : (1 : ℝ) < 2)).1 (le_trans q1 h1)
    omega

/-- What a round does: it returns an answer or goes on to the next round. -/
theorem exp_round (h : ArgOk x w) {c : ConstCache (Num × Num)} (hc : CacheOk ERep EValOk c) {pw : Nat} (hp : 0 < pw)
    (hpw : 64 * pw + 64 ≤ w) (rm : RM) :
    ∃ a r c', CacheOk ERep EValOk c' ∧
      (∀ f pInc, x.expLoop (64 * pw) rm (f + 1) pInc w c =
        if a = true then some (.ok { r with inexact := r.inexact || x.inexact }, c', w)
        else x.expLoop (64 * pw) rm f (roundP ((w + pInc) / 5)) (w + pInc) c') ∧
      (a = true → DecOk rm (64 * pw) (Real.exp x.toK) r ∧ r.inexact = true) ∧
      (rm = .none ∨ rm.directed = true ∧ ¬ NearGrid (64 * pw) 63 (Real.exp x.toK) → a = true) := by
  obtain ⟨v, c', t, v1, v2, v3, v4, v5, v6, k, v7, v8⟩ := exp_value h hc
  obtain ⟨q, q1, q2, q3, q4⟩ := h.binade
  have h22 := h.le
  obtain ⟨a, r, a1, a2, a3⟩ := apx_wide v4 v6 q1 q2 q3 q4 v7 v8 hp (by unfold PMAX; omega) hpw h.dvd (by omega) rm
  refine ⟨a, r, c', v2, ?_, a2, a3⟩
  intro f pInc
  rw [Num.expLoop, v1]
  dsimp only
  rw [v3]
  dsimp only
  rw [a1]
  cases a <;> rfl

end AF
