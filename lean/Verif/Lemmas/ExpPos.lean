import Verif.Lemmas.ExpArg
/-!
# `exp_positive_arg`
-/

namespace AF

/-- An argument and a working precision for which the computation is covered. -/
structure ArgOk (x : Num) (w : Nat) : Prop where
  wf : x.WF
  nz : x.isZero = false
  dvd : 64 ∣ w
  ge : 128 ≤ w
  le : w ≤ 2 ^ 22
  len : 64 * x.m.m.length ≤ w
  big : -(w : ℤ) < x.e
  top : Real.exp |(x.toK : ℝ)| ≤ 2 ^ (EMAX - 4)

/-- The unit of the errors at the working precision `w`. -/
noncomputable def wUnit (w : Nat) : ℝ := 2 ^ (-(w : ℤ) - 63)

theorem wUnit_pos (w : Nat) : 0 < wUnit w := by unfold wUnit; positivity

theorem wUnit_le {w : Nat} (hw : 128 ≤ w) : wUnit w ≤ 1 / 2 ^ 190 := by
  rw [show (1 / 2 ^ 190 : ℝ) = 2 ^ (-190 : ℤ) by rw [zpow_neg]; norm_num]
  exact zpow_le_zpow_right₀ (by norm_num) (by omega)

theorem wUnit_eq (w : Nat) : (2 : ℝ) ^ (1 - ((w + 64 : ℕ) : ℤ)) = wUnit w := by
  unfold wUnit; congr 1; push_cast; ring

theorem wUnit_DOk {w : Nat} (hw : 128 ≤ w) : DOk (wUnit w) :=
  ⟨(wUnit_pos w).le, le_trans (wUnit_le hw) (by norm_num)⟩

theorem precBits_w {w k : Nat} (hw : 64 ∣ w) (hk : 1 ≤ k) (hk' : k ≤ 64) : precBits (w + k) = w + 64 := by
  unfold precBits; omega

theorem validP_w {w k : Nat} (h2 : w ≤ 2 ^ 22) (hk : 1 ≤ k) (hk' : k ≤ 64) : ValidP (w + k) := by
  have : precBits (w + k) ≤ 2 ^ 23 := by unfold precBits; omega
  refine ⟨by omega, ?_⟩
  omega

theorem wUnit_PrecOk {w : Nat} (hd : 64 ∣ w) (h2 : w ≤ 2 ^ 22) {k : Nat} (hk : 1 ≤ k) (hk' : k ≤ 64) :
    PrecOk (wUnit w) (w + k) (w + 64) where
  pos := by omega
  eq := by rw [(validP_w h2 hk hk').roundP, precBits_w hd hk hk']
  lt := by unfold PMAX; omega
  err := (wUnit_eq w).le

/-- The constant `e` at the working precision. -/
theorem eForPrec_none {w : Nat} (hd : 64 ∣ w) (h2 : w ≤ 2 ^ 22) {c : ConstCache (Num × Num)}
    (hc : CacheOk ERep EValOk c) :
    ∃ v c', eForPrec (w + 64) .none c = some (.ok v, c') ∧ CacheOk ERep EValOk c' ∧
      ConstRounded .none (w + 64) (Real.exp 1) v := by
  obtain ⟨pw, hpw⟩ : ∃ pw, w + 64 = 64 * pw := ⟨w / 64 + 1, by omega⟩
  have hr : roundP (64 * pw) = 64 * pw := by
    have := (wUnit_PrecOk hd h2 (k := 64) (by norm_num) (by norm_num)).eq
    rw [hpw] at this
    exact this
  obtain ⟨r, c', h1, h2', h3, h4, h5⟩ := (e_loop (pw := pw) (by omega) (by unfold PMAX; omega) .none).forPrec eSeries hc
    ⟨by norm_num, by rw [hr]; omega, by rw [hr]⟩
  obtain ⟨v, rfl⟩ := h4 (Or.inl rfl) (bFactor_le (by rw [hr]; omega) (by rw [hr]; omega))
  refine ⟨v, c', ?_, h2', ?_⟩
  · unfold eForPrec
    rw [hpw]
    exact h1
  · rcases h3 with ⟨v', h6, h7, h8⟩ | h6
    · injection h6 with h6
      rw [h6, hpw]
      exact h7.rounded (Real.exp_pos 1) h8
    · cases h6

variable {x : Num} {w : Nat}

/-- The argument is below `2^31`. -/
theorem ArgOk.lt (h : ArgOk x w) : |(x.toK : ℝ)| ≤ 2 ^ 31 := by
  by_contra hc
  push Not at hc
  have h1 := h.top
  obtain ⟨n, hn⟩ : ∃ n : ℕ, n = 2 ^ 31 := ⟨_, rfl⟩
  have hnR : (n : ℝ) = 2 ^ 31 := by rw [hn]; norm_num
  have h2 : Real.exp (n : ℝ) ≤ Real.exp |(x.toK : ℝ)| := Real.exp_le_exp.2 (by rw [hnR]; exact hc.le)
  have h3 : (2 : ℝ) ^ n ≤ Real.exp (n : ℝ) := by
    rw [show (n : ℝ) = (n : ℝ) * 1 by ring, Real.exp_nat_mul]
    refine pow_le_pow_left₀ (by norm_num) ?_ _
    linarith [Real.add_one_le_exp (1 : ℝ)]
  have h4 : (2 : ℝ) ^ (EMAX - 4) < 2 ^ n := by
    rw [← zpow_natCast]
    refine zpow_lt_zpow_right₀ (by norm_num) ?_
    rw [hn]; unfold EMAX; norm_num
  linarith

theorem ArgOk.e_le (h : ArgOk x w) : x.e ≤ 64 := by
  obtain ⟨q, q1, -, q3, -⟩ := h.wf.mag (K := ℝ) h.nz
  have h1 := le_trans q1 h.lt
  rw [show (2 : ℝ) ^ 31 = 2 ^ (31 : ℤ) by norm_cast] at h1
  have := (zpow_le_zpow_iff_right₀ (by norm_num : (1 : ℝ) < 2)).1 h1
  unfold EMIN at q3
  omega

theorem ArgOk.e_gt (h : ArgOk x w) : EMIN < x.e := by
  have := h.big
  have := h.le
  unfold EMIN; omega

/-- The integer part. -/
theorem expInt_spec (h : ArgOk x w) {c : ConstCache (Num × Num)} (hc : CacheOk ERep EValOk c) :
    ∃ v c', x.expInt (w + 6) c = some (.ok v, c') ∧ CacheOk ERep EValOk c' ∧ v.WF ∧
      (⌊|(x.toK : ℝ)|⌋ ≠ 0 → v.inexact = true) ∧
      Real.exp ⌊|(x.toK : ℝ)|⌋ * (1 - 2 ^ 40 * wUnit w) ≤ v.toK ∧
      (v.toK : ℝ) ≤ Real.exp ⌊|(x.toK : ℝ)|⌋ * (1 + 2 ^ 40 * wUnit w) := by
  have hδ0 := wUnit_pos w
  have hδ1 := wUnit_le h.ge
  obtain ⟨n, n1, n2, n3⟩ := intAsUsize_spec h.wf h.nz h.e_le
  unfold Num.expInt
  rw [n1, ← n2]
  dsimp only
  by_cases hn : n > 0
  · rw [if_pos hn, (validP_w h.le (by norm_num) (by norm_num)).roundP, precBits_w h.dvd (by norm_num) (by norm_num)]
    obtain ⟨ec, c', e1, e2, e3⟩ := eForPrec_none h.dvd h.le hc
    rw [e1]
    dsimp only
    have hnle : (n : ℝ) ≤ |(x.toK : ℝ)| := by
      have := Int.floor_le |(x.toK : ℝ)|
      rw [← n2] at this
      exact_mod_cast this
    have hn31 : (n : ℝ) ≤ 2 ^ 31 := le_trans hnle h.lt
    have hn32 : n < 2 ^ 32 := by
      have : n ≤ 2 ^ 31 := by exact_mod_cast hn31
      omega
    have hE : Real.exp (n : ℝ) ≤ 2 ^ (EMAX - 4) := le_trans (Real.exp_le_exp.2 hnle) h.top
    have hE0 := Real.exp_pos (n : ℝ)
    -- the constant
    have he0 := Real.exp_pos (1 : ℝ)
    have hcst := e3.none rfl
    rw [abs_of_pos he0] at hcst
    have hδe : (2 : ℝ) ^ (1 - ((w + 64 : ℕ) : ℤ)) * (1 + 2 ^ (-60 : ℤ)) ≤ 2 * wUnit w := by
      rw [wUnit_eq]
      have : (2 : ℝ) ^ (-60 : ℤ) ≤ 1 := by norm_num
      nlinarith
    have hcst2 := abs_le.1 (le_trans hcst (mul_le_mul_of_nonneg_left hδe he0.le))
    have hlo : Real.exp 1 * (1 - 2 * wUnit w) ≤ ec.toK := by linarith [hcst2.1]
    have hhi : (ec.toK : ℝ) ≤ Real.exp 1 * (1 + 2 * wUnit w) := by linarith [hcst2.2]
    have hδs : wUnit w ≤ 1 / 4 := le_trans hδ1 (by norm_num)
    have hec1 : (1 : ℝ) ≤ ec.toK := by
      have : (2 : ℝ) ≤ Real.exp 1 := by linarith [Real.add_one_le_exp (1 : ℝ)]
      refine le_trans ?_ hlo
      nlinarith
    have hpn : Real.exp (n : ℝ) = Real.exp 1 ^ n := by rw [← Real.exp_nat_mul, mul_one]
    have hnδ : (n : ℝ) * (2 * wUnit w) ≤ 1 / 2 := by
      have := mul_le_mul hn31 (show 2 * wUnit w ≤ 2 * (1 / 2 ^ 190) by linarith) (by positivity) (by positivity)
      refine le_trans this (by norm_num)
    have p1 : Real.exp n * (1 - n * (2 * wUnit w)) ≤ (ec.toK : ℝ) ^ n := by
      rw [hpn]
      refine le_trans ?_ (pow_le_pow_left₀ (mul_nonneg he0.le (by linarith)) hlo n)
      rw [mul_pow]
      refine mul_le_mul_of_nonneg_left ?_ (by positivity)
      have := one_add_mul_le_pow (a := -(2 * wUnit w)) (by linarith) n
      rw [← sub_eq_add_neg] at this
      linarith
    have p2 : (ec.toK : ℝ) ^ n ≤ Real.exp n * (1 + 2 * (n * (2 * wUnit w))) := by
      rw [hpn]
      refine le_trans (pow_le_pow_left₀ (by linarith) hhi n) ?_
      rw [mul_pow]
      refine mul_le_mul_of_nonneg_left ?_ (by positivity)
      refine le_trans (one_add_pow_le (2 * wUnit w) (by linarith) n (by linarith)) ?_
      have : 0 ≤ (n : ℝ) * (2 * wUnit w) := by positivity
      nlinarith
    have hnn : (n : ℝ) * (2 * wUnit w) ≤ 2 ^ 32 * wUnit w := by nlinarith
    have hpb := precBits_w (w := w) (k := 6) h.dvd (by norm_num) (by norm_num)
    obtain ⟨v, v1, v2, v3, v4, v5, v6⟩ := powi_none e3.wf hec1 e3.inexact (n := n) (p := w + 6) hn hn32
      (validP_w h.le (by norm_num) (by norm_num)) (by rw [hpb]; have := h.le; omega) (by rw [hpb]; exact e3.prec) (by
        refine lt_of_le_of_lt p2 ?_
        have h4 : (2 : ℝ) ^ (EMAX - 2) = 2 ^ (EMAX - 4) * 4 := by
          rw [show EMAX - 2 = (EMAX - 4) + 2 by ring, zpow_add₀ (by norm_num)]; norm_num
        rw [h4]
        have h5 : (0 : ℝ) < 2 ^ (EMAX - 4) := by positivity
        nlinarith)
    rw [hpb, wUnit_eq] at v5 v6
    refine ⟨v, c', by rw [v1], e2, v2, fun _ => v4, ?_, ?_⟩
    · rw [Int.cast_natCast]
      have q1 : Real.exp n * ((1 - n * (2 * wUnit w)) * (1 - wUnit w)) ≤ v.toK := by
        rw [← mul_assoc]
        exact le_trans (mul_le_mul_of_nonneg_right p1 (by linarith)) v5
      refine le_trans (mul_le_mul_of_nonneg_left ?_ hE0.le) q1
      have : 0 ≤ (n : ℝ) * (2 * wUnit w) := by positivity
      nlinarith
    · rw [Int.cast_natCast]
      have q1 : (v.toK : ℝ) ≤ Real.exp n * ((1 + 2 * (n * (2 * wUnit w))) * (1 + wUnit w)) := by
        rw [← mul_assoc]
        exact le_trans v6 (mul_le_mul_of_nonneg_right p2 (by linarith))
      refine le_trans q1 (mul_le_mul_of_nonneg_left ?_ hE0.le)
      have : 0 ≤ (n : ℝ) * (2 * wUnit w) := by positivity
      nlinarith
  · rw [if_neg hn]
    have hn0 : n = 0 := by omega
    rw [hn0]
    refine ⟨Num.ONE, c, rfl, hc, ONE_WF, fun h => absurd rfl h, ?_, ?_⟩
    · rw [ONE_toK]; simp; positivity
    · rw [ONE_toK]; simp; positivity

/-- The fractional part. -/
theorem expFract_spec (h : ArgOk x w) :
    ∃ v, x.expFract (w + 6) = .ok v ∧ v.WF ∧ (Int.fract |(x.toK : ℝ)| ≠ 0 → v.inexact = true) ∧
      Real.exp (Int.fract |(x.toK : ℝ)|) * (1 - 2 ^ 52 * wUnit w) ≤ v.toK ∧
      (v.toK : ℝ) ≤ Real.exp (Int.fract |(x.toK : ℝ)|) * (1 + wUnit w) := by
  have hδ0 := wUnit_pos w
  have h22 := h.le
  have hl := h.len
  have hge := h.ge
  obtain ⟨f1, f2, f3⟩ := fract_real h.wf (by omega)
  unfold Num.expFract
  dsimp only
  by_cases h0 : Int.fract |(x.toK : ℝ)| = 0
  · have hz : x.fract.isZero = true := by
      rw [← f1.toK_eq_zero (K := ℝ), ← abs_eq_zero, f3, h0]
    rw [hz]
    refine ⟨Num.ONE, rfl, ONE_WF, fun h => absurd h0 h, ?_, ?_⟩
    · rw [ONE_toK, h0]; simp; positivity
    · rw [ONE_toK, h0]; simp; positivity
  · have hz : x.fract.isZero = false := by
      rw [← Bool.not_eq_true, ← f1.toK_eq_zero (K := ℝ), ← abs_eq_zero, f3]
      exact h0
    rw [hz, if_pos (by rfl)]
    obtain ⟨y, y1, y2, y3, y4, -⟩ := setPrecision_extend (x := { x.fract with inexact := false })
      ⟨f1.wf, f1.bits, f1.emin, f1.emax, f1.norm, f1.sized⟩ (p := w + 6) (by omega) (by unfold PMAX; omega)
      (by show 64 * x.fract.m.m.length ≤ w + 6; omega) .none
    rw [y1]
    dsimp only
    have hyv : ((y.setSign .pos).toK : ℝ) = Int.fract |(x.toK : ℝ)| := by
      rw [← f3]
      have : (y.toK : ℝ) = x.fract.toK := y4
      rw [← this, Num.abs_val]
      simp [Num.setSign, Num.toK, Sign.toK]
    have hlen : 64 * (y.setSign .pos).m.m.length = w + 64 := by
      show 64 * y.m.m.length = w + 64
      rw [y3]
      have := h.dvd
      unfold wordLen; omega
    have hpos : 0 < Int.fract |(x.toK : ℝ)| := lt_of_le_of_ne (Int.fract_nonneg _) (Ne.symm h0)
    have hlow := fract_lower h.wf h.nz (P := w) hl h.big h.e_gt h0
    obtain ⟨v, v1, v2, -, v4, v5, v6⟩ := expf_spec (wUnit_DOk h.ge)
      (wUnit_PrecOk h.dvd h.le (k := 64) (by norm_num) (by norm_num)) (by omega) (by omega)
      (x := y.setSign .pos) ⟨y2.wf, y2.bits, y2.emin, y2.emax, y2.norm, y2.sized⟩ hlen (by rw [hyv]; exact hpos)
      (by rw [hyv]; exact Int.fract_lt_one _) (by
        rw [hyv]
        refine le_trans (zpow_le_zpow_right₀ (by norm_num) ?_) hlow
        push_cast; omega)
    rw [hyv] at v5 v6
    exact ⟨v, v1, v2, fun _ => v4, v5, v6⟩

/-- The exponential of the magnitude. -/
theorem expPositive_spec (h : ArgOk x w) {c : ConstCache (Num × Num)} (hc : CacheOk ERep EValOk c) :
    ∃ v c', x.expPositive (w + 2) c = some (.ok v, c') ∧ CacheOk ERep EValOk c' ∧ v.WF ∧ 64 * v.m.m.length = w + 64 ∧
      v.inexact = true ∧ Real.exp |(x.toK : ℝ)| * (1 - 2 ^ 53 * wUnit w) ≤ v.toK ∧
      (v.toK : ℝ) ≤ Real.exp |(x.toK : ℝ)| * (1 + 2 ^ 53 * wUnit w) := by
  have hδ0 := wUnit_pos w
  have hδ1 : 2 ^ 60 * wUnit w ≤ 1 / 16 := by
    have := wUnit_le h.ge
    calc 2 ^ 60 * wUnit w ≤ 2 ^ 60 * (1 / 2 ^ 190) := mul_le_mul_of_nonneg_left this (by positivity)
      _ ≤ _ := by norm_num
  obtain ⟨ei, c', i1, i2, i3, i4, i5, i6⟩ := expInt_spec h hc
  obtain ⟨ef, f1, f2, f3, f4, f5⟩ := expFract_spec h
  unfold Num.expPositive
  rw [if_neg (by have := h.e_le; omega)]
  dsimp only
  rw [i1]
  dsimp only
  rw [f1]
  dsimp only
  have hE : Real.exp |(x.toK : ℝ)| = Real.exp ⌊|(x.toK : ℝ)|⌋ * Real.exp (Int.fract |(x.toK : ℝ)|) := by
    rw [← Real.exp_add, Int.floor_add_fract]
  have hI := Real.exp_pos (⌊|(x.toK : ℝ)|⌋ : ℝ)
  have hF := Real.exp_pos (Int.fract |(x.toK : ℝ)|)
  have hix : mulIx ei ef = true := by
    have hnz : ei.isZero = false ∧ ef.isZero = false := by
      constructor
      · rw [← Bool.not_eq_true, ← i3.toK_eq_zero (K := ℝ)]
        exact (lt_of_lt_of_le (mul_pos hI (by linarith)) i5).ne'
      · rw [← Bool.not_eq_true, ← f2.toK_eq_zero (K := ℝ)]
        exact (lt_of_lt_of_le (mul_pos hF (by linarith)) f4).ne'
    unfold mulIx
    rw [hnz.1, hnz.2]
    have : ⌊|(x.toK : ℝ)|⌋ ≠ 0 ∨ Int.fract |(x.toK : ℝ)| ≠ 0 := by
      by_contra hcc
      push Not at hcc
      have h1 := Int.floor_add_fract |(x.toK : ℝ)|
      rw [hcc.1, hcc.2] at h1
      simp at h1
      have := h.nz
      rw [← Bool.not_eq_true, ← h.wf.toK_eq_zero (K := ℝ)] at this
      exact this (abs_eq_zero.1 h1.symm)
    rcases this with h1 | h1
    · simp [i4 h1]
    · simp [f3 h1]
  have htop := h.top
  have hE1 : 1 ≤ Real.exp |(x.toK : ℝ)| := Real.one_le_exp (abs_nonneg _)
  have hp2 := wUnit_PrecOk h.dvd h.le (k := 2) (by norm_num) (by norm_num)
  have hs := mulGeneral_spec (K := ℝ) i3 f2 hp2.pos (by rw [hp2.eq]; exact hp2.lt) .fromZero
  rw [hp2.eq] at hs
  obtain ⟨E, hEE⟩ : ∃ E, E = Real.exp |(x.toK : ℝ)| := ⟨_, rfl⟩
  obtain ⟨I, hII⟩ : ∃ I, I = Real.exp (⌊|(x.toK : ℝ)|⌋ : ℝ) := ⟨_, rfl⟩
  obtain ⟨F, hFF⟩ : ∃ F, F = Real.exp (Int.fract |(x.toK : ℝ)|) := ⟨_, rfl⟩
  obtain ⟨δ, hδ⟩ : ∃ δ, δ = wUnit w := ⟨_, rfl⟩
  rw [← hEE, ← hII, ← hFF] at hE
  rw [← hEE] at htop hE1
  rw [← hII] at hI
  rw [← hFF] at hF
  rw [← hII, ← hδ] at i5 i6
  rw [← hFF, ← hδ] at f4 f5
  rw [← hδ] at hδ0 hδ1
  have y1 : E * (1 - 2 ^ 53 * δ) ≤ ei.toK * ef.toK := by
    have a1 : I * (1 - 2 ^ 40 * δ) * (F * (1 - 2 ^ 52 * δ)) ≤ ei.toK * ef.toK :=
      mul_le_mul i5 f4 (mul_nonneg hF.le (by linarith)) (le_trans (mul_nonneg hI.le (by linarith)) i5)
    refine le_trans ?_ a1
    rw [hE, show I * (1 - 2 ^ 40 * δ) * (F * (1 - 2 ^ 52 * δ)) = I * F * ((1 - 2 ^ 40 * δ) * (1 - 2 ^ 52 * δ)) by ring]
    refine mul_le_mul_of_nonneg_left ?_ (mul_pos hI hF).le
    nlinarith
  have y2 : ei.toK * ef.toK ≤ E * (1 + 2 ^ 42 * δ) := by
    have hei : (0 : ℝ) ≤ I * (1 + 2 ^ 40 * δ) := mul_nonneg hI.le (by linarith)
    have hef : (0 : ℝ) ≤ ef.toK := le_trans (mul_nonneg hF.le (by linarith)) f4
    have a1 : ei.toK * ef.toK ≤ I * (1 + 2 ^ 40 * δ) * (F * (1 + δ)) := mul_le_mul i6 f5 hef hei
    refine le_trans a1 ?_
    rw [hE, show I * (1 + 2 ^ 40 * δ) * (F * (1 + δ)) = I * F * ((1 + 2 ^ 40 * δ) * (1 + δ)) by ring]
    refine mul_le_mul_of_nonneg_left ?_ (mul_pos hI hF).le
    nlinarith
  have hY : (1 / 2 : ℝ) ≤ ei.toK * ef.toK := by
    refine le_trans ?_ y1
    nlinarith
  obtain ⟨v, v1, v2, v3, v4, v5, v6⟩ := fz_step hs (le_trans (zpow_le_zpow_right₀ (by norm_num) (show EMIN - 1 ≤ -1 by
      unfold EMIN; norm_num)) (by norm_num at hY ⊢; exact hY)) (by
      have h4 : (2 : ℝ) ^ (EMAX - 2) = 2 ^ (EMAX - 4) * 4 := by
        rw [show EMAX - 2 = (EMAX - 4) + 2 by ring, zpow_add₀ (by norm_num)]; norm_num
      rw [h4]
      refine le_trans y2 ?_
      have h5 : (0 : ℝ) < 2 ^ (EMAX - 4) := by positivity
      nlinarith) (by omega)
  rw [wUnit_eq, ← hδ] at v5
  refine ⟨v, c', by rw [← v1]; rfl, i2, v2, v3, v6 hix, ?_, ?_⟩
  · rw [← hEE, ← hδ]
    exact le_trans y1 v4
  · rw [← hEE, ← hδ]
    refine le_trans v5 (le_trans (mul_le_mul_of_nonneg_right y2 (by linarith)) ?_)
    rw [mul_assoc]
    refine mul_le_mul_of_nonneg_left ?_ (by linarith)
    nlinarith

end AF
