import Verif.Lemmas.ExpLoop
/-!
# The exponential function: results out of range, large precisions
-/

namespace AF

open Num

/-- A number is below the upper end of the format. -/
theorem Num.WF.lt_EMAX {x : Num} (hx : x.WF) : |(x.toK : ℝ)| < 2 ^ EMAX := by
  by_cases hz : x.isZero = true
  · rw [(hx.toK_eq_zero (K := ℝ)).2 hz, abs_zero]; positivity
  · obtain ⟨q, -, q2, q3, -⟩ := hx.mag (K := ℝ) (by simpa using hz)
    refine lt_of_lt_of_le q2 (zpow_le_zpow_right₀ (by norm_num) ?_)
    have := hx.emax
    omega

/-- A power that is too large. -/
theorem powi_over {x : Num} (hx : x.WF) (hx1 : (1 : ℝ) ≤ x.toK) {n p : Nat} (hn : 2 ≤ n) (hnB : n < B)
    (hp : ValidP p) (hP : precBits p ≤ 2 ^ 24) (hl : 64 * x.m.m.length = precBits p)
    (hb : (2 : ℝ) ^ EMAX ≤ (x.toK : ℝ) ^ n) (rm : RM) : x.powi n p rm = .error (.exponentOverflow .pos) := by
  have hx0 : (0 : ℝ) < x.toK := by linarith
  have hz : x.isZero = false := by
    rw [← Bool.not_eq_true, ← hx.toK_eq_zero (K := ℝ)]
    exact hx0.ne'
  have hxQ : (1 : ℚ) ≤ x.toK := by
    have : ((1 : ℚ) : ℝ) ≤ ((x.toK : ℚ) : ℝ) := by rw [toK_ratCast]; push_cast; exact hx1
    exact_mod_cast this
  have hpw : (1 : ℚ) ≤ (x.toK : ℚ) ^ n := one_le_pow₀ hxQ
  obtain ⟨bp, b1, b2, b3, b4⟩ := powStrip_spec (n := n) (by omega) hnB
  have hq : precBits p = 64 * ((p + 63) / 64) := rfl
  have hp0 := hp.pos
  have hpp : ValidP (precBits p) := ⟨by omega, by
    have : precBits (precBits p) = precBits p := by unfold precBits; omega
    rw [this]; exact hp.lt⟩
  have hidem : precBits (precBits p) = precBits p := by unfold precBits; omega
  have hmax : Nat.max (precBits p) x.m.maxBitLen = precBits p := by
    unfold Mantissa.maxBitLen
    rw [mul_comm, hl]; exact max_self _
  have hns : x.isNegative = false := by
    have := toK_sign_pos (x := x) (lt_of_lt_of_le zero_lt_one hxQ)
    simp [Num.isNegative, this]
  unfold Num.powi Num.powiInternal
  dsimp only
  rw [hp.roundP, if_neg (by omega), if_neg (by simp [hz]; omega), hpp.roundP, hidem, b4, hmax]
  dsimp only
  rw [Num.powLoop]
  have hv : ValidP (precBits p + 64 + bp * 2) := by
    have : precBits (precBits p + 64 + bp * 2) ≤ 2 ^ 25 := by unfold precBits at hP ⊢; omega
    exact ⟨by omega, by omega⟩
  have hlo : (2 : ℚ) ^ (EMIN - 1) ≤ |(x.toK : ℚ)| ^ n := by
    rw [abs_of_pos (by linarith)]
    refine le_trans ?_ hpw
    rw [show (1 : ℚ) = 2 ^ (0 : ℤ) by norm_num]
    exact zpow_le_zpow_right₀ (by norm_num) (by unfold EMIN; norm_num)
  rcases powTry_spec hx hz b1 b2 b3 (px := precBits p + 64 + bp * 2) (by omega) hv.lt_PMAX (by omega) hlo with ⟨t, ht, hA⟩ | ⟨sg, ht, hA⟩
  · exfalso
    obtain ⟨c, hc, c1, -⟩ := hA.ex
    have h1 := hA.wf.lt_EMAX
    have h2 : (x.toK : ℚ) ^ n ≤ t.toK := by rw [hc]; nlinarith
    have h3 : (((x.toK : ℚ) ^ n : ℚ) : ℝ) ≤ ((t.toK : ℚ) : ℝ) := by exact_mod_cast h2
    rw [Rat.cast_pow, toK_ratCast, toK_ratCast] at h3
    have := le_abs_self (t.toK : ℝ)
    linarith
  · rw [ht]
    dsimp only
    unfold Num.powErr
    rw [hns]
    rfl

/-- The constant `e` at the working precision is not available at large precisions. -/
theorem eForPrec_over {pw : Nat} (h0 : 2 ^ 32 ≤ 64 * pw) (hpm : 64 * pw < PMAX) (rm : RM) {c : ConstCache (Num × Num)}
    (hc : CacheOk ERep EValOk c) :
    ∃ c', eForPrec (64 * pw) rm c = some (.error (.exponentOverflow .pos), c') ∧ CacheOk ERep EValOk c' := by
  have hPM : PMAX = 2 ^ 62 - 2 ^ 31 - 1 := rfl
  have hr : roundP (64 * pw) = 64 * pw := by
    rw [ValidP.roundP ⟨by omega, by unfold precBits; omega⟩]; unfold precBits; omega
  obtain ⟨r, c', h1, h2', h3, h4, h5⟩ := (e_loop (pw := pw) (by omega) hpm rm).forPrec eSeries hc
    ⟨by norm_num, by rw [hr]; omega, by rw [hr]⟩
  rw [h5 (bFactor_ge (by rw [hr]; omega))] at h1
  exact ⟨c', h1, h2'⟩

variable {x : Num} {w : Nat}

/-- The exponential of the magnitude is out of range. -/
theorem expPositive_over (hx : x.WF) (hz : x.isZero = false) (he : x.e ≤ 64) (hd : 64 ∣ w) (h1 : 128 ≤ w) (h2 : w ≤ 2 ^ 22)
    {c : ConstCache (Num × Num)} (hc : CacheOk ERep EValOk c) (hbig : (2 : ℝ) ^ (EMAX + 4) ≤ Real.exp |(x.toK : ℝ)|) :
    ∃ c', x.expPositive (w + 2) c = some (.error (.exponentOverflow .pos), c') ∧ CacheOk ERep EValOk c' := by
  have hδ0 := wUnit_pos w
  have hδ1 := wUnit_le h1
  obtain ⟨n, n1, n2, n3⟩ := intAsUsize_spec hx hz he
  have hlt : |(x.toK : ℝ)| < n + 1 := by
    have := Int.lt_floor_add_one |(x.toK : ℝ)|
    rw [← n2] at this
    exact_mod_cast this
  have he3 : Real.exp 1 ≤ 4 := by linarith [Real.exp_one_lt_d9]
  have hEn : (2 : ℝ) ^ (EMAX + 2) ≤ Real.exp n := by
    have h3 : Real.exp |(x.toK : ℝ)| ≤ Real.exp n * Real.exp 1 := by
      rw [← Real.exp_add]; exact Real.exp_le_exp.2 hlt.le
    have h4 : (2 : ℝ) ^ (EMAX + 4) = 2 ^ (EMAX + 2) * 4 := by
      rw [show EMAX + 4 = (EMAX + 2) + 2 by ring, zpow_add₀ (by norm_num)]; norm_num
    have h5 := Real.exp_pos (n : ℝ)
    nlinarith
  have hn2 : 2 ≤ n := by
    by_contra hcc
    have h3 : (n : ℝ) ≤ 1 := by
      have : n ≤ 1 := by omega
      exact_mod_cast this
    have h4 := Real.exp_le_exp.2 h3
    have h5 : (2 : ℝ) ^ (3 : ℤ) ≤ 2 ^ (EMAX + 2) := zpow_le_zpow_right₀ (by norm_num) (by unfold EMAX; norm_num)
    have h6 := le_trans (le_trans h5 hEn) (le_trans h4 he3)
    norm_num at h6
  obtain ⟨ec, c', e1, e2, e3⟩ := eForPrec_none hd h2 hc
  have hpb := precBits_w (w := w) (k := 6) hd (by norm_num) (by norm_num)
  have hvp := validP_w (w := w) (k := 6) h2 (by norm_num) (by norm_num)
  -- the constant
  have he0 := Real.exp_pos (1 : ℝ)
  have hcst := e3.none rfl
  rw [abs_of_pos he0] at hcst
  have hδe : (2 : ℝ) ^ (1 - ((w + 64 : ℕ) : ℤ)) * (1 + 2 ^ (-60 : ℤ)) ≤ 2 * wUnit w := by
    rw [wUnit_eq]
    have : (2 : ℝ) ^ (-60 : ℤ) ≤ 1 := by norm_num
    nlinarith
  have hcst2 := abs_le.1 (le_trans hcst (mul_le_mul_of_nonneg_left hδe he0.le))
  have hlo : Real.exp 1 * (1 - 2 * wUnit w) ≤ ec.toK := by linarith [hcst2.1]
  have hδs : wUnit w ≤ 1 / 4 := le_trans hδ1 (by norm_num)
  have hec1 : (1 : ℝ) ≤ ec.toK := by
    have : (2 : ℝ) ≤ Real.exp 1 := by linarith [Real.add_one_le_exp (1 : ℝ)]
    refine le_trans ?_ hlo
    nlinarith
  have hpn : Real.exp (n : ℝ) = Real.exp 1 ^ n := by rw [← Real.exp_nat_mul, mul_one]
  have hnB : (n : ℝ) ≤ 2 ^ 64 := by
    have : n ≤ 2 ^ 64 := by unfold B at n3; omega
    exact_mod_cast this
  have hnδ : (n : ℝ) * (2 * wUnit w) ≤ 1 / 2 := by
    have := mul_le_mul hnB (show 2 * wUnit w ≤ 2 * (1 / 2 ^ 190) by linarith) (by positivity) (by positivity)
    refine le_trans this (by norm_num)
  have p1 : Real.exp n * (1 - n * (2 * wUnit w)) ≤ (ec.toK : ℝ) ^ n := by
    rw [hpn]
    refine le_trans ?_ (pow_le_pow_left₀ (mul_nonneg he0.le (by linarith)) hlo n)
    rw [mul_pow]
    refine mul_le_mul_of_nonneg_left ?_ (by positivity)
    have := one_add_mul_le_pow (a := -(2 * wUnit w)) (by linarith) n
    rw [← sub_eq_add_neg] at this
    linarith
  have hov : (2 : ℝ) ^ EMAX ≤ (ec.toK : ℝ) ^ n := by
    refine le_trans ?_ p1
    have h4 : (2 : ℝ) ^ (EMAX + 2) = 2 ^ EMAX * 4 := by rw [zpow_add₀ (by norm_num)]; norm_num
    have h5 : (0 : ℝ) < 2 ^ EMAX := by positivity
    rw [h4] at hEn
    nlinarith
  refine ⟨c', ?_, e2⟩
  unfold Num.expPositive
  rw [if_neg (by omega)]
  dsimp only
  unfold Num.expInt
  rw [n1]
  dsimp only
  rw [if_pos (by omega), hvp.roundP, hpb, e1]
  dsimp only
  rw [powi_over e3.wf hec1 hn2 n3 hvp (by rw [hpb]; omega) (by rw [hpb]; exact e3.prec) hov]

/-- Arguments from one on at large precisions. -/
theorem expPositive_prec (hx : x.WF) (hz : x.isZero = false) (he : x.e ≤ 64) (h1 : 1 ≤ |(x.toK : ℝ)|) (hd : 64 ∣ w)
    (hw : 2 ^ 32 ≤ w) (hw' : w + 64 < PMAX) {c : ConstCache (Num × Num)} (hc : CacheOk ERep EValOk c) :
    ∃ c', x.expPositive (w + 2) c = some (.error (.exponentOverflow .pos), c') ∧ CacheOk ERep EValOk c' := by
  have hPM : PMAX = 2 ^ 62 - 2 ^ 31 - 1 := rfl
  obtain ⟨n, n1, n2, n3⟩ := intAsUsize_spec hx hz he
  have hn0 : n > 0 := by
    have : (1 : ℤ) ≤ ⌊|(x.toK : ℝ)|⌋ := Int.le_floor.2 (by push_cast; exact h1)
    omega
  obtain ⟨pw, hpw⟩ : ∃ pw, w + 64 = 64 * pw := ⟨w / 64 + 1, by omega⟩
  have hpb := precBits_w (w := w) (k := 6) hd (by norm_num) (by norm_num)
  have hvp : ValidP (w + 6) := ⟨by omega, by rw [hpb]; omega⟩
  obtain ⟨c', c1, c2⟩ := eForPrec_over (pw := pw) (by omega) (by omega) .none hc
  refine ⟨c', ?_, c2⟩
  unfold Num.expPositive
  rw [if_neg (by omega)]
  dsimp only
  unfold Num.expInt
  rw [n1]
  dsimp only
  rw [if_pos hn0, hvp.roundP, hpb, hpw, c1]

/-- What becomes of an overflow of the exponential of the magnitude. -/
theorem exp_of_over (hz : x.isZero = false) {p : Nat} (hp : ValidP p)
    (hs : ¬ ((max (precBits p) (64 * x.m.m.length) : ℕ) : ℤ) + 1 < -x.e) (rm : RM) {c c' : ConstCache (Num × Num)} {s : Sign}
    (h : x.expPositive (max (precBits p) (64 * x.m.m.length) + 64 + 2) c = some (.error (.exponentOverflow s), c')) (f : Nat) :
    x.exp p rm (f + 1) c = some (if x.isNegative then new2 (precBits p) s x.inexact else .error (.exponentOverflow s), c',
      max (precBits p) (64 * x.m.m.length) + 64) := by
  have hmb : x.m.maxBitLen = 64 * x.m.m.length := by unfold Mantissa.maxBitLen; omega
  unfold Num.exp
  rw [hp.roundP, hmb]
  dsimp only
  rw [if_neg (by simp [hz]), if_neg hs, Num.expLoop, h]

theorem expPositive_far (he : x.e > 64) (p : Nat) (c : ConstCache (Num × Num)) :
    x.expPositive p c = some (.error (.exponentOverflow x.s), c) := by
  unfold Num.expPositive
  rw [if_pos he]

end AF
