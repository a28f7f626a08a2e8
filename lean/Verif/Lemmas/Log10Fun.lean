import Verif.Lemmas.Log10Step
/-!
# The logarithm to base 10: the loop, and when powers of ten are told apart
-/

namespace AF

open Num

/-! ## Powers of ten near a number -/

/-- A number and a power of ten that differ do so by a relative amount that depends on the length and the exponent of the
number only. -/
theorem ten_gap {x : Num} (hx : x.WF) (h0 : 0 < (x.toK : ℚ)) {k : ℤ} (hk : (x.toK : ℚ) ≠ 10 ^ k) (ht : (10 : ℚ) ^ k ≤ 10 * x.toK) :
    (2 : ℚ) ^ (-(64 * x.m.m.length : ℤ) - |x.e| - 4) ≤ |x.toK / 10 ^ k - 1| := by
  obtain ⟨L, hL⟩ : ∃ L, L = 64 * x.m.m.length := ⟨_, rfl⟩
  have hz : x.isZero = false := by rw [← Bool.not_eq_true, ← hx.toK_eq_zero (K := ℚ)]; exact h0.ne'
  obtain ⟨q, q1, q2, q3, -⟩ := hx.mag (K := ℚ) hz
  rw [abs_of_pos h0] at q2
  have hxe : (x.toK : ℚ) < 2 ^ x.e := lt_of_lt_of_le q2 (zpow_le_zpow_right₀ (by norm_num) (by omega))
  -- a multiple of a power of two
  obtain ⟨m, hm⟩ : ∃ m : ℤ, (x.toK : ℚ) = m * 2 ^ (x.e - (L : ℤ)) := by
    refine ⟨x.s.toInt * val x.m.m, ?_⟩
    unfold Num.toK
    rw [hL]
    cases x.s <;> simp [Sign.toK, Sign.toInt]
  obtain ⟨j, hj⟩ : ∃ j : ℕ, (j : ℤ) = (L : ℤ) + |x.e| := ⟨L + x.e.natAbs, by push_cast; rfl⟩
  have hm2 : ∃ M : ℤ, (x.toK : ℚ) * 2 ^ j = M := by
    refine ⟨m * 2 ^ (x.e + |x.e|).toNat, ?_⟩
    have h1 : 0 ≤ x.e + |x.e| := by have := neg_abs_le x.e; omega
    rw [hm, mul_assoc, ← zpow_natCast, ← zpow_add₀ (by norm_num)]
    push_cast
    rw [← zpow_natCast (2 : ℚ) (x.e + |x.e|).toNat, Int.toNat_of_nonneg h1]
    congr 2
    omega
  obtain ⟨M, hM⟩ := hm2
  have hjp : (0 : ℚ) < 2 ^ j := by positivity
  have one_le : ∀ z : ℤ, (z : ℚ) ≠ 0 → (1 : ℚ) ≤ |(z : ℚ)| := by
    intro z hz
    have : z ≠ 0 := by exact_mod_cast hz
    exact_mod_cast Int.one_le_abs this
  have h10 : (0 : ℚ) < 10 ^ k := by positivity
  rw [show -(64 * x.m.m.length : ℤ) - |x.e| - 4 = -(j : ℤ) - 4 by rw [hj, hL]; push_cast; ring]
  have h16 : (2 : ℚ) ^ (-(j : ℤ) - 4) = 1 / (2 ^ j * 16) := by
    rw [zpow_sub₀ (by norm_num), zpow_neg, zpow_natCast]; norm_num; ring
  rcases le_or_gt 0 k with hk0 | hk0
  · obtain ⟨n, rfl⟩ := Int.eq_ofNat_of_zero_le hk0
    rw [zpow_natCast] at *
    -- the difference is a multiple of `2^(e-L)` or of 1
    have hd : (2 : ℚ) ^ (x.e - (j : ℤ)) ≤ |x.toK - 10 ^ n| := by
      rcases le_or_gt x.e (L : ℤ) with he | he
      · obtain ⟨i, hi⟩ := Int.eq_ofNat_of_zero_le (show 0 ≤ (L : ℤ) - x.e by omega)
        have e1 : x.toK - 10 ^ n = ((m - 10 ^ n * 2 ^ i : ℤ) : ℚ) * 2 ^ (x.e - (L : ℤ)) := by
          have : (2 : ℚ) ^ i * 2 ^ (x.e - (L : ℤ)) = 1 := by
            rw [← zpow_natCast, ← zpow_add₀ (by norm_num), show (i : ℤ) + (x.e - L) = 0 by omega, zpow_zero]
          push_cast
          rw [sub_mul, mul_assoc, this, ← hm, mul_one]
        have e2 : ((m - 10 ^ n * 2 ^ i : ℤ) : ℚ) ≠ 0 := by
          intro h
          rw [h, zero_mul] at e1
          exact hk (by linarith)
        rw [e1, abs_mul, abs_of_pos (a := (2 : ℚ) ^ (x.e - (L : ℤ))) (by positivity)]
        have e3 : (2 : ℚ) ^ (x.e - (j : ℤ)) ≤ 2 ^ (x.e - (L : ℤ)) := zpow_le_zpow_right₀ (by norm_num) (by have := abs_nonneg x.e; omega)
        have e4 : (0 : ℚ) < 2 ^ (x.e - (L : ℤ)) := by positivity
        nlinarith [one_le _ e2]
      · obtain ⟨i, hi⟩ := Int.eq_ofNat_of_zero_le (show 0 ≤ x.e - (L : ℤ) by omega)
        rw [hi, zpow_natCast] at hm
        have e1 : x.toK - 10 ^ n = ((m * 2 ^ i - 10 ^ n : ℤ) : ℚ) := by rw [hm]; push_cast; ring
        have e2 : ((m * 2 ^ i - 10 ^ n : ℤ) : ℚ) ≠ 0 := by
          intro h
          rw [h] at e1
          exact hk (by linarith)
        rw [e1]
        refine le_trans ?_ (one_le _ e2)
        exact zpow_le_one_of_nonpos₀ (by norm_num) (by have := le_abs_self x.e; omega)
    rw [div_sub_one h10.ne', abs_div, abs_of_pos h10, le_div_iff₀ h10]
    refine le_trans ?_ hd
    have e5 : (10 : ℚ) ^ n ≤ 16 * 2 ^ x.e := by linarith [h0]
    have e6 : (2 : ℚ) ^ (x.e - (j : ℤ)) = 2 ^ (-(j : ℤ) - 4) * (16 * 2 ^ x.e) := by
      rw [show (16 : ℚ) = 2 ^ (4 : ℤ) by norm_num, ← zpow_add₀ (by norm_num), ← zpow_add₀ (by norm_num)]; congr 1; ring
    rw [e6]
    exact mul_le_mul_of_nonneg_left e5 (by positivity)
  · obtain ⟨n, hn⟩ := Int.eq_ofNat_of_zero_le (show 0 ≤ -k by omega)
    have hk' : k = -(n : ℤ) := by omega
    rw [hk', zpow_neg, zpow_natCast, div_inv_eq_mul]
    have e1 : (x.toK * 10 ^ n - 1) * 2 ^ j = ((M * 10 ^ n - 2 ^ j : ℤ) : ℚ) := by
      push_cast; rw [← hM]; ring
    have e2 : ((M * 10 ^ n - 2 ^ j : ℤ) : ℚ) ≠ 0 := by
      rw [← e1]
      apply mul_ne_zero _ hjp.ne'
      intro h
      apply hk
      rw [hk', zpow_neg, zpow_natCast]
      exact eq_inv_of_mul_eq_one_left (by linarith)
    have e3 := one_le _ e2
    rw [← e1, abs_mul, abs_of_pos hjp] at e3
    rw [h16, div_le_iff₀ (by positivity)]
    nlinarith [abs_nonneg (x.toK * 10 ^ n - 1 : ℚ)]

theorem log_gap {t : ℝ} (h0 : 0 < t) (h10 : t ≤ 10) : |t - 1| / 10 ≤ |Real.log t| := by
  rcases le_total 1 t with h | h
  · rw [abs_of_nonneg (by linarith), abs_of_nonneg (Real.log_nonneg h)]
    have h1 := Real.one_sub_inv_le_log_of_pos h0
    refine le_trans ?_ h1
    rw [show 1 - t⁻¹ = (t - 1) / t by field_simp]
    exact div_le_div_of_nonneg_left (by linarith) h0 h10
  · rw [abs_of_nonpos (by linarith), abs_of_nonpos (Real.log_nonpos h0.le h)]
    have h1 := Real.log_le_sub_one_of_pos h0
    linarith

/-- Powers of ten are told apart from numbers whose exponent is not large compared with the precision. -/
theorem tenClear_of {x : Num} (hx : x.WF) (h0 : 0 < (x.toK : ℚ)) (h1 : (x.toK : ℚ) ≠ 1) {M : Nat} (hl : 64 * x.m.m.length ≤ 2 ^ 16)
    (hM : 64 * x.m.m.length + |x.e| ≤ M + 73) : TenClear M x.toK := by
  intro k hk hne
  have h0R : (0 : ℝ) < x.toK := by rw [← toK_ratCast x]; exact_mod_cast h0
  have h1R : (x.toK : ℝ) ≠ 1 := by rw [← toK_ratCast x]; exact_mod_cast h1
  have hneQ : (x.toK : ℚ) ≠ 10 ^ k := by
    intro h
    apply hne
    rw [← toK_ratCast x, h]
    push_cast; rfl
  obtain ⟨-, b2⟩ := log10_bounds hx h0R h1R hl
  change |Real.logb 10 x.toK| ≤ _ at b2
  obtain ⟨y, hy⟩ : ∃ y, y = Real.logb 10 (x.toK : ℝ) := ⟨_, rfl⟩
  rw [← hy] at b2 ⊢
  have hkp : (0 : ℝ) < |(k : ℝ)| := abs_pos.2 (by exact_mod_cast hk)
  have hU : (2 : ℝ) ^ (-(M : ℤ) - 124) ≤ 2 ^ (-124 : ℤ) := zpow_le_zpow_right₀ (by norm_num) (by omega)
  have hU0 : (0 : ℝ) < 2 ^ (-(M : ℤ) - 124) := by positivity
  have hU1 : (2 : ℝ) ^ (-(M : ℤ) - 124) ≤ 1 / 2 ^ 100 := le_trans hU (by norm_num)
  rcases le_or_gt 1 |y - k| with hf | hf
  · obtain ⟨U, hUe⟩ : ∃ U, U = (2 : ℝ) ^ (-(M : ℤ) - 124) := ⟨_, rfl⟩
    rw [← hUe] at hU0 hU1 ⊢
    have hkb : |(k : ℝ)| ≤ 2 ^ 40 + |y - k| := by
      have := abs_sub_abs_le_abs_sub (k : ℝ) y
      rw [abs_sub_comm] at this
      linarith
    have : |(k : ℝ)| * U ≤ (2 ^ 40 + |y - k|) * (1 / 2 ^ 100) := mul_le_mul hkb hU1 hU0.le (by positivity)
    have h3 : (2 ^ 40 : ℝ) * (1 / 2 ^ 100) ≤ 1 / 4 := by norm_num
    have h4 : |y - k| * (1 / 2 ^ 100) ≤ |y - k| * (1 / 4) := mul_le_mul_of_nonneg_left (by norm_num) (abs_nonneg _)
    linarith
  · have h10 : (0 : ℝ) < 10 ^ k := by positivity
    have hl10 := log_ten_small
    have hlog : (y - k) * Real.log 10 = Real.log (x.toK / 10 ^ k) := by
      rw [Real.log_div h0R.ne' h10.ne', Real.log_zpow, sub_mul, hy, Real.logb, div_mul_cancel₀ _ (by linarith)]
    have hy10 : (10 : ℝ) ^ y = x.toK := by rw [hy]; exact Real.rpow_logb (by norm_num) (by norm_num) h0R
    obtain ⟨f1, f2⟩ := abs_lt.1 hf
    have ht1 : (x.toK : ℝ) / 10 ^ k ≤ 10 := by
      rw [div_le_iff₀ h10, ← hy10, ← Real.rpow_intCast, mul_comm, ← Real.rpow_add_one (by norm_num)]
      exact Real.rpow_le_rpow_of_exponent_le (by norm_num) (by linarith)
    have ht2 : (10 : ℝ) ^ k ≤ 10 * x.toK := by
      rw [← hy10, ← Real.rpow_intCast, mul_comm, ← Real.rpow_add_one (by norm_num)]
      exact Real.rpow_le_rpow_of_exponent_le (by norm_num) (by linarith)
    have hg := ten_gap hx h0 hneQ (by
      have : ((10 ^ k : ℚ) : ℝ) ≤ ((10 * x.toK : ℚ) : ℝ) := by push_cast; rw [toK_ratCast]; exact ht2
      exact_mod_cast this)
    have hgR : (2 : ℝ) ^ (-(64 * x.m.m.length : ℤ) - |x.e| - 4) ≤ |x.toK / 10 ^ k - 1| := by
      have : (((2 : ℚ) ^ (-(64 * x.m.m.length : ℤ) - |x.e| - 4) : ℚ) : ℝ) ≤ ((|x.toK / 10 ^ k - 1| : ℚ) : ℝ) := by exact_mod_cast hg
      push_cast at this
      rw [toK_ratCast] at this
      exact this
    have h5 := log_gap (by positivity) ht1
    rw [← hlog, abs_mul, abs_of_pos (a := Real.log 10) (by linarith)] at h5
    have hkb : |(k : ℝ)| ≤ 2 ^ 41 := by
      have := abs_sub_abs_le_abs_sub (k : ℝ) y
      rw [abs_sub_comm] at this
      norm_num at b2 ⊢
      linarith
    have h6 : (2 : ℝ) ^ (-(M : ℤ) - 77) ≤ 2 ^ (-(64 * x.m.m.length : ℤ) - |x.e| - 4) := zpow_le_zpow_right₀ (by norm_num) (by omega)
    have h7 : (2 : ℝ) ^ (-(M : ℤ) - 77) = 2 ^ 47 * 2 ^ (-(M : ℤ) - 124) := by
      rw [← zpow_natCast, ← zpow_add₀ (by norm_num)]; congr 1; push_cast; ring
    obtain ⟨U, hUe⟩ : ∃ U, U = (2 : ℝ) ^ (-(M : ℤ) - 124) := ⟨_, rfl⟩
    rw [h7, ← hUe] at h6
    rw [← hUe] at hU0 ⊢
    have h8 : |(k : ℝ)| * U ≤ 2 ^ 41 * U := mul_le_mul_of_nonneg_right hkb hU0.le
    have h9 : |y - k| * Real.log 10 ≤ |y - k| * 3 := mul_le_mul_of_nonneg_left (by linarith [hl10.2]) (abs_nonneg _)
    linarith

/-- An integer that fits is not changed by rounding. -/
theorem RoundsPrec.exact_int {rm : RM} {P : Nat} {r : ℝ} {k : ℤ} (h : RoundsPrec rm P (k : ℝ) r) (hk : |k| < 2 ^ P) : r = k := by
  rcases h with ⟨h1, h2⟩ | ⟨q, h1, h2, h3⟩
  · rw [h1, h2]
  · have hq : q - P ≤ 0 := by
      have h4 : |(k : ℝ)| < (2 : ℝ) ^ (P : ℤ) := by rw [zpow_natCast]; exact_mod_cast hk
      have := (zpow_lt_zpow_iff_right₀ (show (1 : ℝ) < 2 by norm_num)).1 (lt_of_le_of_lt h1 h4)
      omega
    obtain ⟨d, hd⟩ : ∃ d : ℕ, 0 = (q - P) + d := ⟨(0 - (q - P)).toNat, by omega⟩
    have hA2 : (k : ℝ) = ((k * 2 ^ d : ℤ) : ℝ) * 2 ^ (q - (P : ℤ)) := by
      push_cast
      rw [mul_assoc, ← zpow_natCast (2 : ℝ) d, ← zpow_add₀ (by norm_num), show (d : ℤ) + (q - P) = 0 by omega, zpow_zero, mul_one]
    have h5 := Rounds.self (K := ℝ) rm (show (0 : ℝ) < 2 ^ (q - (P : ℤ)) by positivity) (k * 2 ^ d)
    rw [← hA2] at h5
    exact h3.unique (by positivity) h5

/-! ## The loop -/

section Run
variable {x : Num}

theorem log10_mid (hx : x.WF) (h0 : 0 < (x.toK : ℝ)) (h1 : (x.toK : ℝ) ≠ 1) (hl : 64 * x.m.m.length ≤ 2 ^ 16) :
    MidRange (Real.logb 10 x.toK) := by
  have hE : EMIN = -2 ^ 31 := rfl
  have hE' : EMAX = 2 ^ 31 - 1 := rfl
  obtain ⟨b1, b2⟩ := log10_bounds hx h0 h1 hl
  apply MidRange.of_bounds
  · exact le_trans (zpow_le_zpow_right₀ (by norm_num) (by push_cast; omega)) b1
  · have : (2 : ℝ) ^ (41 : ℤ) ≤ 2 ^ (EMAX - 3) := zpow_le_zpow_right₀ (by norm_num) (by omega)
    norm_num at this
    refine lt_of_le_of_lt b2 (lt_of_lt_of_le ?_ this)
    norm_num

theorem log10_start (hx : x.WF) {w : Nat} (hl : 64 * x.m.m.length ≤ w) {c : Ln2Cache × Ln2Cache} (h1 : Ln2Ok c.1) (h2 : Ln10Ok c.2) :
    Log10Inv (x.toK : ℝ) w ({ x with inexact := false }, c) where
  wf := ⟨hx.wf, hx.bits, hx.emin, hx.emax, hx.norm, hx.sized⟩
  eq := rfl
  len := hl
  l2 := h1
  l10 := h2

theorem log10_spec (hx : x.WF) (h0 : 0 < (x.toK : ℝ)) (h1 : (x.toK : ℝ) ≠ 1) {p : Nat} (hp : ValidP p) (rm : RM)
    (hclr : TenClear (max (precBits p) (64 * x.m.m.length)) x.toK) {f : Nat} {c c' : Ln2Cache × Ln2Cache}
    (hc1 : Ln2Ok c.1) (hc2 : Ln10Ok c.2) {r : Except Err Num} {w : Nat}
    (h : x.log10 p rm f c = some (r, c', w)) (hw : w ≤ 2 ^ 15) :
    (Ln2Ok c'.1 ∧ Ln10Ok c'.2) ∧ ∃ v, r = .ok v ∧ FunRounded rm (precBits p) (Real.logb 10 x.toK) v := by
  have hmx : x.m.maxBitLen = 64 * x.m.m.length := by unfold Mantissa.maxBitLen; omega
  have hp0 := hp.pos
  have hlt := hp.lt
  obtain ⟨pw, hpw⟩ : ∃ pw, precBits p = 64 * pw := ⟨(p + 63) / 64, rfl⟩
  have hpw0 : 0 < pw := by unfold precBits at hpw; omega
  unfold Num.log10 at h
  rw [hp.roundP] at h
  dsimp only at h
  rw [hpw] at h hlt hclr ⊢
  rw [hmx] at h
  obtain ⟨W, hW⟩ : ∃ W, W = max (64 * pw) (64 * x.m.m.length) + 64 := ⟨_, rfl⟩
  rw [← hW] at h
  split at h
  · cases h
  · rename_i hl
    have hge := roundLoop_ge hl
    injection h with h; injection h with h1' h; injection h with h2 h3
    have hmid := log10_mid hx h0 h1 (by omega)
    rw [← h2, ← h1']
    cases f with
    | zero => simp [roundLoop] at hl
    | succ f =>
      have hR := roundLoop_spec (Inv := Log10Inv (x.toK : ℝ)) (Good := fun _ => True) hmid (W := 2 ^ 15) (w0 := W) (rm := rm) hpw0 hlt
        (by omega) (by
          intro w s o s' hd hw1 hw2 hi hst _
          obtain ⟨o', s1, a1, a2, a3⟩ := log10Step_spec h0 h1 hpw0 hclr hd (by omega) (by omega) (by omega) hw2 hi rm f
          rw [a1] at hst
          injection hst with hst
          injection hst with hst1 hst2
          rw [← hst1, ← hst2]
          exact ⟨a2, a3⟩) (fun _ _ _ _ _ _ => trivial) (log10_start hx (by omega) hc1 hc2) (by omega) (by norm_num) (by norm_num) le_rfl hl
        (by omega) (by norm_num) trivial
      have := hR.1 _ le_rfl
      exact ⟨⟨this.l2, this.l10⟩, hR.2⟩

theorem log10_number (hx : x.WF) (h0 : 0 < (x.toK : ℝ)) (h1 : (x.toK : ℝ) ≠ 1) {p : Nat} (hp : ValidP p) {rm : RM}
    (hclr : TenClear (max (precBits p) (64 * x.m.m.length)) x.toK) {f : Nat} {c : Ln2Cache × Ln2Cache}
    (hc1 : Ln2Ok c.1) (hc2 : Ln10Ok c.2) (hw : max (precBits p) (64 * x.m.m.length) + 64 ≤ 2 ^ 15)
    (hr : rm = .none ∨ rm.directed = true ∧ ¬ NearGrid (precBits p) 63 |Real.logb 10 x.toK|) :
    ∃ r c' w, x.log10 p rm (f + 1) c = some (r, c', w) ∧ w ≤ 2 ^ 15 := by
  have hmx : x.m.maxBitLen = 64 * x.m.m.length := by unfold Mantissa.maxBitLen; omega
  have hp0 := hp.pos
  have hlt := hp.lt
  obtain ⟨pw, hpw⟩ : ∃ pw, precBits p = 64 * pw := ⟨(p + 63) / 64, rfl⟩
  have hpw0 : 0 < pw := by unfold precBits at hpw; omega
  unfold Num.log10
  rw [hp.roundP]
  dsimp only
  rw [hpw] at hlt hw hr hclr ⊢
  rw [hmx]
  obtain ⟨W, hW⟩ : ∃ W, W = max (64 * pw) (64 * x.m.m.length) + 64 := ⟨_, rfl⟩
  rw [← hW] at hw ⊢
  have hmid := log10_mid hx h0 h1 (by omega)
  obtain ⟨o, s', a1, -, a3⟩ := log10Step_spec h0 h1 hpw0 hclr (w := W) (by omega) (by omega) (by omega) (by omega) hw
    (log10_start hx (by omega) hc1 hc2) rm f
  obtain ⟨r, hl⟩ := roundLoop_number (ix := x.inexact) hmid hpw0 hlt (by omega) (by omega) a1 a3 hr f 64
  rw [hl]
  exact ⟨_, _, _, rfl, hw⟩

/-- A negative argument is refused in the first round. -/
theorem log10_negative (hs : x.s = .neg) (p : Nat) (rm : RM) (f : Nat) (c : Ln2Cache × Ln2Cache) :
    ∃ w, x.log10 p rm (f + 1) c = some (.error .invalidArgument, c, w) := by
  unfold Num.log10
  dsimp only
  obtain ⟨W, hW⟩ : ∃ W, W = max (roundP p) x.m.maxBitLen + 64 := ⟨_, rfl⟩
  have hl : (({ x with inexact := false } : Num)).m.maxBitLen ≤ W := by dsimp only; omega
  rw [← hW, roundLoop]
  have hst : ∃ s', log10Step (roundP p) rm (f + 1) W ({ x with inexact := false }, c) = some (.ret (.error .invalidArgument), s', c) := by
    unfold log10Step Num.setPrecision Num.setPrecisionInternal
    dsimp only
    by_cases h1 : W + 5 ≥ PMAX
    · rw [if_pos h1]
      exact ⟨_, rfl⟩
    · rw [if_neg h1, if_neg (by dsimp only at hl; omega), if_neg (by omega)]
      dsimp only
      rw [Num.ln, Num.isNegative]
      dsimp only
      rw [hs]
      rw [if_pos (by simp)]
      exact ⟨_, rfl⟩
  obtain ⟨s', hst⟩ := hst
  rw [hst]
  exact ⟨_, rfl⟩

/-- The logarithm of one is an exact zero. -/
theorem log10_one (hx : x.WF) (h1 : (x.toK : ℝ) = 1) {p : Nat} (hp : ValidP p) (rm : RM) (f : Nat) {c : Ln2Cache × Ln2Cache}
    (hc2 : Ln10Ok c.2) (hw : max (precBits p) (64 * x.m.m.length) + 64 ≤ 2 ^ 15) :
    ∃ v d w, x.log10 p rm (f + 1) c = some (.ok v, (c.1, d), w) ∧ Ln10Ok d ∧ v.WF ∧ 64 * v.m.m.length = precBits p ∧ (v.toK : ℚ) = 0 ∧
      v.s = .pos ∧ v.inexact = false := by
  have hmx : x.m.maxBitLen = 64 * x.m.m.length := by unfold Mantissa.maxBitLen; omega
  have hp0 := hp.pos
  have hlt := hp.lt
  obtain ⟨pw, hpw⟩ : ∃ pw, precBits p = 64 * pw := ⟨(p + 63) / 64, rfl⟩
  have hpw0 : 0 < pw := by unfold precBits at hpw; omega
  unfold Num.log10
  rw [hp.roundP]
  dsimp only
  rw [hpw] at hlt hw ⊢
  rw [hmx]
  obtain ⟨W, hW⟩ : ∃ W, W = max (64 * pw) (64 * x.m.m.length) + 64 := ⟨_, rfl⟩
  rw [← hW] at hw ⊢
  have hx' : ({ x with inexact := false } : Num).WF := ⟨hx.wf, hx.bits, hx.emin, hx.emax, hx.norm, hx.sized⟩
  have hx1 : (({ x with inexact := false } : Num).toK : ℝ) = 1 := h1
  have hz : ({ x with inexact := false } : Num).isZero = false := by
    rw [← Bool.not_eq_true, ← hx'.toK_eq_zero (K := ℝ), hx1]; norm_num
  obtain ⟨y, x1, x2, x3, -, x5, x6, x7⟩ := hyp_extend hx' hz rfl (w := W) (by omega) (by omega) (by omega)
    (show 64 * ({ x with inexact := false } : Num).m.m.length ≤ W by dsimp only; omega) (k := 5) (by norm_num) (by norm_num)
  rw [hx1] at x7
  have hv := validP_w (w := W) (k := 5) (by omega) (by norm_num) (by norm_num)
  have hpb := precBits_w (w := W) (k := 5) (by omega) (by norm_num) (by norm_num)
  have l1 := ln_one x2 x7 hv .none (f + 1) c.1
  obtain ⟨a, ha⟩ : ∃ a, W + 64 = 64 * a := ⟨W / 64 + 1, by omega⟩
  obtain ⟨p2, d, t1, t2, t3, t4, t5, t6⟩ := ln10None_spec (pw := a) (by omega) (by omega) hc2
  rw [← ha] at t1
  have hl10 := log_ten_small
  have hp2 : 0 < (p2.toK : ℝ) := by
    have h2 : (2 : ℝ) ^ (1 - ((64 * a : ℕ) : ℤ)) ≤ 2 ^ (-1 : ℤ) := zpow_le_zpow_right₀ (by norm_num) (by push_cast; omega)
    obtain ⟨u, hu⟩ : ∃ u, u = (2 : ℝ) ^ (1 - ((64 * a : ℕ) : ℤ)) := ⟨_, rfl⟩
    rw [← hu] at t6 h2
    rw [abs_of_pos (a := Real.log 10) (by linarith)] at t6
    norm_num at h2
    have h3 : Real.log 10 * (u * (1 + 2 ^ (-6 : ℤ))) ≤ Real.log 10 * (1 / 2 * (1 + 2 ^ (-6 : ℤ))) :=
      mul_le_mul_of_nonneg_left (mul_le_mul_of_nonneg_right h2 (by norm_num)) (by linarith)
    have h4 : (1 : ℝ) / 2 * (1 + 2 ^ (-6 : ℤ)) ≤ 3 / 4 := by norm_num
    have h5 : Real.log 10 * (1 / 2 * (1 + 2 ^ (-6 : ℤ))) ≤ Real.log 10 * (3 / 4) := mul_le_mul_of_nonneg_left h4 (by linarith)
    have h6 := (abs_le.1 (le_trans t6 (le_trans h3 h5))).1
    have h7 := hl10.1
    norm_num at h7
    linarith
  have hz2 : p2.isZero = false := by rw [← Bool.not_eq_true, ← t3.toK_eq_zero (K := ℝ)]; exact hp2.ne'
  have hs2 : p2.s = .pos := toK_sign_pos hp2
  have hp5 := wUnit_PrecOk (w := W) (by omega) (by omega) (k := 5) (by norm_num) (by norm_num)
  obtain ⟨z, hzd⟩ : ∃ z, z = Num.zero (W + 64) .pos false := ⟨_, rfl⟩
  have hzW : z.WF := by rw [hzd]; exact zero_WF (by unfold wordLen; omega) _ _
  have hz0 : ∀ ix, (Num.zero (W + 64) .pos ix).isZero = true := by
    intro ix
    rw [← (zero_WF (by unfold wordLen; omega) .pos ix).toK_eq_zero (K := ℚ), zero_toK]
  have hdv : (Num.zero (W + 64) .pos y.inexact).div p2 (W + 5) .none = .ok z := by
    unfold Num.div
    rw [hz2, hp5.eq, hz0, hs2, if_neg Bool.false_ne_true]
    dsimp only
    rw [if_neg (by unfold PMAX; omega), if_pos rfl, hzd]
    rfl
  have hti : log10Test y z (W + 5) = .ok true := by
    have e1 : z.isInt = true := by rw [hzd]; exact hz0 false
    have e2 : z.intAsUsize = .ok 0 := by rw [hzd]; rfl
    have e3 := fromWord_spec (K := ℚ) (d := 1) (p := W + 64) (by unfold B; norm_num) (by omega) (by unfold PMAX; omega)
    unfold log10Test
    rw [if_pos e1, e2]
    dsimp only
    unfold Num.powi Num.powiInternal
    dsimp only
    rw [hv.roundP, hpb, if_pos rfl]
    cases hr : Num.fromWord 1 (W + 64) with
    | error e => rw [hr] at e3; exact absurd e3 (by simp [ExactNum])
    | ok tp =>
      rw [hr] at e3
      obtain ⟨tp', te, e4, -, e5, -⟩ := e3
      injection te with te
      rw [← te] at e4 e5
      dsimp only
      have hyQ : (y.toK : ℚ) = 1 := by
        rw [← toK_ratCast y] at x7
        exact_mod_cast x7
      have htQ : (tp.toK : ℚ) = 1 := by rw [e5]; norm_num
      have : tp.cmp y = 0 := (cmp_eq_zero e4 x2 (Or.inr (Or.inl (by rw [hyQ]; norm_num)))).2 (by rw [hyQ, htQ])
      rw [this]; rfl
  have hD := setPrecision_delivers (K := ℚ) hzW hpw0 (by unfold PMAX; omega) rm
  have hz64 : (Num.zero 64 .pos false).WF := zero_WF (by decide) _ _
  rw [show (z.toK : ℚ) = (Num.zero 64 .pos false).toK by rw [hzd, zero_toK, zero_toK], show z.inexact = false by rw [hzd]; rfl] at hD
  obtain ⟨v, v1, v2, v3, v4, v5, -⟩ := Delivers.rep hz64 (by omega) (by show 64 * 1 ≤ _; omega) hD
  have hsp := setPrecision_spec (K := ℚ) hzW (p := 64 * pw) (by omega) (by unfold PMAX; omega) rm
  rw [v1] at hsp
  have hst : log10Step (64 * pw) rm (f + 1) W ({ x with inexact := false }, c) = some (.ret (.ok v), (y, c.1, d)) := by
    unfold log10Step
    dsimp only
    rw [x1]
    dsimp only
    rw [l1]
    dsimp only
    rw [hp5.eq, hpb, t1]
    dsimp only
    rw [hdv]
    dsimp only
    rw [hti]
    dsimp only
    rw [v1]
  rw [roundLoop, hst]
  exact ⟨v, d, _, rfl, t2, v2, v3, by rw [v4, zero_toK], by rw [hsp.1.2.2.1, hzd]; rfl, v5⟩

end Run

end AF
