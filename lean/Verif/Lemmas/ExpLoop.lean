import Verif.Lemmas.ExpSmall
/-!
# The exponential function: small arguments, the loop, the function
-/

namespace AF

open Num

/-- Correct rounding of a positive number implies the bounds of `ConstRounded`. -/
theorem ConstRounded.of_fmt {rm : RM} {P : Nat} {y : ℝ} {v : Num} (hy : (2 : ℝ) ^ (EMIN - 1) ≤ y) (h1 : v.WF)
    (h2 : 64 * v.m.m.length = P) (h3 : v.s = .pos) (h4 : v.inexact = true) (h5 : RoundsFmt rm P y v.toK) :
    ConstRounded rm P y v := by
  have hy0 : 0 < y := lt_of_lt_of_le (by positivity) hy
  have hpr := h5.toPrec (by rw [abs_of_pos hy0]; exact hy)
  refine ⟨h1, h2, h3, h4, fun _ => h5, ?_, ?_⟩
  · intro hr
    refine le_trans (hpr.nearest_rel (by rcases hr with rfl | rfl <;> rfl)) (mul_le_mul_of_nonneg_left ?_ (abs_nonneg _))
    have : (0 : ℝ) < 2 ^ (-(P : ℤ)) := by positivity
    have h60 : (0 : ℝ) < 2 ^ (-60 : ℤ) := by positivity
    nlinarith
  · intro hr
    rw [hr] at hpr
    refine le_trans hpr.none_abs (mul_le_mul_of_nonneg_left ?_ (abs_nonneg _))
    have : (0 : ℝ) < 2 ^ (1 - (P : ℤ)) := by positivity
    have h60 : (0 : ℝ) < 2 ^ (-60 : ℤ) := by positivity
    nlinarith

/-- Arguments next to zero. -/
theorem exp_small {x : Num} (hx : x.WF) (hz : x.isZero = false) {pw : Nat} (hp : 0 < pw)
    (he : (64 * pw : ℤ) + 1 < -x.e) (rm : RM) :
    ∃ v, ONE.smallExp x.isNegative (64 * pw) rm = .ok v ∧ RoundsFmt rm (64 * pw) (Real.exp x.toK) v.toK ∧
      ConstRounded rm (64 * pw) (Real.exp x.toK) v := by
  have hem := hx.emin
  have hE : EMIN = -2 ^ 31 := rfl
  have hPM : PMAX = 2 ^ 62 - 2 ^ 31 - 1 := rfl
  obtain ⟨q, q1, q2, q3, -⟩ := hx.mag (K := ℝ) hz
  have hx0 : 0 < |(x.toK : ℝ)| := lt_of_lt_of_le (by positivity) q1
  have hxlt : |(x.toK : ℝ)| < 2 ^ (-(64 * pw : ℤ) - 2) :=
    lt_of_lt_of_le q2 (zpow_le_zpow_right₀ (by norm_num) (by omega))
  have hx1 : |(x.toK : ℝ)| ≤ 1 := by
    refine le_trans hxlt.le ?_
    exact zpow_le_one_of_nonpos₀ (by norm_num) (by omega)
  have hne : (x.toK : ℝ) ≠ 0 := abs_pos.1 hx0
  have hd := Real.abs_exp_sub_one_le hx1
  have hONE : ONE.e = 1 := rfl
  have hOl : ONE.m.m.length = 2 := rfl
  have hOs : ONE.s = .pos := rfl
  have hsg : Real.exp (x.toK : ℝ) = ONE.toK + (corrSign ONE x.isNegative).toK * |Real.exp (x.toK : ℝ) - 1| := by
    have hse := Num.toK_eq (K := ℝ) x
    unfold corrSign
    rw [ONE_toK, hOs]
    cases hs : x.s
    · rw [hs] at hse
      have hneg : (x.toK : ℝ) < 0 := by
        rw [hse]; simp only [Sign.toK]; linarith
      have := Real.exp_lt_one_iff.2 hneg
      rw [abs_of_neg (by linarith)]
      simp only [Num.isNegative, hs]
      simp [Sign.toK, Sign.invert]
    · rw [hs] at hse
      have hpos : 0 < (x.toK : ℝ) := by
        rw [hse]; simp only [Sign.toK]; linarith
      have := Real.one_lt_exp_iff.2 hpos
      rw [abs_of_pos (by linarith)]
      simp only [Num.isNegative, hs]
      simp [Sign.toK]
  have hd0 : 0 < |Real.exp (x.toK : ℝ) - 1| := by
    rw [abs_pos, sub_ne_zero]
    intro h
    exact hne (Real.exp_eq_one_iff _ |>.1 h)
  have h2 : (2 : ℝ) ^ (-(64 * pw : ℤ) - 1) = 2 * 2 ^ (-(64 * pw : ℤ) - 2) := by
    rw [show -(64 * pw : ℤ) - 1 = (-(64 * pw : ℤ) - 2) + 1 by ring, zpow_add_one₀ (by norm_num)]; ring
  have hdl : |Real.exp (x.toK : ℝ) - 1| < 2 ^ (ONE.e - ((64 * pw : ℕ) : ℤ) - 2) := by
    rw [hONE, show (1 : ℤ) - ((64 * pw : ℕ) : ℤ) - 2 = -(64 * pw : ℤ) - 1 by push_cast; ring, h2]
    linarith
  obtain ⟨v, v1, v2, v3, v4, v5, v6⟩ := smallExp_rounds ONE_WF ONE_nz (by rw [hONE, hE]; norm_num)
    (by rw [hONE]; decide) hp (by omega) (by rw [hOl]; decide) x.isNegative rm (G := 64 * pw) (le_refl _)
    (by rw [hOl]; omega) (k := 2 ^ (64 * pw - 1)) (by
      rw [ONE_toK, hONE]
      push_cast
      rw [← zpow_natCast, ← zpow_add₀ (by norm_num)]
      rw [show ((64 * pw - 1 : ℕ) : ℤ) + (1 - 64 * (pw : ℤ)) = 0 by omega]
      simp) hd0 hdl hsg
  refine ⟨v, v1, v6, .of_fmt ?_ v2 (by omega) v4 v5 v6⟩
  have h3 : (2 : ℝ) ^ (-(64 * pw : ℤ) - 2) ≤ 2 ^ (-2 : ℤ) := zpow_le_zpow_right₀ (by norm_num) (by omega)
  have h4 : (2 : ℝ) ^ (EMIN - 1) ≤ 2 ^ (-2 : ℤ) := zpow_le_zpow_right₀ (by norm_num) (by rw [hE]; norm_num)
  have h5 := (abs_le.1 hd).1
  have h6 : (2 : ℝ) ^ (-2 : ℤ) = 1 / 4 := by norm_num
  have h7 := le_trans hxlt.le h3
  rw [h6] at h4 h7
  refine le_trans h4 ?_
  linarith

/-- The working precision never falls. -/
theorem expLoop_ge {x : Num} {p : Nat} {rm : RM} : ∀ {f pInc w : Nat} {c c' : ConstCache (Num × Num)}
    {r : Except Err Num} {w' : Nat}, x.expLoop p rm f pInc w c = some (r, c', w') → w ≤ w' := by
  intro f
  induction f with
  | zero => intro pInc w c c' r w' h; simp [Num.expLoop] at h
  | succ f ih =>
    intro pInc w c c' r w' h
    rw [Num.expLoop] at h
    split at h
    · simp at h
    · split at h <;> · injection h with h; injection h with _ h; injection h with _ h; omega
    · split at h
      · injection h with h; injection h with _ h; injection h with _ h; omega
      · split at h
        · injection h with h; injection h with _ h; injection h with _ h; omega
        · injection h with h; injection h with _ h; injection h with _ h; omega
        · have := ih h; omega

/-- What the loop returns. -/
theorem exp_loop {x : Num} (hx : x.WF) (hz : x.isZero = false) (htop : Real.exp |(x.toK : ℝ)| ≤ 2 ^ (EMAX - 4))
    {pw : Nat} (hp : 0 < pw) (rm : RM) : ∀ {f pInc w : Nat} {c c' : ConstCache (Num × Num)} {r : Except Err Num} {w' : Nat},
    CacheOk ERep EValOk c → 64 ∣ w → 64 ∣ pInc → 64 * pw + 64 ≤ w → 64 * x.m.m.length ≤ w → -(w : ℤ) < x.e →
    x.expLoop (64 * pw) rm f pInc w c = some (r, c', w') → w' ≤ 2 ^ 22 →
    CacheOk ERep EValOk c' ∧ ∃ v, r = .ok v ∧ ConstRounded rm (64 * pw) (Real.exp x.toK) v := by
  intro f
  induction f with
  | zero => intro pInc w c c' r w' _ _ _ _ _ _ h; simp [Num.expLoop] at h
  | succ f ih =>
    intro pInc w c c' r w' hc hw hi h1 h2 h3 h h22
    have hle := le_trans (expLoop_ge h) h22
    have ha : ArgOk x w := ⟨hx, hz, hw, by omega, hle, h2, h3, htop⟩
    obtain ⟨a, v, c1, b1, b2, b3, -⟩ := exp_round ha hc hp h1 rm
    rw [b2] at h
    by_cases hat : a = true
    · rw [if_pos hat] at h
      obtain ⟨b4, b5⟩ := b3 hat
      injection h with h
      injection h with h h'
      injection h' with h' _
      rw [← h']
      refine ⟨b1, v, ?_, b4.rounded (Real.exp_pos _) b5⟩
      rw [← h, b5, Bool.true_or]
      congr 1
      cases v
      simp only at b5
      rw [b5]
    · rw [if_neg hat] at h
      have hge := expLoop_ge h
      have hd := Nat.dvd_add hw hi
      exact ih b1 hd (roundP_step (by omega) hd).1 (by omega) (by omega) (by push_cast; omega) h h22

/-- What `exp` returns, for arguments other than zero whose exponential is in range. -/
theorem exp_spec {x : Num} (hx : x.WF) (hz : x.isZero = false) (htop : Real.exp |(x.toK : ℝ)| ≤ 2 ^ (EMAX - 4))
    {p : Nat} (hp : ValidP p) (rm : RM) {f : Nat} {c c' : ConstCache (Num × Num)} (hc : CacheOk ERep EValOk c)
    {r : Except Err Num} {w : Nat} (h : x.exp p rm f c = some (r, c', w)) (hw : w ≤ 2 ^ 22) :
    CacheOk ERep EValOk c' ∧ ∃ v, r = .ok v ∧ ConstRounded rm (precBits p) (Real.exp x.toK) v := by
  have hp0 := hp.pos
  obtain ⟨pw, hpw⟩ : ∃ pw, precBits p = 64 * pw := ⟨(p + 63) / 64, rfl⟩
  have hpw0 : 0 < pw := by unfold precBits at hpw; omega
  have hmb : x.m.maxBitLen = 64 * x.m.m.length := by unfold Mantissa.maxBitLen; omega
  unfold Num.exp at h
  rw [hp.roundP, hpw, hmb] at h
  dsimp only at h
  rw [if_neg (by simp [hz])] at h
  rw [hpw]
  by_cases hs : ((max (64 * pw) (64 * x.m.m.length) : ℕ) : ℤ) + 1 < -x.e
  · rw [if_pos hs] at h
    obtain ⟨v, v1, -, v3⟩ := exp_small hx hz hpw0 (by push_cast at hs; omega) rm
    injection h with h
    injection h with h h'
    injection h' with h' _
    rw [← h', ← h]
    exact ⟨hc, v, v1, v3⟩
  · rw [if_neg hs] at h
    exact exp_loop hx hz htop hpw0 rm hc (by omega) (by norm_num) (by omega) (by omega) (by push_cast at hs ⊢; omega) h hw

/-- The first round returns a number in mode `None`, and in the directed modes unless the digits are exceptional. -/
theorem exp_number {x : Num} (hx : x.WF) (hz : x.isZero = false) (htop : Real.exp |(x.toK : ℝ)| ≤ 2 ^ (EMAX - 4))
    {p : Nat} (hp : ValidP p) {rm : RM} {f : Nat} {c : ConstCache (Num × Num)} (hc : CacheOk ERep EValOk c)
    (hw : max (precBits p) (64 * x.m.m.length) + 64 ≤ 2 ^ 22)
    (hs : rm = .none ∨ rm.directed = true ∧ ¬ NearGrid (precBits p) 63 (Real.exp x.toK)) :
    ∃ r c' w, x.exp p rm (f + 1) c = some (r, c', w) ∧ w ≤ 2 ^ 22 := by
  have hp0 := hp.pos
  obtain ⟨pw, hpw⟩ : ∃ pw, precBits p = 64 * pw := ⟨(p + 63) / 64, rfl⟩
  have hpw0 : 0 < pw := by unfold precBits at hpw; omega
  have hmb : x.m.maxBitLen = 64 * x.m.m.length := by unfold Mantissa.maxBitLen; omega
  rw [hpw] at hw hs
  unfold Num.exp
  rw [hp.roundP, hpw, hmb]
  dsimp only
  rw [if_neg (by simp [hz])]
  by_cases h : ((max (64 * pw) (64 * x.m.m.length) : ℕ) : ℤ) + 1 < -x.e
  · rw [if_pos h]
    exact ⟨_, _, _, rfl, by norm_num⟩
  · rw [if_neg h]
    have ha : ArgOk x (max (64 * pw) (64 * x.m.m.length) + 64) :=
      ⟨hx, hz, by omega, by omega, hw, by omega, by push_cast at h ⊢; omega, htop⟩
    obtain ⟨a, v, c1, b1, b2, b3, b4⟩ := exp_round ha hc hpw0 (by omega) rm
    rw [b2, if_pos (b4 hs)]
    exact ⟨_, _, _, rfl, hw⟩

end AF
