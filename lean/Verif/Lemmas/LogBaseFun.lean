import Verif.Lemmas.LogBaseStep
/-!
# The loop of the logarithm to any base
-/

namespace AF
open Num

theorem logLoop_ge {x0 n : Num} {p : Nat} {rm : RM} {pf : Nat} : ∀ {f pInc w : Nat} {x y : Num} {c c' : PowCaches} {r : Except Err Num} {w' : Nat},
    logLoop x0 n p rm pf f pInc w x y c = some (r, c', w') → w ≤ w' := by
  intro f
  induction f with
  | zero => intro pInc w x y c c' r w' h; cases h
  | succ f ih =>
    intro pInc w x y c c' r w' h
    unfold logLoop at h
    dsimp only at h
    repeat' split at h
    all_goals first
      | cases h; done
      | (injection h with h; injection h with _ h; injection h with _ h; omega)
      | (have := ih h; omega)

/-- A number in the middle of the range rounds to a number. -/
theorem setPrecision_fun {r : Num} (hr : r.WF) (hi : r.inexact = true) (h0 : (2 : ℝ) ^ (EMIN - 1) ≤ |(r.toK : ℝ)|)
    (h1 : |(r.toK : ℝ)| ≤ 2 ^ (EMAX - 1)) {pw : Nat} (hp : 0 < pw) (hpm : 64 * pw < PMAX) (rm : RM) :
    ∃ v, r.setPrecision (64 * pw) rm = .ok v ∧ FunRounded rm (64 * pw) (r.toK : ℝ) v := by
  have hD := setPrecision_delivers (K := ℝ) hr hp hpm rm
  cases hs : r.setPrecision (64 * pw) rm with
  | error e =>
    exfalso
    rw [hs] at hD
    obtain ⟨-, t, g1, g2⟩ := hD
    have := g1.abs_le (by omega) h1
    have h2 : (2 : ℝ) ^ (EMAX - 1) < 2 ^ EMAX := zpow_lt_zpow_right₀ (by norm_num) (by omega)
    linarith
  | ok v =>
    rw [hs] at hD
    obtain ⟨d1, d2, d3, d4, d5, d6⟩ := hD
    refine ⟨v, rfl, FunRounded.of_fmt h0 d1 d2 d3 d4 (d5.2 (Or.inl hi)) ?_⟩
    rcases d6 with d6 | ⟨-, d6, -⟩
    · exact d6
    · linarith

/-- `v` is a rounded value of a number `t` very near to `y`, which is `y` unless the digits of `y` are exceptional. -/
def LogOut (rm : RM) (P : Nat) (y : ℝ) (r : Except Err Num) : Prop :=
  ∃ v t, r = .ok v ∧ FunRounded rm P t v ∧ |t - y| ≤ |y| * 2 ^ (-(P : ℤ) - 124) ∧
    (rm = .none ∨ rm.directed = true ∧ ¬ NearGrid P 63 |y| → t = y)

theorem logBaseLoop_spec {x0 n : Num} {X N : ℝ} (hX : 0 < X) (hX1 : X ≠ 1) (hN : 0 < N) (hN1 : N ≠ 1)
    (hXt : |Real.log X| ≤ (EMAX - 6 : ℤ) * Real.log 2) (hNt : |Real.log N| ≤ (EMAX - 6 : ℤ) * Real.log 2)
    {pw : Nat} (hp : 0 < pw) (rm : RM) (pf : Nat) :
    ∀ {f pInc w : Nat} {x y : Num} {c c' : PowCaches} {r : Except Err Num} {w' : Nat}, 64 ∣ w → 64 ∣ pInc → 64 ≤ pInc → 64 * pw + 64 ≤ w →
      64 * x0.m.m.length ≤ w → LogInv X N w x y c →
      logLoop x0 n (64 * pw) rm (pf + 1) f pInc w x y c = some (r, c', w') → w' ≤ 2 ^ 14 →
      (CacheOk ERep EValOk c'.1 ∧ Ln2Ok c'.2) ∧ LogOut rm (64 * pw) (Real.log X / Real.log N) r := by
  intro f
  induction f with
  | zero => intro pInc w x y c c' r w' _ _ _ _ _ _ h _; cases h
  | succ f ih =>
    intro pInc w x y c c' r w' hd hdi hpi hpw hx0 hs h hw'
    have hww := logLoop_ge h
    have hE : EMIN = -2 ^ 31 := rfl
    have hE' : EMAX = 2 ^ 31 - 1 := rfl
    have hmx : x0.m.maxBitLen = 64 * x0.m.m.length := by unfold Mantissa.maxBitLen; omega
    obtain ⟨x', y', p1, p2, d1, d2, w1, w2, r2, e1, e2, e3, e4, e5, hinv, htest, hr, hlr, hix, hlx, hly, hrc⟩ :=
      log_round hX hX1 hN hN1 hd (by omega) (by omega) hs pf
    have hs' := hinv (w + 64) (le_refl _)
    have bX := log_bounds hs'.wfx (by rw [hs'.eqx]; exact hX) (by rw [hs'.eqx]; exact hX1) (by omega)
    have bN := log_bounds hs'.wfy (by rw [hs'.eqy]; exact hN) (by rw [hs'.eqy]; exact hN1) (by omega)
    rw [hs'.eqx] at bX
    rw [hs'.eqy] at bN
    obtain ⟨b1, b2⟩ := logq_bounds (M := 2 ^ 16 + 1) (a := Real.log X) (b := Real.log N) (by exact_mod_cast bX) (by exact_mod_cast bN)
    obtain ⟨Y, hY⟩ : ∃ Y, Y = Real.log X / Real.log N := ⟨_, rfl⟩
    rw [← hY] at b1 b2 htest hrc ⊢
    have hmid : MidRange Y := by
      apply MidRange.of_bounds
      · exact le_trans (zpow_le_zpow_right₀ (by norm_num) (by omega)) b1
      · exact lt_of_le_of_lt b2 (zpow_lt_zpow_right₀ (by norm_num) (by omega))
    obtain ⟨a, v', t1, t2, t3⟩ := htest.try hmid hp (by unfold PMAX; omega) hpw hd rm
    unfold logLoop at h
    dsimp only at h
    rw [e1] at h
    dsimp only at h
    rw [e2] at h
    dsimp only at h
    rw [e3] at h
    dsimp only at h
    rw [e4] at h
    dsimp only at h
    rw [e5] at h
    dsimp only at h
    rw [t1] at h
    cases a with
    | true =>
      dsimp only at h
      injection h with h
      injection h with h1 h
      injection h with h2 h
      rw [← h1, ← h2]
      refine ⟨⟨hs'.ec, hs'.l2⟩, _, Y, rfl, ?_, by rw [sub_self, abs_zero]; positivity, fun _ => rfl⟩
      have hf := t2 rfl
      have : ({ v' with inexact := v'.inexact || x0.inexact || n.inexact } : Num) = v' := by
        rw [hf.inexact, Bool.true_or, Bool.true_or, ← hf.inexact]
      rw [this]; exact hf
    | false =>
      dsimp only at h
      have hv : ValidP (max (w + 5) x0.m.maxBitLen) := by
        rw [hmx, max_eq_left (by omega)]; exact validP_w (w := w) (k := 5) (by omega) (by norm_num) (by norm_num)
      have hpb : precBits (max (w + 5) x0.m.maxBitLen) = w + 64 := by
        rw [hmx, max_eq_left (by omega)]; exact precBits_w (w := w) (k := 5) hd (by norm_num) (by norm_num)
      have hXl : (2 : ℝ) ^ EMIN * 2 ≤ |Real.log X| := by
        refine le_trans ?_ bX.1
        rw [← zpow_add_one₀ (by norm_num)]
        exact zpow_le_zpow_right₀ (by norm_num) (by push_cast; omega)
      rw [hY] at hrc
      obtain ⟨pv, c2, w3, g1, g2, g3⟩ := log_pow hs'.wfy hr hX hN hN1 hs'.eqy hXl hXt hNt hd (by omega) (by omega) hly hlr hrc hv hpb pf
        (c := (c.1, d2)) hs'.ec hs'.l2
      rw [← hY] at hrc
      rw [g1] at h
      dsimp only at h
      split at h
      · injection h with h
        injection h with h1 h
        injection h with h2 h
        obtain ⟨hδ0, hδ, -⟩ := wUnit_tiny (w := w) (by omega)
        have hYp : 0 < |Y| := lt_of_lt_of_le (by positivity) b1
        have hsm : |Y| * (4 * wUnit w) ≤ |Y| * (1 / 2) :=
          mul_le_mul_of_nonneg_left (by linarith [show (4 : ℝ) * (1 / 2 ^ 190) ≤ 1 / 2 by norm_num]) hYp.le
        have hra : |Y| * 2⁻¹ ≤ |(r2.toK : ℝ)| := by
          have := abs_sub_abs_le_abs_sub Y (r2.toK : ℝ)
          rw [abs_sub_comm] at this
          linarith
        have hra2 : |(r2.toK : ℝ)| ≤ |Y| * 2 := by
          have := abs_sub_abs_le_abs_sub (r2.toK : ℝ) Y
          linarith
        have hre : ({ r2 with inexact := r2.inexact || x0.inexact || n.inexact } : Num) = r2 := by
          rw [hix, Bool.true_or, Bool.true_or, ← hix]
        rw [hre] at h1
        obtain ⟨v, v1, v2⟩ := setPrecision_fun hr hix (by
            refine le_trans ?_ (le_trans (mul_le_mul_of_nonneg_right b1 (by norm_num)) hra)
            rw [← zpow_sub_one₀ (by norm_num)]
            exact zpow_le_zpow_right₀ (by norm_num) (by omega)) (by
            refine le_trans hra2 (le_trans (mul_le_mul_of_nonneg_right b2 (by norm_num)) ?_)
            rw [← zpow_add_one₀ (by norm_num)]
            exact zpow_le_zpow_right₀ (by norm_num) (by omega)) hp (by unfold PMAX; omega) rm
        rw [← h1, ← h2]
        refine ⟨⟨g2, g3⟩, v, _, v1, v2, ?_, fun hcon => ?_⟩
        · refine le_trans hrc (mul_le_mul_of_nonneg_left ?_ hYp.le)
          unfold wUnit
          rw [show (4 : ℝ) = 2 ^ (2 : ℤ) by norm_num, ← zpow_add₀ (by norm_num)]
          exact zpow_le_zpow_right₀ (by norm_num) (by omega)
        · exact absurd (t3 hcon) Bool.false_ne_true
      · have hge := logLoop_ge h
        have hrp : roundP ((w + pInc) / 5) = precBits ((w + pInc) / 5) := by
          have : (w + pInc) / 5 + 63 ≤ USIZE_MAX := le_trans (show (w + pInc) / 5 + 63 ≤ 2 ^ 16 by omega) (by decide)
          unfold roundP precBits
          rw [min_eq_left this, mul_comm]
        have hinv' := hinv (w + pInc) (by omega)
        have := ih (by omega) (by rw [hrp]; unfold precBits; omega) (by rw [hrp]; unfold precBits; omega) (by omega) (by omega)
          ⟨hinv'.wfx, hinv'.wfy, hinv'.eqx, hinv'.eqy, hinv'.lenx, hinv'.leny, g2, g3⟩ h hw'
        rw [← hY] at this
        exact this

variable {x n : Num}

theorem log_flags (hx : 0 < (x.toK : ℚ)) (hn : 0 < (n.toK : ℚ)) (hwx : x.WF) (hwn : n.WF) :
    (x.isZero || x.isNegative || n.isZero || n.isNegative) = false := by
  rw [isZero_false hwx hx.ne', isZero_false hwn hn.ne']
  unfold Num.isNegative
  rw [sign_of_pos hx, sign_of_pos hn]; rfl

theorem log_start (hx : x.WF) (hn : n.WF) {w : Nat} (hlx : 64 * x.m.m.length ≤ w) (hln : 64 * n.m.m.length ≤ w) {c : PowCaches}
    (h1 : CacheOk ERep EValOk c.1) (h2 : Ln2Ok c.2) :
    LogInv (x.toK : ℝ) (n.toK : ℝ) w { x with inexact := false } { n with inexact := false } c where
  wfx := ⟨hx.wf, hx.bits, hx.emin, hx.emax, hx.norm, hx.sized⟩
  wfy := ⟨hn.wf, hn.bits, hn.emin, hn.emax, hn.norm, hn.sized⟩
  eqx := rfl
  eqy := rfl
  lenx := hlx
  leny := hln
  ec := h1
  l2 := h2

theorem log_range {x : Num} (h0 : 0 < (x.toK : ℝ)) (h1 : (2 : ℝ) ^ (-(EMAX - 6)) ≤ x.toK) (h2 : (x.toK : ℝ) ≤ 2 ^ (EMAX - 6)) :
    |Real.log x.toK| ≤ (EMAX - 6 : ℤ) * Real.log 2 := by
  rw [abs_le]
  constructor
  · have := Real.log_le_log (by positivity) h1
    rw [Real.log_zpow] at this
    push_cast at this ⊢
    linarith
  · have := Real.log_le_log h0 h2
    rw [Real.log_zpow] at this
    exact this

theorem logC_spec (hx : x.WF) (hn : n.WF) (h0 : 0 < (x.toK : ℚ)) (hn0 : 0 < (n.toK : ℚ)) (h1 : (x.toK : ℝ) ≠ 1) (hn1 : (n.toK : ℝ) ≠ 1)
    (hXt : |Real.log x.toK| ≤ (EMAX - 6 : ℤ) * Real.log 2) (hNt : |Real.log n.toK| ≤ (EMAX - 6 : ℤ) * Real.log 2)
    {p : Nat} (hp : ValidP p) (rm : RM) {f : Nat} {c c' : PowCaches} (hc1 : CacheOk ERep EValOk c.1) (hc2 : Ln2Ok c.2)
    {r : Except Err Num} {w : Nat} (h : x.logC n p rm f c = some (r, c', w)) (hw : w ≤ 2 ^ 14) :
    (CacheOk ERep EValOk c'.1 ∧ Ln2Ok c'.2) ∧ LogOut rm (precBits p) (Real.logb n.toK x.toK) r := by
  have hmb : ∀ x : Num, x.m.maxBitLen = 64 * x.m.m.length := by intro x; unfold Mantissa.maxBitLen; omega
  have hp0 := hp.pos
  obtain ⟨pw, hpw⟩ : ∃ pw, precBits p = 64 * pw := ⟨(p + 63) / 64, rfl⟩
  have hpw0 : 0 < pw := by unfold precBits at hpw; omega
  have hR : 0 < (x.toK : ℝ) := by rw [← toK_ratCast x]; exact_mod_cast h0
  have hRn : 0 < (n.toK : ℝ) := by rw [← toK_ratCast n]; exact_mod_cast hn0
  unfold Num.logC at h
  rw [hp.roundP] at h
  dsimp only at h
  rw [log_flags h0 hn0 hx hn, if_neg Bool.false_ne_true, hpw, hmb, hmb] at h
  rw [hpw]
  cases f with
  | zero => cases h
  | succ f =>
    exact logBaseLoop_spec hR h1 hRn hn1 hXt hNt hpw0 rm f (by omega) (by norm_num) (le_refl _) (by omega) (by omega)
      (log_start hx hn (by omega) (by omega) hc1 hc2) h hw

/-- The first round is the last in mode `None`, and in the directed modes unless the digits are exceptional. -/
theorem logC_number (hx : x.WF) (hn : n.WF) (h0 : 0 < (x.toK : ℚ)) (hn0 : 0 < (n.toK : ℚ)) (h1 : (x.toK : ℝ) ≠ 1) (hn1 : (n.toK : ℝ) ≠ 1)
    {p : Nat} (hp : ValidP p) {rm : RM} (f : Nat) {c : PowCaches} (hc1 : CacheOk ERep EValOk c.1) (hc2 : Ln2Ok c.2)
    (hw : max (precBits p) (max (64 * x.m.m.length) (64 * n.m.m.length)) + 64 ≤ 2 ^ 15)
    (hr : rm = .none ∨ rm.directed = true ∧ ¬ NearGrid (precBits p) 63 |Real.logb n.toK x.toK|) :
    ∃ v c', x.logC n p rm (f + 1) c = some (.ok v, c', max (precBits p) (max (64 * x.m.m.length) (64 * n.m.m.length)) + 64) ∧
      FunRounded rm (precBits p) (Real.logb n.toK x.toK) v ∧ CacheOk ERep EValOk c'.1 ∧ Ln2Ok c'.2 := by
  have hmb : ∀ x : Num, x.m.maxBitLen = 64 * x.m.m.length := by intro x; unfold Mantissa.maxBitLen; omega
  have hE : EMIN = -2 ^ 31 := rfl
  have hE' : EMAX = 2 ^ 31 - 1 := rfl
  have hp0 := hp.pos
  obtain ⟨pw, hpw⟩ : ∃ pw, precBits p = 64 * pw := ⟨(p + 63) / 64, rfl⟩
  have hpw0 : 0 < pw := by unfold precBits at hpw; omega
  have hR : 0 < (x.toK : ℝ) := by rw [← toK_ratCast x]; exact_mod_cast h0
  have hRn : 0 < (n.toK : ℝ) := by rw [← toK_ratCast n]; exact_mod_cast hn0
  unfold Num.logC
  rw [hp.roundP]
  dsimp only
  rw [log_flags h0 hn0 hx hn, if_neg Bool.false_ne_true, hmb, hmb]
  rw [hpw] at hw hr ⊢
  obtain ⟨w, hW⟩ : ∃ w, w = max (64 * pw) (max (64 * x.m.m.length) (64 * n.m.m.length)) + 64 := ⟨_, rfl⟩
  rw [← hW] at hw ⊢
  obtain ⟨x', y', p1, p2, d1, d2, w1, w2, r2, e1, e2, e3, e4, e5, hinv, htest, -, -, hix, hlx, hly, -⟩ :=
    log_round hR h1 hRn hn1 (w := w) (by omega) (by omega) hw (log_start hx hn (by omega) (by omega) hc1 hc2) f
  have hs' := hinv (w + 64) (le_refl _)
  have bX := log_bounds hs'.wfx (by rw [hs'.eqx]; exact hR) (by rw [hs'.eqx]; exact h1) (by omega)
  have bN := log_bounds hs'.wfy (by rw [hs'.eqy]; exact hRn) (by rw [hs'.eqy]; exact hn1) (by omega)
  rw [hs'.eqx] at bX
  rw [hs'.eqy] at bN
  obtain ⟨b1, b2⟩ := logq_bounds (M := 2 ^ 16 + 1) (a := Real.log x.toK) (b := Real.log n.toK) (by exact_mod_cast bX) (by exact_mod_cast bN)
  obtain ⟨Y, hY⟩ : ∃ Y, Y = Real.logb n.toK x.toK := ⟨_, rfl⟩
  have hY' : Y = Real.log x.toK / Real.log n.toK := hY
  rw [← hY'] at b1 b2 htest
  rw [← hY] at hr ⊢
  have hmid : MidRange Y := by
    apply MidRange.of_bounds
    · exact le_trans (zpow_le_zpow_right₀ (by norm_num) (by omega)) b1
    · exact lt_of_le_of_lt b2 (zpow_lt_zpow_right₀ (by norm_num) (by omega))
  obtain ⟨a, v', t1, t2, t3⟩ := htest.try hmid hpw0 (by unfold PMAX; omega) (by omega) (by omega) rm
  have ha := t3 hr
  rw [ha] at t1
  have hf := t2 ha
  unfold logLoop
  dsimp only
  rw [e1]
  dsimp only
  rw [e2]
  dsimp only
  rw [e3]
  dsimp only
  rw [e4]
  dsimp only
  rw [e5]
  dsimp only
  rw [t1]
  dsimp only
  have : ({ v' with inexact := v'.inexact || x.inexact || n.inexact } : Num) = v' := by
    rw [hf.inexact, Bool.true_or, Bool.true_or, ← hf.inexact]
  rw [this]
  exact ⟨v', _, rfl, hf, hs'.ec, hs'.l2⟩

end AF
