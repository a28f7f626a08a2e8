import Verif.Lemmas.PowFun
/-!
# The general power: values that are numbers of the format

When the value is a number of the format, no approximation is ever accepted in a directed mode.
-/

namespace AF

open Num

/-- The number `z` fits in `P` bits. -/
def Fits (P : Nat) (z : ℝ) : Prop := ∃ k e : ℤ, |k| < 2 ^ P ∧ z = k * 2 ^ e

theorem fits_gap {P w : Nat} (hw : P < w) {z t : ℝ} {E : ℤ} (hz : Fits P z) (hz0 : z ≠ 0) (ht1 : (2 : ℝ) ^ (E - 1) ≤ |t|) (ht2 : |t| < 2 ^ E)
    (herr : |t - z| ≤ |z| * (2 ^ (-(w : ℤ)) * (15 / 16))) (hw5 : 5 ≤ w) :
    ∃ j : ℤ, |(|t| - j * 2 ^ (E - (P : ℤ)))| < 2 ^ (E - (w : ℤ)) := by
  obtain ⟨W, hW⟩ : ∃ W : ℝ, W = 2 ^ (-(w : ℤ)) := ⟨_, rfl⟩
  have hW0 : 0 < W := by rw [hW]; positivity
  have hW1 : W ≤ 1 / 32 := by
    rw [hW]
    refine le_trans (zpow_le_zpow_right₀ (n := -5) (by norm_num) (by omega)) (by norm_num)
  have hEw : (2 : ℝ) ^ (E - (w : ℤ)) = 2 ^ E * W := by rw [hW, ← zpow_add₀ (by norm_num)]; congr 1
  rw [← hW] at herr
  have hab : |(|t| - |z|)| ≤ |t - z| := abs_abs_sub_abs_le_abs_sub t z
  have hzt : |z| - |t| ≤ |z| * (W * (15 / 16)) := by
    have := (abs_le.1 (le_trans hab herr)).1
    linarith
  have hz1 : 0 < |z| := abs_pos.2 hz0
  have hB : |(|t| - |z|)| < 2 ^ E * W := by
    refine lt_of_le_of_lt (le_trans hab herr) ?_
    have h1 : |z| * (W * (15 / 16)) ≤ |z| * (1 / 32) := mul_le_mul_of_nonneg_left (by linarith) hz1.le
    have h2 : |z| * (15 / 16) < 2 ^ E := by linarith
    have := mul_lt_mul_of_pos_right h2 hW0
    linarith
  obtain ⟨k, e, hk, hke⟩ := hz
  have hzk : |z| = |(k : ℝ)| * 2 ^ e := by
    rw [hke, abs_mul, abs_of_pos (show (0 : ℝ) < 2 ^ e by positivity)]
  by_cases he : E - (P : ℤ) ≤ e
  · refine ⟨|k| * 2 ^ (e - (E - (P : ℤ))).toNat, ?_⟩
    have : (((|k| * 2 ^ (e - (E - (P : ℤ))).toNat : ℤ)) : ℝ) * 2 ^ (E - (P : ℤ)) = |z| := by
      rw [hzk]
      push_cast
      rw [mul_assoc, ← zpow_natCast, ← zpow_add₀ (by norm_num)]
      congr 2
      omega
    rw [this, hEw]
    exact hB
  · exfalso
    have hk' : |(k : ℝ)| + 1 ≤ 2 ^ (P : ℤ) := by
      rw [zpow_natCast]
      exact_mod_cast hk
    have he0 : (0 : ℝ) < 2 ^ e := by positivity
    have h1 : |z| + 2 ^ e ≤ 2 ^ ((P : ℤ) + e) := by
      rw [zpow_add₀ (by norm_num), hzk]
      nlinarith
    have h2 : (2 : ℝ) ^ ((P : ℤ) + e) ≤ 2 ^ (E - 1) := zpow_le_zpow_right₀ (by norm_num) (by omega)
    have h3 : (2 : ℝ) ^ e ≤ |t| - |z| := by linarith
    have h4 : |z| * (W * (15 / 16)) ≤ 2 ^ ((P : ℤ) + e) * W := by
      have : |z| * (W * (15 / 16)) ≤ |z| * W := mul_le_mul_of_nonneg_left (by linarith) hz1.le
      have h5 : |z| * W < 2 ^ ((P : ℤ) + e) * W := mul_lt_mul_of_pos_right (by linarith) hW0
      linarith
    have h5 : (2 : ℝ) ^ ((P : ℤ) + e) * W < 2 ^ e := by
      rw [hW, ← zpow_add₀ (by norm_num)]
      exact zpow_lt_zpow_right₀ (by norm_num) (by omega)
    have := (le_abs_self (|t| - |z|)).trans (le_trans hab herr)
    linarith

/-- Accepted bits keep away from the multiples of the unit. -/
theorem mixed_far {t : Num} {P w : Nat} (hP : P < w) (hwl : w ≤ 64 * t.m.m.length)
    (h : Mixed (val t.m.m % 2 ^ (64 * t.m.m.length - P) / 2 ^ (64 * t.m.m.length - P - (w - P))) (w - P)) (j : ℤ) :
    (2 : ℝ) ^ (t.e - (w : ℤ)) ≤ |(|(t.toK : ℝ)| - j * 2 ^ (t.e - (P : ℤ)))| := by
  obtain ⟨V, hV⟩ : ∃ V, V = val t.m.m := ⟨_, rfl⟩
  obtain ⟨L, hL⟩ : ∃ L, L = 64 * t.m.m.length := ⟨_, rfl⟩
  rw [Num.abs_val, ← hV, ← hL]
  rw [← hV, ← hL, show L - P - (w - P) = L - w by omega] at h
  rw [← hL] at hwl
  obtain ⟨h1, h2⟩ := h
  have e1 : 2 ^ (L - P) = 2 ^ (w - P) * 2 ^ (L - w) := by rw [← pow_add]; congr 1; omega
  obtain ⟨D, hD⟩ : ∃ D, D = V % 2 ^ (L - P) / 2 ^ (L - w) := ⟨_, rfl⟩
  rw [← hD] at h1 h2
  obtain ⟨g, hg⟩ : ∃ g, g = 2 ^ (L - w) := ⟨_, rfl⟩
  have hg0 : 0 < g := by rw [hg]; positivity
  have d1 : D * g ≤ V % 2 ^ (L - P) := by rw [hD, hg]; exact Nat.div_mul_le_self _ _
  have d2 : V % 2 ^ (L - P) < (D + 1) * g := by
    rw [← Nat.div_lt_iff_lt_mul hg0, hg, ← hD]; omega
  have d3 : 1 * g ≤ V % 2 ^ (L - P) := le_trans (Nat.mul_le_mul_right g h1) d1
  have d4 : V % 2 ^ (L - P) + g ≤ 2 ^ (L - P) := by
    have h3 := Nat.mul_le_mul_right g h2
    rw [hg, ← e1, ← hg] at h3
    have : (D + 2) * g = (D + 1) * g + g := by ring
    omega
  have d5 := Nat.div_add_mod V (2 ^ (L - P))
  obtain ⟨c, hc⟩ : ∃ c, c = V / 2 ^ (L - P) := ⟨_, rfl⟩
  obtain ⟨m, hm⟩ : ∃ m, m = V % 2 ^ (L - P) := ⟨_, rfl⟩
  obtain ⟨N, hN⟩ : ∃ N, N = 2 ^ (L - P) := ⟨_, rfl⟩
  rw [← hc, ← hm, ← hN] at d5
  rw [← hm, ← hN] at d4
  rw [← hm] at d3
  have hN0 : 0 < N := by rw [hN]; positivity
  -- in units
  have u1 : (2 : ℝ) ^ (t.e - (P : ℤ)) = N * 2 ^ (t.e - (L : ℤ)) := by
    rw [hN]; push_cast
    rw [← zpow_natCast, ← zpow_add₀ (by norm_num)]; congr 1; omega
  have u2 : (2 : ℝ) ^ (t.e - (w : ℤ)) = g * 2 ^ (t.e - (L : ℤ)) := by
    rw [hg]; push_cast
    rw [← zpow_natCast, ← zpow_add₀ (by norm_num)]; congr 1; omega
  rw [u1, u2, ← mul_assoc, ← sub_mul, abs_mul, abs_of_pos (show (0 : ℝ) < 2 ^ (t.e - (L : ℤ)) by positivity)]
  refine mul_le_mul_of_nonneg_right ?_ (by positivity)
  have key : (g : ℤ) ≤ |(V : ℤ) - j * N| := by
    rw [← d5]
    push_cast
    have d3' : (g : ℤ) ≤ m := by exact_mod_cast (by omega : g ≤ m)
    have d4' : (m : ℤ) + g ≤ N := by exact_mod_cast d4
    have hN' : (0 : ℤ) < N := by exact_mod_cast hN0
    rw [le_abs]
    by_cases hj : j ≤ c
    · left
      nlinarith
    · right
      have : (c : ℤ) + 1 ≤ j := by omega
      nlinarith
  exact_mod_cast key

/-- No approximation of a number of the format is accepted in a directed mode. -/
theorem TestOk.exact_reject {t : Num} {y : ℝ} {w : Nat} (h : TestOk w y t) (hy : MidRange y) {pw : Nat} (hp : 0 < pw)
    (hpm : 64 * pw < PMAX) (hpw : 64 * pw + 64 ≤ w) (hw : 64 ∣ w) {rm : RM} (hrm : rm.directed = true) (hf : Fits (64 * pw) y) :
    ∃ v, t.trySetPrecision (64 * pw) rm w = .ok (false, v) := by
  obtain ⟨a, v, h1, h2, -⟩ := h.try hy hp hpm hpw hw rm
  cases a with
  | false => exact ⟨v, h1⟩
  | true =>
    exfalso
    obtain ⟨q, q1, q2, q3, q4⟩ := hy
    have hy0 : y ≠ 0 := by
      rw [← abs_pos]; exact lt_of_lt_of_le (by positivity) q3
    obtain ⟨k, k1, k2⟩ := h.err
    have hW1 : (2 : ℝ) ^ (-(w : ℤ)) ≤ 1 / 32 :=
      le_trans (zpow_le_zpow_right₀ (n := -5) (by norm_num) (by omega)) (by norm_num)
    have herr : |(t.toK : ℝ) - y| ≤ |y| * (2 ^ (-(w : ℤ)) * (15 / 16)) := by
      rw [k1, show y * k - y = y * (k - 1) by ring, abs_mul]
      exact mul_le_mul_of_nonneg_left k2 (abs_nonneg _)
    have hclose : |(t.toK : ℝ) - y| ≤ |y| * (1 / 4) := by
      refine le_trans herr (mul_le_mul_of_nonneg_left ?_ (abs_nonneg _))
      linarith
    have hab := abs_le.1 (le_trans (abs_abs_sub_abs_le_abs_sub (t.toK : ℝ) y) hclose)
    have hqq : (2 : ℝ) ^ (q - 1) = 2 * 2 ^ (q - 2) := by
      rw [← zpow_one_add₀ (by norm_num)]; congr 1; ring
    have htz : t.isZero = false := by
      rw [← Bool.not_eq_true, ← h.wf.toK_eq_zero (K := ℝ), ← abs_eq_zero]
      have : (0 : ℝ) < 2 ^ (q - 1) := by positivity
      linarith
    obtain ⟨q', g1, g2, g3, g4⟩ := h.wf.mag (K := ℝ) htz
    have hlo : (2 : ℝ) ^ (q - 2) ≤ |(t.toK : ℝ)| := by
      have : (0 : ℝ) < 2 ^ (q - 2) := by positivity
      linarith
    have r2 := (zpow_lt_zpow_iff_right₀ (by norm_num : (1 : ℝ) < 2)).1 (lt_of_le_of_lt hlo g2)
    have hte : t.e = q' := by omega
    rw [← hte] at g1 g2
    obtain ⟨j, hj⟩ := fits_gap (by omega) hf hy0 g1 g2 herr (by omega)
    have hnn : rm ≠ .none := by rintro rfl; simp [RM.directed] at hrm
    have hnear : rm.nearest = false := by revert hrm; cases rm <;> decide
    obtain ⟨a1, -⟩ := tryPrec_accept (K := ℝ) h.wf h.inexact (p := 64 * pw) (s := w) (by omega) (by omega) h.len hw hnn
      (by rw [hnear]; simp) h1
    unfold RoundableBits at a1
    rw [if_neg (by rw [hnear]; simp)] at a1
    have := mixed_far (P := 64 * pw) (by omega) h.len a1 j
    linarith

/-- A loop whose rounds test approximations of a number of the format does not end in a directed mode. -/
theorem roundLoop_stuck {σ : Type} {step : Nat → σ → Option (LoopStep × σ)} {rm : RM} {ix : Bool} {Inv : Nat → σ → Prop} {y : ℝ}
    (hy : MidRange y) {W w0 pw : Nat} (hp : 0 < pw) (hpm : 64 * pw < PMAX) (hw0 : 64 * pw + 64 ≤ w0) (hrm : rm.directed = true)
    (hf : Fits (64 * pw) y)
    (hstep : ∀ w s, 64 ∣ w → w0 ≤ w → w ≤ W → Inv w s → ∃ t s', step w s = some (.tst t, s') ∧
      (∀ w', w + 64 ≤ w' → Inv w' s') ∧ TestOk w y t) :
    ∀ {f pInc w : Nat} {s s' : σ} {r : Except Err Num} {w' : Nat}, Inv w s → 64 ∣ w → 64 ∣ pInc → 0 < pInc → w0 ≤ w →
    roundLoop step (64 * pw) rm ix f pInc w s = some (r, s', w') → W ≤ 2 ^ 32 → W < w' := by
  intro f
  induction f with
  | zero => intro pInc w s s' r w' _ _ _ _ _ h; simp [roundLoop] at h
  | succ f ih =>
    intro pInc w s s' r w' hi hw hpi hpi0 h1 h h32
    by_contra hW
    push Not at hW
    have hge := roundLoop_ge h
    obtain ⟨t, s1, a1, a2, a3⟩ := hstep w s hw h1 (by omega) hi
    obtain ⟨v, hv⟩ := a3.exact_reject hy hp hpm (by omega) hw hrm hf
    rw [roundLoop, a1] at h
    dsimp only at h
    rw [hv] at h
    dsimp only at h
    have hd := Nat.dvd_add hw hpi
    have hge := roundLoop_ge h
    obtain ⟨k1, k2, -⟩ := roundP_step (x := w + pInc) (by omega) hd
    have hp64 : 64 ≤ pInc := Nat.le_of_dvd hpi0 hpi
    exact absurd (ih (a2 _ (by omega)) hd k1 (by omega) (by omega) h h32) (by omega)

/-- A number next to one does not fit. -/
theorem not_fits_near_one {P : Nat} (hP : 1 ≤ P) {z : ℝ} (h0 : z ≠ 1) (h1 : |z - 1| < 2 ^ (-(P : ℤ))) : ¬ Fits P z := by
  rintro ⟨k, e, hk, rfl⟩
  have hPs : (2 : ℝ) ^ (-(P : ℤ)) ≤ 1 / 2 :=
    le_trans (zpow_le_zpow_right₀ (n := -1) (by norm_num) (by omega)) (by norm_num)
  have he0 : (0 : ℝ) < 2 ^ e := by positivity
  obtain ⟨a, b⟩ := abs_lt.1 h1
  -- the unit is at least `2^-P`
  have hk' : (k : ℝ) + 1 ≤ 2 ^ (P : ℤ) := by
    rw [zpow_natCast]
    have : k + 1 ≤ 2 ^ P := by have := le_abs_self k; omega
    exact_mod_cast this
  have hPP : (2 : ℝ) ^ (P : ℤ) * 2 ^ (-(P : ℤ)) = 1 := by rw [← zpow_add₀ (by norm_num)]; simp
  by_cases he : -(P : ℤ) ≤ e
  · rcases lt_or_ge 0 e with h | h
    · -- a multiple of two
      have : (2 : ℝ) ^ (1 : ℤ) ≤ 2 ^ e := zpow_le_zpow_right₀ (by norm_num) (by omega)
      norm_num at this
      rcases lt_or_ge 0 k with h' | h'
      · have : (1 : ℝ) ≤ k := by exact_mod_cast h'
        nlinarith
      · have : (k : ℝ) ≤ 0 := by exact_mod_cast h'
        nlinarith
    · have hu : (2 : ℝ) ^ e * 2 ^ (-e).toNat = 1 := by
        rw [← zpow_natCast, ← zpow_add₀ (by norm_num)]
        rw [show e + ((-e).toNat : ℤ) = 0 by omega, zpow_zero]
      have hz : (k : ℝ) * 2 ^ e - 1 = ((k - 2 ^ (-e).toNat : ℤ) : ℝ) * 2 ^ e := by
        push_cast
        rw [sub_mul, mul_comm (2 ^ (-e).toNat : ℝ), hu]
      have hn : (k - 2 ^ (-e).toNat : ℤ) ≠ 0 := by
        intro h
        rw [h] at hz
        simp at hz
        exact h0 (by linarith)
      have hge : (1 : ℝ) ≤ |((k - 2 ^ (-e).toNat : ℤ) : ℝ)| := by
        have := Int.one_le_abs hn
        exact_mod_cast this
      have hle : (2 : ℝ) ^ (-(P : ℤ)) ≤ 2 ^ e := zpow_le_zpow_right₀ (by norm_num) he
      rw [hz, abs_mul, abs_of_pos he0] at h1
      nlinarith
  · have hle : (2 : ℝ) ^ e ≤ 2 ^ (-(P : ℤ) - 1) := zpow_le_zpow_right₀ (by norm_num) (by omega)
    have h2 : (2 : ℝ) ^ (-(P : ℤ)) = 2 * 2 ^ (-(P : ℤ) - 1) := by
      rw [← zpow_one_add₀ (by norm_num)]; congr 1; ring
    have h3 : (k : ℝ) * 2 ^ e ≤ (2 ^ (P : ℤ) - 1) * 2 ^ e := mul_le_mul_of_nonneg_right (by linarith) he0.le
    have h4 : ((2 : ℝ) ^ (P : ℤ)) * 2 ^ e ≤ 2 ^ (P : ℤ) * 2 ^ (-(P : ℤ) - 1) := mul_le_mul_of_nonneg_left hle (by positivity)
    have h5 : (2 : ℝ) ^ (P : ℤ) * 2 ^ (-(P : ℤ) - 1) = 1 / 2 := by
      rw [← zpow_add₀ (by norm_num), show (P : ℤ) + (-(P : ℤ) - 1) = -1 by ring]; norm_num
    nlinarith

theorem powRun_stuck {x n : Num} (ha : PowArgs x n) {p : Nat} (hp : ValidP p) {rm : RM} (hrm : rm.directed = true)
    (hf : Fits (precBits p) (Real.exp (n.toK * Real.log |(x.toK : ℝ)|))) {f : Nat} {c c' : PowCaches}
    (hc1 : CacheOk ERep EValOk c.1) (hc2 : Ln2Ok c.2) {r : Except Err Num} {w : Nat}
    (h : x.powRun n p rm f c = some (r, c', w)) : 2 ^ 15 < w := by
  have hmx : x.m.maxBitLen = 64 * x.m.m.length := by unfold Mantissa.maxBitLen; omega
  have hmn : n.m.maxBitLen = 64 * n.m.m.length := by unfold Mantissa.maxBitLen; omega
  have hp0 := hp.pos
  have hlt := hp.lt
  obtain ⟨pw, hpw⟩ : ∃ pw, precBits p = 64 * pw := ⟨(p + 63) / 64, rfl⟩
  have hpw0 : 0 < pw := by unfold precBits at hpw; omega
  unfold powRun at h
  rw [hp.roundP] at h
  dsimp only at h
  rw [hpw] at h hlt hf
  rw [hmx, hmn, powSign_rm] at h
  have herm' : (if powSign x n = .neg then invertRm rm else rm).directed = true := by
    revert hrm; cases powSign x n <;> cases rm <;> decide
  obtain ⟨erm, herm⟩ : ∃ erm, erm = if powSign x n = .neg then invertRm rm else rm := ⟨_, rfl⟩
  rw [← herm] at h herm'
  have hmid := pow_mid ha.top
  obtain ⟨W, hW⟩ : ∃ W, W = max (64 * pw) (max (64 * x.m.m.length) (64 * n.m.m.length)) + 64 := ⟨_, rfl⟩
  rw [← hW] at h
  have key : ∀ {r s w}, roundLoop (powStep { n with inexact := false } x.inexact n.inexact (64 * pw) erm f) (64 * pw) erm
      (x.inexact || n.inexact) f 64 W ({ x with inexact := false, s := .pos }, c) = some (r, s, w) → 2 ^ 15 < w := by
    intro r s w hl
    cases f with
    | zero => simp [roundLoop] at hl
    | succ f =>
      refine roundLoop_stuck (Inv := PowInv |(x.toK : ℝ)|) hmid (W := 2 ^ 15) (w0 := W) hpw0 hlt (by omega) herm' hf ?_
        (pow_start ha (by omega) hc1 hc2) (by omega) (by norm_num) (by norm_num) le_rfl hl (by norm_num)
      intro w s hd hw1 hw2 hi
      obtain ⟨o, s1, a1, a2, a3, a4⟩ := powStep_spec (y := { n with inexact := false })
        ⟨ha.wfn.wf, ha.wfn.bits, ha.wfn.emin, ha.wfn.emax, ha.wfn.norm, ha.wfn.sized⟩ (abs_pos.2 ha.ne0) ha.ne1 ha.low ha.top hpw0 hd
        (by omega) (by omega) hw2 hi x.inexact n.inexact erm f
      cases o with
      | tst t => exact ⟨t, s1, a1, a2, a3⟩
      | ret r =>
        exfalso
        have hL : |(n.toK : ℝ) * Real.log (|(x.toK : ℝ)|)| < 2 ^ (-(64 * pw : ℤ) - 2) := a4 r rfl
        have h2 : (2 : ℝ) ^ (-(64 * pw : ℤ)) = 4 * 2 ^ (-(64 * pw : ℤ) - 2) := by
          rw [show (4 : ℝ) = 2 ^ (2 : ℤ) by norm_num, ← zpow_add₀ (by norm_num)]; congr 1; ring
        have hx1 : |(n.toK : ℝ) * Real.log (|(x.toK : ℝ)|)| ≤ 1 :=
          le_trans hL.le (zpow_le_one_of_nonpos₀ (by norm_num) (by omega))
        have hd := Real.abs_exp_sub_one_le hx1
        refine not_fits_near_one (by omega) ?_ ?_ hf
        · intro h
          have h0 := Real.exp_eq_one_iff _ |>.1 h
          have := ha.low
          rw [h0, abs_zero] at this
          have h3 : (0 : ℝ) < 2 ^ EMIN := by positivity
          linarith
        · push_cast
          rw [h2]
          have h3 : (0 : ℝ) < 2 ^ (-(64 * pw : ℤ) - 2) := by positivity
          linarith
  split at h
  · cases h
  all_goals
    rename_i hl
    injection h with h; injection h with h1 h; injection h with h2 h3
    have := key hl
    omega

end AF
