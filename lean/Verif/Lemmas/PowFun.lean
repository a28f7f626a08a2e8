import Verif.Lemmas.PowStep
import Verif.Lemmas.InvFun
/-!
# The general power: the loop
-/

namespace AF

open Num

/-- The result next to one: only the sign of the logarithm matters. -/
theorem smallExp_one {L : ℝ} (hL : L ≠ 0) {pw : Nat} (hp : 0 < pw) (hpm : 64 * pw + 64 < PMAX) (hlt : |L| < 2 ^ (-(64 * pw : ℤ) - 2))
    {neg : Bool} (hneg : neg = true ↔ L < 0) (rm : RM) :
    ∃ v, ONE.smallExp neg (64 * pw) rm = .ok v ∧ RoundsFmt rm (64 * pw) (Real.exp L) v.toK ∧
      FunRounded rm (64 * pw) (Real.exp L) v := by
  have hx1 : |L| ≤ 1 := by
    refine le_trans hlt.le ?_
    exact zpow_le_one_of_nonpos₀ (by norm_num) (by omega)
  have hd := Real.abs_exp_sub_one_le hx1
  have hONE : ONE.e = 1 := rfl
  have hOl : ONE.m.m.length = 2 := rfl
  have hOs : ONE.s = .pos := rfl
  have hE : EMIN = -2 ^ 31 := rfl
  have hsg : Real.exp L = ONE.toK + (corrSign ONE neg).toK * |Real.exp L - 1| := by
    unfold corrSign
    rw [ONE_toK, hOs]
    rcases lt_or_gt_of_ne hL with h | h
    · have := Real.exp_lt_one_iff.2 h
      rw [abs_of_neg (by linarith), hneg.2 h]
      simp [Sign.toK, Sign.invert]
    · have := Real.one_lt_exp_iff.2 h
      have hn : neg = false := by rw [← Bool.not_eq_true, hneg]; linarith
      rw [abs_of_pos (by linarith), hn]
      simp [Sign.toK]
  have hd0 : 0 < |Real.exp L - 1| := by
    rw [abs_pos, sub_ne_zero]
    intro h
    exact hL (Real.exp_eq_one_iff _ |>.1 h)
  have h2 : (2 : ℝ) ^ (-(64 * pw : ℤ) - 1) = 2 * 2 ^ (-(64 * pw : ℤ) - 2) := by
    rw [show -(64 * pw : ℤ) - 1 = (-(64 * pw : ℤ) - 2) + 1 by ring, zpow_add_one₀ (by norm_num)]; ring
  have hdl : |Real.exp L - 1| < 2 ^ (ONE.e - ((64 * pw : ℕ) : ℤ) - 2) := by
    rw [hONE, show (1 : ℤ) - ((64 * pw : ℕ) : ℤ) - 2 = -(64 * pw : ℤ) - 1 by push_cast; ring, h2]
    linarith
  obtain ⟨v, v1, v2, v3, v4, v5, v6⟩ := smallExp_rounds ONE_WF ONE_nz (by rw [hONE, hE]; norm_num)
    (by rw [hONE]; decide) hp (by omega) (by rw [hOl]; decide) neg rm (G := 64 * pw) (le_refl _)
    (by rw [hOl]; omega) (k := 2 ^ (64 * pw - 1)) (by
      rw [ONE_toK, hONE]
      push_cast
      rw [← zpow_natCast, ← zpow_add₀ (by norm_num)]
      rw [show ((64 * pw - 1 : ℕ) : ℤ) + (1 - 64 * (pw : ℤ)) = 0 by omega]
      simp) hd0 hdl hsg
  have hpos := Real.exp_pos L
  have hlow : (2 : ℝ) ^ (EMIN - 1) ≤ |Real.exp L| := by
    rw [abs_of_pos hpos]
    have h3 : (2 : ℝ) ^ (EMIN - 1) ≤ 2 ^ (-1 : ℤ) := zpow_le_zpow_right₀ (by norm_num) (by rw [hE]; norm_num)
    have h4 : (2 : ℝ) ^ (-(64 * pw : ℤ) - 2) ≤ 2 ^ (-2 : ℤ) := zpow_le_zpow_right₀ (by norm_num) (by omega)
    have h5 := (abs_le.1 hd).1
    norm_num at h3 h4
    linarith
  exact ⟨v, v1, v6, FunRounded.of_fmt hlow v2 (by rw [v3]) (fun _ => by rw [v4, hOs]) (fun h => absurd h (by linarith)) v5 v6⟩

/-- What the loop keeps. -/
structure PowInv (X : ℝ) (w : Nat) (s : PowState) : Prop where
  wf : s.1.WF
  eq : s.1.toK = X
  len : 64 * s.1.m.m.length ≤ w
  e : CacheOk ERep EValOk s.2.1
  l2 : Ln2Ok s.2.2

theorem mul_close {a b l δ m : ℝ} (hδ0 : 0 < δ) (hδ : δ ≤ 1 / 2 ^ 190) (hl : |l - b| ≤ |b| * (δ * (1 + 2 ^ (-60 : ℤ))))
    (hm : |m - a * l| ≤ |a * l| * δ) : |m - a * b| ≤ |a * b| * (4 * δ) := by
  have h60 : (1 : ℝ) + 2 ^ (-60 : ℤ) ≤ 3 / 2 := by norm_num
  have h1 : |l - b| ≤ |b| * (3 / 2 * δ) := by
    refine le_trans hl (mul_le_mul_of_nonneg_left ?_ (abs_nonneg _))
    linarith [mul_le_mul_of_nonneg_left h60 hδ0.le]
  have h2 : |a * l - a * b| ≤ |a * b| * (3 / 2 * δ) := by
    rw [← mul_sub, abs_mul, abs_mul, mul_assoc]
    exact mul_le_mul_of_nonneg_left h1 (abs_nonneg _)
  have h3 : |a * l| ≤ |a * b| + |a * b| * (3 / 2 * δ) := by
    have := abs_sub_abs_le_abs_sub (a * l) (a * b)
    linarith
  have h4 : |m - a * b| ≤ |m - a * l| + |a * l - a * b| := abs_sub_le _ _ _
  obtain ⟨A, hA⟩ : ∃ A, A = |a * b| := ⟨_, rfl⟩
  rw [← hA] at h2 h3 ⊢
  have hA0 : 0 ≤ A := hA ▸ abs_nonneg _
  have hd : δ ≤ 1 / 2 := le_trans hδ (by norm_num)
  have h5 : |a * l| * δ ≤ (A + A * (3 / 2 * δ)) * δ := mul_le_mul_of_nonneg_right h3 hδ0.le
  have h6 : A * (3 / 2 * δ) * δ ≤ A * (3 / 2 * δ) * (1 / 2) := mul_le_mul_of_nonneg_left hd (by positivity)
  linarith [mul_nonneg hA0 hδ0.le]

theorem sign_close {L m δ : ℝ} (hL : L ≠ 0) (hδ : δ ≤ 1 / 2 ^ 190) (h : |m - L| ≤ |L| * (4 * δ)) :
    (m < 0 ↔ L < 0) ∧ m ≠ 0 ∧ |L| ≤ 2 * |m| ∧ |m| ≤ 2 * |L| := by
  have hd : 4 * δ ≤ 1 / 2 := by
    have : δ ≤ 1 / 8 := le_trans hδ (by norm_num)
    linarith
  have h0 := abs_pos.2 hL
  have h1 : |m - L| ≤ |L| * (1 / 2) := le_trans h (mul_le_mul_of_nonneg_left hd h0.le)
  obtain ⟨a, b⟩ := abs_le.1 h1
  rcases lt_or_gt_of_ne hL with hn | hn
  · rw [abs_of_neg hn] at *
    have : m < 0 := by linarith
    rw [abs_of_neg this]
    exact ⟨⟨fun _ => hn, fun _ => this⟩, this.ne, by linarith, by linarith⟩
  · rw [abs_of_pos hn] at *
    have : 0 < m := by linarith
    rw [abs_of_pos this]
    exact ⟨⟨fun _ => by linarith, fun _ => by linarith⟩, this.ne', by linarith, by linarith⟩

theorem powStep_spec {y : Num} (hy : y.WF) {X : ℝ} (hX : 0 < X) (hX1 : X ≠ 1) (hlow : (2 : ℝ) ^ EMIN ≤ |y.toK * Real.log X|)
    (htop : Real.exp |y.toK * Real.log X| ≤ 2 ^ (EMAX - 5)) {pw : Nat} (hp : 0 < pw) {w : Nat} (hd : 64 ∣ w) (hpw : 64 * pw + 64 ≤ w)
    (h1 : 128 ≤ w) (h2 : w ≤ 2 ^ 15) {s : PowState} (hs : PowInv X w s) (xix nix : Bool) (erm : RM) (f : Nat) :
    ∃ o s', powStep y xix nix (64 * pw) erm (f + 1) w s = some (o, s') ∧ (∀ w', w + 64 ≤ w' → PowInv X w' s') ∧
      StepOut erm (64 * pw) (Real.exp (y.toK * Real.log X)) w o ∧
      (∀ r, o = .ret r → |y.toK * Real.log X| < 2 ^ (-(64 * pw : ℤ) - 2)) := by
  have hPM : PMAX = 2 ^ 62 - 2 ^ 31 - 1 := rfl
  have hE : EMIN = -2 ^ 31 := rfl
  obtain ⟨hδ0, hδ, hδ2⟩ := wUnit_tiny h1
  have hz : s.1.isZero = false := by
    rw [← Bool.not_eq_true, ← hs.wf.toK_eq_zero (K := ℝ), hs.eq]; exact hX.ne'
  obtain ⟨x, x1, x2, x3, -, x5, -, x7⟩ := hyp_extend (x := s.1) hs.wf hz rfl hd (by omega) (by omega) hs.len (k := 2) (by norm_num) (by norm_num)
  rw [hs.eq] at x7
  have hv := validP_w (w := w) (k := 2) (by omega) (by norm_num) (by norm_num)
  have hpb := precBits_w (w := w) (k := 2) hd (by norm_num) (by norm_num)
  obtain ⟨l, c', w', l1, l2, l3, -, -⟩ := ln_none x2 (by rw [x7]; exact hX) (by rw [x7]; exact hX1) hv (f := f) hs.l2 (by rw [hpb]; omega)
  rw [hpb, x7] at l3
  have l4 := l3.none rfl
  rw [wUnit_eq] at l4
  have hL0 : y.toK * Real.log X ≠ 0 := by
    rw [← abs_pos]; exact lt_of_lt_of_le (by positivity) hlow
  have hLb := log_le_of_top htop
  have hp2 := wUnit_PrecOk (w := w) hd (by omega) (k := 2) (by norm_num) (by norm_num)
  have hmu := mulGeneral_spec (K := ℝ) hy l3.wf hp2.pos (by rw [hp2.eq]; exact hp2.lt) .none
  rw [hp2.eq] at hmu
  have hal : |(y.toK : ℝ) * l.toK - y.toK * Real.log X| ≤ |(y.toK : ℝ) * Real.log X| * (4 * wUnit w) :=
    mul_close hδ0 hδ l4 (by rw [sub_self, abs_zero]; positivity)
  obtain ⟨-, -, r1, r2⟩ := sign_close hL0 hδ hal
  obtain ⟨m, m1, m2, m3, m4, m5⟩ := tr_abs (by omega) hmu (by
      have : (2 : ℝ) ^ EMIN = 2 * 2 ^ (EMIN - 1) := by rw [← zpow_one_add₀ (by norm_num)]; congr 1
      linarith) (by
      have : (2 : ℝ) ^ (32 : ℤ) ≤ 2 ^ (EMAX - 2) := zpow_le_zpow_right₀ (by norm_num) (by unfold EMAX; norm_num)
      norm_num at this
      linarith)
  rw [wUnit_eq] at m4
  have hm := mul_close hδ0 hδ l4 m4
  obtain ⟨q1, q2, q3, q4⟩ := sign_close hL0 hδ hm
  have hmz : m.isZero = false := by
    rw [← Bool.not_eq_true, ← m2.toK_eq_zero (K := ℝ)]; exact q2
  unfold powStep
  dsimp only
  rw [x1]
  dsimp only
  rw [l1]
  dsimp only
  rw [show y.mul l (w + 2) .none = .ok m from m1]
  dsimp only
  have hneg : m.isNegative = true ↔ (y.toK * Real.log X : ℝ) < 0 := by
    rw [← q1]
    have hse := Num.toK_eq (K := ℝ) m
    have h0 := abs_pos.2 q2
    cases h : m.s <;> rw [h] at hse <;> simp only [Sign.toK] at hse <;> simp only [Num.isNegative, h]
    · exact ⟨fun _ => by linarith, fun _ => rfl⟩
    · exact ⟨fun h => by simp at h, fun h => by linarith⟩
  by_cases hsm : ((w + 2 : ℕ) : ℤ) + 1 < -m.e
  · rw [if_pos hsm]
    obtain ⟨q, g1, g2, g3, -⟩ := m2.mag (K := ℝ) hmz
    have hlt : |(y.toK : ℝ) * Real.log X| < 2 ^ (-(64 * pw : ℤ) - 2) := by
      have e1 : |(m.toK : ℝ)| < 2 ^ (-(64 * pw : ℤ) - 3) := lt_of_lt_of_le g2 (zpow_le_zpow_right₀ (by norm_num) (by push_cast at hsm; omega))
      have e2 : (2 : ℝ) ^ (-(64 * pw : ℤ) - 2) = 2 * 2 ^ (-(64 * pw : ℤ) - 3) := by
        rw [← zpow_one_add₀ (by norm_num)]; congr 1; ring
      linarith
    obtain ⟨v, v1, -, v2⟩ := smallExp_one hL0 hp (by omega) hlt hneg erm
    exact ⟨_, _, rfl, fun w' hw' => ⟨x2, x7, by dsimp only; omega, hs.e, l2⟩, ⟨v, v1, v2⟩, fun _ _ => hlt⟩
  · rw [if_neg hsm]
    obtain ⟨t, ec, t1, t2, t3⟩ := powValue_spec m2 hmz htop hd h1 (by omega) (by omega) hm hs.e xix (64 * pw) f
    rw [t1]
    exact ⟨_, _, rfl, fun w' hw' => ⟨x2, x7, by dsimp only; omega, t2, l2⟩, t3, fun r h => by cases h⟩

theorem pow_mid {L : ℝ} (htop : Real.exp |L| ≤ 2 ^ (EMAX - 5)) : MidRange (Real.exp L) := by
  have h0 := Real.exp_pos L
  have hE : EMIN = -2 ^ 31 := rfl
  have hE' : EMAX = 2 ^ 31 - 1 := rfl
  apply MidRange.of_bounds
  · rw [abs_of_pos h0]
    have h1 : Real.exp (-|L|) ≤ Real.exp L := Real.exp_le_exp.2 (neg_abs_le L)
    rw [Real.exp_neg] at h1
    have h2 := inv_anti₀ (Real.exp_pos |L|) htop
    rw [← zpow_neg] at h2
    exact le_trans (zpow_le_zpow_right₀ (by norm_num) (by omega)) (le_trans h2 h1)
  · rw [abs_of_pos h0]
    refine lt_of_le_of_lt (le_trans (Real.exp_le_exp.2 (le_abs_self L)) htop) ?_
    exact zpow_lt_zpow_right₀ (by norm_num) (by omega)

section Run
variable {x n : Num}

/-- What the numbers must satisfy for the results below: a power that is neither a case apart nor near the ends of the
range. -/
structure PowArgs (x n : Num) : Prop where
  wfx : x.WF
  wfn : n.WF
  ne0 : (x.toK : ℝ) ≠ 0
  ne1 : |(x.toK : ℝ)| ≠ 1
  low : (2 : ℝ) ^ EMIN ≤ |n.toK * Real.log (|(x.toK : ℝ)|)|
  top : Real.exp |n.toK * Real.log (|(x.toK : ℝ)|)| ≤ 2 ^ (EMAX - 5)

theorem powSign_rm (s : Sign) (rm : RM) : (if s.isNeg = true then invertRm rm else rm) = if s = .neg then invertRm rm else rm := by
  cases s <;> rfl

theorem pow_start (h : PowArgs x n) {w : Nat} (hl : 64 * x.m.m.length ≤ w) {c : PowCaches} (h1 : CacheOk ERep EValOk c.1) (h2 : Ln2Ok c.2) :
    PowInv |(x.toK : ℝ)| w ({ x with inexact := false, s := .pos }, c) where
  wf := ⟨h.wfx.wf, h.wfx.bits, h.wfx.emin, h.wfx.emax, h.wfx.norm, h.wfx.sized⟩
  eq := by
    show (x.setSign .pos).toK = _
    rw [setSign_toK]
    simp [Sign.toK]
  len := hl
  e := h1
  l2 := h2

theorem powRun_spec (ha : PowArgs x n) {p : Nat} (hp : ValidP p) (rm : RM) {f : Nat} {c c' : PowCaches}
    (hc1 : CacheOk ERep EValOk c.1) (hc2 : Ln2Ok c.2) {r : Except Err Num} {w : Nat}
    (h : x.powRun n p rm f c = some (r, c', w)) (hw : w ≤ 2 ^ 15) :
    (CacheOk ERep EValOk c'.1 ∧ Ln2Ok c'.2) ∧
      ∃ v, r = .ok v ∧ FunRounded rm (precBits p) ((powSign x n).toK * Real.exp (n.toK * Real.log |(x.toK : ℝ)|)) v := by
  have hmx : x.m.maxBitLen = 64 * x.m.m.length := by unfold Mantissa.maxBitLen; omega
  have hmn : n.m.maxBitLen = 64 * n.m.m.length := by unfold Mantissa.maxBitLen; omega
  have hp0 := hp.pos
  have hlt := hp.lt
  obtain ⟨pw, hpw⟩ : ∃ pw, precBits p = 64 * pw := ⟨(p + 63) / 64, rfl⟩
  have hpw0 : 0 < pw := by unfold precBits at hpw; omega
  unfold powRun at h
  rw [hp.roundP] at h
  dsimp only at h
  rw [hpw] at h hlt ⊢
  rw [hmx, hmn, powSign_rm] at h
  obtain ⟨erm, herm⟩ : ∃ erm, erm = if powSign x n = .neg then invertRm rm else rm := ⟨_, rfl⟩
  rw [← herm] at h
  have hmid := pow_mid ha.top
  obtain ⟨W, hW⟩ : ∃ W, W = max (64 * pw) (max (64 * x.m.m.length) (64 * n.m.m.length)) + 64 := ⟨_, rfl⟩
  rw [← hW] at h
  have key : ∀ {r s w}, roundLoop (powStep { n with inexact := false } x.inexact n.inexact (64 * pw) erm f) (64 * pw) erm
      (x.inexact || n.inexact) f 64 W ({ x with inexact := false, s := .pos }, c) = some (r, s, w) → w ≤ 2 ^ 15 →
      (CacheOk ERep EValOk s.2.1 ∧ Ln2Ok s.2.2) ∧
        ∃ v, r = .ok v ∧ FunRounded erm (64 * pw) (Real.exp (n.toK * Real.log |(x.toK : ℝ)|)) v := by
    intro r s w hl hw
    cases f with
    | zero => simp [roundLoop] at hl
    | succ f =>
      have hR := roundLoop_spec (Inv := PowInv |(x.toK : ℝ)|) (Good := fun _ => True) hmid (W := 2 ^ 15) (w0 := W) (rm := erm) hpw0 hlt
        (by omega) (by
          intro w s o s' hd hw1 hw2 hi hst _
          obtain ⟨o', s1, a1, a2, a3, -⟩ := powStep_spec (y := { n with inexact := false })
            ⟨ha.wfn.wf, ha.wfn.bits, ha.wfn.emin, ha.wfn.emax, ha.wfn.norm, ha.wfn.sized⟩ (abs_pos.2 ha.ne0) ha.ne1 ha.low ha.top hpw0 hd
            (by omega) (by omega) hw2 hi x.inexact n.inexact erm f
          rw [a1] at hst
          injection hst with hst
          injection hst with hst1 hst2
          rw [← hst1, ← hst2]
          exact ⟨a2, a3⟩) (fun _ _ _ _ _ _ => trivial) (pow_start ha (by omega) hc1 hc2) (by omega) (by norm_num) (by norm_num) le_rfl hl hw
        (by norm_num) trivial
      have := hR.1 _ le_rfl
      exact ⟨⟨this.e, this.l2⟩, hR.2⟩
  split at h
  · cases h
  · rename_i hl
    injection h with h; injection h with h1 h; injection h with h2 h3
    obtain ⟨-, v, hv, -⟩ := key hl (by omega)
    cases hv
  · rename_i hl
    injection h with h; injection h with h1 h; injection h with h2 h3
    obtain ⟨-, v, hv, -⟩ := key hl (by omega)
    cases hv
  · rename_i hl
    injection h with h; injection h with h1 h; injection h with h2 h3
    obtain ⟨k1, v, hv, k2⟩ := key hl (by omega)
    injection hv with hv
    rw [← h2, ← h1]
    refine ⟨k1, _, rfl, ?_⟩
    rw [hv]
    rw [herm] at k2
    exact k2.flip (Real.exp_pos _) _

theorem powRun_number (ha : PowArgs x n) {p : Nat} (hp : ValidP p) {rm : RM} {f : Nat} {c : PowCaches}
    (hc1 : CacheOk ERep EValOk c.1) (hc2 : Ln2Ok c.2)
    (hw : max (precBits p) (max (64 * x.m.m.length) (64 * n.m.m.length)) + 64 ≤ 2 ^ 15)
    (hr : rm = .none ∨ rm.directed = true ∧ ¬ NearGrid (precBits p) 63 (Real.exp (n.toK * Real.log |(x.toK : ℝ)|))) :
    ∃ r c' w, x.powRun n p rm (f + 1) c = some (r, c', w) ∧ w ≤ 2 ^ 15 := by
  have hmx : x.m.maxBitLen = 64 * x.m.m.length := by unfold Mantissa.maxBitLen; omega
  have hmn : n.m.maxBitLen = 64 * n.m.m.length := by unfold Mantissa.maxBitLen; omega
  have hp0 := hp.pos
  have hlt := hp.lt
  obtain ⟨pw, hpw⟩ : ∃ pw, precBits p = 64 * pw := ⟨(p + 63) / 64, rfl⟩
  have hpw0 : 0 < pw := by unfold precBits at hpw; omega
  unfold powRun
  rw [hp.roundP]
  dsimp only
  rw [hpw] at hlt hw hr ⊢
  rw [hmx, hmn, powSign_rm]
  obtain ⟨W, hW⟩ : ∃ W, W = max (64 * pw) (max (64 * x.m.m.length) (64 * n.m.m.length)) + 64 := ⟨_, rfl⟩
  rw [← hW] at hw ⊢
  have hmid := pow_mid ha.top
  obtain ⟨o, s', a1, -, a3, -⟩ := powStep_spec (y := { n with inexact := false })
    ⟨ha.wfn.wf, ha.wfn.bits, ha.wfn.emin, ha.wfn.emax, ha.wfn.norm, ha.wfn.sized⟩ (abs_pos.2 ha.ne0) ha.ne1 ha.low ha.top hpw0 (w := W)
    (by omega) (by omega) (by omega) hw (pow_start ha (by omega) hc1 hc2) x.inexact n.inexact
    (if powSign x n = .neg then invertRm rm else rm) f
  obtain ⟨r, hl⟩ := roundLoop_number (ix := x.inexact || n.inexact) hmid hpw0 hlt (by omega) (by omega) a1 a3
    (invertRm_directed (by rw [abs_of_pos (Real.exp_pos _)]; exact hr)) f 64
  rw [hl]
  cases r with
  | ok v => exact ⟨_, _, _, rfl, hw⟩
  | error e => cases e <;> exact ⟨_, _, _, rfl, hw⟩

end Run

end AF
