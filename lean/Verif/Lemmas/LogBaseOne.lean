import Verif.Lemmas.LogBaseFun
import Verif.Lemmas.TryPrec2
/-!
# The logarithm to any base where the argument or the base is one
-/

namespace AF
open Num

/-- Exact numbers are never rejected. -/
theorem try_exact {x : Num} {p s : Nat} (hp : 0 < p) (hps : p ≤ s) (hs : s ≤ 64 * x.m.m.length) {rm : RM} (h64 : 64 ∣ p)
    (hix : x.inexact = false) {v : Num} (h : x.setPrecision p rm = .ok v) : x.trySetPrecision p rm s = .ok (true, v) := by
  have hmb : x.m.maxBitLen = x.m.m.length * 64 := rfl
  have key : x.setPrecisionInternal p rm false s = x.setPrecisionInternal p rm false x.m.maxBitLen := by
    unfold Num.setPrecisionInternal
    by_cases h1 : p ≥ PMAX
    · rw [if_pos h1, if_pos h1]
    rw [if_neg h1, if_neg h1]
    by_cases h2 : x.m.maxBitLen > p ∧ p > 0
    · have c1 : ¬ (rm ≠ .none ∧ (s > x.m.maxBitLen ∨ x.m.maxBitLen - p < x.m.maxBitLen - s)) := by omega
      have c2 : ¬ (rm ≠ .none ∧ (x.m.maxBitLen > x.m.maxBitLen ∨ x.m.maxBitLen - p < x.m.maxBitLen - x.m.maxBitLen)) := by omega
      rw [if_pos h2, if_pos h2, if_neg c1, if_neg c2,
        roundMantissa_nocheck x.m.m (x.m.maxBitLen - p) rm x.isPositive s x.m.maxBitLen]
    · rw [if_neg h2, if_neg h2]
  cases ht : x.trySetPrecision p rm s with
  | error e =>
    exfalso
    unfold Num.trySetPrecision at ht
    rw [hix, key] at ht
    unfold Num.setPrecision at h
    rw [ht] at h
    cases h
  | ok r =>
    obtain ⟨b, v'⟩ := r
    obtain ⟨rfl, h'⟩ := tryPrec_eq_setPrec hp hps hs h64 (Or.inl hix) ht (Or.inl hix)
    rw [h] at h'
    injection h' with h'
    rw [h']

variable {x n : Num}

/-- The state at the beginning, with one of the numbers being one. -/
theorem ext_one {y : Num} (hy : y.WF) (h1 : (y.toK : ℝ) = 1) {w : Nat} (hd : 64 ∣ w) (hw1 : 64 ≤ w) (hw : w ≤ 2 ^ 15)
    (hl : 64 * y.m.m.length ≤ w) (f : Nat) (c : Ln2Cache) :
    ∃ y' ix, y.setPrecision (w + 5) .none = .ok y' ∧ y'.ln (w + 5) .none f c = some (.ok (Num.zero (w + 64) .pos ix), c, 0) := by
  have hz : y.isZero = false := by
    rw [← Bool.not_eq_true, ← hy.toK_eq_zero (K := ℝ), h1]; norm_num
  obtain ⟨y', x1, x2, -, -, x5, x6, x7⟩ := hyp_extend (x := y) hy hz rfl hd hw1 (by omega) hl (k := 5) (by norm_num) (by norm_num)
  rw [h1] at x7
  have hv := validP_w (w := w) (k := 5) (by omega) (by norm_num) (by norm_num)
  have hpb := precBits_w (w := w) (k := 5) hd (by norm_num) (by norm_num)
  have l1 := ln_one x2 x7 hv .none f c
  rw [hpb] at l1
  exact ⟨y', _, x1, l1⟩

theorem ext_ln {y : Num} (hy : y.WF) (h0 : 0 < (y.toK : ℝ)) (h1 : (y.toK : ℝ) ≠ 1) {w : Nat} (hd : 64 ∣ w) (hw1 : 128 ≤ w) (hw : w ≤ 2 ^ 15)
    (hl : 64 * y.m.m.length ≤ w) (f : Nat) {c : Ln2Cache} (hc : Ln2Ok c) :
    ∃ y' v c' w', y.setPrecision (w + 5) .none = .ok y' ∧ y'.ln (w + 5) .none (f + 1) c = some (.ok v, c', w') ∧ Ln2Ok c' ∧
      v.isZero = false ∧ (1 < (y.toK : ℝ) → v.s = .pos) ∧ ((y.toK : ℝ) < 1 → v.s = .neg) := by
  have hz : y.isZero = false := by
    rw [← Bool.not_eq_true, ← hy.toK_eq_zero (K := ℝ)]; exact h0.ne'
  obtain ⟨y', x1, x2, -, -, x5, x6, x7⟩ := hyp_extend (x := y) hy hz rfl hd (by omega) (by omega) hl (k := 5) (by norm_num) (by norm_num)
  have hv := validP_w (w := w) (k := 5) (by omega) (by norm_num) (by norm_num)
  have hpb := precBits_w (w := w) (k := 5) hd (by norm_num) (by norm_num)
  obtain ⟨p1, d1, w1, l1, l2, l3, -, -⟩ := ln_none x2 (by rw [x7]; exact h0) (by rw [x7]; exact h1) hv (f := f) hc (by rw [hpb]; omega)
  rw [hpb, x7] at l3
  have l4 := l3.none rfl
  rw [wUnit_eq] at l4
  obtain ⟨hδ0, hδ, -⟩ := wUnit_tiny hw1
  have hl0 : Real.log (y.toK : ℝ) ≠ 0 := Real.log_ne_zero_of_pos_of_ne_one h0 h1
  refine ⟨y', p1, d1, w1, x1, l1, l2, ?_, fun h => l3.pos (Real.log_pos h), fun h => l3.neg (Real.log_neg h0 h)⟩
  rw [← Bool.not_eq_true, ← l3.wf.toK_eq_zero (K := ℝ)]
  intro h
  rw [h, zero_sub, abs_neg] at l4
  have hp := abs_pos.2 hl0
  have h5 : wUnit w * (1 + 2 ^ (-60 : ℤ)) ≤ 1 / 2 := by
    have : wUnit w * (1 + 2 ^ (-60 : ℤ)) ≤ 1 / 2 ^ 190 * (1 + 2 ^ (-60 : ℤ)) := mul_le_mul_of_nonneg_right hδ (by positivity)
    exact le_trans this (by norm_num)
  have := le_trans l4 (mul_le_mul_of_nonneg_left h5 hp.le)
  linarith

theorem zero_isZero {w : Nat} (hw : 64 ≤ w) (hw' : w ≤ 2 ^ 20) (s : Sign) (ix : Bool) : (Num.zero w s ix).isZero = true := by
  rw [← (zero_WF (by unfold wordLen; omega) s ix).toK_eq_zero (K := ℚ), zero_toK]

/-- The logarithm to the base one of a number other than one is a division by zero. -/
theorem logC_base_one (hx : x.WF) (hn : n.WF) (h0 : 0 < (x.toK : ℚ)) (h1 : (x.toK : ℝ) ≠ 1) (hn1 : (n.toK : ℝ) = 1)
    {p : Nat} (hp : ValidP p) (rm : RM) (f : Nat) {c : PowCaches} (hc2 : Ln2Ok c.2)
    (hw : max (precBits p) (max (64 * x.m.m.length) (64 * n.m.m.length)) + 64 ≤ 2 ^ 15) :
    ∃ c' w, x.logC n p rm (f + 1) c = some (.error .divisionByZero, c', w) := by
  have hmb : ∀ x : Num, x.m.maxBitLen = 64 * x.m.m.length := by intro x; unfold Mantissa.maxBitLen; omega
  have hp0 := hp.pos
  obtain ⟨pw, hpw⟩ : ∃ pw, precBits p = 64 * pw := ⟨(p + 63) / 64, rfl⟩
  have hpw0 : 0 < pw := by unfold precBits at hpw; omega
  have hR : 0 < (x.toK : ℝ) := by rw [← toK_ratCast x]; exact_mod_cast h0
  have hn0 : 0 < (n.toK : ℚ) := by
    have : (n.toK : ℚ) = 1 := by rw [← toK_ratCast n] at hn1; exact_mod_cast hn1
    rw [this]; norm_num
  unfold Num.logC
  rw [hp.roundP]
  dsimp only
  rw [log_flags h0 hn0 hx hn, if_neg Bool.false_ne_true, hmb, hmb]
  rw [hpw] at hw ⊢
  obtain ⟨w, hW⟩ : ∃ w, w = max (64 * pw) (max (64 * x.m.m.length) (64 * n.m.m.length)) + 64 := ⟨_, rfl⟩
  rw [← hW] at hw ⊢
  have hx' : ({ x with inexact := false } : Num).WF := ⟨hx.wf, hx.bits, hx.emin, hx.emax, hx.norm, hx.sized⟩
  have hn' : ({ n with inexact := false } : Num).WF := ⟨hn.wf, hn.bits, hn.emin, hn.emax, hn.norm, hn.sized⟩
  obtain ⟨x', v, c', w', e1, e2, -, e4, -⟩ := ext_ln hx' hR h1 (w := w) (by omega) (by omega) hw (by dsimp only; omega) f hc2
  obtain ⟨y', ix, g1, g2⟩ := ext_one hn' hn1 (w := w) (by omega) (by omega) hw (by dsimp only; omega) (f + 1) c'
  unfold logLoop
  dsimp only
  rw [e1]
  dsimp only
  rw [g1]
  dsimp only
  rw [e2]
  dsimp only
  rw [g2]
  dsimp only
  have : v.div (Num.zero (w + 64) .pos ix) (w + 5) .none = .error .divisionByZero := by
    unfold Num.div
    rw [zero_isZero (by omega) (by omega), if_pos rfl, e4, if_neg Bool.false_ne_true]
  rw [this]
  exact ⟨_, _, rfl⟩

/-- The logarithm of one to another base is a zero, negative if the base is below one. -/
theorem logC_one (hx : x.WF) (hn : n.WF) (h1 : (x.toK : ℝ) = 1) (hn0 : 0 < (n.toK : ℚ)) (hn1 : (n.toK : ℝ) ≠ 1)
    {p : Nat} (hp : ValidP p) (rm : RM) (f : Nat) {c : PowCaches} (hc2 : Ln2Ok c.2)
    (hw : max (precBits p) (max (64 * x.m.m.length) (64 * n.m.m.length)) + 64 ≤ 2 ^ 15) :
    ∃ v d w, x.logC n p rm (f + 1) c = some (.ok v, (c.1, d), w) ∧ Ln2Ok d ∧ v.WF ∧ 64 * v.m.m.length = precBits p ∧ (v.toK : ℚ) = 0 ∧
      (1 < (n.toK : ℝ) → v.s = .pos) ∧ ((n.toK : ℝ) < 1 → v.s = .neg) ∧ v.inexact = (x.inexact || n.inexact) := by
  have hmb : ∀ x : Num, x.m.maxBitLen = 64 * x.m.m.length := by intro x; unfold Mantissa.maxBitLen; omega
  have hp0 := hp.pos
  obtain ⟨pw, hpw⟩ : ∃ pw, precBits p = 64 * pw := ⟨(p + 63) / 64, rfl⟩
  have hpw0 : 0 < pw := by unfold precBits at hpw; omega
  have hRn : 0 < (n.toK : ℝ) := by rw [← toK_ratCast n]; exact_mod_cast hn0
  have h0 : 0 < (x.toK : ℚ) := by
    have : (x.toK : ℚ) = 1 := by rw [← toK_ratCast x] at h1; exact_mod_cast h1
    rw [this]; norm_num
  unfold Num.logC
  rw [hp.roundP]
  dsimp only
  rw [log_flags h0 hn0 hx hn, if_neg Bool.false_ne_true, hmb, hmb]
  rw [hpw] at hw ⊢
  obtain ⟨w, hW⟩ : ∃ w, w = max (64 * pw) (max (64 * x.m.m.length) (64 * n.m.m.length)) + 64 := ⟨_, rfl⟩
  rw [← hW] at hw ⊢
  have hx' : ({ x with inexact := false } : Num).WF := ⟨hx.wf, hx.bits, hx.emin, hx.emax, hx.norm, hx.sized⟩
  have hn' : ({ n with inexact := false } : Num).WF := ⟨hn.wf, hn.bits, hn.emin, hn.emax, hn.norm, hn.sized⟩
  obtain ⟨x', ix, g1, g2⟩ := ext_one hx' h1 (w := w) (by omega) (by omega) hw (by dsimp only; omega) (f + 1) c.2
  obtain ⟨y', p2, c', w', e1, e2, e3, e4, e5, e6⟩ := ext_ln hn' hRn hn1 (w := w) (by omega) (by omega) hw (by dsimp only; omega) f hc2
  have hp5 := wUnit_PrecOk (w := w) (by omega) (by omega) (k := 5) (by norm_num) (by norm_num)
  obtain ⟨s, hs⟩ : ∃ s : Sign, s = if Sign.pos = p2.s then .pos else .neg := ⟨_, rfl⟩
  obtain ⟨z, hzd⟩ : ∃ z, z = Num.zero (w + 64) s false := ⟨_, rfl⟩
  have hzW : z.WF := by rw [hzd]; exact zero_WF (by unfold wordLen; omega) _ _
  have hdv : (Num.zero (w + 64) .pos ix).div p2 (w + 5) .none = .ok z := by
    unfold Num.div
    rw [e4, if_neg Bool.false_ne_true, hp5.eq]
    dsimp only
    rw [if_neg (by unfold PMAX; omega), zero_isZero (by omega) (by omega), if_pos rfl, hzd, hs]
    rfl
  have hzl : 64 * z.m.m.length = w + 64 := by
    rw [hzd]; simp [Num.zero, Mantissa.new, wordLen]; omega
  have hD := setPrecision_delivers (K := ℚ) hzW hpw0 (by unfold PMAX; omega) rm
  have hz64 : (Num.zero 64 .pos false).WF := zero_WF (by decide) _ _
  rw [show (z.toK : ℚ) = (Num.zero 64 .pos false).toK by rw [hzd, zero_toK, zero_toK], show z.inexact = false by rw [hzd]; rfl] at hD
  obtain ⟨v, v1, v2, v3, v4, v5, -⟩ := Delivers.rep hz64 (by omega) (by show 64 * 1 ≤ _; omega) hD
  have hsp := setPrecision_spec (K := ℚ) hzW (p := 64 * pw) (by omega) (by unfold PMAX; omega) rm
  rw [v1] at hsp
  have hvs : v.s = s := by rw [hsp.1.2.2.1, hzd]; rfl
  have htry := try_exact (s := w) (by omega) (by omega) (by omega) (by omega) (show z.inexact = false by rw [hzd]; rfl) v1
  unfold logLoop
  dsimp only
  rw [g1]
  dsimp only
  rw [e1]
  dsimp only
  rw [g2]
  dsimp only
  rw [e2]
  dsimp only
  rw [hdv]
  dsimp only
  rw [htry]
  refine ⟨_, _, _, rfl, e3, ⟨v2.wf, v2.bits, v2.emin, v2.emax, v2.norm, v2.sized⟩, v3, ?_, fun h => ?_, fun h => ?_, ?_⟩
  · show (v.toK : ℚ) = 0
    rw [v4, zero_toK]
  · show v.s = _
    rw [hvs, hs, e5 h]; rfl
  · show v.s = _
    rw [hvs, hs, e6 h]; rfl
  · show (v.inexact || x.inexact || n.inexact) = _
    rw [v5, Bool.false_or]

end AF
