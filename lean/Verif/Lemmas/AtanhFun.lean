import Verif.Lemmas.Atanh
/-!
# The values of `atanh`
-/

namespace AF

open Num

set_option linter.unusedSectionVars false

variable {x : Num}

theorem abs_le_one_sub (hx : x.WF) (he : x.e ≤ 0) : (2 : ℝ) ^ (-((64 * x.m.m.length : ℕ) : ℤ)) ≤ 1 - |(x.toK : ℝ)| := by
  have hlt := val_lt_two_pow hx.wf
  have h1 : ((val x.m.m + 1 : ℕ) : ℝ) ≤ ((2 ^ (64 * x.m.m.length) : ℕ) : ℝ) := by exact_mod_cast hlt
  push_cast at h1
  rw [Num.abs_val]
  have h2 : (2 : ℝ) ^ (x.e - ((64 * x.m.m.length : ℕ) : ℤ)) ≤ 2 ^ (-((64 * x.m.m.length : ℕ) : ℤ)) :=
    zpow_le_zpow_right₀ (by norm_num) (by omega)
  have h3 : (2 : ℝ) ^ (64 * x.m.m.length) * 2 ^ (-((64 * x.m.m.length : ℕ) : ℤ)) = 1 := by
    rw [← zpow_natCast, ← zpow_add₀ (by norm_num)]; simp
  have h0 : (0 : ℝ) < 2 ^ (-((64 * x.m.m.length : ℕ) : ℤ)) := by positivity
  obtain ⟨u, hu⟩ : ∃ u : ℝ, u = 2 ^ (-((64 * x.m.m.length : ℕ) : ℤ)) := ⟨_, rfl⟩
  rw [← hu] at h2 h3 h0 ⊢
  have h4 : (val x.m.m : ℝ) * 2 ^ (x.e - ((64 * x.m.m.length : ℕ) : ℤ)) ≤ val x.m.m * u :=
    mul_le_mul_of_nonneg_left h2 (Nat.cast_nonneg _)
  have h5 := mul_le_mul_of_nonneg_right h1 h0.le
  linarith

theorem atanh_midRange {X : ℝ} (h0 : X ≠ 0) {L : Nat} (hL : L ≤ 2 ^ 17) (h1 : (2 : ℝ) ^ (-(L : ℤ)) ≤ 1 - |X|)
    (h2 : (2 : ℝ) ^ (EMIN + 1) ≤ |X|) : MidRange (Real.artanh X) := by
  have hp : (0 : ℝ) < 2 ^ (-(L : ℤ)) := by positivity
  have hX0 : 0 < |X| := abs_pos.2 h0
  have ha : |Real.artanh X| = Real.artanh |X| := by
    rcases abs_choice X with h | h
    · rw [h, abs_of_nonneg]
      exact Real.artanh_nonneg (by rw [← h]; exact abs_nonneg X)
    · rw [h, artanh_odd, abs_of_nonpos]
      have := Real.artanh_nonneg (show 0 ≤ -X by rw [← h]; exact abs_nonneg X)
      rw [artanh_odd] at this
      linarith
  apply MidRange.of_bounds
  · rw [ha]
    exact le_trans h2 (artanh_gt_self hX0 (by linarith)).le
  · rw [ha, Real.artanh_eq_half_log ⟨by linarith, by linarith⟩]
    have hd : (0 : ℝ) < (1 + |X|) / (1 - |X|) := div_pos (by linarith) (by linarith)
    have hlog := Real.log_le_sub_one_of_pos hd
    have hD : (1 + |X|) / (1 - |X|) ≤ 2 * 2 ^ (L : ℤ) := by
      rw [div_le_iff₀ (by linarith)]
      have h3 : (2 : ℝ) ^ (L : ℤ) * 2 ^ (-(L : ℤ)) = 1 := by rw [← zpow_add₀ (by norm_num)]; simp
      have : (2 : ℝ) ^ (L : ℤ) * 2 ^ (-(L : ℤ)) ≤ 2 ^ (L : ℤ) * (1 - |X|) := mul_le_mul_of_nonneg_left h1 (by positivity)
      linarith
    have h4 : (2 : ℝ) ^ (L : ℤ) ≤ 2 ^ (EMAX - 3) := zpow_le_zpow_right₀ (by norm_num) (by unfold EMAX; omega)
    linarith

/-- The facts about the argument that a round uses. -/
theorem atanh_args (hx : x.WF) (hz : x.isZero = false) (he : x.e ≤ 0) {n : Nat} (hn : n ≤ 2 ^ 15)
    (hs : ¬((n : ℤ) + 1 < -(x.e * 2 - 1))) :
    (x.toK : ℝ) ≠ 0 ∧ (2 : ℝ) ^ (-(x.e.natAbs : ℤ) - 1) ≤ |(x.toK : ℝ)| ∧ (2 : ℝ) ^ (EMIN + 1) ≤ |(x.toK : ℝ)| ∧
      x.e.natAbs ≤ n / 2 + 1 := by
  have hE : EMIN = -2 ^ 31 := rfl
  obtain ⟨q, q1, q2, q3, -⟩ := hx.mag (K := ℝ) hz
  have hqe : q = x.e := by omega
  rw [hqe] at q1
  refine ⟨?_, ?_, ?_, by omega⟩
  · rw [Ne, hx.toK_eq_zero, hz]; exact Bool.false_ne_true
  · refine le_trans (zpow_le_zpow_right₀ (by norm_num) (by omega)) q1
  · refine le_trans (zpow_le_zpow_right₀ (by norm_num) (by omega)) q1

theorem atanh_ap_ge {e : ℤ} (he : e ≤ 0) (k : Nat) : e.natAbs + 4 ≤ 4 + (if e < 0 then e.natAbs else k) := by
  split <;> omega

theorem atanh_spec (hx : x.WF) (hz : x.isZero = false) (he : x.e ≤ 0) (hlo : EMIN + 2 ≤ x.e) {p : Nat} (hp : ValidP p)
    (rm : RM) {f : Nat} {c c' : Ln2Cache} (hc : Ln2Ok c) {r : Except Err Num} {w : Nat}
    (h : x.atanh p rm f c = some (r, c', w)) (hw : w ≤ 2 ^ 15) :
    Ln2Ok c' ∧ ∃ v, r = .ok v ∧ FunRounded rm (precBits p) (Real.artanh x.toK) v := by
  have hmb : x.m.maxBitLen = 64 * x.m.m.length := by unfold Mantissa.maxBitLen; omega
  have hp0 := hp.pos
  have hlt := hp.lt
  obtain ⟨pw, hpw⟩ : ∃ pw, precBits p = 64 * pw := ⟨(p + 63) / 64, rfl⟩
  have hpw0 : 0 < pw := by unfold precBits at hpw; omega
  unfold Num.atanh at h
  rw [hp.roundP] at h
  dsimp only at h
  rw [hz, if_neg Bool.false_ne_true, if_neg (by omega), if_neg (by omega), hmb] at h
  rw [hpw] at h hlt ⊢
  by_cases hs : ((max (64 * pw) (64 * x.m.m.length) : ℕ) : ℤ) + 1 < -(x.e * 2 - 1)
  · rw [if_pos hs] at h
    injection h with h
    injection h with h h'
    injection h' with h' h''
    obtain ⟨v, v1, v2, v3⟩ := atanh_small hx hz hlo hpw0 hs rm
    rw [← h, ← h']
    exact ⟨hc, v, v1, v3⟩
  · rw [if_neg hs] at h
    have hap := atanh_ap_ge he (countLeadingOnes x.m.m)
    generalize 4 + (if x.e < 0 then x.e.natAbs else countLeadingOnes x.m.m) = ap at h hap
    split at h
    · cases h
    · rename_i r' s' w' hl
      injection h with h
      injection h with h h'
      injection h' with h' h''
      rw [← h, ← h']
      have hge := roundLoop_ge hl
      obtain ⟨g1, g2, g3, g4⟩ := atanh_args hx hz he (by omega) hs
      have hL := abs_le_one_sub hx he
      have hmid := atanh_midRange g1 (by omega) hL g3
      cases f with
      | zero => simp [roundLoop] at hl
      | succ f =>
        have hR := roundLoop_spec (Inv := fun w s => Ln2Ok s.2 ∧ s.1.WF ∧ s.1.toK = (x.toK : ℝ) ∧
            64 * s.1.m.m.length ≤ 64 * wordLen (w + ap)) (Good := fun _ => True) hmid (W := 2 ^ 15 - ap)
          (w0 := max (64 * pw) (64 * x.m.m.length) + 64) (rm := rm) hpw0 hlt (by omega) (by
            intro w s o s' hd hw1 hw2 hi hst _
            obtain ⟨i1, i2, i3, i4⟩ := hi
            obtain ⟨t, s1, a1, a2, a3, a4, a5, a6⟩ := atanhStep_spec i2 i3 g1 (by omega) hL g2 (f := f) hap (by omega) (by omega) i4 i1
            rw [show ((s.1, s.2) : AtanhState) = s from rfl] at a1
            rw [a1] at hst
            injection hst with hst
            injection hst with hst1 hst2
            rw [← hst1, ← hst2]
            refine ⟨fun w' hw' => ⟨a3, a4, a5, ?_⟩, a2⟩
            rw [a6]
            unfold wordLen
            omega) (fun _ _ _ _ _ _ => trivial)
          (show _ ∧ _ from ⟨hc, ⟨hx.wf, hx.bits, hx.emin, hx.emax, hx.norm, hx.sized⟩, rfl, by unfold wordLen; show 64 * x.m.m.length ≤ _; omega⟩)
          (by omega) (by norm_num) (by norm_num) le_rfl hl (by omega) (by omega) trivial
        exact ⟨(hR.1 _ le_rfl).1, hR.2⟩

theorem atanh_number (hx : x.WF) (hz : x.isZero = false) (he : x.e ≤ 0) {p : Nat} (hp : ValidP p)
    {rm : RM} {f : Nat} {c : Ln2Cache} (hc : Ln2Ok c) (hw : 2 * max (precBits p) (64 * x.m.m.length) + 69 ≤ 2 ^ 15)
    (hr : rm = .none ∨ rm.directed = true ∧ ¬ NearGrid (precBits p) 63 |Real.artanh x.toK|) :
    ∃ r c' w, x.atanh p rm (f + 1) c = some (r, c', w) ∧ w ≤ 2 ^ 15 := by
  have hmb : x.m.maxBitLen = 64 * x.m.m.length := by unfold Mantissa.maxBitLen; omega
  have hp0 := hp.pos
  have hlt := hp.lt
  obtain ⟨pw, hpw⟩ : ∃ pw, precBits p = 64 * pw := ⟨(p + 63) / 64, rfl⟩
  have hpw0 : 0 < pw := by unfold precBits at hpw; omega
  unfold Num.atanh
  rw [hp.roundP]
  dsimp only
  rw [hz, if_neg Bool.false_ne_true, if_neg (by omega), if_neg (by omega), hmb]
  rw [hpw] at hlt hw hr ⊢
  by_cases hs : ((max (64 * pw) (64 * x.m.m.length) : ℕ) : ℤ) + 1 < -(x.e * 2 - 1)
  · rw [if_pos hs]
    exact ⟨_, _, _, rfl, by norm_num⟩
  · rw [if_neg hs]
    have hap := atanh_ap_ge he (countLeadingOnes x.m.m)
    obtain ⟨g1, g2, g3, g4⟩ := atanh_args hx hz he (by omega) hs
    have hap' : 4 + (if x.e < 0 then x.e.natAbs else countLeadingOnes x.m.m) ≤ 5 + max (64 * pw) (64 * x.m.m.length) := by
      have := (clo_mag hx.wf).1
      split <;> omega
    generalize 4 + (if x.e < 0 then x.e.natAbs else countLeadingOnes x.m.m) = ap at hap hap'
    have hL := abs_le_one_sub hx he
    have hmid := atanh_midRange g1 (by omega) hL g3
    have hx' : ({ x with inexact := false } : Num).WF := ⟨hx.wf, hx.bits, hx.emin, hx.emax, hx.norm, hx.sized⟩
    obtain ⟨t, s1, a1, a2, a3, a4, a5, a6⟩ := atanhStep_spec hx' (X := (x.toK : ℝ)) rfl g1 (by omega) hL g2 (f := f) hap
      (w := max (64 * pw) (64 * x.m.m.length) + 64) (by omega) (by omega) (by unfold wordLen; show 64 * x.m.m.length ≤ _; omega) hc
    obtain ⟨r, hr⟩ := roundLoop_number (ix := x.inexact) hmid hpw0 hlt (by omega) (by omega) a1 a2 hr f 64
    rw [hr]
    exact ⟨_, _, _, rfl, by omega⟩

end AF
