import Verif.Lemmas.LogLog2
/-!
# The values of `ln` and `log2`
-/

namespace AF

set_option linter.unusedSectionVars false

/-- The loop of a logarithm. -/
theorem logLoop_spec {step : Nat → Num.Ln2Cache → Option (LoopStep × Num.Ln2Cache)} {y : ℝ} {ap n p : Nat} (hp : ValidP p)
    (hy : n ≤ 2 ^ 17 → MidRange y)
    (hstep : ∀ w c, 128 ≤ w → n ≤ w → w + ap ≤ 2 ^ 17 → Ln2Ok c → ∃ t c', step w c = some (.tst t, c') ∧ Ln2Ok c' ∧ TestOk w y t)
    (rm : RM) {ix : Bool} {f : Nat} {c c' : Num.Ln2Cache} (hc : Ln2Ok c) {r : Except Err Num} {w : Nat} (hn : 64 ∣ n)
    (h : roundLoop step (precBits p) rm ix f 64 (max (precBits p) n + 64) c = some (r, c', w)) (hw : w + ap ≤ 2 ^ 17) :
    Ln2Ok c' ∧ ∃ v, r = .ok v ∧ FunRounded rm (precBits p) y v := by
  have hp0 := hp.pos
  have hlt := hp.lt
  have hPM : PMAX = 2 ^ 62 - 2 ^ 31 - 1 := rfl
  obtain ⟨pw, hpw⟩ : ∃ pw, precBits p = 64 * pw := ⟨(p + 63) / 64, rfl⟩
  have hpw0 : 0 < pw := by unfold precBits at hpw; omega
  have hge := roundLoop_ge h
  rw [hpw] at h hge hlt ⊢
  have := roundLoop_spec (Inv := fun _ c => Ln2Ok c) (Good := fun _ => True) (hy (by omega)) (W := 2 ^ 17 - ap)
    (w0 := max (64 * pw) n + 64) (rm := rm) hpw0 (by omega) (by omega) (by
      intro w s o s' hd hw1 hw2 hi hst _
      obtain ⟨v, s1, a1, a2, a3⟩ := hstep w s (by omega) (by omega) (by omega) hi
      rw [a1] at hst
      injection hst with hst
      injection hst with hst1 hst2
      rw [← hst1, ← hst2]
      exact ⟨fun _ _ => a2, a3⟩) (fun _ _ _ _ _ _ => trivial)
    hc (by omega) (by norm_num) (by norm_num) le_rfl h (by omega) (by omega) trivial
  exact ⟨this.1 _ le_rfl, this.2⟩

theorem logLoop_number {step : Nat → Num.Ln2Cache → Option (LoopStep × Num.Ln2Cache)} {y : ℝ} {ap n p : Nat} (hp : ValidP p)
    (hy : n ≤ 2 ^ 17 → MidRange y)
    (hstep : ∀ w c, 128 ≤ w → n ≤ w → w + ap ≤ 2 ^ 17 → Ln2Ok c → ∃ t c', step w c = some (.tst t, c') ∧ Ln2Ok c' ∧ TestOk w y t)
    {rm : RM} {ix : Bool} {f : Nat} {c : Num.Ln2Cache} (hc : Ln2Ok c) (hn : 64 ∣ n)
    (hw : max (precBits p) n + 64 + ap ≤ 2 ^ 17)
    (hs : rm = .none ∨ rm.directed = true ∧ ¬ NearGrid (precBits p) 63 |y|) :
    ∃ r c', roundLoop step (precBits p) rm ix (f + 1) 64 (max (precBits p) n + 64) c =
      some (r, c', max (precBits p) n + 64) := by
  have hp0 := hp.pos
  have hlt := hp.lt
  have hPM : PMAX = 2 ^ 62 - 2 ^ 31 - 1 := rfl
  obtain ⟨pw, hpw⟩ : ∃ pw, precBits p = 64 * pw := ⟨(p + 63) / 64, rfl⟩
  have hpw0 : 0 < pw := by unfold precBits at hpw; omega
  rw [hpw] at hs hlt hw ⊢
  obtain ⟨v, s1, a1, a2, a3⟩ := hstep (max (64 * pw) n + 64) c (by omega) (by omega) (by omega) hc
  obtain ⟨r, hr⟩ := roundLoop_number (ix := ix) (hy (by omega)) hpw0 (by omega) (by omega) (by omega) a1 a3 hs f 64
  exact ⟨r, s1, hr⟩

variable {x : Num}

theorem ln_args (hx : x.WF) (h0 : 0 < (x.toK : ℝ)) : (x.isZero || x.isNegative) = false := by
  have hz : x.isZero = false := by
    rw [← Bool.not_eq_true, ← hx.toK_eq_zero (K := ℝ)]
    exact h0.ne'
  have hs : x.s = .pos := toK_sign_pos (K := ℝ) h0
  rw [hz, Num.isNegative, hs]; rfl

theorem lnAddPrec_one {m : Num} {e : ℤ} :
    (e = 1 ∧ m.lnAddPrec e = m.m.maxBitLen + 5) ↔ e = 1 ∧ countLeadingZeroesSkipFirst m.m.m = 64 * m.m.m.length := by
  have hmb : m.m.maxBitLen = 64 * m.m.m.length := by unfold Mantissa.maxBitLen; omega
  rw [hmb]
  unfold Num.lnAddPrec
  constructor
  · rintro ⟨rfl, h⟩
    refine ⟨rfl, ?_⟩
    rw [if_neg (by norm_num), if_pos rfl] at h
    omega
  · rintro ⟨rfl, h⟩
    refine ⟨rfl, ?_⟩
    rw [if_neg (by norm_num), if_pos rfl, h]

theorem SplitOk.one {m : Num} {e : ℤ} (hm : SplitOk x m e) :
    (e = 1 ∧ countLeadingZeroesSkipFirst m.m.m = 64 * m.m.m.length) ↔ (x.toK : ℝ) = 1 := by
  rw [hm.half]
  constructor
  · rintro ⟨rfl, h⟩
    rw [h]; norm_num
  · intro h
    have h1 := hm.eq
    have hlo := hm.lo
    have hhi := hm.hi
    have hp : (0 : ℝ) < 2 ^ (-((64 * m.m.m.length : ℕ) : ℤ)) := by positivity
    have he : e = 1 := by
      rw [h] at h1
      have h2 : (2 : ℝ) ^ (0 : ℤ) < 2 ^ e := by
        rw [zpow_zero]
        have : (0 : ℝ) < 2 ^ e := by positivity
        nlinarith
      have h3 : (2 : ℝ) ^ e < 2 ^ (2 : ℤ) := by
        have : (0 : ℝ) < 2 ^ e := by positivity
        have h4 : (2 : ℝ) ^ (2 : ℤ) = 4 := by norm_num
        rw [h4]
        nlinarith
      have := (zpow_lt_zpow_iff_right₀ (by norm_num : (1 : ℝ) < 2)).1 h2
      have := (zpow_lt_zpow_iff_right₀ (by norm_num : (1 : ℝ) < 2)).1 h3
      omega
    refine ⟨he, ?_⟩
    rw [h, he]; norm_num

theorem ln_spec (hx : x.WF) (h0 : 0 < (x.toK : ℝ)) (h1 : (x.toK : ℝ) ≠ 1) {p : Nat} (hp : ValidP p) (rm : RM) {f : Nat}
    {c c' : Num.Ln2Cache} (hc : Ln2Ok c) {r : Except Err Num} {w : Nat} (h : x.ln p rm f c = some (r, c', w)) (hw : w ≤ 2 ^ 17) :
    Ln2Ok c' ∧ ∃ v, r = .ok v ∧ FunRounded rm (precBits p) (Real.log x.toK) v := by
  have hm := lnSplit_spec hx h0
  have hmb : x.m.maxBitLen = 64 * x.m.m.length := by unfold Mantissa.maxBitLen; omega
  unfold Num.ln at h
  rw [hp.roundP] at h
  dsimp only at h
  rw [ln_args hx h0, if_neg Bool.false_ne_true, hmb] at h
  generalize x.lnSplit.1 = m at hm h
  generalize x.lnSplit.2 = e at hm h
  have h1' := fun h => h1 (hm.one.1 h)
  rw [if_neg (fun h => h1' (lnAddPrec_one.1 h))] at h
  split at h
  · cases h
  · rename_i r' s' w' hl
    injection h with h
    injection h with h h'
    injection h' with h' h''
    rw [← h, ← h']
    rw [← hm.len] at hl
    refine logLoop_spec hp (ln_midRange hm h1') (fun w c a1 a2 a3 a4 => lnStep_spec hm h1' a1 a2 a3 a4) rm hc (by omega) hl (by omega)

theorem ln_number (hx : x.WF) (h0 : 0 < (x.toK : ℝ)) (h1 : (x.toK : ℝ) ≠ 1) {p : Nat} (hp : ValidP p) {rm : RM} {f : Nat}
    {c : Num.Ln2Cache} (hc : Ln2Ok c) (hw : max (precBits p) (64 * x.m.m.length) + 64 * x.m.m.length + 69 ≤ 2 ^ 17)
    (hs : rm = .none ∨ rm.directed = true ∧ ¬ NearGrid (precBits p) 63 |Real.log x.toK|) :
    ∃ r c' w, x.ln p rm (f + 1) c = some (r, c', w) ∧ w ≤ 2 ^ 17 := by
  have hm := lnSplit_spec hx h0
  have hmb : x.m.maxBitLen = 64 * x.m.m.length := by unfold Mantissa.maxBitLen; omega
  unfold Num.ln
  rw [hp.roundP]
  dsimp only
  rw [ln_args hx h0, if_neg Bool.false_ne_true, hmb]
  generalize x.lnSplit.1 = m at hm
  generalize x.lnSplit.2 = e at hm
  have h1' := fun h => h1 (hm.one.1 h)
  rw [if_neg (fun h => h1' (lnAddPrec_one.1 h)), ← hm.len]
  rw [← hm.len] at hw
  obtain ⟨cnt, c1, c2, -⟩ := lnCnt_spec hm h1'
  obtain ⟨r, c', hr⟩ := logLoop_number (ix := x.inexact) (f := f) hp (ln_midRange hm h1')
    (fun w c a1 a2 a3 a4 => lnStep_spec hm h1' a1 a2 a3 a4) hc (by omega) (by omega) hs
  rw [hr]
  exact ⟨_, _, _, rfl, by omega⟩

theorem log2_midRange {m : Num} {e : ℤ} (hm : SplitOk x m e)
    (h1 : ¬(e = 1 ∧ countLeadingZeroesSkipFirst m.m.m = 64 * m.m.m.length)) (hlen : 64 * m.m.m.length ≤ 2 ^ 17) :
    MidRange (Real.log x.toK / Real.log 2) := by
  obtain ⟨cnt, C, -, -, -, -, s5, s6, -, s8, -⟩ := lnSize_spec hm hlen h1
  have l1 := Real.log_two_gt_d9
  have l2 := Real.log_two_lt_d9
  have ha : |Real.log (x.toK : ℝ) / Real.log 2| = |Real.log x.toK| / Real.log 2 := by
    rw [abs_div, abs_of_pos (show 0 < Real.log 2 by linarith)]
  apply MidRange.of_bounds
  · have h2 : (2 : ℝ) ^ (EMIN + 2) ≤ 2 ^ (-((64 * m.m.m.length : ℕ) : ℤ)) :=
      zpow_le_zpow_right₀ (by norm_num) (by unfold EMIN; omega)
    rw [show EMIN + 2 = (EMIN + 1) + 1 by ring, zpow_add_one₀ (by norm_num)] at h2
    have : (0 : ℝ) < 2 ^ (EMIN + 1) := by positivity
    rw [ha, le_div_iff₀ (by linarith)]
    nlinarith
  · have h3 : (2 : ℝ) ^ 42 < 2 ^ (EMAX - 3) := by
      rw [← zpow_natCast]
      exact zpow_lt_zpow_right₀ (by norm_num) (by unfold EMAX; norm_num)
    refine lt_of_le_of_lt ?_ h3
    rw [ha, div_le_iff₀ (by linarith)]
    have : (2 : ℝ) ^ 42 * (1 / 2) ≤ 2 ^ 42 * Real.log 2 := mul_le_mul_of_nonneg_left (by linarith) (by norm_num)
    norm_num at this s8 ⊢
    linarith

theorem log2_spec (hx : x.WF) (h0 : 0 < (x.toK : ℝ)) (h1 : ∀ k : ℤ, (x.toK : ℝ) ≠ 2 ^ k) {p : Nat} (hp : ValidP p) (rm : RM) {f : Nat}
    {c c' : Num.Ln2Cache} (hc : Ln2Ok c) {r : Except Err Num} {w : Nat} (h : x.log2 p rm f c = some (r, c', w)) (hw : w ≤ 2 ^ 17) :
    Ln2Ok c' ∧ ∃ v, r = .ok v ∧ FunRounded rm (precBits p) (Real.log x.toK / Real.log 2) v := by
  have hm := lnSplit_spec hx h0
  have hmb : ∀ x : Num, x.m.maxBitLen = 64 * x.m.m.length := by intro x; unfold Mantissa.maxBitLen; omega
  unfold Num.log2 at h
  rw [hp.roundP] at h
  dsimp only at h
  rw [ln_args hx h0, if_neg Bool.false_ne_true, hmb, hmb] at h
  generalize x.lnSplit.1 = m at hm h
  generalize x.lnSplit.2 = e at hm h
  have h1' : countLeadingZeroesSkipFirst m.m.m ≠ 64 * m.m.m.length := fun h => h1 _ (hm.half.1 h)
  rw [if_neg h1'] at h
  split at h
  · cases h
  · rename_i r' s' w' hl
    injection h with h
    injection h with h h'
    injection h' with h' h''
    rw [← h, ← h']
    rw [← hm.len] at hl
    refine logLoop_spec hp (log2_midRange hm (fun h => h1' h.2)) (fun w c a1 a2 a3 a4 => log2Step_spec hm h1' a1 a2 a3 a4)
      rm hc (by omega) hl (by omega)

theorem log2_number (hx : x.WF) (h0 : 0 < (x.toK : ℝ)) (h1 : ∀ k : ℤ, (x.toK : ℝ) ≠ 2 ^ k) {p : Nat} (hp : ValidP p) {rm : RM} {f : Nat}
    {c : Num.Ln2Cache} (hc : Ln2Ok c) (hw : max (precBits p) (64 * x.m.m.length) + 64 * x.m.m.length + 69 ≤ 2 ^ 17)
    (hs : rm = .none ∨ rm.directed = true ∧ ¬ NearGrid (precBits p) 63 |Real.log x.toK / Real.log 2|) :
    ∃ r c' w, x.log2 p rm (f + 1) c = some (r, c', w) ∧ w ≤ 2 ^ 17 := by
  have hm := lnSplit_spec hx h0
  have hmb : ∀ x : Num, x.m.maxBitLen = 64 * x.m.m.length := by intro x; unfold Mantissa.maxBitLen; omega
  unfold Num.log2
  rw [hp.roundP]
  dsimp only
  rw [ln_args hx h0, if_neg Bool.false_ne_true, hmb, hmb]
  generalize x.lnSplit.1 = m at hm
  generalize x.lnSplit.2 = e at hm
  have h1' : countLeadingZeroesSkipFirst m.m.m ≠ 64 * m.m.m.length := fun h => h1 _ (hm.half.1 h)
  rw [if_neg h1', ← hm.len]
  rw [← hm.len] at hw
  obtain ⟨cnt, c1, c2, -⟩ := lnCnt_spec hm (fun h => h1' h.2)
  obtain ⟨r, c', hr⟩ := logLoop_number (ix := x.inexact) (f := f) hp (log2_midRange hm (fun h => h1' h.2))
    (fun w c a1 a2 a3 a4 => log2Step_spec hm h1' a1 a2 a3 a4) hc (by omega) (by omega) hs
  rw [hr]
  exact ⟨_, _, _, rfl, by omega⟩

/-- The logarithm of 1. -/
theorem ln_one (hx : x.WF) (h1 : (x.toK : ℝ) = 1) {p : Nat} (hp : ValidP p) (rm : RM) (f : Nat) (c : Num.Ln2Cache) :
    x.ln p rm f c = some (.ok (Num.zero (precBits p) .pos x.inexact), c, 0) := by
  have h0 : 0 < (x.toK : ℝ) := by rw [h1]; norm_num
  have hm := lnSplit_spec hx h0
  unfold Num.ln
  rw [hp.roundP]
  dsimp only
  rw [ln_args hx h0, if_neg Bool.false_ne_true]
  generalize x.lnSplit.1 = m at hm
  generalize x.lnSplit.2 = e at hm
  rw [if_pos (lnAddPrec_one.2 (hm.one.2 h1)), Num.new2, if_neg (by have := hp.lt_PMAX; rw [hp.roundP] at this; omega)]

/-- The base 2 logarithm of a power of 2. -/
theorem log2_pow (hx : x.WF) {k : ℤ} (h1 : (x.toK : ℝ) = 2 ^ k) {p : Nat} (hp : ValidP p) (rm : RM) (f : Nat) (c : Num.Ln2Cache) :
    ∃ v, x.log2 p rm f c = some (.ok v, c, 0) ∧ v.WF ∧ 64 * v.m.m.length = precBits p ∧ (v.toK : ℝ) = k ∧
      v.inexact = x.inexact ∧ (0 ≤ k → v.s = .pos) := by
  have h0 : 0 < (x.toK : ℝ) := by rw [h1]; positivity
  have hm := lnSplit_spec hx h0
  have hmb : ∀ x : Num, x.m.maxBitLen = 64 * x.m.m.length := by intro x; unfold Mantissa.maxBitLen; omega
  unfold Num.log2
  rw [hp.roundP]
  dsimp only
  rw [ln_args hx h0, if_neg Bool.false_ne_true, hmb, hmb]
  generalize x.lnSplit.1 = m at hm
  generalize x.lnSplit.2 = e at hm
  have hek : e - 1 = k := by
    have h2 := hm.eq
    have hlo := hm.lo
    have hhi := hm.hi
    have hpp : (0 : ℝ) < 2 ^ (-((64 * m.m.m.length : ℕ) : ℤ)) := by positivity
    have he : (0 : ℝ) < 2 ^ e := by positivity
    rw [h1] at h2
    have h3 : (2 : ℝ) ^ k < 2 ^ e := by nlinarith
    have h4 : (2 : ℝ) ^ e ≤ 2 ^ (k + 1) := by rw [zpow_add_one₀ (by norm_num)]; nlinarith
    have := (zpow_lt_zpow_iff_right₀ (by norm_num : (1 : ℝ) < 2)).1 h3
    have := (zpow_le_zpow_iff_right₀ (by norm_num : (1 : ℝ) < 2)).1 h4
    omega
  have hc : countLeadingZeroesSkipFirst m.m.m = 64 * m.m.m.length := by rw [hm.half, h1, hek]
  rw [if_pos hc]
  have hnum : (if e < 1 then (Num.fromUsize (e - 1).natAbs).setSign .neg else Num.fromUsize (e - 1).natAbs) = Num.lnExpNum k := by
    unfold Num.lnExpNum
    dsimp only
    rw [hek]
    by_cases hk : k < 0
    · rw [if_pos hk, if_pos (by omega)]
    · rw [if_neg hk, if_neg (by omega)]
  have hB : k.natAbs < B := by
    have h2 := hm.eLo
    have h3 := hm.eHi
    have h4 := hx.sized
    rw [← hm.len] at h4
    unfold EMIN at h2; unfold EMAX at h3; unfold B
    omega
  obtain ⟨w1, w2, w3⟩ := lnExpNum_all hB
  have hl : (Num.lnExpNum k).m.m.length = 1 := by
    have h5 : (Num.fromUsize k.natAbs).m.m.length = 1 := by
      unfold Num.fromUsize Mantissa.fromUsize
      by_cases hk : k.natAbs = 0
      · rw [if_pos hk]; rfl
      · rw [if_neg hk]
        have hw : Wf [k.natAbs] := by intro x hx; rw [List.mem_singleton.1 hx]; exact hB
        have hv : val [k.natAbs] = k.natAbs := by simp [val]
        have := maximize_spec hw (by rw [hv]; exact hk)
        simpa using this.2.2.1
    unfold Num.lnExpNum
    dsimp only
    split
    · exact h5
    · exact h5
  have hp0 := hp.pos
  have hlt := hp.lt_PMAX
  rw [hp.roundP] at hlt
  obtain ⟨v, v1, v2, v3, v4, v5⟩ := setPrecision_extend w1 (p := precBits p) (by unfold precBits; omega) hlt
    (by rw [hl]; unfold precBits; omega) rm
  rw [hnum, v1]
  refine ⟨_, rfl, ⟨v2.wf, v2.bits, v2.emin, v2.emax, v2.norm, v2.sized⟩, ?_, ?_, hm.inexact, fun hk => ?_⟩
  · show 64 * v.m.m.length = _
    rw [v3]; unfold wordLen precBits; omega
  · exact v4.trans w2
  · show v.s = _
    rw [v5]
    unfold Num.lnExpNum
    dsimp only
    rw [if_neg (by omega)]
    rfl

end AF
