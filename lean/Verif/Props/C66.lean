import Verif.Props.C65
import Verif.Props.C12
import Mathlib.Analysis.SpecialFunctions.Log.Base
/-!
# C66: the logarithm to base 2

The full claim: for every number `x > 0`, every precision, every rounding mode and whatever was asked of the cache
before, `log2` returns `log2 x` correctly rounded, marked inexact unless `x` is a power of two; powers of two give their
exponent, `log2 0` is `-Inf`, `log2 (+Inf)` is `+Inf`, and negative arguments give NaN.

Proved: the special values (`C66_pow2`, `C66_zero`, `C66_negative`, `C66_special`). For the other arguments a result obtained
with a working precision up to `2^17` bits is a number, correctly rounded in the four directed modes and within the
bounds of `FunRounded` in the other modes (`C66_outcome_partial`, `C66_directed_partial`); in the directed modes it does
not depend on the history of the cache or on the precision of the argument (`C66_history_partial`) and grows with the
argument (`C66_mono_partial`). The first round of the loop returns such a number in mode `None`, and in the directed modes
unless the 63 bits of `|log2 x|` after the first `P` are all equal (`C66_number_partial`).

The claim is false at precisions from `2^28` bits on, where no number is returned unless `x` is a power of two
(`C66_precision`, `C66_precision_refuted`). The zero returned for `log2 1` carries the exponent 64, so that at 64 bits it
compares as greater than every number below `1/2` (`C66_one`, `C66_one_refuted`).

Missing: correct rounding in the nearest modes, working precisions over `2^17` bits, the end of the loop in the
exceptional cases.
-/

namespace AF

theorem npow_real {x : Num} (h : ∀ k : ℤ, (x.toK : ℚ) ≠ 2 ^ k) : ∀ k : ℤ, (x.toK : ℝ) ≠ 2 ^ k := by
  intro k hk
  apply h k
  rw [← toK_ratCast x] at hk
  have : ((x.toK : ℚ) : ℝ) = ((2 ^ k : ℚ) : ℝ) := by rw [hk]; push_cast; rfl
  exact_mod_cast this

theorem npow_ne_one {x : Num} (h : ∀ k : ℤ, (x.toK : ℚ) ≠ 2 ^ k) : (x.toK : ℚ) ≠ 1 := by
  have := h 0
  rwa [zpow_zero] at this

/-- NaN and the infinities. -/
theorem C66_special (p : Nat) (rm : RM) (f : Nat) (c : Num.Ln2Cache) :
    (∀ e, BF.log2C (.nan e) p rm f c = some (.nan e, c, 0)) ∧ BF.log2C (.inf .pos) p rm f c = some (.inf .pos, c, 0) ∧
      BF.log2C (.inf .neg) p rm f c = some (.nan none, c, 0) :=
  ⟨fun _ => rfl, rfl, rfl⟩

/-- The logarithm of zero is `-Inf`. -/
theorem C66_zero {x : Num} (hx : x.WF) (h0 : (x.toK : ℚ) = 0) (p : Nat) (rm : RM) (f : Nat) (c : Num.Ln2Cache) :
    BF.log2C (.num x) p rm f c = some (.inf .neg, c, 0) := by
  unfold BF.log2C BF.wrapLogC
  dsimp only
  rw [hx.toK_eq_zero.1 h0]
  rfl

/-- The logarithm of a negative number is NaN, with the reason. -/
theorem C66_negative {x : Num} (hx : x.WF) (h0 : (x.toK : ℚ) < 0) (p : Nat) (rm : RM) (f : Nat) (c : Num.Ln2Cache) :
    BF.log2C (.num x) p rm f c = some (.nan (some .invalidArgument), c, 0) := by
  have hz := nz_of_ne hx h0.ne
  have hs : x.s = .neg := toK_sign_neg h0
  unfold BF.log2C BF.wrapLogC Num.log2
  dsimp only
  rw [hz, Num.isNegative, hs]
  rfl

/-- The logarithm of a power of two is its exponent, in every mode, also for subnormal numbers; the inexact mark is that
of the argument. -/
theorem C66_pow2 {x : Num} (hx : x.WF) {k : ℤ} (h1 : (x.toK : ℚ) = 2 ^ k) {p : Nat} (hp : ValidP p) (rm : RM) (f : Nat)
    (c : Num.Ln2Cache) :
    ∃ v, BF.log2C (.num x) p rm f c = some (.num v, c, 0) ∧ v.WF ∧ 64 * v.m.m.length = precBits p ∧ (v.toK : ℚ) = k ∧
      v.inexact = x.inexact ∧ (0 ≤ k → v.s = .pos) := by
  have hz : x.isZero = false := nz_of_ne hx (by rw [h1]; positivity)
  have hR : (x.toK : ℝ) = 2 ^ k := by rw [← toK_ratCast x, h1]; push_cast; rfl
  obtain ⟨v, v1, v2, v3, v4, v5, v6⟩ := log2_pow hx hR hp rm f c
  refine ⟨v, ?_, v2, v3, ?_, v5, v6⟩
  · unfold BF.log2C BF.wrapLogC
    dsimp only
    rw [hz, if_neg Bool.false_ne_true, v1]
    rfl
  · rw [← toK_ratCast v] at v4
    exact_mod_cast v4

/-- What is returned for the other arguments. -/
theorem C66_outcome_partial {x : Num} (hx : x.WF) (h0 : 0 < (x.toK : ℚ)) (h1 : ∀ k : ℤ, (x.toK : ℚ) ≠ 2 ^ k)
    {p : Nat} (hp : ValidP p) (rm : RM) {f : Nat} {c c' : Num.Ln2Cache} (hc : LogHist c) {r : BF} {w : Nat}
    (h : BF.log2C (.num x) p rm f c = some (r, c', w)) (hw : w ≤ 2 ^ 17) :
    ∃ v, r = .num v ∧ FunRounded rm (precBits p) (Real.logb 2 x.toK) v := by
  obtain ⟨r', h2, h3⟩ := wrapLogC_num (nz_of_ne hx h0.ne') h
  obtain ⟨-, v, v1, v2⟩ := log2_spec hx (pos_real h0) (npow_real h1) hp rm hc.ok h2 hw
  refine ⟨v, ?_, v2⟩
  rw [h3, v1]; rfl

/-- In the directed modes it is `log2 x` correctly rounded. -/
theorem C66_directed_partial {x : Num} (hx : x.WF) (h0 : 0 < (x.toK : ℚ)) (h1 : ∀ k : ℤ, (x.toK : ℚ) ≠ 2 ^ k)
    {p : Nat} (hp : ValidP p) {rm : RM} (hd : rm = .up ∨ rm = .down ∨ rm = .toZero ∨ rm = .fromZero) {f : Nat}
    {c c' : Num.Ln2Cache} (hc : LogHist c) {r : BF} {w : Nat}
    (h : BF.log2C (.num x) p rm f c = some (r, c', w)) (hw : w ≤ 2 ^ 17) :
    ∃ v, r = .num v ∧ RoundsFmt rm (precBits p) (Real.logb 2 x.toK) v.toK ∧ 64 * v.m.m.length = precBits p ∧
      v.inexact = true := by
  obtain ⟨v, v1, v2⟩ := C66_outcome_partial hx h0 h1 hp rm hc h hw
  exact ⟨v, v1, v2.directed hd, v2.prec, v2.inexact⟩

theorem log2C_len {x : Num} (hx : x.WF) (h0 : 0 < (x.toK : ℚ)) (h1 : ∀ k : ℤ, (x.toK : ℚ) ≠ 2 ^ k) {p : Nat} {rm : RM} {f : Nat}
    {c c' : Num.Ln2Cache} {r : BF} {w : Nat} (h : BF.log2C (.num x) p rm f c = some (r, c', w)) (hw : w ≤ 2 ^ 17) :
    64 * x.m.m.length ≤ 2 ^ 17 := by
  obtain ⟨r', h2, -⟩ := wrapLogC_num (nz_of_ne hx h0.ne') h
  have hm := lnSplit_spec hx (pos_real h0)
  have hmb : ∀ x : Num, x.m.maxBitLen = 64 * x.m.m.length := by intro x; unfold Mantissa.maxBitLen; omega
  unfold Num.log2 at h2
  dsimp only at h2
  rw [ln_args hx (pos_real h0), if_neg Bool.false_ne_true, hmb, hmb] at h2
  rw [if_neg (fun h => npow_real h1 _ (hm.half.1 h))] at h2
  split at h2
  · cases h2
  · rename_i hl
    have := roundLoop_ge hl
    injection h2 with h2
    injection h2 with _ h2
    injection h2 with _ h2
    omega

/-- In the directed modes the result depends neither on what the cache was used for before nor on the precision of the
argument. -/
theorem C66_history_partial {x y : Num} (hx : x.WF) (hy : y.WF) (h0 : 0 < (x.toK : ℚ)) (h1 : ∀ k : ℤ, (x.toK : ℚ) ≠ 2 ^ k)
    (hxy : (x.toK : ℚ) = y.toK)
    {p : Nat} (hp : ValidP p) {rm : RM} (hd : rm = .up ∨ rm = .down ∨ rm = .toZero ∨ rm = .fromZero) {f₁ f₂ : Nat}
    {c₁ c₂ c₁' c₂' : Num.Ln2Cache} (hc₁ : LogHist c₁) (hc₂ : LogHist c₂) {r₁ r₂ : BF} {w₁ w₂ : Nat}
    (h₁ : BF.log2C (.num x) p rm f₁ c₁ = some (r₁, c₁', w₁)) (h₂ : BF.log2C (.num y) p rm f₂ c₂ = some (r₂, c₂', w₂))
    (hw₁ : w₁ ≤ 2 ^ 17) (hw₂ : w₂ ≤ 2 ^ 17) : r₁ = r₂ := by
  have hR : (x.toK : ℝ) = y.toK := by rw [← toK_ratCast x, ← toK_ratCast y, hxy]
  obtain ⟨v, rfl, v2⟩ := C66_outcome_partial hx h0 h1 hp rm hc₁ h₁ hw₁
  obtain ⟨v', rfl, v2'⟩ := C66_outcome_partial hy (hxy ▸ h0) (hxy ▸ h1) hp rm hc₂ h₂ hw₂
  have hP : 64 ≤ precBits p := by have := hp.pos; unfold precBits; omega
  have hm := lnSplit_spec hx (pos_real h0)
  obtain ⟨q, q1, -, q2, -⟩ := log2_midRange hm (fun h => ne_one_real (npow_ne_one h1) (hm.one.1 h))
    (by rw [hm.len]; exact log2C_len hx h0 h1 h₁ hw₁)
  rw [← hR] at v2'
  rw [v2.unique hd hP (le_trans (zpow_le_zpow_right₀ (by norm_num) (by omega)) q2) v2']

/-- In the directed modes the function grows with the argument. -/
theorem C66_mono_partial {x y : Num} (hx : x.WF) (hy : y.WF) (hx0 : 0 < (x.toK : ℚ)) (hx1 : ∀ k : ℤ, (x.toK : ℚ) ≠ 2 ^ k)
    (hy1 : ∀ k : ℤ, (y.toK : ℚ) ≠ 2 ^ k) (hxy : (x.toK : ℚ) ≤ y.toK) {p : Nat} (hp : ValidP p) {rm : RM}
    (hd : rm = .up ∨ rm = .down ∨ rm = .toZero ∨ rm = .fromZero) {f₁ f₂ : Nat} {c₁ c₂ c₁' c₂' : Num.Ln2Cache}
    (hc₁ : LogHist c₁) (hc₂ : LogHist c₂) {v₁ v₂ : Num} {w₁ w₂ : Nat}
    (h₁ : BF.log2C (.num x) p rm f₁ c₁ = some (.num v₁, c₁', w₁)) (h₂ : BF.log2C (.num y) p rm f₂ c₂ = some (.num v₂, c₂', w₂))
    (hw₁ : w₁ ≤ 2 ^ 17) (hw₂ : w₂ ≤ 2 ^ 17) : (v₁.toK : ℚ) ≤ v₂.toK := by
  have hxyR : (x.toK : ℝ) ≤ y.toK := by
    rw [← toK_ratCast x, ← toK_ratCast y]; exact_mod_cast hxy
  obtain ⟨v, e1, v2, -⟩ := C66_directed_partial hx hx0 hx1 hp hd hc₁ h₁ hw₁
  obtain ⟨v', e2, v2', -⟩ := C66_directed_partial hy (lt_of_lt_of_le hx0 hxy) hy1 hp hd hc₂ h₂ hw₂
  injection e1 with e1
  injection e2 with e2
  rw [← e1] at v2
  rw [← e2] at v2'
  have hP : 0 < precBits p := by have := hp.pos; unfold precBits; omega
  have := v2.mono hP v2' (Real.logb_le_logb_of_le (by norm_num) (pos_real hx0) hxyR)
  rw [← toK_ratCast v₁, ← toK_ratCast v₂] at this
  exact_mod_cast this

/-- The first round returns a number in mode `None`, and in the directed modes unless the digits are exceptional. -/
theorem C66_number_partial {x : Num} (hx : x.WF) (h0 : 0 < (x.toK : ℚ)) (h1 : ∀ k : ℤ, (x.toK : ℚ) ≠ 2 ^ k)
    {p : Nat} (hp : ValidP p) {rm : RM} {c : Num.Ln2Cache} (hc : LogHist c)
    (hw : max (precBits p) (64 * x.m.m.length) + 64 * x.m.m.length + 69 ≤ 2 ^ 17)
    (hs : rm = .none ∨ (rm = .up ∨ rm = .down ∨ rm = .toZero ∨ rm = .fromZero) ∧
      ¬ NearGrid (precBits p) 63 |Real.logb 2 x.toK|) (f : Nat) :
    ∃ v c' w, BF.log2C (.num x) p rm (f + 1) c = some (.num v, c', w) ∧ w ≤ 2 ^ 17 := by
  have hz := nz_of_ne hx h0.ne'
  obtain ⟨r, c', w, h2, h3⟩ := log2_number (f := f) hx (pos_real h0) (npow_real h1) hp hc.ok hw (by
    rcases hs with h | ⟨h, h'⟩
    · exact Or.inl h
    · exact Or.inr ⟨by rcases h with rfl | rfl | rfl | rfl <;> rfl, h'⟩)
  obtain ⟨-, v, rfl, -⟩ := log2_spec hx (pos_real h0) (npow_real h1) hp rm hc.ok h2 h3
  refine ⟨v, c', w, ?_, h3⟩
  unfold BF.log2C BF.wrapLogC
  dsimp only
  rw [hz, if_neg Bool.false_ne_true, h2]
  rfl

/-! ## Large precisions -/

theorem ln2ForPrec_over {q : Nat} (hq : ValidP q) (h28 : 2 ^ 28 ≤ q) {c : Num.Ln2Cache} (hc : Ln2Ok c) :
    ∃ e c', ln2ForPrec (roundP q) .none c = some (.error e, c') := by
  obtain ⟨r, c', h1, -, -, -, h5⟩ := constLn2_spec hq .none hc
  rw [h5 (by unfold precBits; omega)] at h1
  unfold constLn2 at h1
  cases h : ln2ForPrec (roundP q) .none c with
  | none => rw [h] at h1; cases h1
  | some t =>
    obtain ⟨a, b⟩ := t
    cases a with
    | ok v => rw [h] at h1; cases h1
    | error e => exact ⟨e, b, rfl⟩

/-- From `2^28` bits on the logarithm is not a number, unless the argument is a power of two. -/
theorem C66_precision {x : Num} (hx : x.WF) (h0 : 0 < (x.toK : ℚ)) (h1 : ∀ k : ℤ, (x.toK : ℚ) ≠ 2 ^ k) {p : Nat} (hp : 2 ^ 28 ≤ p)
    (hw : max (precBits p) (64 * x.m.m.length) + 64 * x.m.m.length + 256 < PMAX) (rm : RM) (f : Nat) {c : Num.Ln2Cache}
    (hc : LogHist c) : ∃ r c' w, BF.log2C (.num x) p rm (f + 1) c = some (r, c', w) ∧ ∀ v, r ≠ .num v := by
  have hPM : PMAX = 2 ^ 62 - 2 ^ 31 - 1 := rfl
  have hz := nz_of_ne hx h0.ne'
  have hm := lnSplit_spec hx (pos_real h0)
  have hmb : ∀ x : Num, x.m.maxBitLen = 64 * x.m.m.length := by intro x; unfold Mantissa.maxBitLen; omega
  have hpv : ValidP p := ⟨by omega, by omega⟩
  have key : ∃ e c' w, x.log2 p rm (f + 1) c = some (.error e, c', w) := by
    unfold Num.log2
    rw [hpv.roundP]
    dsimp only
    rw [ln_args hx (pos_real h0), if_neg Bool.false_ne_true, hmb, hmb]
    generalize x.lnSplit.1 = m at hm
    generalize x.lnSplit.2 = e at hm
    have h1' : countLeadingZeroesSkipFirst m.m.m ≠ 64 * m.m.m.length := fun h => npow_real h1 _ (hm.half.1 h)
    obtain ⟨cnt, c1, c2, -⟩ := lnCnt_spec hm (fun h => h1' h.2)
    rw [hm.len] at c2
    rw [if_neg h1', roundLoop, c1]
    have hstep : ∃ er c', Num.log2Step m e (cnt + 5) (max (precBits p) (64 * x.m.m.length) + 64) c =
        some (.ret (.error er), c') := by
      unfold Num.log2Step
      dsimp only
      split
      · exact ⟨_, _, rfl⟩
      · split
        · exact ⟨_, _, rfl⟩
        · obtain ⟨er, c', hl⟩ := ln2ForPrec_over (q := max (precBits p) (64 * x.m.m.length) + 64 + (cnt + 5))
            ⟨by omega, by unfold precBits at *; omega⟩ (by unfold precBits; omega) hc.ok
          rw [hl]
          exact ⟨_, _, rfl⟩
    obtain ⟨er, c', hs⟩ := hstep
    rw [hs]
    exact ⟨_, _, _, rfl⟩
  obtain ⟨e, c', w, hk⟩ := key
  refine ⟨BF.resultToExt (.error e) x.isZero true, c', w, ?_, ?_⟩
  · unfold BF.log2C BF.wrapLogC
    dsimp only
    rw [hz, if_neg Bool.false_ne_true, hk]
  · intro v
    rw [hz]
    cases e with
    | exponentOverflow s => cases s <;> exact fun h => nomatch h
    | _ => exact fun h => nomatch h

/-- The logarithm of 3 is not a number at every precision. -/
theorem C66_precision_refuted : ¬ ∀ (p : Nat) (rm : RM) (f : Nat) (c : Num.Ln2Cache), ValidP p → LogHist c →
    ∃ v c' w, BF.log2C (.num exThree) p rm (f + 1) c = some (.num v, c', w) := by
  intro h
  obtain ⟨c, hc, -⟩ := C59_new
  have hp : ValidP (2 ^ 28) := ⟨by norm_num, by decide⟩
  obtain ⟨v, c', w, h1⟩ := h _ .up 0 c hp (.new hc)
  obtain ⟨r, c'', w', h2, h3⟩ := C66_precision exThree_WF (by rw [exThree_toK]; norm_num) (by
    intro k hk
    rw [exThree_toK] at hk
    rcases le_or_gt k 1 with h | h
    · have : (2 : ℚ) ^ k ≤ 2 ^ (1 : ℤ) := zpow_le_zpow_right₀ (by norm_num) h
      rw [← hk] at this; norm_num at this
    · have : (2 : ℚ) ^ (2 : ℤ) ≤ 2 ^ k := zpow_le_zpow_right₀ (by norm_num) (by omega)
      rw [← hk] at this; norm_num at this) (le_refl _) (by decide +kernel) .up 0 (.new hc)
  rw [h1] at h2
  injection h2 with h2
  injection h2 with h2 _
  exact h3 v h2.symm

/-! ## The logarithm of one -/

/-- The zero that is returned for one at 64 bits has the exponent 64. -/
theorem C66_one (rm : RM) (f : Nat) (c : Num.Ln2Cache) :
    BF.log2C (.num Num.ONE) 64 rm f c = some (.num ⟨64, .pos, ⟨[0], 0⟩, false⟩, c, 0) := by
  have h1 : ∀ rm, (Num.fromUsize 0).setPrecision 64 rm = .ok ⟨64, .pos, ⟨[0], 0⟩, false⟩ := by
    intro rm; cases rm <;> decide +kernel
  have h2 : roundP 64 = 64 := by decide +kernel
  have h3 : Num.ONE.lnSplit.2 = 1 := by decide +kernel
  unfold BF.log2C BF.wrapLogC Num.log2
  dsimp only
  rw [h2, if_neg (by decide +kernel), if_neg (by decide +kernel), if_pos (by decide +kernel), h3,
    if_neg (by decide), show ((1 : ℤ) - 1).natAbs = 0 by rfl, h1]
  rfl

/-- A logarithm of a power of two does not compare with other numbers as its value does: `1/4` compares as less than
`log2 1 = 0`. -/
theorem C66_one_refuted : ¬ ∀ (x y v : Num) (k : ℤ) (p : Nat) (rm : RM) (f : Nat) (c c' : Num.Ln2Cache) (w : Nat), x.WF → y.WF →
    (x.toK : ℚ) = 2 ^ k → ValidP p → (2 : ℚ) ^ (-64 : ℤ) ≤ y.toK → BF.log2C (.num x) p rm f c = some (.num v, c', w) →
    ∃ r, BF.cmp (.num y) (.num v) = some r ∧ (0 < r ↔ (k : ℚ) < y.toK) := by
  intro h
  obtain ⟨c, hc, -⟩ := C59_new
  have hv : ((⟨-1, .pos, ⟨[MSB], 64⟩, false⟩ : Num).toK : ℚ) = 1 / 4 := by
    unfold Num.toK
    simp only [val, Sign.toK, List.length_cons, List.length_nil, MSB]
    norm_num
  obtain ⟨r, r1, r2⟩ := h Num.ONE ⟨-1, .pos, ⟨[MSB], 64⟩, false⟩ _ 0 64 .up 0 c c 0 ONE_WF (Num.WF_of_check (by decide +kernel))
    (by rw [ONE_toK]; norm_num) ⟨by norm_num, by decide⟩ (by rw [hv]; norm_num) (C66_one .up 0 c)
  have e : BF.cmp (.num ⟨-1, .pos, ⟨[MSB], 64⟩, false⟩) (.num ⟨64, .pos, ⟨[0], 0⟩, false⟩) = some (-1) := by decide +kernel
  rw [e] at r1
  injection r1 with r1
  rw [← r1, hv] at r2
  have := r2.2 (by norm_num)
  norm_num at this

/-! ## Concrete cases -/

theorem exThree_npow (k : ℤ) : (exThree.toK : ℚ) ≠ 2 ^ k := by
  intro hk
  rw [exThree_toK] at hk
  rcases le_or_gt k 1 with h | h
  · have : (2 : ℚ) ^ k ≤ 2 ^ (1 : ℤ) := zpow_le_zpow_right₀ (by norm_num) h
    rw [← hk] at this; norm_num at this
  · have : (2 : ℚ) ^ (2 : ℤ) ≤ 2 ^ k := zpow_le_zpow_right₀ (by norm_num) (by omega)
    rw [← hk] at this; norm_num at this

set_option maxRecDepth 100000 in
/-- `log2 3` with 64 bits, rounded up, from a new cache: the hypotheses hold and the number is known. -/
example : ∃ c v c' w, LogHist c ∧ exThree.WF ∧ 0 < (exThree.toK : ℚ) ∧ (∀ k : ℤ, (exThree.toK : ℚ) ≠ 2 ^ k) ∧ ValidP 64 ∧
    BF.log2C (.num exThree) 64 .up 1 c = some (.num v, c', w) ∧ w ≤ 2 ^ 17 ∧
    v.m.m = [14618698808614929360] ∧ v.e = 1 ∧ RoundsFmt .up 64 (Real.logb 2 3) v.toK := by
  obtain ⟨c, h1, -⟩ := C59_new
  have h0 : 0 < (exThree.toK : ℚ) := by rw [exThree_toK]; norm_num
  have hp : ValidP 64 := ⟨by norm_num, by decide⟩
  have h2 : (match ln2New with
    | .ok c => match BF.log2C (.num exThree) 64 .up 1 c with
      | some (.num v, _, w) => v.m.m == [14618698808614929360] && v.e == 1 && w == 133
      | _ => false
    | _ => false) = true := by decide +kernel
  rw [h1] at h2
  dsimp only at h2
  cases h3 : BF.log2C (.num exThree) 64 .up 1 c with
  | none => rw [h3] at h2; cases h2
  | some r =>
    obtain ⟨b, c', w⟩ := r
    rw [h3] at h2
    cases b with
    | nan e => cases h2
    | inf s => cases h2
    | num v =>
      simp at h2
      obtain ⟨⟨h4, h5⟩, h6⟩ := h2
      obtain ⟨v', e1, e2, -⟩ := C66_directed_partial exThree_WF h0 exThree_npow hp (Or.inl rfl) (.new h1) h3 (by omega)
      injection e1 with e1
      rw [← e1, exThree_toK] at e2
      exact ⟨c, v, c', w, .new h1, exThree_WF, h0, exThree_npow, hp, h3, by omega, h4, h5, e2⟩

/-- A power of two: `1/2^1000`. -/
example : exTiny.WF ∧ (exTiny.toK : ℚ) = 2 ^ (-1000 : ℤ) := by
  refine ⟨exTiny_WF, ?_⟩
  unfold Num.toK exTiny
  simp only [val, Sign.toK, List.length_cons, List.length_nil, MSB]
  rw [show (-999 : ℤ) - ((64 * (0 + 1) : ℕ) : ℤ) = -1063 by norm_num, show (-1000 : ℤ) = 63 + -1063 by norm_num,
    zpow_add₀ (by norm_num)]
  norm_num

end AF
