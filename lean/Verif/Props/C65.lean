import Verif.Lemmas.LogFun
import Verif.Props.C59
import Verif.Props.C62
/-!
# C65: the natural logarithm

The full claim: for every number `x > 0`, every precision, every rounding mode and whatever was asked of the cache
before, `ln` returns `ln x` correctly rounded, marked inexact unless `x` is 1; `ln 1` is `+0`, `ln 0` is `-Inf`, `ln (+Inf)` is
`+Inf`, and negative arguments give NaN.

Proved: the special values (`C65_one`, `C65_zero`, `C65_negative`, `C65_special`). For the other arguments a result obtained
with a working precision up to `2^17` bits is a number, correctly rounded in the four directed modes and within the
bounds of `FunRounded` in the other modes (`C65_outcome_partial`, `C65_directed_partial`), positive above 1 and negative
below (`C65_sign_partial`); in the directed modes it does not depend on the history of the cache or on the precision of
the argument (`C65_history_partial`) and grows with the argument (`C65_mono_partial`). The first round of the loop returns
such a number in mode `None`, and in the directed modes unless the 63 bits of `|ln x|` after the first `P` are all equal
(`C65_number_partial`). The working precision is the larger of the precision asked for and that of the argument, plus 64,
plus the number of bits lost next to 1, plus 5, in the first round.

Missing: correct rounding in the nearest modes, working precisions over `2^17` bits, the end of the loop in the
exceptional cases.
-/

namespace AF

/-- The caches that exist after `Ln2Cache::new` and any number of calls of `Consts::ln_2`, and of `ln` and `log2` with
working precisions up to `2^17`. -/
inductive LogHist : Num.Ln2Cache → Prop
  | new {c} : ln2New = .ok c → LogHist c
  | ln2 {c c' p rm r} : LogHist c → ValidP p → constLn2 p rm c = some (r, c') → LogHist c'
  | ln {c c' x p rm f r w} : LogHist c → ValidP p → BF.WF x → BF.lnC x p rm f c = some (r, c', w) → w ≤ 2 ^ 17 → LogHist c'
  | log2 {c c' x p rm f r w} : LogHist c → ValidP p → BF.WF x → BF.log2C x p rm f c = some (r, c', w) → w ≤ 2 ^ 17 → LogHist c'

/-- A call of one of the functions with a number that is not zero. -/
theorem wrapLogC_num {f : Num → Nat → RM → Nat → Num.Ln2Cache → Option (Except Err Num × Num.Ln2Cache × Nat)}
    {x : Num} {p : Nat} {rm : RM} {n : Nat} {c c' : Num.Ln2Cache} {r : BF} {w : Nat} (hz : x.isZero = false)
    (h : BF.wrapLogC f (.num x) p rm n c = some (r, c', w)) :
    ∃ r', f x p rm n c = some (r', c', w) ∧ r = BF.resultToExt r' x.isZero true := by
  unfold BF.wrapLogC at h
  dsimp only at h
  rw [hz, if_neg Bool.false_ne_true] at h
  split at h
  · cases h
  · rename_i he
    simp only [Option.some.injEq, Prod.mk.injEq] at h
    obtain ⟨rfl, rfl, rfl⟩ := h
    exact ⟨_, he, by rw [hz]⟩

theorem some_cache {α β γ : Type} {a a' : α} {b b' : β} {w w' : γ} (h : some (a, b, w) = some (a', b', w')) : b = b' := by
  injection h with h; injection h with _ h; injection h with h _

theorem wrapLogC_cache {f : Num → Nat → RM → Nat → Num.Ln2Cache → Option (Except Err Num × Num.Ln2Cache × Nat)}
    {x : BF} {p : Nat} {rm : RM} {n : Nat} {c c' : Num.Ln2Cache} {r : BF} {w : Nat} (hx : x.WF) (hc : Ln2Ok c)
    (hf : ∀ (y : Num) (r' : Except Err Num), y.WF → y.isZero = false → f y p rm n c = some (r', c', w) → Ln2Ok c')
    (h : BF.wrapLogC f x p rm n c = some (r, c', w)) : Ln2Ok c' := by
  cases x with
  | nan e => exact some_cache h ▸ hc
  | inf s => exact some_cache h ▸ hc
  | num y =>
    cases hz : y.isZero with
    | true =>
      unfold BF.wrapLogC at h
      dsimp only at h
      rw [hz, if_pos rfl] at h
      exact some_cache h ▸ hc
    | false =>
      obtain ⟨r', h1, -⟩ := wrapLogC_num hz h
      exact hf y r' hx hz h1

/-- Numbers that are not zero are negative or positive. -/
theorem neg_or_pos {y : Num} (hy : y.WF) (hz : y.isZero = false) : (y.isZero || y.isNegative) = true ∨ 0 < (y.toK : ℝ) := by
  have h0 : (y.toK : ℝ) ≠ 0 := by
    intro h; rw [hy.toK_eq_zero.1 h] at hz; cases hz
  cases hs : y.s with
  | neg => left; rw [Num.isNegative, hs]; simp [Sign.isNeg]
  | pos =>
    right
    refine lt_of_le_of_ne ?_ (Ne.symm h0)
    unfold Num.toK
    rw [hs, Sign.toK]
    positivity

theorem ln_cache {y : Num} (hy : y.WF) (hz : y.isZero = false) {p : Nat} (hp : ValidP p) {rm : RM} {f : Nat} {c c' : Num.Ln2Cache}
    (hc : Ln2Ok c) {r : Except Err Num} {w : Nat} (h : y.ln p rm f c = some (r, c', w)) (hw : w ≤ 2 ^ 17) : Ln2Ok c' := by
  rcases neg_or_pos hy hz with hn | h0
  · unfold Num.ln at h
    dsimp only at h
    rw [if_pos hn] at h
    exact some_cache h ▸ hc
  · by_cases h1 : (y.toK : ℝ) = 1
    · rw [ln_one hy h1 hp] at h
      exact some_cache h ▸ hc
    · exact (ln_spec hy h0 h1 hp rm hc h hw).1

theorem log2_cache {y : Num} (hy : y.WF) (hz : y.isZero = false) {p : Nat} (hp : ValidP p) {rm : RM} {f : Nat} {c c' : Num.Ln2Cache}
    (hc : Ln2Ok c) {r : Except Err Num} {w : Nat} (h : y.log2 p rm f c = some (r, c', w)) (hw : w ≤ 2 ^ 17) : Ln2Ok c' := by
  rcases neg_or_pos hy hz with hn | h0
  · unfold Num.log2 at h
    dsimp only at h
    rw [if_pos hn] at h
    exact some_cache h ▸ hc
  · by_cases h1 : ∃ k : ℤ, (y.toK : ℝ) = 2 ^ k
    · have h2 := h
      obtain ⟨v, h3, -⟩ := log2_pow hy h1.choose_spec hp rm f c
      rw [h3] at h
      exact some_cache h ▸ hc
    · exact (log2_spec hy h0 (fun k hk => h1 ⟨k, hk⟩) hp rm hc h hw).1

theorem LogHist.ok {c : Num.Ln2Cache} (h : LogHist c) : Ln2Ok c := by
  induction h with
  | new h => exact (Ln2Hist.new h).ok
  | ln2 h hp hc ih =>
    obtain ⟨r, c', h1, h2, -⟩ := constLn2_spec hp _ ih
    rw [h1] at hc
    injection hc with hc
    injection hc with _ hc
    rw [← hc]; exact h2
  | ln h hp hx hc hw ih => exact wrapLogC_cache hx ih (fun y r' hy hz h => ln_cache hy hz hp ih h hw) hc
  | log2 h hp hx hc hw ih => exact wrapLogC_cache hx ih (fun y r' hy hz h => log2_cache hy hz hp ih h hw) hc

theorem pos_real {x : Num} (h : 0 < (x.toK : ℚ)) : 0 < (x.toK : ℝ) := by
  rw [← toK_ratCast x]; exact_mod_cast h

theorem ne_one_real {x : Num} (h : (x.toK : ℚ) ≠ 1) : (x.toK : ℝ) ≠ 1 := by
  rw [← toK_ratCast x]; exact_mod_cast h

/-- NaN and the infinities. -/
theorem C65_special (p : Nat) (rm : RM) (f : Nat) (c : Num.Ln2Cache) :
    (∀ e, BF.lnC (.nan e) p rm f c = some (.nan e, c, 0)) ∧ BF.lnC (.inf .pos) p rm f c = some (.inf .pos, c, 0) ∧
      BF.lnC (.inf .neg) p rm f c = some (.nan none, c, 0) :=
  ⟨fun _ => rfl, rfl, rfl⟩

/-- The logarithm of zero is `-Inf`. -/
theorem C65_zero {x : Num} (hx : x.WF) (h0 : (x.toK : ℚ) = 0) (p : Nat) (rm : RM) (f : Nat) (c : Num.Ln2Cache) :
    BF.lnC (.num x) p rm f c = some (.inf .neg, c, 0) := by
  unfold BF.lnC BF.wrapLogC
  dsimp only
  rw [hx.toK_eq_zero.1 h0]
  rfl

/-- The logarithm of a negative number is NaN, with the reason. -/
theorem C65_negative {x : Num} (hx : x.WF) (h0 : (x.toK : ℚ) < 0) (p : Nat) (rm : RM) (f : Nat) (c : Num.Ln2Cache) :
    BF.lnC (.num x) p rm f c = some (.nan (some .invalidArgument), c, 0) := by
  have hz := nz_of_ne hx h0.ne
  have hs : x.s = .neg := toK_sign_neg h0
  unfold BF.lnC BF.wrapLogC Num.ln
  dsimp only
  rw [hz, Num.isNegative, hs]
  rfl

/-- The logarithm of one is `+0`, exactly, in every mode. -/
theorem C65_one {x : Num} (hx : x.WF) (h1 : (x.toK : ℚ) = 1) {p : Nat} (hp : ValidP p) (rm : RM) (f : Nat) (c : Num.Ln2Cache) :
    ∃ v, BF.lnC (.num x) p rm f c = some (.num v, c, 0) ∧ v.WF ∧ 64 * v.m.m.length = precBits p ∧ v.s = .pos ∧ v.e = 0 ∧
      (v.toK : ℚ) = 0 ∧ v.inexact = x.inexact := by
  have hz : x.isZero = false := nz_of_ne hx (by rw [h1]; norm_num)
  have hR : (x.toK : ℝ) = 1 := by rw [← toK_ratCast x, h1]; norm_num
  have hlt := hp.lt
  refine ⟨Num.zero (precBits p) .pos x.inexact, ?_, zero_WF (by unfold wordLen precBits at *; omega) _ _, ?_, rfl, rfl,
    zero_toK _ _ _, rfl⟩
  · unfold BF.lnC BF.wrapLogC
    dsimp only
    rw [hz, if_neg Bool.false_ne_true, ln_one hx hR hp]
    rfl
  · simp only [Num.zero, Mantissa.new, List.length_replicate]
    unfold wordLen precBits; omega

/-- What is returned for the other arguments. -/
theorem C65_outcome_partial {x : Num} (hx : x.WF) (h0 : 0 < (x.toK : ℚ)) (h1 : (x.toK : ℚ) ≠ 1)
    {p : Nat} (hp : ValidP p) (rm : RM) {f : Nat} {c c' : Num.Ln2Cache} (hc : LogHist c) {r : BF} {w : Nat}
    (h : BF.lnC (.num x) p rm f c = some (r, c', w)) (hw : w ≤ 2 ^ 17) :
    ∃ v, r = .num v ∧ FunRounded rm (precBits p) (Real.log x.toK) v := by
  obtain ⟨r', h2, h3⟩ := wrapLogC_num (nz_of_ne hx h0.ne') h
  obtain ⟨-, v, v1, v2⟩ := ln_spec hx (pos_real h0) (ne_one_real h1) hp rm hc.ok h2 hw
  refine ⟨v, ?_, v2⟩
  rw [h3, v1]; rfl

/-- In the directed modes it is `ln x` correctly rounded. -/
theorem C65_directed_partial {x : Num} (hx : x.WF) (h0 : 0 < (x.toK : ℚ)) (h1 : (x.toK : ℚ) ≠ 1)
    {p : Nat} (hp : ValidP p) {rm : RM} (hd : rm = .up ∨ rm = .down ∨ rm = .toZero ∨ rm = .fromZero) {f : Nat}
    {c c' : Num.Ln2Cache} (hc : LogHist c) {r : BF} {w : Nat}
    (h : BF.lnC (.num x) p rm f c = some (r, c', w)) (hw : w ≤ 2 ^ 17) :
    ∃ v, r = .num v ∧ RoundsFmt rm (precBits p) (Real.log x.toK) v.toK ∧ 64 * v.m.m.length = precBits p ∧
      v.inexact = true := by
  obtain ⟨v, v1, v2⟩ := C65_outcome_partial hx h0 h1 hp rm hc h hw
  exact ⟨v, v1, v2.directed hd, v2.prec, v2.inexact⟩

/-- The sign of the result, in every mode. -/
theorem C65_sign_partial {x : Num} (hx : x.WF) (h0 : 0 < (x.toK : ℚ)) (h1 : (x.toK : ℚ) ≠ 1)
    {p : Nat} (hp : ValidP p) (rm : RM) {f : Nat} {c c' : Num.Ln2Cache} (hc : LogHist c) {r : BF} {w : Nat}
    (h : BF.lnC (.num x) p rm f c = some (r, c', w)) (hw : w ≤ 2 ^ 17) :
    ∃ v, r = .num v ∧ (1 < (x.toK : ℚ) → v.s = .pos) ∧ ((x.toK : ℚ) < 1 → v.s = .neg) := by
  obtain ⟨v, v1, v2⟩ := C65_outcome_partial hx h0 h1 hp rm hc h hw
  refine ⟨v, v1, fun hg => v2.pos (Real.log_pos ?_), fun hl => v2.neg (Real.log_neg (pos_real h0) ?_)⟩
  · rw [← toK_ratCast x]; exact_mod_cast hg
  · rw [← toK_ratCast x]; exact_mod_cast hl

theorem log_normal {x : Num} (hx : x.WF) (h0 : 0 < (x.toK : ℚ)) (h1 : (x.toK : ℚ) ≠ 1) (hl : 64 * x.m.m.length ≤ 2 ^ 17) :
    (2 : ℝ) ^ (EMIN - 1) ≤ |Real.log x.toK| := by
  have hm := lnSplit_spec hx (pos_real h0)
  obtain ⟨q, q1, -, q2, -⟩ := ln_midRange hm (fun h => ne_one_real h1 (hm.one.1 h)) (by rw [hm.len]; exact hl)
  exact le_trans (zpow_le_zpow_right₀ (by norm_num) (by omega)) q2

theorem lnC_len {x : Num} (hx : x.WF) (h0 : 0 < (x.toK : ℚ)) (h1 : (x.toK : ℚ) ≠ 1) {p : Nat} {rm : RM} {f : Nat}
    {c c' : Num.Ln2Cache} {r : BF} {w : Nat} (h : BF.lnC (.num x) p rm f c = some (r, c', w)) (hw : w ≤ 2 ^ 17) :
    64 * x.m.m.length ≤ 2 ^ 17 := by
  obtain ⟨r', h2, -⟩ := wrapLogC_num (nz_of_ne hx h0.ne') h
  have hm := lnSplit_spec hx (pos_real h0)
  have hmb : x.m.maxBitLen = 64 * x.m.m.length := by unfold Mantissa.maxBitLen; omega
  unfold Num.ln at h2
  dsimp only at h2
  rw [ln_args hx (pos_real h0), if_neg Bool.false_ne_true, hmb] at h2
  rw [if_neg (fun h => ne_one_real h1 (hm.one.1 (lnAddPrec_one.1 h)))] at h2
  split at h2
  · cases h2
  · rename_i hl
    have := roundLoop_ge hl
    injection h2 with h2
    injection h2 with _ h2
    injection h2 with _ h2
    omega

/-- In the directed modes the result depends neither on what the cache was used for before nor on the precision of the
argument. -/
theorem C65_history_partial {x y : Num} (hx : x.WF) (hy : y.WF) (h0 : 0 < (x.toK : ℚ)) (h1 : (x.toK : ℚ) ≠ 1)
    (hxy : (x.toK : ℚ) = y.toK)
    {p : Nat} (hp : ValidP p) {rm : RM} (hd : rm = .up ∨ rm = .down ∨ rm = .toZero ∨ rm = .fromZero) {f₁ f₂ : Nat}
    {c₁ c₂ c₁' c₂' : Num.Ln2Cache} (hc₁ : LogHist c₁) (hc₂ : LogHist c₂) {r₁ r₂ : BF} {w₁ w₂ : Nat}
    (h₁ : BF.lnC (.num x) p rm f₁ c₁ = some (r₁, c₁', w₁)) (h₂ : BF.lnC (.num y) p rm f₂ c₂ = some (r₂, c₂', w₂))
    (hw₁ : w₁ ≤ 2 ^ 17) (hw₂ : w₂ ≤ 2 ^ 17) : r₁ = r₂ := by
  have hR : (x.toK : ℝ) = y.toK := by rw [← toK_ratCast x, ← toK_ratCast y, hxy]
  obtain ⟨v, rfl, v2⟩ := C65_outcome_partial hx h0 h1 hp rm hc₁ h₁ hw₁
  obtain ⟨v', rfl, v2'⟩ := C65_outcome_partial hy (hxy ▸ h0) (hxy ▸ h1) hp rm hc₂ h₂ hw₂
  have hP : 64 ≤ precBits p := by have := hp.pos; unfold precBits; omega
  rw [← hR] at v2'
  rw [v2.unique hd hP (log_normal hx h0 h1 (lnC_len hx h0 h1 h₁ hw₁)) v2']

/-- In the directed modes the function grows with the argument. -/
theorem C65_mono_partial {x y : Num} (hx : x.WF) (hy : y.WF) (hx0 : 0 < (x.toK : ℚ)) (hx1 : (x.toK : ℚ) ≠ 1)
    (hy1 : (y.toK : ℚ) ≠ 1) (hxy : (x.toK : ℚ) ≤ y.toK) {p : Nat} (hp : ValidP p) {rm : RM}
    (hd : rm = .up ∨ rm = .down ∨ rm = .toZero ∨ rm = .fromZero) {f₁ f₂ : Nat} {c₁ c₂ c₁' c₂' : Num.Ln2Cache}
    (hc₁ : LogHist c₁) (hc₂ : LogHist c₂) {v₁ v₂ : Num} {w₁ w₂ : Nat}
    (h₁ : BF.lnC (.num x) p rm f₁ c₁ = some (.num v₁, c₁', w₁)) (h₂ : BF.lnC (.num y) p rm f₂ c₂ = some (.num v₂, c₂', w₂))
    (hw₁ : w₁ ≤ 2 ^ 17) (hw₂ : w₂ ≤ 2 ^ 17) : (v₁.toK : ℚ) ≤ v₂.toK := by
  have hxyR : (x.toK : ℝ) ≤ y.toK := by
    rw [← toK_ratCast x, ← toK_ratCast y]; exact_mod_cast hxy
  obtain ⟨v, e1, v2, -⟩ := C65_directed_partial hx hx0 hx1 hp hd hc₁ h₁ hw₁
  obtain ⟨v', e2, v2', -⟩ := C65_directed_partial hy (lt_of_lt_of_le hx0 hxy) hy1 hp hd hc₂ h₂ hw₂
  injection e1 with e1
  injection e2 with e2
  rw [← e1] at v2
  rw [← e2] at v2'
  have hP : 0 < precBits p := by have := hp.pos; unfold precBits; omega
  have := v2.mono hP v2' (Real.log_le_log (pos_real hx0) hxyR)
  rw [← toK_ratCast v₁, ← toK_ratCast v₂] at this
  exact_mod_cast this

/-- The first round returns a number in mode `None`, and in the directed modes unless the digits are exceptional. -/
theorem C65_number_partial {x : Num} (hx : x.WF) (h0 : 0 < (x.toK : ℚ)) (h1 : (x.toK : ℚ) ≠ 1)
    {p : Nat} (hp : ValidP p) {rm : RM} {c : Num.Ln2Cache} (hc : LogHist c)
    (hw : max (precBits p) (64 * x.m.m.length) + 64 * x.m.m.length + 69 ≤ 2 ^ 17)
    (hs : rm = .none ∨ (rm = .up ∨ rm = .down ∨ rm = .toZero ∨ rm = .fromZero) ∧
      ¬ NearGrid (precBits p) 63 |Real.log x.toK|) (f : Nat) :
    ∃ v c' w, BF.lnC (.num x) p rm (f + 1) c = some (.num v, c', w) ∧ w ≤ 2 ^ 17 := by
  have hz := nz_of_ne hx h0.ne'
  obtain ⟨r, c', w, h2, h3⟩ := ln_number (f := f) hx (pos_real h0) (ne_one_real h1) hp hc.ok hw (by
    rcases hs with h | ⟨h, h'⟩
    · exact Or.inl h
    · exact Or.inr ⟨by rcases h with rfl | rfl | rfl | rfl <;> rfl, h'⟩)
  obtain ⟨-, v, rfl, -⟩ := ln_spec hx (pos_real h0) (ne_one_real h1) hp rm hc.ok h2 h3
  refine ⟨v, c', w, ?_, h3⟩
  unfold BF.lnC BF.wrapLogC
  dsimp only
  rw [hz, if_neg Bool.false_ne_true, h2]
  rfl

/-! ## Concrete cases -/

/-- The number 3. -/
def exThree : Num := ⟨2, .pos, ⟨[3 * 2 ^ 62], 64⟩, false⟩

theorem exThree_WF : exThree.WF := Num.WF_of_check (by decide +kernel)

theorem exThree_toK {K : Type*} [Field K] [LinearOrder K] [IsStrictOrderedRing K] : (exThree.toK : K) = 3 := by
  unfold Num.toK exThree
  simp only [val, Sign.toK, List.length_cons, List.length_nil]
  norm_num

set_option maxRecDepth 100000 in
/-- `ln 3` with 64 bits, rounded up, from a new cache: the hypotheses hold and the number is known. -/
example : ∃ c v c' w, LogHist c ∧ exThree.WF ∧ 0 < (exThree.toK : ℚ) ∧ (exThree.toK : ℚ) ≠ 1 ∧ ValidP 64 ∧
    BF.lnC (.num exThree) 64 .up 1 c = some (.num v, c', w) ∧ w ≤ 2 ^ 17 ∧
    v.m.m = [10132909862646469820] ∧ v.e = 1 ∧ RoundsFmt .up 64 (Real.log 3) v.toK := by
  obtain ⟨c, h1, -⟩ := C59_new
  have h0 : 0 < (exThree.toK : ℚ) := by rw [exThree_toK]; norm_num
  have hn : (exThree.toK : ℚ) ≠ 1 := by rw [exThree_toK]; norm_num
  have hp : ValidP 64 := ⟨by norm_num, by decide⟩
  have h2 : (match ln2New with
    | .ok c => match BF.lnC (.num exThree) 64 .up 1 c with
      | some (.num v, _, w) => v.m.m == [10132909862646469820] && v.e == 1 && w == 133
      | _ => false
    | _ => false) = true := by decide +kernel
  rw [h1] at h2
  dsimp only at h2
  cases h3 : BF.lnC (.num exThree) 64 .up 1 c with
  | none => rw [h3] at h2; cases h2
  | some r =>
    obtain ⟨b, c', w⟩ := r
    rw [h3] at h2
    cases b with
    | nan e => cases h2
    | inf s => cases h2
    | num v =>
      simp at h2
      obtain ⟨⟨h4, h5⟩, h6⟩ := h2
      obtain ⟨v', e1, e2, -⟩ := C65_directed_partial exThree_WF h0 hn hp (Or.inl rfl) (.new h1) h3 (by omega)
      injection e1 with e1
      rw [← e1, exThree_toK] at e2
      exact ⟨c, v, c', w, .new h1, exThree_WF, h0, hn, hp, h3, by omega, h4, h5, e2⟩

/-- A number that meets the hypotheses of `C65_one`, and one for `C65_negative`. -/
example : Num.ONE.WF ∧ (Num.ONE.toK : ℚ) = 1 ∧ exMinusHalf.WF ∧ (exMinusHalf.toK : ℚ) < 0 := by
  refine ⟨ONE_WF, ONE_toK, Num.WF_of_check (by decide +kernel), ?_⟩
  unfold Num.toK exMinusHalf
  simp only [val, Sign.toK, List.length_cons, List.length_nil, MSB]
  norm_num

/-- The precision bound of `C65_number_partial` is met by 3 at 64000 bits. -/
example : max (precBits 64000) (64 * exThree.m.m.length) + 64 * exThree.m.m.length + 69 ≤ 2 ^ 17 := by decide +kernel

end AF
