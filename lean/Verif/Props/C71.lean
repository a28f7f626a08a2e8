import Verif.Props.C66
import Verif.Props.C60
import Verif.Lemmas.Log10Fun
/-!
# C71: the logarithm to base 10

The full claim: for every number `x > 0`, every precision, every rounding mode and whatever was asked of the caches
before, `log10` returns `log10 x` correctly rounded, marked inexact unless `x` is a power of ten; `log10 0` is `-Inf`,
`log10 (+Inf)` is `+Inf`, and negative arguments give NaN.

Proved: the special values (`C71_special`, `C71_zero`, `C71_negative`, `C71_one`). For the other arguments a result obtained
with a working precision up to `2^15` bits is a number, correctly rounded in the four directed modes and within the
bounds of `FunRounded` in the other modes (`C71_outcome_partial`, `C71_directed_partial`), provided that no power of ten
other than `x` is so near that the logarithms agree to `M + 124` bits, where `M` is the larger of the precisions of the
argument and of the result (`TenClear`). That holds whenever the precision of the argument and the size of its exponent
together do not exceed `M + 73` (`C71_clear`). In the directed modes the result does not depend on the history of the
caches or on the precision of the argument (`C71_history_partial`), grows with the argument (`C71_mono_partial`) and for
powers of ten is the exponent itself (`C71_power_partial`). The first round of the loop returns a number in mode `None`,
and in the directed modes unless the 63 bits of `|log10 x|` after the first `P` are all equal (`C71_number_partial`).

The claim is false: exact results for powers of ten are marked inexact (`C71_flag_refuted`); the zero for `log10 1` is
marked exact although the argument is marked inexact (`C71_one_flag_refuted`); and from 39 million bits on no number is
returned, not even for 1 and 10 (`C71_precision`, `C71_precision_refuted`).

Missing: correct rounding in the nearest modes, working precisions over `2^15` bits, arguments with exponents that are
large compared with the precision, the end of the loop in the exceptional cases, among them powers of ten.
-/

namespace AF

/-- The arguments for which the results below hold at precision `p`. -/
structure Log10Dom (x : Num) (p : Nat) : Prop where
  wf : x.WF
  pos : 0 < (x.toK : ℚ)
  ne1 : (x.toK : ℚ) ≠ 1
  clear : TenClear (max (precBits p) (64 * x.m.m.length)) x.toK

/-- The caches of `ln 2` and `ln 10` that exist after their creation and any number of calls of `Consts::ln_10`, of `ln` with
working precisions up to `2^17`, and of `log10` with working precisions up to `2^15`. -/
inductive Log10Hist : Num.Ln2Cache × Num.Ln2Cache → Prop
  | new {a b} : ln2New = .ok a → ln10New = .ok b → Log10Hist (a, b)
  | ln10 {a b b' p rm r} : Log10Hist (a, b) → ValidP p → constLn10 p rm b = some (r, b') → Log10Hist (a, b')
  | ln {a b a' x p rm f r w} : Log10Hist (a, b) → ValidP p → BF.WF x → BF.lnC x p rm f a = some (r, a', w) → w ≤ 2 ^ 17 → Log10Hist (a', b)
  | log10 {c c' x p rm f r w} : Log10Hist c → ValidP p → Log10Dom x p → BF.log10C (.num x) p rm f c = some (r, c', w) → w ≤ 2 ^ 15 →
      Log10Hist c'

theorem log10C_num {x : Num} {p : Nat} {rm : RM} {n : Nat} {c c' : Num.Ln2Cache × Num.Ln2Cache} {r : BF} {w : Nat}
    (hz : x.isZero = false) (h : BF.log10C (.num x) p rm n c = some (r, c', w)) :
    ∃ r', x.log10 p rm n c = some (r', c', w) ∧ r = BF.resultToExt r' x.isZero true := by
  unfold BF.log10C at h
  dsimp only at h
  rw [hz, if_neg Bool.false_ne_true] at h
  cases h1 : x.log10 p rm n c with
  | none => rw [h1] at h; cases h
  | some t =>
    obtain ⟨a, b, w'⟩ := t
    rw [h1] at h
    injection h with h
    injection h with h2 h
    injection h with h3 h4
    rw [hz, ← h2, ← h3, ← h4]
    exact ⟨a, rfl, rfl⟩

theorem Log10Hist.ok {c : Num.Ln2Cache × Num.Ln2Cache} (h : Log10Hist c) : Ln2Ok c.1 ∧ Ln10Ok c.2 := by
  induction h with
  | new h1 h2 => exact ⟨(Ln2Hist.new h1).ok, (Ln10Hist.new h2).ok⟩
  | ln10 h hp hc ih =>
    obtain ⟨r, c', h1, h2, -⟩ := constLn10_spec hp _ ih.2
    rw [h1] at hc
    injection hc with hc
    injection hc with _ hc
    rw [← hc]; exact ⟨ih.1, h2⟩
  | ln h hp hx hc hw ih => exact ⟨wrapLogC_cache hx ih.1 (fun y r' hy hz h => ln_cache hy hz hp ih.1 h hw) hc, ih.2⟩
  | log10 h hp hd hc hw ih =>
    obtain ⟨r', h1, -⟩ := log10C_num (nz_of_ne hd.wf hd.pos.ne') hc
    exact (log10_spec hd.wf (pos_real hd.pos) (ne_one_real hd.ne1) hp _ hd.clear ih.1 ih.2 h1 hw).1

/-- The arguments whose exponent is not large compared with the precision. -/
theorem C71_clear {x : Num} (hx : x.WF) (h0 : 0 < (x.toK : ℚ)) (h1 : (x.toK : ℚ) ≠ 1) {p : Nat} (hl : 64 * x.m.m.length ≤ 2 ^ 16)
    (he : 64 * x.m.m.length + |x.e| ≤ ((max (precBits p) (64 * x.m.m.length) : ℕ) : ℤ) + 73) : Log10Dom x p :=
  ⟨hx, h0, h1, tenClear_of hx h0 h1 hl he⟩

/-- NaN and the infinities. -/
theorem C71_special (p : Nat) (rm : RM) (f : Nat) (c : Num.Ln2Cache × Num.Ln2Cache) :
    (∀ e, BF.log10C (.nan e) p rm f c = some (.nan e, c, 0)) ∧ BF.log10C (.inf .pos) p rm f c = some (.inf .pos, c, 0) ∧
      BF.log10C (.inf .neg) p rm f c = some (.nan none, c, 0) :=
  ⟨fun _ => rfl, rfl, rfl⟩

/-- The logarithm of zero is `-Inf`. -/
theorem C71_zero {x : Num} (hx : x.WF) (h0 : (x.toK : ℚ) = 0) (p : Nat) (rm : RM) (f : Nat) (c : Num.Ln2Cache × Num.Ln2Cache) :
    BF.log10C (.num x) p rm f c = some (.inf .neg, c, 0) := by
  unfold BF.log10C
  dsimp only
  rw [hx.toK_eq_zero.1 h0]
  rfl

/-- The logarithm of a negative number is NaN, with the reason. -/
theorem C71_negative {x : Num} (hx : x.WF) (h0 : (x.toK : ℚ) < 0) (p : Nat) (rm : RM) (f : Nat) (c : Num.Ln2Cache × Num.Ln2Cache) :
    ∃ w, BF.log10C (.num x) p rm (f + 1) c = some (.nan (some .invalidArgument), c, w) := by
  have hz := nz_of_ne hx h0.ne
  obtain ⟨w, hw⟩ := log10_negative (toK_sign_neg h0) p rm f c
  refine ⟨w, ?_⟩
  unfold BF.log10C
  dsimp only
  rw [hz, if_neg Bool.false_ne_true, hw]
  rfl

/-- The logarithm of one is a positive zero that is marked exact. -/
theorem C71_one {x : Num} (hx : x.WF) (h1 : (x.toK : ℚ) = 1) {p : Nat} (hp : ValidP p) (rm : RM) (f : Nat)
    {c : Num.Ln2Cache × Num.Ln2Cache} (hc : Log10Hist c) (hw : max (precBits p) (64 * x.m.m.length) + 64 ≤ 2 ^ 15) :
    ∃ v c' w, BF.log10C (.num x) p rm (f + 1) c = some (.num v, c', w) ∧ v.WF ∧ 64 * v.m.m.length = precBits p ∧ (v.toK : ℚ) = 0 ∧
      v.s = .pos ∧ v.inexact = false := by
  have hz : x.isZero = false := nz_of_ne hx (by rw [h1]; norm_num)
  have hR : (x.toK : ℝ) = 1 := by rw [← toK_ratCast x, h1]; push_cast; rfl
  obtain ⟨v, d, w, v1, -, v2⟩ := log10_one hx hR hp rm f hc.ok.2 hw
  refine ⟨v, (c.1, d), w, ?_, v2⟩
  unfold BF.log10C
  dsimp only
  rw [hz, if_neg Bool.false_ne_true, v1]
  rfl

/-- What is returned for the other arguments. -/
theorem C71_outcome_partial {x : Num} {p : Nat} (hd : Log10Dom x p) (hp : ValidP p) (rm : RM) {f : Nat}
    {c c' : Num.Ln2Cache × Num.Ln2Cache} (hc : Log10Hist c) {r : BF} {w : Nat}
    (h : BF.log10C (.num x) p rm f c = some (r, c', w)) (hw : w ≤ 2 ^ 15) :
    ∃ v, r = .num v ∧ FunRounded rm (precBits p) (Real.logb 10 x.toK) v := by
  obtain ⟨r', h2, h3⟩ := log10C_num (nz_of_ne hd.wf hd.pos.ne') h
  obtain ⟨-, v, v1, v2⟩ := log10_spec hd.wf (pos_real hd.pos) (ne_one_real hd.ne1) hp rm hd.clear hc.ok.1 hc.ok.2 h2 hw
  refine ⟨v, ?_, v2⟩
  rw [h3, v1]; rfl

/-- In the directed modes it is `log10 x` correctly rounded. -/
theorem C71_directed_partial {x : Num} {p : Nat} (hd : Log10Dom x p) (hp : ValidP p) {rm : RM}
    (hr : rm = .up ∨ rm = .down ∨ rm = .toZero ∨ rm = .fromZero) {f : Nat}
    {c c' : Num.Ln2Cache × Num.Ln2Cache} (hc : Log10Hist c) {r : BF} {w : Nat}
    (h : BF.log10C (.num x) p rm f c = some (r, c', w)) (hw : w ≤ 2 ^ 15) :
    ∃ v, r = .num v ∧ RoundsFmt rm (precBits p) (Real.logb 10 x.toK) v.toK ∧ 64 * v.m.m.length = precBits p ∧
      v.inexact = true := by
  obtain ⟨v, v1, v2⟩ := C71_outcome_partial hd hp rm hc h hw
  exact ⟨v, v1, v2.directed hr, v2.prec, v2.inexact⟩

theorem log10C_len {x : Num} (hz : x.isZero = false) {p : Nat} {rm : RM} {f : Nat} {c c' : Num.Ln2Cache × Num.Ln2Cache} {r : BF} {w : Nat}
    (h : BF.log10C (.num x) p rm f c = some (r, c', w)) (hw : w ≤ 2 ^ 15) : 64 * x.m.m.length ≤ 2 ^ 16 := by
  obtain ⟨r', h2, -⟩ := log10C_num hz h
  have hmb : ∀ x : Num, x.m.maxBitLen = 64 * x.m.m.length := by intro x; unfold Mantissa.maxBitLen; omega
  unfold Num.log10 at h2
  dsimp only at h2
  rw [hmb] at h2
  split at h2
  · cases h2
  · rename_i hl
    have := roundLoop_ge hl
    injection h2 with h2
    injection h2 with _ h2
    injection h2 with _ h2
    omega

/-- In the directed modes the result depends neither on what the caches were used for before nor on the precision of the
argument. -/
theorem C71_history_partial {x y : Num} {p : Nat} (hx : Log10Dom x p) (hy : Log10Dom y p) (hxy : (x.toK : ℚ) = y.toK)
    (hp : ValidP p) {rm : RM} (hd : rm = .up ∨ rm = .down ∨ rm = .toZero ∨ rm = .fromZero) {f₁ f₂ : Nat}
    {c₁ c₂ c₁' c₂' : Num.Ln2Cache × Num.Ln2Cache} (hc₁ : Log10Hist c₁) (hc₂ : Log10Hist c₂) {r₁ r₂ : BF} {w₁ w₂ : Nat}
    (h₁ : BF.log10C (.num x) p rm f₁ c₁ = some (r₁, c₁', w₁)) (h₂ : BF.log10C (.num y) p rm f₂ c₂ = some (r₂, c₂', w₂))
    (hw₁ : w₁ ≤ 2 ^ 15) (hw₂ : w₂ ≤ 2 ^ 15) : r₁ = r₂ := by
  have hR : (x.toK : ℝ) = y.toK := by rw [← toK_ratCast x, ← toK_ratCast y, hxy]
  obtain ⟨v, rfl, v2⟩ := C71_outcome_partial hx hp rm hc₁ h₁ hw₁
  obtain ⟨v', rfl, v2'⟩ := C71_outcome_partial hy hp rm hc₂ h₂ hw₂
  have hP : 64 ≤ precBits p := by have := hp.pos; unfold precBits; omega
  obtain ⟨q, q1, -, q2, -⟩ := log10_mid hx.wf (pos_real hx.pos) (ne_one_real hx.ne1)
    (log10C_len (nz_of_ne hx.wf hx.pos.ne') h₁ hw₁)
  rw [← hR] at v2'
  rw [v2.unique hd hP (le_trans (zpow_le_zpow_right₀ (by norm_num) (by omega)) q2) v2']

/-- In the directed modes the function grows with the argument. -/
theorem C71_mono_partial {x y : Num} {p : Nat} (hx : Log10Dom x p) (hy : Log10Dom y p) (hxy : (x.toK : ℚ) ≤ y.toK)
    (hp : ValidP p) {rm : RM} (hd : rm = .up ∨ rm = .down ∨ rm = .toZero ∨ rm = .fromZero) {f₁ f₂ : Nat}
    {c₁ c₂ c₁' c₂' : Num.Ln2Cache × Num.Ln2Cache} (hc₁ : Log10Hist c₁) (hc₂ : Log10Hist c₂) {v₁ v₂ : Num} {w₁ w₂ : Nat}
    (h₁ : BF.log10C (.num x) p rm f₁ c₁ = some (.num v₁, c₁', w₁)) (h₂ : BF.log10C (.num y) p rm f₂ c₂ = some (.num v₂, c₂', w₂))
    (hw₁ : w₁ ≤ 2 ^ 15) (hw₂ : w₂ ≤ 2 ^ 15) : (v₁.toK : ℚ) ≤ v₂.toK := by
  have hxyR : (x.toK : ℝ) ≤ y.toK := by
    rw [← toK_ratCast x, ← toK_ratCast y]; exact_mod_cast hxy
  obtain ⟨v, e1, v2, -⟩ := C71_directed_partial hx hp hd hc₁ h₁ hw₁
  obtain ⟨v', e2, v2', -⟩ := C71_directed_partial hy hp hd hc₂ h₂ hw₂
  injection e1 with e1
  injection e2 with e2
  rw [← e1] at v2
  rw [← e2] at v2'
  have hP : 0 < precBits p := by have := hp.pos; unfold precBits; omega
  have := v2.mono hP v2' (Real.logb_le_logb_of_le (by norm_num) (pos_real hx.pos) hxyR)
  rw [← toK_ratCast v₁, ← toK_ratCast v₂] at this
  exact_mod_cast this

/-- In the directed modes a number returned for a power of ten is the exponent itself. -/
theorem C71_power_partial {x : Num} {p : Nat} (hx : Log10Dom x p) {k : ℤ} (hk : (x.toK : ℚ) = 10 ^ k)
    (hp : ValidP p) {rm : RM} (hd : rm = .up ∨ rm = .down ∨ rm = .toZero ∨ rm = .fromZero) {f : Nat}
    {c c' : Num.Ln2Cache × Num.Ln2Cache} (hc : Log10Hist c) {r : BF} {w : Nat}
    (h : BF.log10C (.num x) p rm f c = some (r, c', w)) (hw : w ≤ 2 ^ 15) : ∃ v, r = .num v ∧ (v.toK : ℚ) = k := by
  obtain ⟨v, v1, v2⟩ := C71_outcome_partial hx hp rm hc h hw
  refine ⟨v, v1, ?_⟩
  have hkR : (x.toK : ℝ) = 10 ^ k := by rw [← toK_ratCast x, hk]; push_cast; rfl
  have hlb : Real.logb 10 x.toK = k := by
    rw [hkR, Real.logb, Real.log_zpow, mul_div_assoc, div_self (by have := log_ten_small.1; intro h; rw [h] at this; norm_num at this), mul_one]
  have h3 := v2.directed hd
  have hmid := log10_mid hx.wf (pos_real hx.pos) (ne_one_real hx.ne1) (log10C_len (nz_of_ne hx.wf hx.pos.ne') h hw)
  have hl := (log10_bounds hx.wf (pos_real hx.pos) (ne_one_real hx.ne1) (log10C_len (nz_of_ne hx.wf hx.pos.ne') h hw)).2
  rw [show Real.log (x.toK : ℝ) / Real.log 10 = k from hlb] at hl
  rw [hlb] at h3 hmid
  obtain ⟨q, q1, -, q2, -⟩ := hmid
  have h4 := h3.toPrec (le_trans (zpow_le_zpow_right₀ (by norm_num) (by omega)) q2)
  have hP : 64 ≤ precBits p := by have := hp.pos; unfold precBits; omega
  have hkb : |k| < 2 ^ precBits p := by
    have h5 : |k| ≤ 2 ^ 40 := by exact_mod_cast hl
    have h6 : (2 : ℤ) ^ 64 ≤ 2 ^ precBits p := pow_le_pow_right₀ (by norm_num) hP
    omega
  have h7 := h4.exact_int hkb
  rw [← toK_ratCast v] at h7
  exact_mod_cast h7

/-- The first round returns a number in mode `None`, and in the directed modes unless the digits are exceptional. -/
theorem C71_number_partial {x : Num} {p : Nat} (hd : Log10Dom x p) (hp : ValidP p) {rm : RM} {c : Num.Ln2Cache × Num.Ln2Cache}
    (hc : Log10Hist c) (hw : max (precBits p) (64 * x.m.m.length) + 64 ≤ 2 ^ 15)
    (hs : rm = .none ∨ (rm = .up ∨ rm = .down ∨ rm = .toZero ∨ rm = .fromZero) ∧
      ¬ NearGrid (precBits p) 63 |Real.logb 10 x.toK|) (f : Nat) :
    ∃ v c' w, BF.log10C (.num x) p rm (f + 1) c = some (.num v, c', w) ∧ w ≤ 2 ^ 15 := by
  have hz := nz_of_ne hd.wf hd.pos.ne'
  obtain ⟨r, c', w, h2, h3⟩ := log10_number (f := f) hd.wf (pos_real hd.pos) (ne_one_real hd.ne1) hp hd.clear hc.ok.1 hc.ok.2 hw (by
    rcases hs with h | ⟨h, h'⟩
    · exact Or.inl h
    · exact Or.inr ⟨by rcases h with rfl | rfl | rfl | rfl <;> rfl, h'⟩)
  obtain ⟨-, v, rfl, -⟩ := log10_spec hd.wf (pos_real hd.pos) (ne_one_real hd.ne1) hp rm hd.clear hc.ok.1 hc.ok.2 h2 h3
  refine ⟨v, c', w, ?_, h3⟩
  unfold BF.log10C
  dsimp only
  rw [hz, if_neg Bool.false_ne_true, h2]
  rfl

/-! ## Large precisions -/

theorem ln10ForPrec_over {q : Nat} (hq : ValidP q) (h39 : 39000000 ≤ q) {c : Num.Ln2Cache} (hc : Ln10Ok c) :
    ∃ e c', ln10ForPrec (roundP q) .none c = some (.error e, c') := by
  obtain ⟨r, c', h1, -, -, -, h5⟩ := constLn10_spec hq .none hc
  rw [h5 (by unfold precBits; omega)] at h1
  unfold constLn10 at h1
  cases h : ln10ForPrec (roundP q) .none c with
  | none => rw [h] at h1; cases h1
  | some t =>
    obtain ⟨a, b⟩ := t
    cases a with
    | ok v => rw [h] at h1; cases h1
    | error e => exact ⟨e, b, rfl⟩

/-- From 39 million bits on no logarithm is a number. -/
theorem C71_precision {x : Num} {p : Nat} (hp : 39000000 ≤ p)
    (hw : max (precBits p) (64 * x.m.m.length) + 256 < PMAX) (rm : RM) (f : Nat) {c : Num.Ln2Cache × Num.Ln2Cache}
    (hc : Log10Hist c) {r : BF} {c' : Num.Ln2Cache × Num.Ln2Cache} {w : Nat}
    (h : BF.log10C (.num x) p rm f c = some (r, c', w)) (v : Num) : r ≠ .num v := by
  have hPM : PMAX = 2 ^ 62 - 2 ^ 31 - 1 := rfl
  have hmb : ∀ x : Num, x.m.maxBitLen = 64 * x.m.m.length := by intro x; unfold Mantissa.maxBitLen; omega
  have hpv : ValidP p := ⟨by omega, by unfold precBits at *; omega⟩
  by_cases hz : x.isZero = true
  · unfold BF.log10C at h
    dsimp only at h
    rw [if_pos hz] at h
    injection h with h
    injection h with h
    rw [← h]
    exact fun h => nomatch h
  · rw [Bool.not_eq_true] at hz
    obtain ⟨r', h1, h2⟩ := log10C_num hz h
    have key : ∃ e, r' = .error e := by
      unfold Num.log10 at h1
      rw [hpv.roundP] at h1
      dsimp only at h1
      rw [hmb] at h1
      cases f with
      | zero => simp [roundLoop] at h1
      | succ f =>
        rw [roundLoop] at h1
        have hst : ∀ s, (∃ er s', Num.log10Step (precBits p) rm (f + 1) (max (precBits p) (64 * x.m.m.length) + 64) (s, c) =
            some (.ret (.error er), s')) ∨ Num.log10Step (precBits p) rm (f + 1) (max (precBits p) (64 * x.m.m.length) + 64) (s, c) = none := by
          intro s
          obtain ⟨e, d, he⟩ := ln10ForPrec_over (q := max (precBits p) (64 * x.m.m.length) + 64 + 5)
            ⟨by omega, by unfold precBits at *; omega⟩ (by unfold precBits; omega) hc.ok.2
          unfold Num.log10Step
          dsimp only
          split
          · exact Or.inl ⟨_, _, rfl⟩
          · split
            · exact Or.inr rfl
            · exact Or.inl ⟨_, _, rfl⟩
            · rw [he]
              exact Or.inl ⟨_, _, rfl⟩
        rcases hst { x with inexact := false } with ⟨er, s', hs⟩ | hs
        · rw [hs] at h1
          injection h1 with h1
          injection h1 with h1
          exact ⟨er, h1.symm⟩
        · rw [hs] at h1
          cases h1
    obtain ⟨e, rfl⟩ := key
    rw [h2, hz]
    cases e with
    | exponentOverflow s => cases s <;> exact fun h => nomatch h
    | _ => exact fun h => nomatch h

theorem C71_new : ∃ c, Log10Hist c := by
  obtain ⟨a, h1, -⟩ := C59_new
  obtain ⟨b, h2, -⟩ := C60_new
  exact ⟨_, .new h1 h2⟩

/-- The logarithm of 10 is not a number at every precision, whatever the fuel. -/
theorem C71_precision_refuted : ¬ ∀ (p : Nat) (rm : RM) (c : Num.Ln2Cache × Num.Ln2Cache), ValidP p → Log10Hist c →
    ∃ f v c' w, BF.log10C (.num Num.TEN) p rm f c = some (.num v, c', w) := by
  intro h
  obtain ⟨c, hc⟩ := C71_new
  have hp : ValidP 39000000 := ⟨by norm_num, by decide⟩
  obtain ⟨f, v, c', w, h1⟩ := h _ .up c hp hc
  exact C71_precision (le_refl _) (by decide +kernel) .up f hc h1 v rfl

/-! ## The inexact mark -/

/-- The number one, marked inexact. -/
def exOneIx : Num := { Num.ONE with inexact := true }

theorem exOneIx_WF : exOneIx.WF := Num.WF_of_check (by decide +kernel)

/-- The mark of the argument is not carried over when the argument is one. -/
theorem C71_one_flag_refuted : ∃ c v c' w, Log10Hist c ∧ exOneIx.inexact = true ∧
    BF.log10C (.num exOneIx) 64 .up 1 c = some (.num v, c', w) ∧ v.inexact = false := by
  obtain ⟨c, hc⟩ := C71_new
  obtain ⟨v, c', w, h1, -, -, -, -, h2⟩ := C71_one exOneIx_WF (by show (Num.ONE.toK : ℚ) = 1; exact ONE_toK)
    (p := 64) ⟨by norm_num, by decide⟩ .up 0 hc (by decide)
  exact ⟨c, v, c', w, hc, rfl, h1, h2⟩

/-- The number 10 with 64 bits. -/
def exTen64 : Num := ⟨4, .pos, ⟨[11529215046068469760], 64⟩, false⟩

theorem exTen64_WF : exTen64.WF := Num.WF_of_check (by decide +kernel)

theorem exTen64_toK : (exTen64.toK : ℚ) = 10 := by
  rw [Num.toK_eq]
  norm_num [exTen64, Sign.toK, Num.abs_val, AF.val, B]

theorem ten_dom {p : Nat} : Log10Dom exTen64 p := by
  refine C71_clear exTen64_WF (by rw [exTen64_toK]; norm_num) (by rw [exTen64_toK]; norm_num) (by decide) ?_
  have h1 : exTen64.e = 4 := rfl
  have h2 : |(4 : ℤ)| = 4 := rfl
  rw [h1, h2]
  omega

/-- `log10 10 = 1` is never marked exact: in every mode a number returned for 10 is marked inexact, and in mode `None` a number is
returned. -/
theorem C71_flag_refuted : Real.logb 10 exTen64.toK = 1 ∧ exTen64.inexact = false ∧ ValidP 64 ∧
    (∀ c rm f v c' w, Log10Hist c → BF.log10C (.num exTen64) 64 rm f c = some (.num v, c', w) → w ≤ 2 ^ 15 → v.inexact = true) ∧
    ∃ c v c' w, Log10Hist c ∧ BF.log10C (.num exTen64) 64 .none 1 c = some (.num v, c', w) ∧ w ≤ 2 ^ 15 := by
  have hp : ValidP 64 := ⟨by norm_num, by decide⟩
  refine ⟨?_, rfl, hp, fun c rm f v c' w hc h hw => ?_, ?_⟩
  · have : (exTen64.toK : ℝ) = 10 := by rw [← toK_ratCast, exTen64_toK]; norm_num
    rw [this, Real.logb_self_eq_one (by norm_num)]
  · obtain ⟨v', e1, e2⟩ := C71_outcome_partial ten_dom hp rm hc h hw
    injection e1 with e1
    rw [e1]
    exact e2.inexact
  · obtain ⟨c, hc⟩ := C71_new
    obtain ⟨v, c', w, h1, h2⟩ := C71_number_partial ten_dom hp (rm := .none) hc (by decide) (Or.inl rfl) 0
    exact ⟨c, v, c', w, hc, h1, h2⟩

/-! ## Concrete cases -/

theorem three_dom {p : Nat} : Log10Dom exThree p := by
  refine C71_clear exThree_WF (by rw [exThree_toK]; norm_num) (by rw [exThree_toK]; norm_num) (by decide) ?_
  have h1 : exThree.e = 2 := rfl
  have h2 : |(2 : ℤ)| = 2 := rfl
  rw [h1, h2]
  omega

/-- `log10 3` with 64 bits from new caches: the hypotheses of `C71_outcome_partial` hold. -/
example : ∃ c v c' w, Log10Hist c ∧ Log10Dom exThree 64 ∧ ValidP 64 ∧
    BF.log10C (.num exThree) 64 .none 1 c = some (.num v, c', w) ∧ w ≤ 2 ^ 15 ∧ FunRounded .none 64 (Real.logb 10 3) v := by
  have hp : ValidP 64 := ⟨by norm_num, by decide⟩
  obtain ⟨c, hc⟩ := C71_new
  obtain ⟨v, c', w, h1, h2⟩ := C71_number_partial three_dom hp (rm := .none) hc (by decide) (Or.inl rfl) 0
  obtain ⟨v', e1, e2⟩ := C71_outcome_partial three_dom hp .none hc h1 h2
  injection e1 with e1
  have h3 : (exThree.toK : ℝ) = 3 := exThree_toK
  rw [← e1, h3] at e2
  exact ⟨c, v, c', w, hc, three_dom, hp, h1, h2, e2⟩

/-- The precision bound of `C71_number_partial` is met by 3 at 32000 bits. -/
example : max (precBits 32000) (64 * exThree.m.m.length) + 64 ≤ 2 ^ 15 := by decide

/-- A large exponent at a large precision: `2^2000`, with 64 bits, at 2000 bits. -/
example : Log10Dom ⟨2001, .pos, ⟨[MSB], 64⟩, false⟩ 2000 := by
  have hv : ((⟨2001, .pos, ⟨[MSB], 64⟩, false⟩ : Num).toK : ℚ) = 2 ^ (2000 : ℤ) := by
    unfold Num.toK
    simp only [val, Sign.toK, List.length_cons, List.length_nil, MSB]
    rw [show (2001 : ℤ) - ((64 * (0 + 1) : ℕ) : ℤ) = 1937 by norm_num, show (2000 : ℤ) = 63 + 1937 by norm_num,
      zpow_add₀ (by norm_num)]
    norm_num
  refine C71_clear (Num.WF_of_check (by decide +kernel)) (by rw [hv]; positivity) (by
    rw [hv]
    exact (one_lt_zpow₀ (by norm_num) (by norm_num)).ne') (by decide) (by decide +kernel)

end AF
