import Verif.Props.C53
import Verif.Props.C70
import Verif.Lemmas.LogBaseOne
/-!
# C72: the logarithm to any base

The full claim: for all numbers `x > 0` and `n > 0` other than one, every precision, every rounding mode and whatever was asked of
the caches before, `log` returns `ln x / ln n` correctly rounded, marked inexact exactly if it is not `ln x / ln n`.

Proved: outside of the positive numbers it is the function of C53, and the caches do not change (`C72_early`). The logarithm of
one is a zero (`C72_one`). For the other arguments, not nearer than six binades to the ends of the range, a result obtained with
a working precision up to `2^14` bits is a number: the rounded value of a number that agrees with `ln x / ln n` to 124 bits more
than the precision (`C72_outcome_partial`). It is the correctly rounded logarithm in the directed modes unless the 63 bits after
the first `P` are all equal (`C72_directed_partial`); then it does not depend on the history of the caches or on the precisions
of the arguments (`C72_history_partial`) and grows with `x` for a base over one (`C72_mono_partial`). The first round returns a
number in mode `None`, and in the directed modes with that exception (`C72_number_partial`).

Refuted: exact logarithms are marked inexact (`C72_flag_refuted`); to the base one the logarithm of every other number is `+Inf`,
also of numbers below one, where `ln x / ln n` is `-Inf` (`C72_base_one`, `C72_base_one_refuted`).

Missing: the exceptional digits, among them logarithms that are numbers of the format; correct rounding in the nearest modes;
working precisions over `2^14` bits; arguments in the six binades next to the ends of the range.
-/

namespace AF

/-- The arguments of the theorems below. -/
structure LogDom (x n : Num) : Prop where
  wfx : x.WF
  wfn : n.WF
  pos : 0 < (x.toK : ℚ)
  npos : 0 < (n.toK : ℚ)
  ne1 : (x.toK : ℚ) ≠ 1
  nne1 : (n.toK : ℚ) ≠ 1
  low : (2 : ℚ) ^ (-(EMAX - 6)) ≤ x.toK
  top : (x.toK : ℚ) ≤ 2 ^ (EMAX - 6)
  nlow : (2 : ℚ) ^ (-(EMAX - 6)) ≤ n.toK
  ntop : (n.toK : ℚ) ≤ 2 ^ (EMAX - 6)

/-- The caches of `e` and `ln 2` that exist after their creation and any number of calls of `exp`, `ln`, `pow` and `log` with the
bounds of the theorems on their working precisions. -/
inductive LogBHist : PowCaches → Prop
  | pow {c} : PowHist c → LogBHist c
  | exp {a b a' x p rm f r w} : LogBHist (a, b) → BF.expC x p rm f a = some (r, a', w) → w ≤ 2 ^ 61 → LogBHist (a', b)
  | ln {a b b' x p rm f r w} : LogBHist (a, b) → ValidP p → BF.WF x → BF.lnC x p rm f b = some (r, b', w) → w ≤ 2 ^ 17 → LogBHist (a, b')
  | powC {c c' x n p rm f r w} : LogBHist c → ValidP p → PowDom x n → BF.powC (.num x) (.num n) p rm f c = some (r, c', w) → w ≤ 2 ^ 15 →
      LogBHist c'
  | log {c c' x n p rm f r w} : LogBHist c → ValidP p → LogDom x n → BF.logC (.num x) (.num n) p rm f c = some (r, c', w) → w ≤ 2 ^ 14 →
      LogBHist c'

variable {x n : Num}

theorem rat_ne_one_real {y : Num} (h : (y.toK : ℚ) ≠ 1) : (y.toK : ℝ) ≠ 1 := by
  rw [← toK_ratCast y]; exact_mod_cast h

theorem rat_pos_real {y : Num} (h : 0 < (y.toK : ℚ)) : 0 < (y.toK : ℝ) := by
  rw [← toK_ratCast y]; exact_mod_cast h

theorem rat_log_range {y : Num} (h0 : 0 < (y.toK : ℚ)) (h1 : (2 : ℚ) ^ (-(EMAX - 6)) ≤ y.toK) (h2 : (y.toK : ℚ) ≤ 2 ^ (EMAX - 6)) :
    |Real.log y.toK| ≤ (EMAX - 6 : ℤ) * Real.log 2 := by
  apply log_range (rat_pos_real h0)
  · rw [← toK_ratCast y]
    have : (((2 : ℚ) ^ (-(EMAX - 6)) : ℚ) : ℝ) ≤ ((y.toK : ℚ) : ℝ) := Rat.cast_le.2 h1
    rwa [Rat.cast_zpow, Rat.cast_ofNat] at this
  · rw [← toK_ratCast y]
    have : ((y.toK : ℚ) : ℝ) ≤ (((2 : ℚ) ^ (EMAX - 6) : ℚ) : ℝ) := Rat.cast_le.2 h2
    rwa [Rat.cast_zpow, Rat.cast_ofNat] at this

theorem logC_num {p : Nat} {rm : RM} {f : Nat} {c c' : PowCaches} {r : BF} {w : Nat} (hz : n.isZero = false)
    (h : BF.logC (.num x) (.num n) p rm f c = some (r, c', w)) :
    ∃ r', x.logC n p rm f c = some (r', c', w) ∧ r = BF.resultToExt r' false true := by
  unfold BF.logC at h
  dsimp only at h
  rw [hz, if_neg Bool.false_ne_true] at h
  cases h1 : x.logC n p rm f c with
  | none => rw [h1] at h; cases h
  | some t =>
    obtain ⟨a, b, w'⟩ := t
    rw [h1] at h
    injection h with h
    injection h with h2 h
    injection h with h3 h4
    rw [← h2, ← h3, ← h4]
    exact ⟨a, rfl, rfl⟩

theorem LogDom.spec (hd : LogDom x n) {p : Nat} (hp : ValidP p) {rm : RM} {f : Nat} {c c' : PowCaches}
    (hc1 : CacheOk ERep EValOk c.1) (hc2 : Ln2Ok c.2) {r : BF} {w : Nat}
    (h : BF.logC (.num x) (.num n) p rm f c = some (r, c', w)) (hw : w ≤ 2 ^ 14) :
    (CacheOk ERep EValOk c'.1 ∧ Ln2Ok c'.2) ∧ ∃ r', r = BF.resultToExt r' false true ∧
      LogOut rm (precBits p) (Real.logb n.toK x.toK) r' := by
  obtain ⟨r', h1, h2⟩ := logC_num (isZero_false hd.wfn hd.npos.ne') h
  obtain ⟨h3, h4⟩ := logC_spec hd.wfx hd.wfn hd.pos hd.npos (rat_ne_one_real hd.ne1) (rat_ne_one_real hd.nne1)
    (rat_log_range hd.pos hd.low hd.top) (rat_log_range hd.npos hd.nlow hd.ntop) hp rm hc1 hc2 h1 hw
  exact ⟨h3, r', h2, h4⟩

theorem LogBHist.ok {c : PowCaches} (h : LogBHist c) : CacheOk ERep EValOk c.1 ∧ Ln2Ok c.2 := by
  induction h with
  | pow h => exact h.ok
  | exp h hc hw ih => exact ⟨expC_cache hc hw ih.1, ih.2⟩
  | ln h hp hx hc hw ih => exact ⟨ih.1, wrapLogC_cache hx ih.2 (fun y r' hy hz h => ln_cache hy hz hp ih.2 h hw) hc⟩
  | powC h hp hd hc hw ih =>
    obtain ⟨r', h1, -, h3⟩ := powC_main hd hp hc hw
    exact (powRun_spec h3 hp _ ih.1 ih.2 h1 hw).1
  | log h hp hd hc hw ih => exact (hd.spec hp ih.1 ih.2 hc hw).1

/-- Where one of the arguments is not a positive number the caches do not matter, and the result is the one that C53 is about. -/
theorem C72_early (core : Num → Num → Nat → RM → Except Err Num) (hx : x.WF) (hn : n.WF)
    (h : (x.toK : ℚ) ≤ 0 ∨ (n.toK : ℚ) ≤ 0) (p : Nat) (rm : RM) (f : Nat) (c : PowCaches) :
    BF.logC (.num x) (.num n) p rm f c = some (BF.log core (.num x) (.num n) p rm, c, 0) ∧
    ∀ (y : BF) (s : Sign) (e : Option Err), BF.logC (.inf s) y p rm f c = some (BF.log core (.inf s) y p rm, c, 0) ∧
      BF.logC (.nan e) y p rm f c = some (.nan e, c, 0) ∧
      BF.logC (.num x) (.inf s) p rm f c = some (BF.log core (.num x) (.inf s) p rm, c, 0) ∧
      BF.logC (.num x) (.nan e) p rm f c = some (.nan e, c, 0) := by
  refine ⟨?_, fun y s e => ⟨by cases s <;> cases y <;> rfl, by cases y <;> rfl, rfl, rfl⟩⟩
  show (if n.isZero = true then _ else _) = some (if n.isZero = true then _ else _, c, 0)
  by_cases hz : n.isZero = true
  · rw [if_pos hz, if_pos hz]
  · rw [if_neg hz, if_neg hz]
    have hb : (x.isZero || x.isNegative || n.isZero || n.isNegative) = true := by
      rcases h with h | h
      · rcases lt_or_eq_of_le h with h | h
        · simp [Num.isNegative, sign_of_neg h]
        · rw [hx.toK_eq_zero.1 h]; simp
      · have h0 : (n.toK : ℚ) ≠ 0 := fun h0 => hz (hn.toK_eq_zero.1 h0)
        simp [Num.isNegative, sign_of_neg (lt_of_le_of_ne h h0)]
    unfold Num.logC Num.log
    dsimp only
    rw [if_pos hb, if_pos hb]

/-- The logarithm of one to another base is zero, `-0` for a base below one, and marked inexact if one of the arguments is. -/
theorem C72_one (hx : x.WF) (hn : n.WF) (h1 : (x.toK : ℚ) = 1) (hn0 : 0 < (n.toK : ℚ)) (hn1 : (n.toK : ℚ) ≠ 1) {p : Nat} (hp : ValidP p)
    (rm : RM) (f : Nat) {c : PowCaches} (hc : LogBHist c)
    (hw : max (precBits p) (max (64 * x.m.m.length) (64 * n.m.m.length)) + 64 ≤ 2 ^ 15) :
    ∃ v c' w, BF.logC (.num x) (.num n) p rm (f + 1) c = some (.num v, c', w) ∧ v.WF ∧ 64 * v.m.m.length = precBits p ∧
      (v.toK : ℚ) = 0 ∧ (1 < (n.toK : ℚ) → v.s = .pos) ∧ ((n.toK : ℚ) < 1 → v.s = .neg) ∧ v.inexact = (x.inexact || n.inexact) := by
  have h1R : (x.toK : ℝ) = 1 := by rw [← toK_ratCast x, h1]; norm_num
  obtain ⟨v, d, w, v1, -, v2, v3, v4, v5, v6, v7⟩ := logC_one hx hn h1R hn0 (rat_ne_one_real hn1) hp rm f hc.ok.2 hw
  refine ⟨v, (c.1, d), w, ?_, v2, v3, v4, fun h => v5 ?_, fun h => v6 ?_, v7⟩
  · show (if n.isZero = true then _ else _) = _
    rw [isZero_false hn hn0.ne', if_neg Bool.false_ne_true, v1]
    rfl
  · rw [← toK_ratCast n]; exact_mod_cast h
  · rw [← toK_ratCast n]; exact_mod_cast h

/-- To the base one the logarithm of every other positive number is `+Inf`. -/
theorem C72_base_one (hx : x.WF) (hn : n.WF) (h0 : 0 < (x.toK : ℚ)) (h1 : (x.toK : ℚ) ≠ 1) (hn1 : (n.toK : ℚ) = 1) {p : Nat}
    (hp : ValidP p) (rm : RM) (f : Nat) {c : PowCaches} (hc : LogBHist c)
    (hw : max (precBits p) (max (64 * x.m.m.length) (64 * n.m.m.length)) + 64 ≤ 2 ^ 15) :
    ∃ c' w, BF.logC (.num x) (.num n) p rm (f + 1) c = some (.inf .pos, c', w) := by
  have h1R : (n.toK : ℝ) = 1 := by rw [← toK_ratCast n, hn1]; norm_num
  obtain ⟨c', w, e⟩ := logC_base_one hx hn h0 (rat_ne_one_real h1) h1R hp rm f hc.ok.2 hw
  refine ⟨c', w, ?_⟩
  show (if n.isZero = true then _ else _) = _
  rw [isZero_false hn (by rw [hn1]; norm_num), if_neg Bool.false_ne_true, e]
  rfl

/-- What is returned for the other arguments. -/
theorem C72_outcome_partial (hd : LogDom x n) {p : Nat} (hp : ValidP p) (rm : RM) {f : Nat} {c c' : PowCaches} (hc : LogBHist c)
    {r : BF} {w : Nat} (h : BF.logC (.num x) (.num n) p rm f c = some (r, c', w)) (hw : w ≤ 2 ^ 14) :
    ∃ v t, r = .num v ∧ FunRounded rm (precBits p) t v ∧
      |t - Real.logb n.toK x.toK| ≤ |Real.logb n.toK x.toK| * 2 ^ (-((precBits p : ℕ) : ℤ) - 124) ∧
      (rm = .none ∨ (rm = .up ∨ rm = .down ∨ rm = .toZero ∨ rm = .fromZero) ∧ ¬ NearGrid (precBits p) 63 |Real.logb n.toK x.toK| →
        t = Real.logb n.toK x.toK) := by
  obtain ⟨-, r', h1, v, t, h2, h3, h4, h5⟩ := hd.spec hp hc.ok.1 hc.ok.2 h hw
  refine ⟨v, t, by rw [h1, h2]; rfl, h3, h4, fun h => h5 ?_⟩
  rcases h with h | ⟨h, h'⟩
  · exact Or.inl h
  · exact Or.inr ⟨by rcases h with rfl | rfl | rfl | rfl <;> rfl, h'⟩

/-- In the directed modes it is the logarithm correctly rounded, unless the digits are exceptional. -/
theorem C72_directed_partial (hd : LogDom x n) {p : Nat} (hp : ValidP p) {rm : RM}
    (hr : rm = .up ∨ rm = .down ∨ rm = .toZero ∨ rm = .fromZero) (hg : ¬ NearGrid (precBits p) 63 |Real.logb n.toK x.toK|)
    {f : Nat} {c c' : PowCaches} (hc : LogBHist c) {r : BF} {w : Nat}
    (h : BF.logC (.num x) (.num n) p rm f c = some (r, c', w)) (hw : w ≤ 2 ^ 14) :
    ∃ v, r = .num v ∧ RoundsFmt rm (precBits p) (Real.logb n.toK x.toK) v.toK ∧ 64 * v.m.m.length = precBits p ∧ v.inexact = true := by
  obtain ⟨v, t, v1, v2, -, v3⟩ := C72_outcome_partial hd hp rm hc h hw
  rw [v3 (Or.inr ⟨hr, hg⟩)] at v2
  exact ⟨v, v1, v2.directed hr, v2.prec, v2.inexact⟩

theorem logC_len (hz : n.isZero = false) (hb : (x.isZero || x.isNegative || n.isZero || n.isNegative) = false) {p : Nat} {rm : RM}
    {f : Nat} {c c' : PowCaches} {r : BF} {w : Nat} (h : BF.logC (.num x) (.num n) p rm f c = some (r, c', w)) :
    64 * x.m.m.length ≤ w ∧ 64 * n.m.m.length ≤ w := by
  have hmb : ∀ x : Num, x.m.maxBitLen = 64 * x.m.m.length := by intro x; unfold Mantissa.maxBitLen; omega
  obtain ⟨r', h1, -⟩ := logC_num hz h
  unfold Num.logC at h1
  dsimp only at h1
  rw [hb, if_neg Bool.false_ne_true, hmb, hmb] at h1
  have := logLoop_ge h1
  omega

theorem LogDom.low_abs (hd : LogDom x n) (hlx : 64 * x.m.m.length ≤ 2 ^ 16) (hln : 64 * n.m.m.length ≤ 2 ^ 16) :
    (2 : ℝ) ^ (EMIN - 1) ≤ |Real.logb n.toK x.toK| := by
  have hE : EMIN = -2 ^ 31 := rfl
  have bX := log_bounds hd.wfx (rat_pos_real hd.pos) (rat_ne_one_real hd.ne1) hlx
  have bN := log_bounds hd.wfn (rat_pos_real hd.npos) (rat_ne_one_real hd.nne1) hln
  obtain ⟨b1, -⟩ := logq_bounds (M := 2 ^ 16 + 1) (a := Real.log x.toK) (b := Real.log n.toK) (by exact_mod_cast bX) (by exact_mod_cast bN)
  exact le_trans (zpow_le_zpow_right₀ (by norm_num) (by omega)) b1

/-- Then the result depends neither on what the caches were used for before nor on the precisions of the arguments. -/
theorem C72_history_partial {x' n' : Num} (hd : LogDom x n) (hd' : LogDom x' n') (hxx : (x.toK : ℚ) = x'.toK) (hnn : (n.toK : ℚ) = n'.toK)
    {p : Nat} (hp : ValidP p) {rm : RM} (hr : rm = .up ∨ rm = .down ∨ rm = .toZero ∨ rm = .fromZero)
    (hg : ¬ NearGrid (precBits p) 63 |Real.logb n.toK x.toK|) {f₁ f₂ : Nat} {c₁ c₂ c₁' c₂' : PowCaches} (hc₁ : LogBHist c₁)
    (hc₂ : LogBHist c₂) {r₁ r₂ : BF} {w₁ w₂ : Nat} (h₁ : BF.logC (.num x) (.num n) p rm f₁ c₁ = some (r₁, c₁', w₁))
    (h₂ : BF.logC (.num x') (.num n') p rm f₂ c₂ = some (r₂, c₂', w₂)) (hw₁ : w₁ ≤ 2 ^ 14) (hw₂ : w₂ ≤ 2 ^ 14) : r₁ = r₂ := by
  have hX : (x.toK : ℝ) = x'.toK := by rw [← toK_ratCast x, ← toK_ratCast x', hxx]
  have hN : (n.toK : ℝ) = n'.toK := by rw [← toK_ratCast n, ← toK_ratCast n', hnn]
  obtain ⟨v, t, rfl, v2, -, v3⟩ := C72_outcome_partial hd hp rm hc₁ h₁ hw₁
  obtain ⟨v', t', rfl, v2', -, v3'⟩ := C72_outcome_partial hd' hp rm hc₂ h₂ hw₂
  rw [← hX, ← hN] at v3'
  rw [v3 (Or.inr ⟨hr, hg⟩)] at v2
  rw [v3' (Or.inr ⟨hr, hg⟩)] at v2'
  obtain ⟨l1, l2⟩ := logC_len (isZero_false hd.wfn hd.npos.ne') (log_flags hd.pos hd.npos hd.wfx hd.wfn) h₁
  have hP : 64 ≤ precBits p := by have := hp.pos; unfold precBits; omega
  rw [v2.unique hr hP (hd.low_abs (by omega) (by omega)) v2']

/-- Then it grows with the argument if the base is over one. -/
theorem C72_mono_partial {y : Num} (hx : LogDom x n) (hy : LogDom y n) (hn1 : 1 < (n.toK : ℚ)) (hxy : (x.toK : ℚ) ≤ y.toK)
    {p : Nat} (hp : ValidP p) {rm : RM} (hr : rm = .up ∨ rm = .down ∨ rm = .toZero ∨ rm = .fromZero)
    (hgx : ¬ NearGrid (precBits p) 63 |Real.logb n.toK x.toK|) (hgy : ¬ NearGrid (precBits p) 63 |Real.logb n.toK y.toK|)
    {f₁ f₂ : Nat} {c₁ c₂ c₁' c₂' : PowCaches} (hc₁ : LogBHist c₁) (hc₂ : LogBHist c₂) {v₁ v₂ : Num} {w₁ w₂ : Nat}
    (h₁ : BF.logC (.num x) (.num n) p rm f₁ c₁ = some (.num v₁, c₁', w₁)) (h₂ : BF.logC (.num y) (.num n) p rm f₂ c₂ = some (.num v₂, c₂', w₂))
    (hw₁ : w₁ ≤ 2 ^ 14) (hw₂ : w₂ ≤ 2 ^ 14) : (v₁.toK : ℚ) ≤ v₂.toK := by
  have hxyR : (x.toK : ℝ) ≤ y.toK := by
    rw [← toK_ratCast x, ← toK_ratCast y]; exact_mod_cast hxy
  have hn1R : 1 < (n.toK : ℝ) := by rw [← toK_ratCast n]; exact_mod_cast hn1
  obtain ⟨v, e1, v2, -⟩ := C72_directed_partial hx hp hr hgx hc₁ h₁ hw₁
  obtain ⟨v', e2, v2', -⟩ := C72_directed_partial hy hp hr hgy hc₂ h₂ hw₂
  injection e1 with e1
  injection e2 with e2
  rw [← e1] at v2
  rw [← e2] at v2'
  have hP : 0 < precBits p := by have := hp.pos; unfold precBits; omega
  have := v2.mono hP v2' (Real.logb_le_logb_of_le hn1R (rat_pos_real hx.pos) hxyR)
  rw [← toK_ratCast v₁, ← toK_ratCast v₂] at this
  exact_mod_cast this

/-- The first round returns a number in mode `None`, and in the directed modes unless the digits are exceptional. Here the
arguments may be anywhere in the range. -/
theorem C72_number_partial (hx : x.WF) (hn : n.WF) (h0 : 0 < (x.toK : ℚ)) (hn0 : 0 < (n.toK : ℚ)) (h1 : (x.toK : ℚ) ≠ 1)
    (hn1 : (n.toK : ℚ) ≠ 1) {p : Nat} (hp : ValidP p) {rm : RM} {c : PowCaches} (hc : LogBHist c)
    (hw : max (precBits p) (max (64 * x.m.m.length) (64 * n.m.m.length)) + 64 ≤ 2 ^ 15)
    (hs : rm = .none ∨ (rm = .up ∨ rm = .down ∨ rm = .toZero ∨ rm = .fromZero) ∧
      ¬ NearGrid (precBits p) 63 |Real.logb n.toK x.toK|) (f : Nat) :
    ∃ v c', BF.logC (.num x) (.num n) p rm (f + 1) c =
        some (.num v, c', max (precBits p) (max (64 * x.m.m.length) (64 * n.m.m.length)) + 64) ∧
      FunRounded rm (precBits p) (Real.logb n.toK x.toK) v := by
  obtain ⟨v, c', e1, e2, -⟩ := logC_number hx hn h0 hn0 (rat_ne_one_real h1) (rat_ne_one_real hn1) hp f hc.ok.1 hc.ok.2 hw (rm := rm) (by
    rcases hs with h | ⟨h, h'⟩
    · exact Or.inl h
    · exact Or.inr ⟨by rcases h with rfl | rfl | rfl | rfl <;> rfl, h'⟩)
  refine ⟨v, c', ?_, e2⟩
  show (if n.isZero = true then _ else _) = _
  rw [isZero_false hn hn0.ne', if_neg Bool.false_ne_true, e1]
  rfl

/-! ## Refutations and concrete cases -/

theorem C72_new : ∃ c, LogBHist c := by
  obtain ⟨a, h1, -⟩ := C58_new
  obtain ⟨b, h2, -⟩ := C59_new
  exact ⟨_, .pow (.new h1 h2)⟩

theorem three_logDom : LogDom exThree exThree := by
  have hE : EMAX = 2 ^ 31 - 1 := rfl
  have h3 : (exThree.toK : ℚ) = 3 := exThree_toK
  have hl : (2 : ℚ) ^ (-(EMAX - 6)) ≤ 3 := le_trans (zpow_le_one_of_nonpos₀ (by norm_num) (by omega)) (by norm_num)
  have ht : (3 : ℚ) ≤ 2 ^ (EMAX - 6) := le_trans (show (3 : ℚ) ≤ 2 ^ (2 : ℤ) by norm_num) (zpow_le_zpow_right₀ (by norm_num) (by omega))
  refine ⟨exThree_WF, exThree_WF, ?_, ?_, ?_, ?_, ?_, ?_, ?_, ?_⟩ <;> rw [h3]
  · norm_num
  · norm_num
  · norm_num
  · norm_num
  · exact hl
  · exact ht
  · exact hl
  · exact ht

/-- `log_3 3 = 1` is never marked exact: in every mode a number returned for it is marked inexact, and in mode `None` a number is
returned. -/
theorem C72_flag_refuted : Real.logb exThree.toK exThree.toK = 1 ∧ exThree.inexact = false ∧ ValidP 64 ∧
    (∀ c rm f v c' w, LogBHist c → BF.logC (.num exThree) (.num exThree) 64 rm f c = some (.num v, c', w) → w ≤ 2 ^ 14 → v.inexact = true) ∧
    ∃ c v c' w, LogBHist c ∧ BF.logC (.num exThree) (.num exThree) 64 .none 1 c = some (.num v, c', w) ∧ w ≤ 2 ^ 14 := by
  have hp : ValidP 64 := ⟨by norm_num, by decide⟩
  have hd := three_logDom
  refine ⟨?_, rfl, hp, fun c rm f v c' w hc h hw => ?_, ?_⟩
  · have : (exThree.toK : ℝ) = 3 := exThree_toK
    rw [this, Real.logb_self_eq_one (by norm_num)]
  · obtain ⟨v', t, e1, e2, -⟩ := C72_outcome_partial hd hp rm hc h hw
    injection e1 with e1
    rw [e1]
    exact e2.inexact
  · obtain ⟨c, hc⟩ := C72_new
    obtain ⟨v, c', h1, -⟩ := C72_number_partial hd.wfx hd.wfn hd.pos hd.npos hd.ne1 hd.nne1 hp (rm := .none) hc (by decide) (Or.inl rfl) 0
    exact ⟨c, v, c', _, hc, h1, by decide⟩

/-- The number one half with 64 bits. -/
def exHalf64 : Num := ⟨0, .pos, ⟨[MSB], 64⟩, false⟩

theorem exHalf64_toK : (exHalf64.toK : ℚ) = 1 / 2 := by
  unfold Num.toK
  simp only [exHalf64, val, Sign.toK, List.length_cons, List.length_nil, MSB]
  norm_num

/-- `ln (1/2) / ln 1`, a negative number divided by `+0`, is `-Inf`; the logarithm of `1/2` to the base 1 is `+Inf`. -/
theorem C72_base_one_refuted : (exHalf64.toK : ℚ) = 1 / 2 ∧ (Num.ONE.toK : ℚ) = 1 ∧ ∃ c, LogBHist c ∧
    (∀ rm f, ∃ c' w, BF.logC (.num exHalf64) (.num Num.ONE) 64 rm (f + 1) c = some (.inf .pos, c', w)) ∧
    ∃ a b d c' c'' w w', BF.lnC (.num exHalf64) 64 .none 1 c.2 = some (a, c', w) ∧
      BF.lnC (.num Num.ONE) 64 .none 1 c' = some (b, c'', w') ∧ BF.div a b 64 .none = d ∧ d = .inf .neg := by
  have hp : ValidP 64 := ⟨by norm_num, by decide⟩
  have hwf : exHalf64.WF := Num.WF_of_check (by decide +kernel)
  obtain ⟨c, hc⟩ := C72_new
  have h0 : 0 < (exHalf64.toK : ℚ) := by rw [exHalf64_toK]; norm_num
  have h1 : (exHalf64.toK : ℚ) ≠ 1 := by rw [exHalf64_toK]; norm_num
  refine ⟨exHalf64_toK, ONE_toK, c, hc, fun rm f => C72_base_one hwf ONE_WF h0 h1 ONE_toK hp rm f hc (by decide), ?_⟩
  have hR : (exHalf64.toK : ℝ) = 1 / 2 := by rw [← toK_ratCast, exHalf64_toK]; norm_num
  obtain ⟨v, c', w, l1, l2, l3, -⟩ := ln_none hwf (by rw [hR]; norm_num) (by rw [hR]; norm_num) hp (f := 0) hc.ok.2 (by decide)
  have o1 := ln_one ONE_WF (by rw [← toK_ratCast, ONE_toK]; norm_num) hp .none 1 c'
  have hneg : v.s = .neg := l3.neg (by rw [hR]; exact Real.log_neg (by norm_num) (by norm_num))
  have hvz : v.isZero = false := by
    have l4 := l3.none rfl
    rw [hR] at l4
    have hlog : Real.log (1 / 2 : ℝ) ≠ 0 := (Real.log_neg (by norm_num) (by norm_num)).ne
    have hlp := abs_pos.2 hlog
    rw [← Bool.not_eq_true, ← l3.wf.toK_eq_zero (K := ℝ)]
    intro h
    rw [h, zero_sub, abs_neg] at l4
    have h5 : (2 : ℝ) ^ (1 - ((precBits 64 : ℕ) : ℤ)) * (1 + 2 ^ (-60 : ℤ)) ≤ 1 / 2 := by
      rw [show ((precBits 64 : ℕ) : ℤ) = 64 by rfl]; norm_num
    have := le_trans l4 (mul_le_mul_of_nonneg_left h5 hlp.le)
    linarith
  refine ⟨.num v, .num (Num.zero (precBits 64) .pos Num.ONE.inexact), _, c', c', w, 0, ?_, ?_, rfl, ?_⟩
  · unfold BF.lnC BF.wrapLogC
    dsimp only
    rw [isZero_false hwf h0.ne', if_neg Bool.false_ne_true]
    rw [show exHalf64.ln 64 .none 1 c.2 = _ from l1]
    rfl
  · unfold BF.lnC BF.wrapLogC
    dsimp only
    rw [isZero_false ONE_WF (by rw [ONE_toK]; norm_num), if_neg Bool.false_ne_true, o1]
    rfl
  · show BF.resultToExt (v.div (Num.zero (precBits 64) .pos Num.ONE.inexact) 64 .none) v.isZero
      (v.s == (Num.zero (precBits 64) .pos Num.ONE.inexact).s) = _
    have : v.div (Num.zero (precBits 64) .pos Num.ONE.inexact) 64 .none = .error .divisionByZero := by
      unfold Num.div
      rw [show precBits 64 = 64 from rfl, zero_isZero (by omega) (by omega), if_pos rfl, hvz, if_neg Bool.false_ne_true]
    rw [this, hvz, hneg]
    rfl

/-- The logarithm of 3 to the base `1/2` with 64 bits from new caches. -/
example : ∃ c v c' w, LogBHist c ∧ ValidP 64 ∧ BF.logC (.num exThree) (.num exHalf64) 64 .none 1 c = some (.num v, c', w) ∧ w ≤ 2 ^ 14 ∧
    FunRounded .none 64 (Real.logb (1 / 2) 3) v := by
  have hp : ValidP 64 := ⟨by norm_num, by decide⟩
  have hwf : exHalf64.WF := Num.WF_of_check (by decide +kernel)
  obtain ⟨c, hc⟩ := C72_new
  obtain ⟨v, c', h1, h2⟩ := C72_number_partial (x := exThree) (n := exHalf64) exThree_WF hwf three_logDom.pos (by rw [exHalf64_toK]; norm_num)
    three_logDom.ne1 (by rw [exHalf64_toK]; norm_num) hp (rm := .none) hc (by decide) (Or.inl rfl) 0
  have h3 : (exThree.toK : ℝ) = 3 := exThree_toK
  have hR : (exHalf64.toK : ℝ) = 1 / 2 := by rw [← toK_ratCast, exHalf64_toK]; norm_num
  rw [h3, hR] at h2
  exact ⟨c, v, c', _, hc, hp, h1, by decide, h2⟩

end AF
