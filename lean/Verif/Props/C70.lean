import Verif.Lemmas.PowDom
import Verif.Props.C52
import Verif.Props.C67
/-!
# C70: the general power

The full claim: for all numbers `x` and `n`, every precision, every rounding mode and whatever was asked of the caches
before, `pow` returns `x^n` correctly rounded, marked inexact exactly if it is not `x^n`; `x^n` is defined for a positive `x`,
and for a negative `x` and an integer `n`.

Proved: where `pow` returns early it is the function of C45 and C52 and the caches do not change (`C70_early`). For the other
arguments, with `x^n` and its inverse at most `2^(EMAX-5)` and the exponent of `n` at least `EMIN + 2^16`, a result obtained
with a working precision up to `2^15` bits is a number with the sign of `x^n`, correctly rounded in the four directed modes
and within the bounds of `FunRounded` in the other modes (`C70_outcome_partial`, `C70_directed_partial`); in the directed
modes it does not depend on the history of the caches or on the precisions of the arguments (`C70_history_partial`) and
grows with a positive base for a positive exponent (`C70_mono_partial`). The first round of the loop returns such a number
in mode `None`, and in the directed modes unless the 63 bits of `|x^n|` after the first `P` are all equal
(`C70_number_partial`).

Refuted: a power that is a number of the format is never returned in the directed modes: every round rejects its
approximation, so the working precision grows without a result (`C70_exact_refuted`, for `2^10`, `3^3`, `4^(1/2)` and any
other such power: `C70_exact_partial`). In the nearest mode `2^10` is returned exactly but marked inexact
(`C70_flag_refuted`).

Missing: powers in the five binades next to the ends of the range, overflow and underflow, tiny exponents, correct rounding
in the nearest modes, working precisions over `2^15` bits.
-/

namespace AF

/-- `z` is `x` to the power `y`. -/
def IsPow (x y z : ℝ) : Prop := (0 < x ∧ z = x ^ y) ∨ (x < 0 ∧ ∃ k : ℤ, y = k ∧ z = x ^ k)

theorem IsPow.unique {x y z z' : ℝ} (h : IsPow x y z) (h' : IsPow x y z') : z = z' := by
  rcases h with ⟨h0, h1⟩ | ⟨h0, k, hk, h1⟩ <;> rcases h' with ⟨h0', h1'⟩ | ⟨h0', k', hk', h1'⟩
  · rw [h1, h1']
  · linarith
  · linarith
  · have : k = k' := by rw [hk] at hk'; exact_mod_cast hk'
    rw [h1, h1', this]

/-- The arguments of the theorems below: the power is defined, is not one of the cases apart, and is not near the ends of
the range. -/
structure PowDom (x n : Num) : Prop where
  wfx : x.WF
  wfn : n.WF
  ne0 : (x.toK : ℚ) ≠ 0
  ne1 : |(x.toK : ℚ)| ≠ 1
  nn0 : (n.toK : ℚ) ≠ 0
  nn1 : |(n.toK : ℚ)| ≠ 1
  int : (x.toK : ℚ) < 0 → ∃ k : ℤ, (n.toK : ℚ) = k
  low : EMIN + 2 ^ 16 ≤ n.e
  top : ∀ z, IsPow x.toK n.toK z → |z| ≤ 2 ^ (EMAX - 5) ∧ 2 ^ (-(EMAX - 5)) ≤ |z|

variable {x n : Num}

theorem PowDom.main (h : PowDom x n) : Num.powMain x n = true := by
  have a1 := isZero_false h.wfx h.ne0
  have a2 := isZero_false h.wfn h.nn0
  have a3 : (decide (x.e = 1) && decide (x.absCmp Num.ONE = 0)) = false := by
    rw [← Bool.not_eq_true, isOne_iff h.wfx h.ne0]; exact h.ne1
  have a4 : (decide (n.e = 1) && decide (n.absCmp Num.ONE = 0)) = false := by
    rw [← Bool.not_eq_true, isOne_iff h.wfn h.nn0]; exact h.nn1
  have a5 : (x.isNegative && !n.isInt) = false := by
    rcases lt_or_gt_of_ne h.ne0 with h0 | h0
    · rw [(isInt_spec n h.wfn).2 (h.int h0)]; simp
    · unfold Num.isNegative; rw [sign_of_pos h0]; rfl
  unfold Num.powMain
  rw [a1, a2, a3, a4, a5]
  rfl

/-- The value the code aims at is the power. -/
theorem PowDom.isPow (h : PowDom x n) :
    IsPow x.toK n.toK ((Num.powSign x n).toK * Real.exp (n.toK * Real.log (|(x.toK : ℝ)|))) := by
  rcases lt_or_gt_of_ne h.ne0 with h0 | h0
  · have h0' : (x.toK : ℝ) < 0 := by rw [← toK_ratCast x]; exact_mod_cast h0
    obtain ⟨k, hk⟩ := h.int h0
    have hk' : (n.toK : ℝ) = k := by rw [← toK_ratCast n, hk]; simp
    refine Or.inr ⟨h0', k, hk', ?_⟩
    have e1 : Real.exp (n.toK * Real.log (|(x.toK : ℝ)|)) = |(x.toK : ℝ)| ^ k := by
      rw [mul_comm, ← Real.rpow_def_of_pos (abs_pos.2 h0'.ne), hk', Real.rpow_intCast]
    rw [e1]
    unfold Num.powSign
    rw [(isInt_spec n h.wfn).2 ⟨k, hk⟩, Bool.true_and]
    have hodd := isOddInt_spec n h.wfn h.nn0
    rcases Int.even_or_odd k with hev | hod
    · have : n.isOddInt = false := by
        rw [← Bool.not_eq_true, hodd]
        rintro ⟨z, z1, z2⟩
        have : z = k := by rw [hk] at z2; exact_mod_cast z2.symm
        rw [this] at z1
        exact absurd z1 (Int.not_odd_iff_even.2 hev)
      rw [this, if_neg Bool.false_ne_true]
      simp only [Sign.toK, one_mul]
      exact hev.zpow_abs _
    · rw [hodd.2 ⟨k, hod, hk⟩, if_pos rfl, sign_of_neg h0, abs_of_neg h0', hod.neg_zpow]
      simp [Sign.toK]
  · have h0' : 0 < (x.toK : ℝ) := by rw [← toK_ratCast x]; exact_mod_cast h0
    refine Or.inl ⟨h0', ?_⟩
    have : Num.powSign x n = .pos := by
      unfold Num.powSign
      rw [sign_of_pos h0]
      split <;> rfl
    rw [this, abs_of_pos h0', Real.rpow_def_of_pos h0', mul_comm (n.toK : ℝ)]
    simp [Sign.toK]

theorem PowDom.abs (h : PowDom x n) {z : ℝ} (hz : IsPow x.toK n.toK z) :
    |z| = Real.exp (n.toK * Real.log (|(x.toK : ℝ)|)) ∧ z = (Num.powSign x n).toK * Real.exp (n.toK * Real.log (|(x.toK : ℝ)|)) := by
  have hu := hz.unique h.isPow
  refine ⟨?_, hu⟩
  rw [hu, abs_mul, abs_of_pos (Real.exp_pos _)]
  cases Num.powSign x n <;> simp [Sign.toK]

theorem PowDom.args (h : PowDom x n) (hl : 64 * x.m.m.length ≤ 2 ^ 15) : PowArgs x n := by
  refine PowArgs.of h.wfx h.wfn h.ne0 h.ne1 h.nn0 h.low hl ?_
  obtain ⟨t1, t2⟩ := h.top _ h.isPow
  rw [(h.abs h.isPow).1] at t1 t2
  rcases abs_choice ((n.toK : ℝ) * Real.log (|(x.toK : ℝ)|)) with hc | hc <;> rw [hc]
  · exact t1
  · rw [Real.exp_neg]
    have := inv_anti₀ (by positivity) t2
    rwa [zpow_neg, inv_inv] at this

theorem powC_num {p : Nat} {rm : RM} {f : Nat} {c c' : PowCaches} {r : BF} {w : Nat}
    (h : BF.powC (.num x) (.num n) p rm f c = some (r, c', w)) :
    ∃ r', x.powC n p rm f c = some (r', c', w) ∧ r = BF.resultToExt r' x.isZero (x.s == n.s) := by
  unfold BF.powC at h
  dsimp only at h
  split at h
  · cases h
  · rename_i he
    simp only [Option.some.injEq, Prod.mk.injEq] at h
    obtain ⟨rfl, rfl, rfl⟩ := h
    exact ⟨_, he, rfl⟩

theorem powRun_len {p : Nat} (hp : ValidP p) {rm : RM} {f : Nat} {c c' : PowCaches} {r : Except Err Num} {w : Nat}
    (h : x.powRun n p rm f c = some (r, c', w)) : 64 * x.m.m.length + 64 ≤ w := by
  have hmx : x.m.maxBitLen = 64 * x.m.m.length := by unfold Mantissa.maxBitLen; omega
  unfold Num.powRun at h
  rw [hp.roundP] at h
  dsimp only at h
  rw [hmx] at h
  have key : ∀ {a b c d e f g h i r s s' w}, roundLoop (σ := Num.PowState) a b c d e f (max g (max h i) + 64) s = some (r, s', w) → h + 64 ≤ w := by
    intro a b c d e f g h i r s s' w hl
    have := roundLoop_ge hl
    omega
  split at h
  · cases h
  all_goals
    rename_i hl
    injection h with h; injection h with h1 h; injection h with h2 h3
    have := key hl
    omega

/-- The caches that exist after their creation and any number of calls of `exp` with working precisions up to `2^61`, of `ln`
with working precisions up to `2^17`, and of `pow` with working precisions up to `2^15`. -/
inductive PowHist : PowCaches → Prop
  | new {a b} : eNew = .ok a → ln2New = .ok b → PowHist (a, b)
  | exp {a b a' x p rm f r w} : PowHist (a, b) → BF.expC x p rm f a = some (r, a', w) → w ≤ 2 ^ 61 → PowHist (a', b)
  | ln {a b b' x p rm f r w} : PowHist (a, b) → ValidP p → BF.WF x → BF.lnC x p rm f b = some (r, b', w) → w ≤ 2 ^ 17 → PowHist (a, b')
  | pow {c c' x n p rm f r w} : PowHist c → ValidP p → PowDom x n → BF.powC (.num x) (.num n) p rm f c = some (r, c', w) → w ≤ 2 ^ 15 →
      PowHist c'

theorem powC_main (hd : PowDom x n) {p : Nat} (hp : ValidP p) {rm : RM} {f : Nat} {c c' : PowCaches} {r : BF} {w : Nat}
    (h : BF.powC (.num x) (.num n) p rm f c = some (r, c', w)) (hw : w ≤ 2 ^ 15) :
    ∃ r', x.powRun n p rm f c = some (r', c', w) ∧ r = BF.resultToExt r' x.isZero (x.s == n.s) ∧ PowArgs x n := by
  obtain ⟨r', h1, h2⟩ := powC_num h
  unfold Num.powC at h1
  rw [if_pos hd.main] at h1
  have := powRun_len hp h1
  exact ⟨r', h1, h2, hd.args (by omega)⟩

theorem PowHist.ok {c : PowCaches} (h : PowHist c) : CacheOk ERep EValOk c.1 ∧ Ln2Ok c.2 := by
  induction h with
  | new h1 h2 => exact ⟨(EHist.new h1).ok, (Ln2Hist.new h2).ok⟩
  | exp h hc hw ih => exact ⟨expC_cache hc hw ih.1, ih.2⟩
  | ln h hp hx hc hw ih => exact ⟨ih.1, wrapLogC_cache hx ih.2 (fun y r' hy hz h => ln_cache hy hz hp ih.2 h hw) hc⟩
  | pow h hp hd hc hw ih =>
    obtain ⟨r', h1, -, h3⟩ := powC_main hd hp hc hw
    exact (powRun_spec h3 hp _ ih.1 ih.2 h1 hw).1

/-- Where `pow` returns early the caches do not matter, and the result is the one that C45 and C52 are about. -/
theorem C70_early (core : Num → Num → Nat → RM → Except Err Num) (hx : x.WF) (hn : n.WF)
    (h : (x.toK : ℚ) = 0 ∨ |(x.toK : ℚ)| = 1 ∨ (n.toK : ℚ) = 0 ∨ |(n.toK : ℚ)| = 1 ∨
      (x.toK : ℚ) < 0 ∧ ¬ ∃ k : ℤ, (n.toK : ℚ) = k) (p : Nat) (rm : RM) (f : Nat) (c : PowCaches) :
    BF.powC (.num x) (.num n) p rm f c = some (BF.pow core (.num x) (.num n) p rm, c, 0) ∧
    ∀ (y : BF) (s : Sign) (e : Option Err), BF.powC (.inf s) y p rm f c = some (BF.pow core (.inf s) y p rm, c, 0) ∧
      BF.powC (.nan e) y p rm f c = some (.nan e, c, 0) ∧
      BF.powC (.num x) (.inf s) p rm f c = some (BF.pow core (.num x) (.inf s) p rm, c, 0) ∧
      BF.powC (.num x) (.nan e) p rm f c = some (.nan e, c, 0) := by
  refine ⟨?_, fun y s e => ⟨by cases y <;> rfl, by cases y <;> rfl, rfl, rfl⟩⟩
  have hone : ∀ {y : Num}, y.WF → (y.toK : ℚ) ≠ 0 → |(y.toK : ℚ)| ≠ 1 →
      (decide (y.e = 1) && decide (y.absCmp Num.ONE = 0)) = false := by
    intro y hy h0 h1
    rw [← Bool.not_eq_true, isOne_iff hy h0]; exact h1
  have hm : Num.powMain x n = false := by
    unfold Num.powMain
    by_cases h1 : (n.toK : ℚ) = 0
    · rw [hn.toK_eq_zero.1 h1]; rfl
    by_cases h2 : (x.toK : ℚ) = 0
    · rw [hx.toK_eq_zero.1 h2]; simp
    rcases h with h | h | h | h | ⟨h, h'⟩
    · exact absurd h h2
    · rw [(isOne_iff hx h2).2 h]; simp
    · exact absurd h h1
    · rw [(isOne_iff hn h1).2 h]; simp
    · have hi : n.isInt = false := by rw [← Bool.not_eq_true]; exact fun hc => h' ((isInt_spec n hn).1 hc)
      have hneg : x.isNegative = true := by unfold Num.isNegative; rw [sign_of_neg h]; rfl
      rw [hi, hneg]; simp
  have hpow : ∀ c1 c2 : Num → Num → Nat → RM → Except Err Num, x.pow c1 n p rm = x.pow c2 n p rm := by
    intro c1 c2
    unfold Num.pow
    unfold Num.powMain at hm
    by_cases h1 : n.isZero = true
    · simp only [h1, if_true]
    by_cases h2 : x.isZero = true
    · simp only [h1, h2, if_true]
    by_cases h3 : (decide (x.e = 1) && decide (x.absCmp Num.ONE = 0)) = true
    · simp only [h1, h2, h3, if_true]
    by_cases h4 : (x.isNegative && !n.isInt) = true
    · simp only [h1, h2, h3, h4, if_true]
    by_cases h5 : (decide (n.e = 1) && decide (n.absCmp Num.ONE = 0)) = true
    · simp only [h1, h2, h3, h4, h5, if_true]
    · rw [Bool.not_eq_true] at h1 h2 h3 h4 h5
      rw [h1, h2, h3, h4, h5] at hm
      cases hm
  unfold BF.powC Num.powC
  dsimp only
  rw [hm, if_neg Bool.false_ne_true]
  dsimp only
  unfold BF.pow
  dsimp only
  rw [hpow (fun _ _ _ _ => .error .panic) core]

/-- What is returned for the other arguments. -/
theorem C70_outcome_partial (hd : PowDom x n) {p : Nat} (hp : ValidP p) (rm : RM) {f : Nat} {c c' : PowCaches} (hc : PowHist c)
    {r : BF} {w : Nat} (h : BF.powC (.num x) (.num n) p rm f c = some (r, c', w)) (hw : w ≤ 2 ^ 15) {z : ℝ}
    (hz : IsPow x.toK n.toK z) : ∃ v, r = .num v ∧ FunRounded rm (precBits p) z v := by
  obtain ⟨r', h1, h2, h3⟩ := powC_main hd hp h hw
  obtain ⟨-, v, rfl, v2⟩ := powRun_spec h3 hp rm hc.ok.1 hc.ok.2 h1 hw
  rw [← (hd.abs hz).2] at v2
  exact ⟨v, h2, v2⟩

/-- In the directed modes it is the power correctly rounded. -/
theorem C70_directed_partial (hd : PowDom x n) {p : Nat} (hp : ValidP p) {rm : RM}
    (hr : rm = .up ∨ rm = .down ∨ rm = .toZero ∨ rm = .fromZero) {f : Nat} {c c' : PowCaches} (hc : PowHist c)
    {r : BF} {w : Nat} (h : BF.powC (.num x) (.num n) p rm f c = some (r, c', w)) (hw : w ≤ 2 ^ 15) {z : ℝ}
    (hz : IsPow x.toK n.toK z) :
    ∃ v, r = .num v ∧ RoundsFmt rm (precBits p) z v.toK ∧ 64 * v.m.m.length = precBits p ∧ v.inexact = true ∧ v.toK ≠ z := by
  obtain ⟨v, v1, v2⟩ := C70_outcome_partial hd hp rm hc h hw hz
  refine ⟨v, v1, v2.directed hr, v2.prec, v2.inexact, ?_⟩
  rintro rfl
  obtain ⟨r', h1, h2, h3⟩ := powC_main hd hp h hw
  have := powRun_stuck h3 hp (rm := rm) (by rcases hr with rfl | rfl | rfl | rfl <;> rfl) (by
    rw [← (hd.abs hz).1]
    have := val_lt_two_pow v2.wf.wf
    rw [v2.prec] at this
    refine ⟨val v.m.m, v.e - ((64 * v.m.m.length : ℕ) : ℤ), ?_, ?_⟩
    · rw [abs_of_nonneg (by positivity)]; exact_mod_cast this
    · rw [Num.abs_val]; push_cast; rfl) hc.ok.1 hc.ok.2 h1
  omega

/-- In the directed modes the result depends neither on what the caches were used for before nor on the precisions of the
arguments. -/
theorem C70_history_partial {x' n' : Num} (hd : PowDom x n) (hd' : PowDom x' n') (hx : (x.toK : ℚ) = x'.toK)
    (hn : (n.toK : ℚ) = n'.toK) {p : Nat} (hp : ValidP p) {rm : RM}
    (hr : rm = .up ∨ rm = .down ∨ rm = .toZero ∨ rm = .fromZero) {f₁ f₂ : Nat} {c₁ c₂ c₁' c₂' : PowCaches}
    (hc₁ : PowHist c₁) (hc₂ : PowHist c₂) {r₁ r₂ : BF} {w₁ w₂ : Nat}
    (h₁ : BF.powC (.num x) (.num n) p rm f₁ c₁ = some (r₁, c₁', w₁))
    (h₂ : BF.powC (.num x') (.num n') p rm f₂ c₂ = some (r₂, c₂', w₂)) (hw₁ : w₁ ≤ 2 ^ 15) (hw₂ : w₂ ≤ 2 ^ 15) : r₁ = r₂ := by
  have hR : (x.toK : ℝ) = x'.toK := by rw [← toK_ratCast x, ← toK_ratCast x', hx]
  have hN : (n.toK : ℝ) = n'.toK := by rw [← toK_ratCast n, ← toK_ratCast n', hn]
  have hz := hd.isPow
  have hz' := hz
  rw [hR, hN] at hz'
  rw [← hR, ← hN] at hz'
  obtain ⟨v, rfl, v2⟩ := C70_outcome_partial hd hp rm hc₁ h₁ hw₁ hz
  obtain ⟨v', rfl, v2'⟩ := C70_outcome_partial hd' hp rm hc₂ h₂ hw₂ (z := (Num.powSign x n).toK * Real.exp (n.toK * Real.log (|(x.toK : ℝ)|)))
    (by rw [← hR, ← hN]; exact hz)
  have hP : 64 ≤ precBits p := by have := hp.pos; unfold precBits; omega
  have ht := (hd.top _ hz).2
  rw [v2.unique hr hP (le_trans (zpow_le_zpow_right₀ (by norm_num) (by unfold EMIN EMAX; norm_num)) ht) v2']

/-- In the directed modes a power with a positive exponent grows with its positive base. -/
theorem C70_mono_partial {x' : Num} (hd : PowDom x n) (hd' : PowDom x' n) (h0 : (0 : ℚ) < x.toK) (hx : (x.toK : ℚ) ≤ x'.toK)
    (hn : (0 : ℚ) < n.toK) {p : Nat} (hp : ValidP p) {rm : RM} (hr : rm = .up ∨ rm = .down ∨ rm = .toZero ∨ rm = .fromZero)
    {f₁ f₂ : Nat} {c₁ c₂ c₁' c₂' : PowCaches} (hc₁ : PowHist c₁) (hc₂ : PowHist c₂) {v₁ v₂ : Num} {w₁ w₂ : Nat}
    (h₁ : BF.powC (.num x) (.num n) p rm f₁ c₁ = some (.num v₁, c₁', w₁))
    (h₂ : BF.powC (.num x') (.num n) p rm f₂ c₂ = some (.num v₂, c₂', w₂)) (hw₁ : w₁ ≤ 2 ^ 15) (hw₂ : w₂ ≤ 2 ^ 15) :
    (v₁.toK : ℚ) ≤ v₂.toK := by
  have hxR : (x.toK : ℝ) ≤ x'.toK := by
    rw [← toK_ratCast x, ← toK_ratCast x']; exact_mod_cast hx
  have h0R : 0 < (x.toK : ℝ) := by rw [← toK_ratCast x]; exact_mod_cast h0
  have hnR : 0 < (n.toK : ℝ) := by rw [← toK_ratCast n]; exact_mod_cast hn
  obtain ⟨v, e1, v2, -⟩ := C70_directed_partial hd hp hr hc₁ h₁ hw₁ (Or.inl ⟨h0R, rfl⟩)
  obtain ⟨v', e2, v2', -⟩ := C70_directed_partial hd' hp hr hc₂ h₂ hw₂ (Or.inl ⟨by linarith, rfl⟩)
  injection e1 with e1
  injection e2 with e2
  rw [← e1] at v2
  rw [← e2] at v2'
  have hP : 0 < precBits p := by have := hp.pos; unfold precBits; omega
  have := v2.mono hP v2' (Real.rpow_le_rpow h0R.le hxR hnR.le)
  rw [← toK_ratCast v₁, ← toK_ratCast v₂] at this
  exact_mod_cast this

/-- The first round returns a number in mode `None`, and in the directed modes unless the digits are exceptional. -/
theorem C70_number_partial (hd : PowDom x n) {p : Nat} (hp : ValidP p) {rm : RM} {c : PowCaches} (hc : PowHist c)
    (hw : max (precBits p) (max (64 * x.m.m.length) (64 * n.m.m.length)) + 64 ≤ 2 ^ 15) {z : ℝ} (hz : IsPow x.toK n.toK z)
    (hs : rm = .none ∨ (rm = .up ∨ rm = .down ∨ rm = .toZero ∨ rm = .fromZero) ∧ ¬ NearGrid (precBits p) 63 |z|) (f : Nat) :
    ∃ v c' w, BF.powC (.num x) (.num n) p rm (f + 1) c = some (.num v, c', w) ∧ w ≤ 2 ^ 15 := by
  have ha := hd.args (by omega)
  obtain ⟨r, c', w, h1, h2⟩ := powRun_number (f := f) ha hp hc.ok.1 hc.ok.2 hw (rm := rm) (by
    rw [← (hd.abs hz).1]
    rcases hs with h | ⟨h, h'⟩
    · exact Or.inl h
    · exact Or.inr ⟨by rcases h with rfl | rfl | rfl | rfl <;> rfl, h'⟩)
  obtain ⟨-, v, rfl, -⟩ := powRun_spec ha hp rm hc.ok.1 hc.ok.2 h1 h2
  refine ⟨v, c', w, ?_, h2⟩
  unfold BF.powC Num.powC
  dsimp only
  rw [if_pos hd.main, h1]
  rfl

/-- In the directed modes there is no result for a power that is a number of the format: whatever the fuel, the working
precision exceeds `2^15` bits first. -/
theorem C70_exact_partial (hd : PowDom x n) {p : Nat} (hp : ValidP p) {rm : RM}
    (hr : rm = .up ∨ rm = .down ∨ rm = .toZero ∨ rm = .fromZero) {z : ℝ} (hz : IsPow x.toK n.toK z)
    (hf : ∃ k e : ℤ, |k| < 2 ^ precBits p ∧ z = k * 2 ^ e) {c : PowCaches} (hc : PowHist c) (f : Nat) :
    ∀ r c' w, BF.powC (.num x) (.num n) p rm f c = some (r, c', w) → 2 ^ 15 < w := by
  intro r c' w h
  by_contra hw
  push Not at hw
  obtain ⟨v, v1, v2, v3, v4, v5⟩ := C70_directed_partial hd hp hr hc h hw hz
  obtain ⟨r', h1, h2, h3⟩ := powC_main hd hp h hw
  obtain ⟨k, e, hk, hke⟩ := hf
  have := powRun_stuck h3 hp (rm := rm) (by rcases hr with rfl | rfl | rfl | rfl <;> rfl) (by
    rw [← (hd.abs hz).1]
    refine ⟨|k|, e, by rwa [abs_abs], ?_⟩
    rw [hke, abs_mul, abs_of_pos (show (0 : ℝ) < 2 ^ e by positivity)]
    push_cast
    rfl) hc.ok.1 hc.ok.2 h1
  omega

/-! ## Concrete cases -/

def exPow2 : Num := ⟨2, .pos, ⟨[MSB], 64⟩, false⟩
def exPow10 : Num := ⟨4, .pos, ⟨[11529215046068469760], 64⟩, false⟩
def exPowHalf : Num := ⟨0, .pos, ⟨[MSB], 64⟩, false⟩

theorem exPow_toK {K : Type*} [Field K] [LinearOrder K] [IsStrictOrderedRing K] :
    (exPow2.toK : K) = 2 ∧ (exPow10.toK : K) = 10 ∧ (exPowHalf.toK : K) = 1 / 2 := by
  refine ⟨?_, ?_, ?_⟩
  · unfold Num.toK exPow2
    simp only [val, Sign.toK, List.length_cons, List.length_nil, MSB]
    norm_num
  · unfold Num.toK exPow10
    simp only [val, Sign.toK, List.length_cons, List.length_nil]
    norm_num
  · unfold Num.toK exPowHalf
    simp only [val, Sign.toK, List.length_cons, List.length_nil, MSB]
    norm_num

theorem two_pow_ten : IsPow (exPow2.toK : ℝ) exPow10.toK 1024 := by
  rw [exPow_toK.1, exPow_toK.2.1]
  refine Or.inl ⟨by norm_num, ?_⟩
  rw [show (10 : ℝ) = ((10 : ℕ) : ℝ) by norm_num, Real.rpow_natCast]
  norm_num

theorem two_pow_ten_dom : PowDom exPow2 exPow10 where
  wfx := Num.WF_of_check (by decide +kernel)
  wfn := Num.WF_of_check (by decide +kernel)
  ne0 := by rw [exPow_toK.1]; norm_num
  ne1 := by rw [exPow_toK.1]; norm_num
  nn0 := by rw [exPow_toK.2.1]; norm_num
  nn1 := by rw [exPow_toK.2.1]; norm_num
  int := by rw [exPow_toK.1]; norm_num
  low := by decide
  top := by
    intro z hz
    rw [hz.unique two_pow_ten, abs_of_pos (by norm_num)]
    constructor
    · refine le_trans ?_ (zpow_le_zpow_right₀ (m := 10) (by norm_num) (by unfold EMAX; norm_num))
      norm_num
    · refine le_trans (zpow_le_one_of_nonpos₀ (by norm_num) (by unfold EMAX; norm_num)) (by norm_num)

theorem sqrt_two_pow : IsPow (exPow2.toK : ℝ) exPowHalf.toK (Real.sqrt 2) := by
  rw [exPow_toK.1, exPow_toK.2.2]
  exact Or.inl ⟨by norm_num, Real.sqrt_eq_rpow 2⟩

theorem sqrt_two_dom : PowDom exPow2 exPowHalf where
  wfx := Num.WF_of_check (by decide +kernel)
  wfn := Num.WF_of_check (by decide +kernel)
  ne0 := by rw [exPow_toK.1]; norm_num
  ne1 := by rw [exPow_toK.1]; norm_num
  nn0 := by rw [exPow_toK.2.2]; norm_num
  nn1 := by rw [exPow_toK.2.2]; norm_num
  int := by rw [exPow_toK.1]; norm_num
  low := by decide
  top := by
    intro z hz
    rw [hz.unique sqrt_two_pow, abs_of_nonneg (Real.sqrt_nonneg _)]
    have h1 : 1 ≤ Real.sqrt 2 := by rw [Real.one_le_sqrt]; norm_num
    have h2 : Real.sqrt 2 ≤ 2 := by rw [Real.sqrt_le_left (by norm_num)]; norm_num
    constructor
    · refine le_trans h2 (le_trans ?_ (zpow_le_zpow_right₀ (m := 10) (by norm_num) (by unfold EMAX; norm_num)))
      norm_num
    · refine le_trans (zpow_le_one_of_nonpos₀ (by norm_num) (by unfold EMAX; norm_num)) h1

set_option maxRecDepth 100000 in
/-- `2^(1/2)` with 64 bits, rounded up, from new caches: the hypotheses hold and the number is known. -/
example : ∃ c v c' w, PowHist c ∧ PowDom exPow2 exPowHalf ∧ ValidP 64 ∧
    BF.powC (.num exPow2) (.num exPowHalf) 64 .up 1 c = some (.num v, c', w) ∧ w ≤ 2 ^ 15 ∧
    v.m.m = [13043817825332782213] ∧ v.e = 1 ∧ RoundsFmt .up 64 (Real.sqrt 2) v.toK := by
  obtain ⟨a, h1, -⟩ := C58_new
  obtain ⟨b, h1', -⟩ := C59_new
  have hp : ValidP 64 := ⟨by norm_num, by decide⟩
  have h2 : (match eNew, ln2New with
    | .ok a, .ok b => match BF.powC (.num exPow2) (.num exPowHalf) 64 .up 1 (a, b) with
      | some (.num v, _, w) => v.m.m == [13043817825332782213] && v.e == 1 && decide (w ≤ 1000)
      | _ => false
    | _, _ => false) = true := by decide +kernel
  rw [h1, h1'] at h2
  dsimp only at h2
  cases h3 : BF.powC (.num exPow2) (.num exPowHalf) 64 .up 1 (a, b) with
  | none => rw [h3] at h2; cases h2
  | some r =>
    obtain ⟨r, c', w⟩ := r
    rw [h3] at h2
    cases r with
    | nan e => cases h2
    | inf s => cases h2
    | num v =>
      simp at h2
      obtain ⟨⟨h4, h5⟩, h6⟩ := h2
      obtain ⟨v', e1, e2, -⟩ := C70_directed_partial sqrt_two_dom hp (Or.inl rfl) (.new h1 h1') h3 (by omega) sqrt_two_pow
      injection e1 with e1
      rw [← e1] at e2
      exact ⟨_, v, c', w, .new h1 h1', sqrt_two_dom, hp, h3, by omega, h4, h5, e2⟩

/-- `pow` does not return `2^10 = 1024` in any directed mode, whatever the fuel and the history of the caches, with a working
precision up to `2^15` bits. -/
theorem C70_exact_refuted : IsPow (exPow2.toK : ℝ) exPow10.toK 1024 ∧ ValidP 64 ∧ (∃ c, PowHist c) ∧
    ∀ rm, rm = .up ∨ rm = .down ∨ rm = .toZero ∨ rm = .fromZero → ∀ c, PowHist c → ∀ f r c' w,
      BF.powC (.num exPow2) (.num exPow10) 64 rm f c = some (r, c', w) → 2 ^ 15 < w := by
  have hp : ValidP 64 := ⟨by norm_num, by decide⟩
  obtain ⟨a, h1, -⟩ := C58_new
  obtain ⟨b, h1', -⟩ := C59_new
  refine ⟨two_pow_ten, hp, ⟨_, .new h1 h1'⟩, fun rm hr c hc f => ?_⟩
  refine C70_exact_partial two_pow_ten_dom hp hr two_pow_ten ⟨1, 10, ?_, by norm_num⟩ hc f
  have : precBits 64 = 64 := by decide
  rw [this]
  norm_num

set_option maxRecDepth 100000 in
/-- Rounded to the nearest, `2^10` is exact but marked inexact. -/
theorem C70_flag_refuted : ∃ c v c' w, PowHist c ∧ BF.powC (.num exPow2) (.num exPow10) 64 .toEven 1 c = some (.num v, c', w) ∧
    exPow2.inexact = false ∧ exPow10.inexact = false ∧ IsPow exPow2.toK exPow10.toK (v.toK : ℝ) ∧ v.inexact = true := by
  obtain ⟨a, h1, -⟩ := C58_new
  obtain ⟨b, h1', -⟩ := C59_new
  have h2 : (match eNew, ln2New with
    | .ok a, .ok b => match BF.powC (.num exPow2) (.num exPow10) 64 .toEven 1 (a, b) with
      | some (.num v, _, _) => v == ⟨11, .pos, ⟨[MSB], 64⟩, true⟩
      | _ => false
    | _, _ => false) = true := by decide +kernel
  rw [h1, h1'] at h2
  dsimp only at h2
  cases h3 : BF.powC (.num exPow2) (.num exPow10) 64 .toEven 1 (a, b) with
  | none => rw [h3] at h2; cases h2
  | some r =>
    obtain ⟨r, c', w⟩ := r
    rw [h3] at h2
    cases r with
    | nan e => cases h2
    | inf s => cases h2
    | num v =>
      have hv : v = ⟨11, .pos, ⟨[MSB], 64⟩, true⟩ := by simpa using h2
      refine ⟨_, v, c', w, .new h1 h1', h3, rfl, rfl, ?_, by rw [hv]⟩
      have : (v.toK : ℝ) = 1024 := by
        rw [hv]
        unfold Num.toK
        simp only [val, Sign.toK, List.length_cons, List.length_nil, MSB]
        norm_num
      rw [this]
      exact two_pow_ten

/-- The precision bound of `C70_number_partial` is met by `2^(1/2)` at 32000 bits; the cases of `C70_early` by `1^10`. -/
example : max (precBits 32000) (max (64 * exPow2.m.m.length) (64 * exPowHalf.m.m.length)) + 64 ≤ 2 ^ 15 ∧
    |(Num.ONE.toK : ℚ)| = 1 := by
  refine ⟨by decide, ?_⟩
  rw [ONE_toK, abs_one]

end AF
