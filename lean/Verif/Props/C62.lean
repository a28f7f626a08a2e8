import Verif.Lemmas.HypOver
import Verif.Props.C61
import Mathlib.Analysis.Complex.ExponentialBounds
/-!
# C62: the hyperbolic cosine

The full claim: for every number `x`, every precision, every rounding mode and whatever was asked of the cache before,
`cosh` returns `cosh x` correctly rounded, marked inexact unless `x` is zero; `+Inf` if that is too large.

Proved: `cosh(0) = 1` (`C62_zero`); for arguments so small that `cosh x` is next to 1 the result is correctly rounded in
every mode and at every precision (`C62_small`). For other arguments with `e^|x| ≤ 2^(EMAX-4)` a number returned with a
working precision up to `2^21` bits is correctly rounded in the four directed modes and within the bounds of `FunRounded`
in the other modes (`C62_outcome_partial`, `C62_directed_partial`); it does not depend on the history of the cache or on
the sign of the argument (`C62_history_partial`) and grows with its magnitude (`C62_mono_partial`). The first round of the loop returns such a
number in mode `None`, and in the directed modes unless the 63 bits of `cosh x` after the first `P` are all equal
(`C62_number_partial`). Large arguments give `+Inf` (`C62_overflow_partial`).

The claim is false for arguments whose exponential is too large although the hyperbolic cosine, half of it, is not: the
result is `+Inf` (`C62_overflow_refuted`). It is false at precisions from `2^32` bits on, where the hyperbolic cosine of
every number from 1 on is `+Inf` (`C62_precision`, `C62_precision_refuted`).

Missing: results in the top four binades, correct rounding in the nearest modes, working precisions over `2^21` bits, the
end of the loop in the exceptional cases.
-/

namespace AF

/-- The caches that exist after `ECache::new` and any number of calls of `Consts::e`, of `exp` with working precisions
below `2^61`, and of `cosh`, `sinh` and `tanh` with arguments and working precisions in the range of the theorems. -/
inductive HypHist : ConstCache (Num × Num) → Prop
  | new {c} : eNew = .ok c → HypHist c
  | e {c c' p rm r} : HypHist c → ValidP p → constE p rm c = some (r, c') → HypHist c'
  | exp {c c' x p rm f r w} : HypHist c → ValidP p → BF.expC x p rm f c = some (r, c', w) → w ≤ 2 ^ 61 → HypHist c'
  | cosh {c c' x p rm f r w} : HypHist c → ValidP p → x.WF → (x.toK : ℚ) ≠ 0 → Real.exp |(x.toK : ℝ)| ≤ 2 ^ (EMAX - 4) →
      BF.coshC (.num x) p rm f c = some (r, c', w) → w ≤ 2 ^ 21 → HypHist c'
  | sinh {c c' x p rm f r w} : HypHist c → ValidP p → x.WF → (x.toK : ℚ) ≠ 0 → EMIN + 2 ≤ x.e →
      Real.exp |(x.toK : ℝ)| ≤ 2 ^ (EMAX - 4) → BF.sinhC (.num x) p rm f c = some (r, c', w) → w ≤ 2 ^ 21 → HypHist c'
  | tanh {c c' x p rm f r w} : HypHist c → ValidP p → precBits p + 64 < PMAX → x.WF → (x.toK : ℚ) ≠ 0 → EMIN + 2 ≤ x.e →
      (Real.exp (2 * |(x.toK : ℝ)|) ≤ 2 ^ (EMAX - 4) ∨ 2 ^ (EMAX + 4) ≤ Real.exp (2 * |(x.toK : ℝ)|)) →
      BF.tanhC (.num x) p rm f c = some (r, c', w) → w ≤ 2 ^ 22 → HypHist c'

theorem nz_of_ne {x : Num} (hx : x.WF) (h0 : (x.toK : ℚ) ≠ 0) : x.isZero = false := by
  rw [← Bool.not_eq_true]; exact fun h => h0 (hx.toK_eq_zero.2 h)

/-- A call of one of the functions with a number. -/
theorem wrapC_num {f : Num → Nat → RM → Nat → ConstCache (Num × Num) → Option (Except Err Num × ConstCache (Num × Num) × Nat)}
    {a b : BF} {x : Num} {p : Nat} {rm : RM} {n : Nat} {c c' : ConstCache (Num × Num)} {r : BF} {w : Nat}
    (h : BF.wrapC f a b (.num x) p rm n c = some (r, c', w)) :
    ∃ r', f x p rm n c = some (r', c', w) ∧ r = BF.resultToExt r' x.isZero true := by
  unfold BF.wrapC at h
  dsimp only at h
  split at h
  · cases h
  · rename_i he
    simp only [Option.some.injEq, Prod.mk.injEq] at h
    obtain ⟨rfl, rfl, rfl⟩ := h
    exact ⟨_, he, rfl⟩

theorem tanhC_num {x : Num} {p : Nat} {rm : RM} {n : Nat} {c c' : ConstCache (Num × Num)} {r : BF} {w : Nat}
    (h : BF.tanhC (.num x) p rm n c = some (r, c', w)) :
    ∃ r', x.tanh p rm n c = some (r', c', w) ∧ r = BF.resultToExt r' x.isZero true := by
  unfold BF.tanhC at h
  dsimp only at h
  split at h
  · cases h
  · rename_i he
    simp only [Option.some.injEq, Prod.mk.injEq] at h
    obtain ⟨rfl, rfl, rfl⟩ := h
    exact ⟨_, he, rfl⟩

theorem expC_cache {c c' : ConstCache (Num × Num)} {x : BF} {p : Nat} {rm : RM} {f : Nat} {r : BF} {w : Nat}
    (hc : BF.expC x p rm f c = some (r, c', w)) (hw : w ≤ 2 ^ 61) (ih : CacheOk ERep EValOk c) : CacheOk ERep EValOk c' := by
  cases x with
  | nan e => injection hc with hc; injection hc with _ hc; injection hc with hc _; rw [← hc]; exact ih
  | inf s => injection hc with hc; injection hc with _ hc; injection hc with hc _; rw [← hc]; exact ih
  | num x =>
    unfold BF.expC at hc
    dsimp only at hc
    split at hc
    · cases hc
    · rename_i he
      injection hc with hc; injection hc with _ hc; injection hc with h1 h2
      rw [← h1]
      unfold Num.exp at he
      dsimp only at he
      split at he
      · split at he <;> · injection he with he; injection he with _ he; injection he with he _; rw [← he]; exact ih
      · split at he
        · injection he with he; injection he with _ he; injection he with he _; rw [← he]; exact ih
        · exact expLoop_cache ih he (by omega)

theorem HypHist.ok {c : ConstCache (Num × Num)} (h : HypHist c) : CacheOk ERep EValOk c := by
  induction h with
  | new h => exact (EHist.new h).ok
  | e h hp hc ih =>
    obtain ⟨r, c', h1, h2, -⟩ := constE_spec hp _ ih
    rw [h1] at hc
    injection hc with hc
    injection hc with _ hc
    rw [← hc]; exact h2
  | exp h hp hc hw ih => exact expC_cache hc hw ih
  | cosh h hp hx h0 ht hc hw ih =>
    obtain ⟨r', h1, -⟩ := wrapC_num hc
    exact (cosh_spec hx (nz_of_ne hx h0) ht hp _ ih h1 hw).1
  | sinh h hp hx h0 he ht hc hw ih =>
    obtain ⟨r', h1, -⟩ := wrapC_num hc
    exact (sinh_spec hx (nz_of_ne hx h0) he ht hp _ ih h1 hw).1
  | tanh h hp hpm hx h0 he ht hc hw ih =>
    obtain ⟨r', h1, -⟩ := tanhC_num hc
    exact (tanh_spec hx (nz_of_ne hx h0) he ht hp _ ih h1 hw hpm).1

/-- The hyperbolic cosine of zero is one, exactly, in every mode. -/
theorem C62_zero {x : Num} (hx : x.WF) (h0 : (x.toK : ℚ) = 0) {p : Nat} (hp : ValidP p) (rm : RM) (f : Nat)
    (c : ConstCache (Num × Num)) :
    ∃ v, BF.coshC (.num x) p rm f c = some (.num v, c, 0) ∧ v.WF ∧ 64 * v.m.m.length = precBits p ∧ v.s = .pos ∧
      (v.toK : ℚ) = 1 ∧ v.inexact = x.inexact := by
  have hz := hx.toK_eq_zero.1 h0
  have hp0 := hp.pos
  have hlt := hp.lt
  have hpp : ValidP (precBits p) := ⟨by unfold precBits; omega, by
    have : precBits (precBits p) = precBits p := by unfold precBits; omega
    rw [this]; exact hlt⟩
  obtain ⟨v, v1, v2, v3, v4, v5⟩ := fromWord_spec (K := ℚ) (d := 1) (p := precBits p) (by decide) hpp.pos
    (by unfold PMAX; omega)
  have hidem : precBits (precBits p) = precBits p := by unfold precBits; omega
  rw [hidem] at v3
  rw [Nat.cast_one] at v4
  refine ⟨{ v with inexact := x.inexact }, ?_, ⟨v2.wf, v2.bits, v2.emin, v2.emax, v2.norm, v2.sized⟩, v3,
    toK_sign_pos (x := v) (by rw [v4]; norm_num), v4, rfl⟩
  unfold BF.coshC BF.wrapC Num.cosh
  dsimp only
  rw [hp.roundP, if_pos hz, v1]
  rfl

/-- Next to zero the result is `cosh x` correctly rounded, in every mode and at every precision. -/
theorem C62_small {x : Num} (hx : x.WF) (h0 : (x.toK : ℚ) ≠ 0) {p : Nat} (hp : ValidP p)
    (he : ((max (precBits p) (64 * x.m.m.length) : ℕ) : ℤ) + 1 < -(x.e * 2 - 1)) (rm : RM) (f : Nat) (c : ConstCache (Num × Num)) :
    ∃ v, BF.coshC (.num x) p rm f c = some (.num v, c, 0) ∧ v.WF ∧ 64 * v.m.m.length = precBits p ∧ v.s = .pos ∧
      v.inexact = true ∧ RoundsFmt rm (precBits p) (Real.cosh x.toK) v.toK := by
  have hz := nz_of_ne hx h0
  have hp0 := hp.pos
  obtain ⟨pw, hpw⟩ : ∃ pw, precBits p = 64 * pw := ⟨(p + 63) / 64, rfl⟩
  have hpw0 : 0 < pw := by unfold precBits at hpw; omega
  have hmb : x.m.maxBitLen = 64 * x.m.m.length := by unfold Mantissa.maxBitLen; omega
  rw [hpw] at he
  obtain ⟨v, v1, v2, v3⟩ := cosh_small hx hz hpw0 (by push_cast at he; omega) rm
  refine ⟨v, ?_, v3.wf, by rw [hpw]; exact v3.prec, v3.pos (Real.cosh_pos _), v3.inexact, by rw [hpw]; exact v2⟩
  unfold BF.coshC BF.wrapC Num.cosh
  dsimp only
  rw [hp.roundP, hpw, hmb, if_neg (by simp [hz]), if_pos he, v1]
  rfl

/-- What is returned when `e^|x|` is in range. -/
theorem C62_outcome_partial {x : Num} (hx : x.WF) (h0 : (x.toK : ℚ) ≠ 0) (htop : Real.exp |(x.toK : ℝ)| ≤ 2 ^ (EMAX - 4))
    {p : Nat} (hp : ValidP p) (rm : RM) {f : Nat} {c c' : ConstCache (Num × Num)} (hc : HypHist c) {r : BF} {w : Nat}
    (h : BF.coshC (.num x) p rm f c = some (r, c', w)) (hw : w ≤ 2 ^ 21) :
    ∃ v, r = .num v ∧ FunRounded rm (precBits p) (Real.cosh x.toK) v := by
  obtain ⟨r', h1, h2⟩ := wrapC_num h
  obtain ⟨-, v, v1, v2⟩ := cosh_spec hx (nz_of_ne hx h0) htop hp rm hc.ok h1 hw
  refine ⟨v, ?_, v2⟩
  rw [h2, v1]; rfl

/-- In the directed modes it is `cosh x` correctly rounded. -/
theorem C62_directed_partial {x : Num} (hx : x.WF) (h0 : (x.toK : ℚ) ≠ 0) (htop : Real.exp |(x.toK : ℝ)| ≤ 2 ^ (EMAX - 4))
    {p : Nat} (hp : ValidP p) {rm : RM} (hd : rm = .up ∨ rm = .down ∨ rm = .toZero ∨ rm = .fromZero) {f : Nat}
    {c c' : ConstCache (Num × Num)} (hc : HypHist c) {r : BF} {w : Nat}
    (h : BF.coshC (.num x) p rm f c = some (r, c', w)) (hw : w ≤ 2 ^ 21) :
    ∃ v, r = .num v ∧ RoundsFmt rm (precBits p) (Real.cosh x.toK) v.toK ∧ 64 * v.m.m.length = precBits p ∧
      v.inexact = true := by
  obtain ⟨v, v1, v2⟩ := C62_outcome_partial hx h0 htop hp rm hc h hw
  exact ⟨v, v1, v2.directed hd, v2.prec, v2.inexact⟩

theorem cosh_normal (t : ℝ) : (2 : ℝ) ^ (EMIN - 1) ≤ |Real.cosh t| := by
  rw [abs_of_pos (Real.cosh_pos t)]
  exact le_trans (zpow_le_one_of_nonpos₀ (by norm_num) (by unfold EMIN; norm_num)) (Real.one_le_cosh t)

/-- In the directed modes the result depends neither on what the cache was used for before nor on the sign of the
argument nor on its precision. -/
theorem C62_history_partial {x y : Num} (hx : x.WF) (hy : y.WF) (h0 : (x.toK : ℚ) ≠ 0) (hxy : |(x.toK : ℚ)| = |y.toK|)
    (htop : Real.exp |(x.toK : ℝ)| ≤ 2 ^ (EMAX - 4))
    {p : Nat} (hp : ValidP p) {rm : RM} (hd : rm = .up ∨ rm = .down ∨ rm = .toZero ∨ rm = .fromZero) {f₁ f₂ : Nat}
    {c₁ c₂ c₁' c₂' : ConstCache (Num × Num)} (hc₁ : HypHist c₁) (hc₂ : HypHist c₂) {r₁ r₂ : BF} {w₁ w₂ : Nat}
    (h₁ : BF.coshC (.num x) p rm f₁ c₁ = some (r₁, c₁', w₁)) (h₂ : BF.coshC (.num y) p rm f₂ c₂ = some (r₂, c₂', w₂))
    (hw₁ : w₁ ≤ 2 ^ 21) (hw₂ : w₂ ≤ 2 ^ 21) : r₁ = r₂ := by
  have hy0 : (y.toK : ℚ) ≠ 0 := by
    intro h
    rw [h, abs_zero, abs_eq_zero] at hxy
    exact h0 hxy
  have hR : |(x.toK : ℝ)| = |(y.toK : ℝ)| := by
    rw [← toK_ratCast x, ← toK_ratCast y]; exact_mod_cast hxy
  obtain ⟨v, rfl, v2⟩ := C62_outcome_partial hx h0 htop hp rm hc₁ h₁ hw₁
  obtain ⟨v', rfl, v2'⟩ := C62_outcome_partial hy hy0 (by rw [← hR]; exact htop) hp rm hc₂ h₂ hw₂
  have hP : 64 ≤ precBits p := by have := hp.pos; unfold precBits; omega
  rw [← Real.cosh_abs, hR, Real.cosh_abs] at v2
  rw [v2.unique hd hP (cosh_normal _) v2']

/-- In the directed modes the function grows with the magnitude of the argument. -/
theorem C62_mono_partial {x y : Num} (hx : x.WF) (hy : y.WF) (hx0 : (x.toK : ℚ) ≠ 0)
    (hty : Real.exp |(y.toK : ℝ)| ≤ 2 ^ (EMAX - 4))
    (hxy : |(x.toK : ℚ)| ≤ |y.toK|) {p : Nat} (hp : ValidP p) {rm : RM}
    (hd : rm = .up ∨ rm = .down ∨ rm = .toZero ∨ rm = .fromZero) {f₁ f₂ : Nat} {c₁ c₂ c₁' c₂' : ConstCache (Num × Num)}
    (hc₁ : HypHist c₁) (hc₂ : HypHist c₂) {v₁ v₂ : Num} {w₁ w₂ : Nat}
    (h₁ : BF.coshC (.num x) p rm f₁ c₁ = some (.num v₁, c₁', w₁)) (h₂ : BF.coshC (.num y) p rm f₂ c₂ = some (.num v₂, c₂', w₂))
    (hw₁ : w₁ ≤ 2 ^ 21) (hw₂ : w₂ ≤ 2 ^ 21) : (v₁.toK : ℚ) ≤ v₂.toK := by
  have hxyR : |(x.toK : ℝ)| ≤ |(y.toK : ℝ)| := by
    rw [← toK_ratCast x, ← toK_ratCast y]; exact_mod_cast hxy
  have hy0 : (y.toK : ℚ) ≠ 0 := by
    intro h
    rw [h, abs_zero] at hxy
    exact hx0 (abs_eq_zero.1 (le_antisymm hxy (abs_nonneg _)))
  obtain ⟨v, e1, v2, -⟩ := C62_directed_partial hx hx0 (le_trans (Real.exp_le_exp.2 hxyR) hty) hp hd hc₁ h₁ hw₁
  obtain ⟨v', e2, v2', -⟩ := C62_directed_partial hy hy0 hty hp hd hc₂ h₂ hw₂
  injection e1 with e1
  injection e2 with e2
  rw [← e1] at v2
  rw [← e2] at v2'
  have hP : 0 < precBits p := by have := hp.pos; unfold precBits; omega
  have := v2.mono hP v2' (Real.cosh_le_cosh.2 hxyR)
  rw [← toK_ratCast v₁, ← toK_ratCast v₂] at this
  exact_mod_cast this

/-- The first round returns a number in mode `None`, and in the directed modes unless the digits are exceptional. -/
theorem C62_number_partial {x : Num} (hx : x.WF) (h0 : (x.toK : ℚ) ≠ 0) (htop : Real.exp |(x.toK : ℝ)| ≤ 2 ^ (EMAX - 4))
    {p : Nat} (hp : ValidP p) {rm : RM} {c : ConstCache (Num × Num)} (hc : HypHist c)
    (hw : max (precBits p) (64 * x.m.m.length) + 64 ≤ 2 ^ 21)
    (hs : rm = .none ∨ (rm = .up ∨ rm = .down ∨ rm = .toZero ∨ rm = .fromZero) ∧
      ¬ NearGrid (precBits p) 63 (Real.cosh x.toK)) (f : Nat) :
    ∃ v c' w, BF.coshC (.num x) p rm (f + 1) c = some (.num v, c', w) ∧ w ≤ 2 ^ 21 := by
  have hz := nz_of_ne hx h0
  obtain ⟨r, c', w, h1, h2⟩ := cosh_number (f := f) hx hz htop hp hc.ok hw (by
    rcases hs with h | ⟨h, h'⟩
    · exact Or.inl h
    · exact Or.inr ⟨by rcases h with rfl | rfl | rfl | rfl <;> rfl, h'⟩)
  obtain ⟨-, v, rfl, -⟩ := cosh_spec hx hz htop hp rm hc.ok h1 h2
  refine ⟨v, c', w, ?_, h2⟩
  unfold BF.coshC BF.wrapC
  dsimp only
  rw [h1]
  rfl

/-! ## Results out of range -/

/-- Arguments with `e^|x|` well above the largest number: `+Inf`. -/
theorem C62_overflow_partial {x : Num} (hx : x.WF) (hbig : (2 : ℝ) ^ (EMAX + 4) ≤ Real.exp |(x.toK : ℝ)|) {p : Nat}
    (hp : ValidP p) (hw : max (precBits p) (64 * x.m.m.length) + 192 ≤ 2 ^ 22) (rm : RM) (f : Nat)
    {c : ConstCache (Num × Num)} (hc : HypHist c) :
    ∃ c' w, BF.coshC (.num x) p rm (f + 1) c = some (.inf .pos, c', w) := by
  have hPM : PMAX = 2 ^ 62 - 2 ^ 31 - 1 := rfl
  have h1 := big_abs hbig
  have hz : x.isZero = false := by
    rw [← Bool.not_eq_true, ← hx.toK_eq_zero (K := ℝ), ← abs_eq_zero]
    linarith
  obtain ⟨c', c1, -⟩ := cosh_over hx hz (exp_big_e hx hbig) hp rm rfl (by omega)
    (expOver_big hbig (by unfold precBits; omega) (by omega) hc.ok f)
  refine ⟨c', max (precBits p) (64 * x.m.m.length) + 64, ?_⟩
  unfold BF.coshC BF.wrapC
  dsimp only
  rw [c1]
  rfl

/-- From `2^32` bits on the hyperbolic cosine of numbers from 1 on is infinite. -/
theorem C62_precision {x : Num} (hx : x.WF) (h1 : 1 ≤ |(x.toK : ℚ)|) (h2 : |(x.toK : ℚ)| < 2 ^ 64) {p : Nat} (hp : 2 ^ 32 ≤ p)
    (hw : max (precBits p) (64 * x.m.m.length) + 256 < PMAX) (rm : RM) (f : Nat) {c : ConstCache (Num × Num)}
    (hc : HypHist c) : ∃ c' w, BF.coshC (.num x) p rm (f + 1) c = some (.inf .pos, c', w) := by
  have hPM : PMAX = 2 ^ 62 - 2 ^ 31 - 1 := rfl
  have hR : (1 : ℝ) ≤ |(x.toK : ℝ)| := by
    rw [← toK_ratCast x, ← Rat.cast_abs]; exact_mod_cast h1
  have hR2 : |(x.toK : ℝ)| < 2 ^ (64 : ℤ) := by
    rw [← toK_ratCast x, ← Rat.cast_abs]; exact_mod_cast h2
  have hz : x.isZero = false := by
    rw [← Bool.not_eq_true, ← hx.toK_eq_zero (K := ℝ), ← abs_eq_zero]
    linarith
  have hpv : ValidP p := ⟨by omega, by unfold precBits at hw ⊢; omega⟩
  obtain ⟨c', c1, -⟩ := cosh_over hx hz (hx.e_of_abs (k := 0) (by rw [zpow_zero]; exact hR)) hpv rm rfl (by omega)
    (expOver_prec hR hR2 (by unfold precBits; omega) (by unfold precBits; omega) (by omega) hc.ok f)
  refine ⟨c', max (precBits p) (64 * x.m.m.length) + 64, ?_⟩
  unfold BF.coshC BF.wrapC
  dsimp only
  rw [c1]
  rfl

/-- The hyperbolic cosine of 1 is not a number at every precision. -/
theorem C62_precision_refuted : ¬ ∀ (p : Nat) (rm : RM) (f : Nat) (c : ConstCache (Num × Num)), ValidP p → HypHist c →
    ∃ v c' w, BF.coshC (.num Num.ONE) p rm (f + 1) c = some (.num v, c', w) := by
  intro h
  obtain ⟨c, hc, -⟩ := C58_new
  have hp : ValidP (2 ^ 32) := ⟨by norm_num, by decide⟩
  obtain ⟨v, c', w, h1⟩ := h _ .up 0 c hp (.new hc)
  have hone : (Num.ONE.toK : ℚ) = 1 := ONE_toK
  obtain ⟨c'', w', h2⟩ := C62_precision ONE_WF (by rw [hone]; norm_num) (by rw [hone]; norm_num) (le_refl _) (by decide +kernel) .up 0
    (.new hc)
  rw [h1] at h2
  injection h2 with h2
  injection h2 with h2 _
  cases h2

/-- `1488522235.25`, between `EMAX * ln 2` and `(EMAX + 1) * ln 2`. -/
def exTop : Num := ⟨31, .pos, ⟨[5954088941 * 2 ^ 31], 64⟩, false⟩

theorem exTop_WF : exTop.WF := Num.WF_of_check (by decide +kernel)

theorem exTop_toK : (exTop.toK : ℝ) = 5954088941 / 4 := by
  unfold Num.toK exTop
  simp only [val, Sign.toK, List.length_cons, List.length_nil]
  norm_num

theorem exp_exTop : Real.exp exTop.toK ≤ 2 ^ (EMAX + 1) / (11 / 10) := by
  have hn : (2 : ℝ) ^ (EMAX + 1) = Real.exp ((2147483648 : ℝ) * Real.log 2) := by
    rw [mul_comm, Real.exp_mul, Real.exp_log (by norm_num), ← Real.rpow_intCast]
    congr 1
  have h1 : (exTop.toK : ℝ) ≤ (2147483648 : ℝ) * Real.log 2 - 1 / 10 := by
    rw [exTop_toK]
    have := Real.log_two_gt_d9
    linarith
  rw [hn]
  refine le_trans (Real.exp_le_exp.2 h1) ?_
  rw [Real.exp_sub]
  refine div_le_div_of_nonneg_left (Real.exp_pos _).le (by norm_num) ?_
  have := Real.add_one_le_exp (1 / 10 : ℝ)
  linarith

set_option maxRecDepth 100000 in
theorem exTop_cosh : ∃ c c' w, HypHist c ∧ BF.coshC (.num exTop) 64 .toEven 1 c = some (.inf .pos, c', w) := by
  obtain ⟨c, h1, -⟩ := C58_new
  have h2 : (match eNew with
    | .ok c => match BF.coshC (.num exTop) 64 .toEven 1 c with
      | some (.inf .pos, _, _) => true
      | _ => false
    | _ => false) = true := by decide +kernel
  rw [h1] at h2
  dsimp only at h2
  cases h3 : BF.coshC (.num exTop) 64 .toEven 1 c with
  | none => rw [h3] at h2; cases h2
  | some r =>
    obtain ⟨b, c', w⟩ := r
    rw [h3] at h2
    cases b with
    | nan e => cases h2
    | num v => cases h2
    | inf s =>
      cases s with
      | neg => cases h2
      | pos => exact ⟨c, c', w, .new h1, h3⟩

/-- A hyperbolic cosine below `0.95 * 2^EMAX` is not always a number. -/
theorem C62_overflow_refuted : ¬ ∀ (x : Num) (p : Nat) (rm : RM) (f : Nat) (c c' : ConstCache (Num × Num)) (r : BF) (w : Nat),
    x.WF → Real.cosh (x.toK : ℝ) ≤ 19 / 20 * 2 ^ EMAX → ValidP p → HypHist c → BF.coshC (.num x) p rm f c = some (r, c', w) →
    ∃ v, r = .num v := by
  intro h
  obtain ⟨c, c', w, h1, h2⟩ := exTop_cosh
  have hle : Real.cosh (exTop.toK : ℝ) ≤ 19 / 20 * 2 ^ EMAX := by
    have h3 := exp_exTop
    rw [zpow_add₀ (by norm_num), zpow_one] at h3
    have h4 : Real.exp (-(exTop.toK : ℝ)) ≤ 1 := Real.exp_le_one_iff.2 (by rw [exTop_toK]; norm_num)
    have h5 : (2 : ℝ) ^ (10 : ℤ) ≤ 2 ^ EMAX := zpow_le_zpow_right₀ (by norm_num) (by unfold EMAX; norm_num)
    have h6 : (2 : ℝ) ^ (10 : ℤ) = 1024 := by norm_num
    rw [h6] at h5
    rw [Real.cosh_eq]
    obtain ⟨M, hM⟩ : ∃ M : ℝ, M = 2 ^ EMAX := ⟨_, rfl⟩
    rw [← hM] at h3 h5 ⊢
    linarith
  obtain ⟨v, hv⟩ := h _ _ _ _ _ _ _ _ exTop_WF hle ⟨by norm_num, by decide⟩ h1 h2
  cases hv

/-! ## Concrete cases -/

set_option maxRecDepth 100000 in
/-- `cosh(-1/2)` with 64 bits, rounded up, from a new cache: the hypotheses hold and the number is known. -/
example : ∃ c v c' w, HypHist c ∧ exMinusHalf.WF ∧ (exMinusHalf.toK : ℚ) ≠ 0 ∧
    Real.exp |(exMinusHalf.toK : ℝ)| ≤ 2 ^ (EMAX - 4) ∧ ValidP 64 ∧
    BF.coshC (.num exMinusHalf) 64 .up 1 c = some (.num v, c', w) ∧ w ≤ 2 ^ 21 ∧
    v.m.m = [10400513795515908899] ∧ v.e = 1 ∧ RoundsFmt .up 64 (Real.cosh (-(1 / 2))) v.toK := by
  obtain ⟨c, h1, -⟩ := C58_new
  have hw : exMinusHalf.WF := Num.WF_of_check (by decide +kernel)
  have h0 : (exMinusHalf.toK : ℚ) ≠ 0 := by
    intro h
    have : exMinusHalf.isZero = false := by decide +kernel
    rw [hw.toK_eq_zero.1 h] at this; cases this
  have htop := exMinusHalf_top
  have hp : ValidP 64 := ⟨by norm_num, by decide⟩
  have h2 : (match eNew with
    | .ok c => match BF.coshC (.num exMinusHalf) 64 .up 1 c with
      | some (.num v, _, w) => v.m.m == [10400513795515908899] && v.e == 1 && w == 128
      | _ => false
    | _ => false) = true := by decide +kernel
  rw [h1] at h2
  dsimp only at h2
  cases h3 : BF.coshC (.num exMinusHalf) 64 .up 1 c with
  | none => rw [h3] at h2; cases h2
  | some r =>
    obtain ⟨b, c', w⟩ := r
    rw [h3] at h2
    cases b with
    | nan e => cases h2
    | inf s => cases h2
    | num v =>
      simp at h2
      obtain ⟨⟨h4, h5⟩, h6⟩ := h2
      have hr := C62_directed_partial hw h0 htop hp (Or.inl rfl) (.new h1) h3 (by omega)
      obtain ⟨v', e1, e2, -⟩ := hr
      injection e1 with e1
      rw [← e1, exMinusHalf_toK] at e2
      exact ⟨c, v, c', w, .new h1, hw, h0, htop, hp, h3, by omega, h4, h5, e2⟩

set_option maxRecDepth 100000 in
/-- An argument next to zero. -/
example : exNearZero.WF ∧ (exNearZero.toK : ℚ) ≠ 0 ∧
    ((max (precBits 64) (64 * exNearZero.m.m.length) : ℕ) : ℤ) + 1 < -(exNearZero.e * 2 - 1) ∧
    ∀ c, BF.coshC (.num exNearZero) 64 .up 1 c = some (.num ⟨1, .pos, ⟨[MSB + 1], 64⟩, true⟩, c, 0) := by
  have hw : exNearZero.WF := Num.WF_of_check (by decide +kernel)
  refine ⟨hw, ?_, by decide +kernel, fun c => ?_⟩
  · intro h
    have : exNearZero.isZero = false := by decide +kernel
    rw [hw.toK_eq_zero.1 h] at this; cases this
  · have h1 : Num.ONE.smallExp false 64 .up = .ok ⟨1, .pos, ⟨[MSB + 1], 64⟩, true⟩ := by decide +kernel
    have h2 : roundP 64 = 64 := by decide +kernel
    unfold BF.coshC BF.wrapC Num.cosh
    dsimp only
    rw [h2, if_neg (by decide +kernel), if_pos (by decide +kernel), h1]
    rfl

/-- `-2^65` is an argument whose exponential is out of range. -/
example : exFar.WF ∧ (2 : ℝ) ^ (EMAX + 4) ≤ Real.exp |(exFar.toK : ℝ)| ∧ ValidP 64 ∧
    max (precBits 64) (64 * exFar.m.m.length) + 192 ≤ 2 ^ 22 := by
  refine ⟨Num.WF_of_check (by decide +kernel), ?_, ⟨by norm_num, by decide⟩, by decide +kernel⟩
  have h1 : ((EMAX + 4).toNat : ℝ) ≤ |(exFar.toK : ℝ)| := by
    have : (exFar.toK : ℝ) = -2 ^ 65 := by
      unfold Num.toK exFar
      simp only [val, Sign.toK, List.length_cons, List.length_nil, MSB]
      norm_num
    rw [this, abs_neg, abs_of_pos (by norm_num)]
    unfold EMAX
    norm_num
  have h2 := exp_ge_two_pow h1
  have h3 : (((EMAX + 4).toNat : ℕ) : ℤ) = EMAX + 4 := by unfold EMAX; norm_num
  rw [h3] at h2
  exact h2

end AF
