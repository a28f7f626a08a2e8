import Verif.Lemmas.ExpOver
import Verif.Props.C58
import Verif.Props.C46
/-!
# C61: the exponential function

The full claim: for every number `x`, every precision, every rounding mode and whatever was asked of the cache before,
`exp` returns `e^x` correctly rounded, marked inexact unless `x` is zero; `+Inf` if that is too large.

Proved: `exp(0) = 1` (`C61_zero`); for arguments so small that `e^x` is next to 1 the result is correctly rounded in
every mode and at every precision (`C61_small`). For other arguments with `2^-(EMAX-4) ≤ e^x ≤ 2^(EMAX-4)` a number
returned with a working precision up to `2^22` bits is correctly rounded in the four directed modes and within the
bounds of `ConstRounded` in the other modes (`C61_outcome_partial`, `C61_directed_partial`), and does not depend on the
history of the cache (`C61_history_partial`). The first round of the loop returns such a number in mode `None`, and in
the directed modes unless the 63 bits of `e^x` after the first `P` are all equal (`C61_number_partial`). Large positive
arguments give `+Inf` (`C61_overflow_partial`, `C61_overflow_far`). In the directed modes the function is monotone
(`C61_mono_partial`).

The claim is false for arguments far below zero: the result is a zero marked exact in every mode, with a minus sign for
arguments of `2^64` and more in magnitude (`C61_underflow`, `C61_underflow_far`, `C61_sign_refuted`,
`C61_rounding_refuted`, `C61_inexact_refuted`). It is false at precisions from `2^32` bits on, where the exponential of
every number from 1 on is `+Inf` and of every number up to -1 is zero (`C61_precision`, `C61_precision_refuted`).

Missing: results in the top and bottom four binades, correct rounding in the nearest modes, working precisions over
`2^22` bits, the end of the loop in the exceptional cases.
-/

namespace AF

/-- The caches that exist after `ECache::new` and any number of calls of `Consts::e` and of `exp` with valid
precisions and working precisions below `2^61`. -/
inductive ExpHist : ConstCache (Num × Num) → Prop
  | new {c} : eNew = .ok c → ExpHist c
  | e {c c' p rm r} : ExpHist c → ValidP p → constE p rm c = some (r, c') → ExpHist c'
  | exp {c c' x p rm f r w} : ExpHist c → ValidP p → BF.expC x p rm f c = some (r, c', w) → w ≤ 2 ^ 61 → ExpHist c'

theorem eForPrec_cache {pw : Nat} (h0 : 0 < pw) (hpm : 64 * pw < PMAX) {rm : RM} {c c' : ConstCache (Num × Num)}
    {r : Except Err Num} (hc : CacheOk ERep EValOk c) (h : eForPrec (64 * pw) rm c = some (r, c')) :
    CacheOk ERep EValOk c' := by
  have hPM : PMAX = 2 ^ 62 - 2 ^ 31 - 1 := rfl
  have hr : roundP (64 * pw) = 64 * pw := by
    rw [ValidP.roundP ⟨by omega, by unfold precBits; omega⟩]; unfold precBits; omega
  obtain ⟨r', c'', h1, h2, -⟩ := (e_loop (pw := pw) h0 hpm rm).forPrec eSeries hc
    ⟨by norm_num, by rw [hr]; omega, by rw [hr]⟩
  unfold eForPrec at h
  rw [h1] at h
  injection h with h
  injection h with _ h
  rw [← h]; exact h2

theorem expPositive_cache {x : Num} {w : Nat} (hw : w ≤ 2 ^ 61) {c c' : ConstCache (Num × Num)} {r : Except Err Num}
    (hc : CacheOk ERep EValOk c) (h : x.expPositive (w + 2) c = some (r, c')) : CacheOk ERep EValOk c' := by
  have hPM : PMAX = 2 ^ 62 - 2 ^ 31 - 1 := rfl
  have hv : ValidP (w + 2 + 4) := ⟨by omega, by unfold precBits; omega⟩
  obtain ⟨pw, hpw⟩ : ∃ pw, precBits (w + 2 + 4) = 64 * pw := ⟨_, rfl⟩
  have hpw0 : 0 < pw := by unfold precBits at hpw; omega
  have hpw1 : 64 * pw < PMAX := by unfold precBits at hpw; omega
  have hint : ∀ {r c'}, x.expInt (w + 2 + 4) c = some (r, c') → CacheOk ERep EValOk c' := by
    intro r c' h
    unfold Num.expInt at h
    rw [hv.roundP, hpw] at h
    split at h
    · injection h with h; injection h with _ h; rw [← h]; exact hc
    · injection h with h; injection h with _ h; rw [← h]; exact hc
    · split at h
      · split at h
        · cases h
        · rename_i he
          injection h with h; injection h with _ h; rw [← h]; exact eForPrec_cache hpw0 hpw1 hc he
        · rename_i he
          injection h with h; injection h with _ h; rw [← h]; exact eForPrec_cache hpw0 hpw1 hc he
      · injection h with h; injection h with _ h; rw [← h]; exact hc
  unfold Num.expPositive at h
  split at h
  · injection h with h; injection h with _ h; rw [← h]; exact hc
  · dsimp only at h
    split at h
    · cases h
    · rename_i he
      injection h with h; injection h with _ h; rw [← h]; exact hint he
    · rename_i he
      split at h
      · injection h with h; injection h with _ h; rw [← h]; exact hint he
      · injection h with h; injection h with _ h; rw [← h]; exact hint he

theorem expLoop_cache {x : Num} {p : Nat} {rm : RM} : ∀ {f pInc w : Nat} {c c' : ConstCache (Num × Num)}
    {r : Except Err Num} {w' : Nat}, CacheOk ERep EValOk c → x.expLoop p rm f pInc w c = some (r, c', w') →
    w' ≤ 2 ^ 61 → CacheOk ERep EValOk c' := by
  intro f
  induction f with
  | zero => intro pInc w c c' r w' _ h; simp [Num.expLoop] at h
  | succ f ih =>
    intro pInc w c c' r w' hc h hw'
    have hw := le_trans (expLoop_ge h) hw'
    rw [Num.expLoop] at h
    split at h
    · simp at h
    · rename_i he
      have := expPositive_cache hw hc he
      split at h <;> · injection h with h; injection h with _ h; injection h with h _; rw [← h]; exact this
    · rename_i he
      have h1 := expPositive_cache hw hc he
      split at h
      · injection h with h; injection h with _ h; injection h with h _; rw [← h]; exact h1
      · split at h
        · injection h with h; injection h with _ h; injection h with h _; rw [← h]; exact h1
        · injection h with h; injection h with _ h; injection h with h _; rw [← h]; exact h1
        · exact ih h1 h hw'

theorem ExpHist.ok {c : ConstCache (Num × Num)} (h : ExpHist c) : CacheOk ERep EValOk c := by
  induction h with
  | new h => exact (EHist.new h).ok
  | e h hp hc ih =>
    obtain ⟨r, c', h1, h2, -⟩ := constE_spec hp _ ih
    rw [h1] at hc
    injection hc with hc
    injection hc with _ hc
    rw [← hc]; exact h2
  | @exp c c' x p rm f r w h hp hc hw ih =>
    cases x with
    | nan e => injection hc with hc; injection hc with _ hc; injection hc with hc _; rw [← hc]; exact ih
    | inf s => injection hc with hc; injection hc with _ hc; injection hc with hc _; rw [← hc]; exact ih
    | num x =>
      unfold BF.expC at hc
      dsimp only at hc
      split at hc
      · cases hc
      · rename_i he
        injection hc with hc; injection hc with _ hc; injection hc with h1 h2
        rw [← h1]
        unfold Num.exp at he
        dsimp only at he
        split at he
        · split at he <;> · injection he with he; injection he with _ he; injection he with he _; rw [← he]; exact ih
        · split at he
          · injection he with he; injection he with _ he; injection he with he _; rw [← he]; exact ih
          · exact expLoop_cache ih he (by omega)

/-- The exponential of zero is one, exactly, in every mode. -/
theorem C61_zero {x : Num} (hx : x.WF) (h0 : (x.toK : ℚ) = 0) {p : Nat} (hp : ValidP p) (rm : RM) (f : Nat)
    (c : ConstCache (Num × Num)) :
    ∃ v, BF.expC (.num x) p rm f c = some (.num v, c, 0) ∧ v.WF ∧ 64 * v.m.m.length = precBits p ∧ v.s = .pos ∧
      (v.toK : ℚ) = 1 ∧ v.inexact = x.inexact := by
  have hz := hx.toK_eq_zero.1 h0
  have hp0 := hp.pos
  have hlt := hp.lt
  have hpp : ValidP (precBits p) := ⟨by unfold precBits; omega, by
    have : precBits (precBits p) = precBits p := by unfold precBits; omega
    rw [this]; exact hlt⟩
  obtain ⟨v, v1, v2, v3, v4, v5⟩ := fromWord_spec (K := ℚ) (d := 1) (p := precBits p) (by decide) hpp.pos
    (by unfold PMAX; omega)
  have hidem : precBits (precBits p) = precBits p := by unfold precBits; omega
  rw [hidem] at v3
  rw [Nat.cast_one] at v4
  refine ⟨{ v with inexact := x.inexact }, ?_, ⟨v2.wf, v2.bits, v2.emin, v2.emax, v2.norm, v2.sized⟩, v3,
    toK_sign_pos (x := v) (by rw [v4]; norm_num), v4, rfl⟩
  unfold BF.expC Num.exp
  dsimp only
  rw [hp.roundP, if_pos hz, v1]
  rfl

/-- Next to zero the result is `e^x` correctly rounded, in every mode and at every precision. -/
theorem C61_small {x : Num} (hx : x.WF) (h0 : (x.toK : ℚ) ≠ 0) {p : Nat} (hp : ValidP p)
    (he : ((max (precBits p) (64 * x.m.m.length) : ℕ) : ℤ) + 1 < -x.e) (rm : RM) (f : Nat) (c : ConstCache (Num × Num)) :
    ∃ v, BF.expC (.num x) p rm f c = some (.num v, c, 0) ∧ v.WF ∧ 64 * v.m.m.length = precBits p ∧ v.s = .pos ∧
      v.inexact = true ∧ RoundsFmt rm (precBits p) (Real.exp x.toK) v.toK := by
  have hz : x.isZero = false := by rw [← Bool.not_eq_true]; exact fun h => h0 (hx.toK_eq_zero.2 h)
  have hp0 := hp.pos
  obtain ⟨pw, hpw⟩ : ∃ pw, precBits p = 64 * pw := ⟨(p + 63) / 64, rfl⟩
  have hpw0 : 0 < pw := by unfold precBits at hpw; omega
  have hmb : x.m.maxBitLen = 64 * x.m.m.length := by unfold Mantissa.maxBitLen; omega
  rw [hpw] at he
  obtain ⟨v, v1, v2, v3⟩ := exp_small hx hz hpw0 (by push_cast at he; omega) rm
  refine ⟨v, ?_, v3.wf, by rw [hpw]; exact v3.prec, v3.sign, v3.inexact, by rw [hpw]; exact v2⟩
  unfold BF.expC Num.exp
  dsimp only
  rw [hp.roundP, hpw, hmb, if_neg (by simp [hz]), if_pos he, v1]
  rfl

/-- What is returned when `e^x` is in range. -/
theorem C61_outcome_partial {x : Num} (hx : x.WF) (h0 : (x.toK : ℚ) ≠ 0) (htop : Real.exp |(x.toK : ℝ)| ≤ 2 ^ (EMAX - 4))
    {p : Nat} (hp : ValidP p) (rm : RM) {f : Nat} {c c' : ConstCache (Num × Num)} (hc : ExpHist c) {r : BF} {w : Nat}
    (h : BF.expC (.num x) p rm f c = some (r, c', w)) (hw : w ≤ 2 ^ 22) :
    ∃ v, r = .num v ∧ ConstRounded rm (precBits p) (Real.exp x.toK) v := by
  have hz : x.isZero = false := by rw [← Bool.not_eq_true]; exact fun h => h0 (hx.toK_eq_zero.2 h)
  unfold BF.expC at h
  dsimp only at h
  split at h
  · cases h
  · rename_i he
    injection h with h; injection h with h h'; injection h' with h1 h2
    obtain ⟨-, v, v1, v2⟩ := exp_spec hx hz htop hp rm hc.ok he (by omega)
    refine ⟨v, ?_, v2⟩
    rw [← h, v1]; rfl

/-- In the directed modes it is `e^x` correctly rounded. -/
theorem C61_directed_partial {x : Num} (hx : x.WF) (h0 : (x.toK : ℚ) ≠ 0) (htop : Real.exp |(x.toK : ℝ)| ≤ 2 ^ (EMAX - 4))
    {p : Nat} (hp : ValidP p) {rm : RM} (hd : rm = .up ∨ rm = .down ∨ rm = .toZero ∨ rm = .fromZero) {f : Nat}
    {c c' : ConstCache (Num × Num)} (hc : ExpHist c) {r : BF} {w : Nat}
    (h : BF.expC (.num x) p rm f c = some (r, c', w)) (hw : w ≤ 2 ^ 22) :
    ∃ v, r = .num v ∧ RoundsFmt rm (precBits p) (Real.exp x.toK) v.toK ∧ 64 * v.m.m.length = precBits p ∧
      v.inexact = true := by
  obtain ⟨v, v1, v2⟩ := C61_outcome_partial hx h0 htop hp rm hc h hw
  exact ⟨v, v1, v2.directed hd, v2.prec, v2.inexact⟩

theorem exp_ge_of_top {x : Num} (htop : Real.exp |(x.toK : ℝ)| ≤ 2 ^ (EMAX - 4)) : (2 : ℝ) ^ (EMIN - 1) ≤ Real.exp x.toK := by
  have h1 : (2 : ℝ) ^ (-(EMAX - 4)) ≤ Real.exp x.toK := by
    rw [zpow_neg]
    refine le_trans (inv_anti₀ (Real.exp_pos _) htop) ?_
    rw [← Real.exp_neg]
    exact Real.exp_le_exp.2 (neg_abs_le _)
  exact le_trans (zpow_le_zpow_right₀ (by norm_num) (by unfold EMIN EMAX; norm_num)) h1

/-- In the directed modes the result does not depend on what the cache was used for before. -/
theorem C61_history_partial {x : Num} (hx : x.WF) (h0 : (x.toK : ℚ) ≠ 0) (htop : Real.exp |(x.toK : ℝ)| ≤ 2 ^ (EMAX - 4))
    {p : Nat} (hp : ValidP p) {rm : RM} (hd : rm = .up ∨ rm = .down ∨ rm = .toZero ∨ rm = .fromZero) {f₁ f₂ : Nat}
    {c₁ c₂ c₁' c₂' : ConstCache (Num × Num)} (hc₁ : ExpHist c₁) (hc₂ : ExpHist c₂) {r₁ r₂ : BF} {w₁ w₂ : Nat}
    (h₁ : BF.expC (.num x) p rm f₁ c₁ = some (r₁, c₁', w₁)) (h₂ : BF.expC (.num x) p rm f₂ c₂ = some (r₂, c₂', w₂))
    (hw₁ : w₁ ≤ 2 ^ 22) (hw₂ : w₂ ≤ 2 ^ 22) : r₁ = r₂ := by
  obtain ⟨v, rfl, v2⟩ := C61_outcome_partial hx h0 htop hp rm hc₁ h₁ hw₁
  obtain ⟨v', rfl, v2'⟩ := C61_outcome_partial hx h0 htop hp rm hc₂ h₂ hw₂
  have hP : 64 ≤ precBits p := by have := hp.pos; unfold precBits; omega
  rw [v2.unique_normal hd hP (exp_ge_of_top htop) v2']

/-- In the directed modes the function is monotone. -/
theorem C61_mono_partial {x y : Num} (hx : x.WF) (hy : y.WF) (hx0 : (x.toK : ℚ) ≠ 0) (hy0 : (y.toK : ℚ) ≠ 0)
    (htx : Real.exp |(x.toK : ℝ)| ≤ 2 ^ (EMAX - 4)) (hty : Real.exp |(y.toK : ℝ)| ≤ 2 ^ (EMAX - 4))
    (hxy : (x.toK : ℚ) ≤ y.toK) {p : Nat} (hp : ValidP p) {rm : RM}
    (hd : rm = .up ∨ rm = .down ∨ rm = .toZero ∨ rm = .fromZero) {f₁ f₂ : Nat} {c₁ c₂ c₁' c₂' : ConstCache (Num × Num)}
    (hc₁ : ExpHist c₁) (hc₂ : ExpHist c₂) {v₁ v₂ : Num} {w₁ w₂ : Nat}
    (h₁ : BF.expC (.num x) p rm f₁ c₁ = some (.num v₁, c₁', w₁)) (h₂ : BF.expC (.num y) p rm f₂ c₂ = some (.num v₂, c₂', w₂))
    (hw₁ : w₁ ≤ 2 ^ 22) (hw₂ : w₂ ≤ 2 ^ 22) : (v₁.toK : ℚ) ≤ v₂.toK := by
  obtain ⟨v, e1, v2, -⟩ := C61_directed_partial hx hx0 htx hp hd hc₁ h₁ hw₁
  obtain ⟨v', e2, v2', -⟩ := C61_directed_partial hy hy0 hty hp hd hc₂ h₂ hw₂
  injection e1 with e1
  injection e2 with e2
  rw [← e1] at v2
  rw [← e2] at v2'
  have hP : 0 < precBits p := by have := hp.pos; unfold precBits; omega
  have hxyR : (x.toK : ℝ) ≤ y.toK := by
    rw [← toK_ratCast x, ← toK_ratCast y]; exact_mod_cast hxy
  have := v2.mono hP v2' (Real.exp_le_exp.2 hxyR)
  rw [← toK_ratCast v₁, ← toK_ratCast v₂] at this
  exact_mod_cast this

/-- The first round returns a number in mode `None`, and in the directed modes unless the digits are exceptional. -/
theorem C61_number_partial {x : Num} (hx : x.WF) (h0 : (x.toK : ℚ) ≠ 0) (htop : Real.exp |(x.toK : ℝ)| ≤ 2 ^ (EMAX - 4))
    {p : Nat} (hp : ValidP p) {rm : RM} {c : ConstCache (Num × Num)} (hc : ExpHist c)
    (hw : max (precBits p) (64 * x.m.m.length) + 64 ≤ 2 ^ 22)
    (hs : rm = .none ∨ (rm = .up ∨ rm = .down ∨ rm = .toZero ∨ rm = .fromZero) ∧
      ¬ NearGrid (precBits p) 63 (Real.exp x.toK)) (f : Nat) :
    ∃ v c' w, BF.expC (.num x) p rm (f + 1) c = some (.num v, c', w) ∧ w ≤ 2 ^ 22 := by
  have hz : x.isZero = false := by rw [← Bool.not_eq_true]; exact fun h => h0 (hx.toK_eq_zero.2 h)
  obtain ⟨r, c', w, h1, h2⟩ := exp_number (f := f) hx hz htop hp hc.ok hw (by
    rcases hs with h | ⟨h, h'⟩
    · exact Or.inl h
    · exact Or.inr ⟨by rcases h with rfl | rfl | rfl | rfl <;> rfl, h'⟩)
  obtain ⟨-, v, rfl, -⟩ := exp_spec hx hz htop hp rm hc.ok h1 h2
  refine ⟨v, c', w, ?_, h2⟩
  unfold BF.expC
  dsimp only
  rw [h1]
  rfl

/-! ## Results out of range -/

theorem expC_of_over {x : Num} (hz : x.isZero = false) {p : Nat} (hp : ValidP p)
    (hs : ¬ ((max (precBits p) (64 * x.m.m.length) : ℕ) : ℤ) + 1 < -x.e) (rm : RM) {c c' : ConstCache (Num × Num)} {s : Sign}
    (h : x.expPositive (max (precBits p) (64 * x.m.m.length) + 64 + 2) c = some (.error (.exponentOverflow s), c')) (f : Nat) :
    BF.expC (.num x) p rm (f + 1) c =
      some (if x.isNegative then .num (Num.zero (precBits p) s x.inexact) else .inf s, c',
        max (precBits p) (64 * x.m.m.length) + 64) := by
  unfold BF.expC
  dsimp only
  rw [exp_of_over hz hp hs rm h f]
  dsimp only
  unfold Num.new2
  rw [if_neg (show ¬ precBits p ≥ PMAX by have := hp.lt; unfold PMAX; omega)]
  cases x.isNegative <;> cases s <;> rfl

theorem exp_one_lt_top : Real.exp 1 < (2 : ℝ) ^ (EMAX + 4) := by
  have h4 : (2 : ℝ) ^ (3 : ℤ) ≤ 2 ^ (EMAX + 4) := zpow_le_zpow_right₀ (by norm_num) (by unfold EMAX; norm_num)
  have h5 : Real.exp 1 < 4 := by linarith [Real.exp_one_lt_d9]
  refine lt_of_lt_of_le h5 (le_trans ?_ h4)
  norm_num

/-- Arguments above one half do not take the path for small arguments. -/
theorem not_small {x : Num} (hx : x.WF) (hz : x.isZero = false) (h : ¬ |(x.toK : ℝ)| ≤ 1 / 2) (n : Nat) :
    ¬ (n : ℤ) + 1 < -x.e := by
  intro hc
  apply h
  obtain ⟨q, -, q2, q3, -⟩ := hx.mag (K := ℝ) hz
  refine le_trans q2.le ?_
  rw [show (1 / 2 : ℝ) = 2 ^ (-1 : ℤ) by norm_num]
  exact zpow_le_zpow_right₀ (by norm_num) (by omega)

/-- Arguments from `2^64` on: `+Inf`, at every precision and in every mode. -/
theorem C61_overflow_far {x : Num} (hx : x.WF) (he : 64 < x.e) (h0 : 0 < (x.toK : ℚ)) {p : Nat} (hp : ValidP p)
    (rm : RM) (f : Nat) (c : ConstCache (Num × Num)) : ∃ w, BF.expC (.num x) p rm (f + 1) c = some (.inf .pos, c, w) := by
  have hz : x.isZero = false := by rw [← Bool.not_eq_true]; exact fun h => h0.ne' (hx.toK_eq_zero.2 h)
  have hs := toK_sign_pos h0
  rw [expC_of_over hz hp (by push_cast; omega) rm (expPositive_far he _ c) f]
  rw [if_neg (by simp [Num.isNegative, hs]), hs]
  exact ⟨_, rfl⟩

/-- Other arguments with `e^x` well above the largest number: `+Inf`. -/
theorem C61_overflow_partial {x : Num} (hx : x.WF) (hbig : (2 : ℝ) ^ (EMAX + 4) ≤ Real.exp x.toK) {p : Nat}
    (hp : ValidP p) (hw : max (precBits p) (64 * x.m.m.length) + 64 ≤ 2 ^ 22) (rm : RM) (f : Nat)
    {c : ConstCache (Num × Num)} (hc : ExpHist c) :
    ∃ c' w, BF.expC (.num x) p rm (f + 1) c = some (.inf .pos, c', w) := by
  have hE1 : 1 < Real.exp (x.toK : ℝ) := by
    refine lt_of_lt_of_le ?_ hbig
    exact one_lt_zpow₀ (by norm_num) (by unfold EMAX; norm_num)
  have hR : (0 : ℝ) < x.toK := Real.one_lt_exp_iff.1 hE1
  have h0 : 0 < (x.toK : ℚ) := by
    rw [← toK_ratCast x] at hR; exact_mod_cast hR
  by_cases he : 64 < x.e
  · obtain ⟨w, h⟩ := C61_overflow_far hx he h0 hp rm f c
    exact ⟨c, w, h⟩
  · have hz : x.isZero = false := by rw [← Bool.not_eq_true]; exact fun h => h0.ne' (hx.toK_eq_zero.2 h)
    have hs := toK_sign_pos h0
    have hp0 := hp.pos
    have h64 : 64 ∣ max (precBits p) (64 * x.m.m.length) + 64 := by unfold precBits; omega
    have h128 : 128 ≤ max (precBits p) (64 * x.m.m.length) + 64 := by unfold precBits; omega
    obtain ⟨c', h1, -⟩ := expPositive_over hx hz (by omega) h64 h128 hw hc.ok (by rw [abs_of_pos hR]; exact hbig)
    rw [expC_of_over hz hp ?_ rm h1 f, if_neg (by simp [Num.isNegative, hs])]
    · exact ⟨_, _, rfl⟩
    · have h31 : ¬ |(x.toK : ℝ)| ≤ 1 / 2 := by
        rw [abs_of_pos hR]
        exact fun hle => absurd (le_trans hbig (Real.exp_le_exp.2 (le_trans hle (by norm_num)))) (not_le.2 exp_one_lt_top)
      exact not_small hx hz h31 _

/-- Large negative arguments give a zero in every mode, marked exact if the argument is. -/
theorem C61_underflow {x : Num} (hx : x.WF) (hneg : (x.toK : ℚ) < 0) (hbig : (2 : ℝ) ^ (EMAX + 4) ≤ Real.exp (-x.toK))
    (he : x.e ≤ 64) {p : Nat} (hp : ValidP p) (hw : max (precBits p) (64 * x.m.m.length) + 64 ≤ 2 ^ 22) (rm : RM) (f : Nat)
    {c : ConstCache (Num × Num)} (hc : ExpHist c) :
    ∃ c' w, BF.expC (.num x) p rm (f + 1) c = some (.num (Num.zero (precBits p) .pos x.inexact), c', w) := by
  have hz : x.isZero = false := by rw [← Bool.not_eq_true]; exact fun h => hneg.ne (hx.toK_eq_zero.2 h)
  have hs := toK_sign_neg hneg
  have hR : (x.toK : ℝ) < 0 := by
    rw [← toK_ratCast x]; exact_mod_cast hneg
  have hp0 := hp.pos
  have h64 : 64 ∣ max (precBits p) (64 * x.m.m.length) + 64 := by unfold precBits; omega
  have h128 : 128 ≤ max (precBits p) (64 * x.m.m.length) + 64 := by unfold precBits; omega
  obtain ⟨c', h1, -⟩ := expPositive_over hx hz he h64 h128 hw hc.ok (by rw [abs_of_neg hR]; exact hbig)
  rw [expC_of_over hz hp ?_ rm h1 f, if_pos (by simp [Num.isNegative, hs])]
  · exact ⟨_, _, rfl⟩
  · have h31 : ¬ |(x.toK : ℝ)| ≤ 1 / 2 := by
      rw [abs_of_neg hR]
      exact fun hle => absurd (le_trans hbig (Real.exp_le_exp.2 (le_trans hle (by norm_num)))) (not_le.2 exp_one_lt_top)
    exact not_small hx hz h31 _

/-- For arguments from `-2^64` down the zero has a minus sign. -/
theorem C61_underflow_far {x : Num} (hx : x.WF) (he : 64 < x.e) (h0 : (x.toK : ℚ) < 0) {p : Nat} (hp : ValidP p)
    (rm : RM) (f : Nat) (c : ConstCache (Num × Num)) :
    ∃ w, BF.expC (.num x) p rm (f + 1) c = some (.num (Num.zero (precBits p) .neg x.inexact), c, w) := by
  have hz : x.isZero = false := by rw [← Bool.not_eq_true]; exact fun h => h0.ne (hx.toK_eq_zero.2 h)
  have hs := toK_sign_neg h0
  rw [expC_of_over hz hp (by push_cast; omega) rm (expPositive_far he _ c) f]
  rw [if_pos (by simp [Num.isNegative, hs]), hs]
  exact ⟨_, rfl⟩

/-- From `2^32` bits on the exponential of numbers from 1 on is infinite, and of numbers up to -1 it is zero. -/
theorem C61_precision {x : Num} (hx : x.WF) (h1 : 1 ≤ |(x.toK : ℚ)|) (he : x.e ≤ 64) {p : Nat} (hp : 2 ^ 32 ≤ p)
    (hw : max (precBits p) (64 * x.m.m.length) + 128 < PMAX) (rm : RM) (f : Nat) {c : ConstCache (Num × Num)}
    (hc : ExpHist c) :
    ∃ c' w, BF.expC (.num x) p rm (f + 1) c =
      some (if (x.toK : ℚ) < 0 then .num (Num.zero (precBits p) .pos x.inexact) else .inf .pos, c', w) := by
  have hPM : PMAX = 2 ^ 62 - 2 ^ 31 - 1 := rfl
  have hz : x.isZero = false := by
    rw [← Bool.not_eq_true]
    intro h
    rw [hx.toK_eq_zero.2 h, abs_zero] at h1
    norm_num at h1
  have hR : (1 : ℝ) ≤ |(x.toK : ℝ)| := by
    rw [← toK_ratCast x, ← Rat.cast_abs]; exact_mod_cast h1
  have hpv : ValidP p := ⟨by omega, by unfold precBits at hw ⊢; omega⟩
  have h64 : 64 ∣ max (precBits p) (64 * x.m.m.length) + 64 := by unfold precBits; omega
  obtain ⟨c', h2, -⟩ := expPositive_prec hx hz he hR h64 (by unfold precBits; omega) (by omega) hc.ok
  rw [expC_of_over hz hpv (not_small hx hz (by push Not; linarith) _) rm h2 f]
  refine ⟨c', max (precBits p) (64 * x.m.m.length) + 64, ?_⟩
  by_cases hn : (x.toK : ℚ) < 0
  · rw [if_pos hn, if_pos (by simp [Num.isNegative, toK_sign_neg hn])]
  · have h3 : 0 < (x.toK : ℚ) := by
      rcases lt_trichotomy (x.toK : ℚ) 0 with h | h | h
      · exact absurd h hn
      · rw [h, abs_zero] at h1; norm_num at h1
      · exact h
    rw [if_neg hn, if_neg (by simp [Num.isNegative, toK_sign_pos h3])]

/-- `-2^65`. -/
def exFar : Num := ⟨66, .neg, ⟨[MSB], 64⟩, false⟩

theorem exFar_case (rm : RM) : ∃ c c' w, ExpHist c ∧ exFar.WF ∧ (exFar.toK : ℚ) < 0 ∧ ValidP 64 ∧
    BF.expC (.num exFar) 64 rm 1 c = some (.num (Num.zero 64 .neg false), c', w) := by
  obtain ⟨c, hc, -⟩ := C58_new
  have hw : exFar.WF := Num.WF_of_check (by decide +kernel)
  have hn : (exFar.toK : ℚ) < 0 := by
    have h0 : exFar.isZero = false := by decide +kernel
    have h1 : (exFar.toK : ℚ) ≠ 0 := fun h => by rw [hw.toK_eq_zero.1 h] at h0; cases h0
    have h2 : (exFar.toK : ℚ) ≤ 0 := by
      rw [Num.toK_eq]
      have : exFar.s = .neg := rfl
      rw [this]; simp [Sign.toK]
    exact lt_of_le_of_ne h2 h1
  have hp : ValidP 64 := ⟨by norm_num, by decide⟩
  obtain ⟨w, h⟩ := C61_underflow_far hw (by decide) hn hp rm 0 c
  exact ⟨c, c, w, .new hc, hw, hn, hp, h⟩

/-- The exponential is not always returned with a plus sign. -/
theorem C61_sign_refuted : ¬ ∀ (x : Num) (p : Nat) (rm : RM) (f : Nat) (c c' : ConstCache (Num × Num)) (v : Num) (w : Nat),
    x.WF → ValidP p → ExpHist c → BF.expC (.num x) p rm f c = some (.num v, c', w) → v.s = .pos := by
  intro h
  obtain ⟨c, c', w, h1, h2, -, h4, h5⟩ := exFar_case .up
  cases h _ _ _ _ _ _ _ _ h2 h4 h1 h5

/-- The exponential of a number other than zero is not always marked inexact. -/
theorem C61_inexact_refuted : ¬ ∀ (x : Num) (p : Nat) (rm : RM) (f : Nat) (c c' : ConstCache (Num × Num)) (v : Num) (w : Nat),
    x.WF → (x.toK : ℚ) ≠ 0 → ValidP p → ExpHist c → BF.expC (.num x) p rm f c = some (.num v, c', w) → v.inexact = true := by
  intro h
  obtain ⟨c, c', w, h1, h2, h3, h4, h5⟩ := exFar_case .up
  cases h _ _ _ _ _ _ _ _ h2 h3.ne h4 h1 h5

/-- In mode `Up` the result is not always an upper bound. -/
theorem C61_rounding_refuted : ¬ ∀ (x : Num) (p : Nat) (f : Nat) (c c' : ConstCache (Num × Num)) (v : Num) (w : Nat),
    x.WF → ValidP p → ExpHist c → BF.expC (.num x) p .up f c = some (.num v, c', w) → Real.exp x.toK ≤ v.toK := by
  intro h
  obtain ⟨c, c', w, h1, h2, -, h4, h5⟩ := exFar_case .up
  have h6 := h _ _ _ _ _ _ _ h2 h4 h1 h5
  have h7 : ((Num.zero 64 .neg false).toK : ℝ) = 0 := by
    have : (Num.zero 64 .neg false).WF := Num.WF_of_check (by decide +kernel)
    exact this.toK_eq_zero.2 (by decide +kernel)
  rw [h7] at h6
  exact absurd h6 (not_le.2 (Real.exp_pos _))

/-- The exponential of 1 is not a number at every precision. -/
theorem C61_precision_refuted : ¬ ∀ (p : Nat) (rm : RM) (f : Nat) (c : ConstCache (Num × Num)), ValidP p → ExpHist c →
    ∃ v c' w, BF.expC (.num Num.ONE) p rm (f + 1) c = some (.num v, c', w) := by
  intro h
  obtain ⟨c, hc, -⟩ := C58_new
  have hp : ValidP (2 ^ 32) := ⟨by norm_num, by decide⟩
  obtain ⟨v, c', w, h1⟩ := h _ .up 0 c hp (.new hc)
  have hone : (Num.ONE.toK : ℚ) = 1 := ONE_toK
  obtain ⟨c'', w', h2⟩ := C61_precision ONE_WF (by rw [hone]; norm_num) (by decide) (le_refl _) (by decide +kernel) .up 0
    (.new hc)
  rw [if_neg (by rw [hone]; norm_num), h1] at h2
  injection h2 with h2
  injection h2 with h2 _
  cases h2

/-! ## Concrete cases -/

/-- `-1/2`. -/
def exMinusHalf : Num := ⟨0, .neg, ⟨[MSB], 64⟩, false⟩

theorem exMinusHalf_toK : (exMinusHalf.toK : ℝ) = -(1 / 2) := by
  unfold Num.toK exMinusHalf
  simp only [val, Sign.toK, List.length_cons, List.length_nil, MSB]
  norm_num

theorem exMinusHalf_top : Real.exp |(exMinusHalf.toK : ℝ)| ≤ 2 ^ (EMAX - 4) := by
    rw [exMinusHalf_toK, abs_neg, abs_of_pos (by norm_num)]
    have h2 := Real.exp_le_exp.2 (show (1 / 2 : ℝ) ≤ 1 by norm_num)
    have h4 : (2 : ℝ) ^ (2 : ℤ) ≤ 2 ^ (EMAX - 4) := zpow_le_zpow_right₀ (by norm_num) (by unfold EMAX; norm_num)
    have h5 : Real.exp 1 ≤ 4 := by linarith [Real.exp_one_lt_d9]
    refine le_trans h2 (le_trans h5 (le_trans ?_ h4))
    norm_num

set_option maxRecDepth 100000 in
/-- `e^(-1/2)` with 64 bits, rounded up, from a new cache: the hypotheses hold and the number is known. -/
example : ∃ c v c' w, ExpHist c ∧ exMinusHalf.WF ∧ (exMinusHalf.toK : ℚ) ≠ 0 ∧
    Real.exp |(exMinusHalf.toK : ℝ)| ≤ 2 ^ (EMAX - 4) ∧ ValidP 64 ∧
    BF.expC (.num exMinusHalf) 64 .up 1 c = some (.num v, c', w) ∧ w ≤ 2 ^ 22 ∧
    v.m.m = [11188515852577165300] ∧ v.e = 0 ∧ RoundsFmt .up 64 (Real.exp (-(1 / 2))) v.toK := by
  obtain ⟨c, h1, -⟩ := C58_new
  have hw : exMinusHalf.WF := Num.WF_of_check (by decide +kernel)
  have h0 : (exMinusHalf.toK : ℚ) ≠ 0 := by
    intro h
    have : exMinusHalf.isZero = false := by decide +kernel
    rw [hw.toK_eq_zero.1 h] at this; cases this
  have htop := exMinusHalf_top
  have hp : ValidP 64 := ⟨by norm_num, by decide⟩
  have h2 : (match eNew with
    | .ok c => match BF.expC (.num exMinusHalf) 64 .up 1 c with
      | some (.num v, _, w) => v.m.m == [11188515852577165300] && v.e == 0 && w == 128
      | _ => false
    | _ => false) = true := by decide +kernel
  rw [h1] at h2
  dsimp only at h2
  cases h3 : BF.expC (.num exMinusHalf) 64 .up 1 c with
  | none => rw [h3] at h2; cases h2
  | some r =>
    obtain ⟨b, c', w⟩ := r
    rw [h3] at h2
    cases b with
    | nan e => cases h2
    | inf s => cases h2
    | num v =>
      simp at h2
      obtain ⟨⟨h4, h5⟩, h6⟩ := h2
      have hr := C61_directed_partial hw h0 htop hp (Or.inl rfl) (.new h1) h3 (by omega)
      obtain ⟨v', e1, e2, -⟩ := hr
      injection e1 with e1
      rw [← e1, exMinusHalf_toK] at e2
      exact ⟨c, v, c', w, .new h1, hw, h0, htop, hp, h3, by omega, h4, h5, e2⟩

/-- An argument next to zero. -/
def exNearZero : Num := ⟨-100, .neg, ⟨[MSB], 64⟩, false⟩

set_option maxRecDepth 100000 in
example : exNearZero.WF ∧ (exNearZero.toK : ℚ) ≠ 0 ∧ ((max (precBits 64) (64 * exNearZero.m.m.length) : ℕ) : ℤ) + 1 < -exNearZero.e ∧
    ∀ c, BF.expC (.num exNearZero) 64 .down 1 c = some (.num ⟨0, .pos, ⟨[WMAX], 64⟩, true⟩, c, 0) := by
  have hw : exNearZero.WF := Num.WF_of_check (by decide +kernel)
  refine ⟨hw, ?_, by decide +kernel, fun c => ?_⟩
  · intro h
    have : exNearZero.isZero = false := by decide +kernel
    rw [hw.toK_eq_zero.1 h] at this; cases this
  · have h1 : Num.ONE.smallExp true 64 .down = .ok ⟨0, .pos, ⟨[WMAX], 64⟩, true⟩ := by decide +kernel
    have h2 : roundP 64 = 64 := by decide +kernel
    unfold BF.expC Num.exp
    dsimp only
    rw [h2, if_neg (by decide +kernel), if_pos (by decide +kernel)]
    rw [show exNearZero.isNegative = true from rfl, h1]
    rfl

/-- A precision at which the exponential of 1 is infinite. -/
example : Num.ONE.WF ∧ (2 : ℕ) ^ 32 ≤ 2 ^ 32 ∧ max (precBits (2 ^ 32)) (64 * Num.ONE.m.m.length) + 128 < PMAX ∧
    Num.ONE.e ≤ 64 := ⟨ONE_WF, le_refl _, by decide +kernel, by decide⟩

end AF
