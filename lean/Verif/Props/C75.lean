import Verif.Lemmas.AsinOne
/-!
# C75: the arcsine

The full claim: for every number `x` between -1 and 1, every precision, every rounding mode and whatever was asked of the cache
before, `asin` returns `arcsin x` correctly rounded, marked inexact unless `x` is zero; outside of that range and at the
infinities the result is NaN.

Proved: the values at zeros, NaN and the infinities, and the error above one (`C75_zero`, `C75_nan`, `C75_inf`,
`C75_domain`). At 1 and -1 up to 4096 bits `pi/2` and `-pi/2` are correctly rounded in the four directed modes, with the
direction that belongs to the sign (`C75_one_partial`; compare `C74_inf_refuted`). Next to zero the result is correctly rounded in all
modes and at every precision (`C75_small`). For the other arguments a result obtained with a working precision up to `2^17 - 64`
bits is a number with the sign of `x`, correctly rounded in the four directed modes and within the bounds of `FunRounded` in
the other modes (`C75_outcome_partial`, `C75_directed_partial`). Above 7/10 the inner `atan` uses the constant pi (C73), which
is known to be pi up to 4096 bits; there the working precision is at most 4096 bits, or the formula of Chudnovsky and
Chudnovsky is a hypothesis (`AsinCov`). In the directed modes the result does not depend on the history of the cache or on the
precision of the argument (`C75_history_partial`), grows with the argument (`C75_mono_partial`) and is odd
(`C75_odd_partial`). In mode `None` the first round of the loop returns such a number (`C75_number_partial`).

Missing: arguments in the two lowest binades and subnormal arguments, correct rounding in the nearest modes, larger working
precisions, the end of the loop in the other modes: there the inner `atan` rounds a perturbed argument, which no statement
about the digits of `arcsin x` covers.
-/

namespace AF

/-- The caches that exist after `PiCache::new` and any number of calls with valid precisions. -/
inductive AsinHist : Num.PiCache → Prop
  | new {c} : piNew = .ok c → AsinHist c
  | pi {c c' p rm r} : AsinHist c → ValidP p → constPi p rm c = some (r, c') → AsinHist c'
  | atan {c c' x p rm f r w} : AsinHist c → ValidP p → p ≤ 2 ^ 41 → BF.atanC x p rm f c = some (r, c', w) → w ≤ 2 ^ 40 → AsinHist c'
  | asin {c c' x p rm f r w} : AsinHist c → ValidP p → p ≤ 2 ^ 41 → BF.asinC x p rm f c = some (r, c', w) → w ≤ 2 ^ 40 → AsinHist c'

theorem wrapPi_num {g : Num → Nat → RM → Nat → Num.PiCache → Option (Except Err Num × Num.PiCache × Nat)}
    {x : Num} {p : Nat} {rm : RM} {f : Nat} {c c' : Num.PiCache} {r : BF} {w : Nat}
    (h : BF.wrapPi g (.num x) p rm f c = some (r, c', w)) :
    ∃ r', g x p rm f c = some (r', c', w) ∧ r = BF.resultToExt r' x.isZero true := by
  unfold BF.wrapPi at h
  dsimp only at h
  split at h
  · cases h
  · rename_i h1
    injection h with h
    injection h with h h'
    injection h' with h' h''
    rw [← h', ← h'']
    exact ⟨_, h1, h.symm⟩

theorem constPi_keep {p : Nat} (hp : ValidP p) {rm : RM} {c c' : Num.PiCache} {r : BF} (hc : PiOk c) (h : constPi p rm c = some (r, c')) :
    PiOk c' := by
  obtain ⟨r, c', h1, h2, -⟩ := constPi_spec hp rm hc
  rw [h1] at h
  injection h with h
  injection h with _ h
  rw [← h]; exact h2

theorem atanC_keep {x : BF} {p : Nat} (hp : 0 < p) (hp2 : p ≤ 2 ^ 41) {rm : RM} {f : Nat} {c c' : Num.PiCache} {r : BF} {w : Nat}
    (ih : PiOk c) (hc : BF.atanC x p rm f c = some (r, c', w)) (hw : w ≤ 2 ^ 40) : PiOk c' := by
  cases x with
  | nan e =>
    injection hc with hc
    injection hc with _ hc
    injection hc with hc _
    rw [← hc]; exact ih
  | inf s =>
    unfold BF.atanC BF.halfPiC at hc
    dsimp only at hc
    cases h1 : piForPrec (roundP p) rm c with
    | none => rw [h1] at hc; cases hc
    | some r =>
      rw [h1] at hc
      injection hc with hc
      injection hc with _ hc
      injection hc with hc _
      rw [← hc]
      exact piForPrec_keep (r := r.1) hp hp2 ih h1
  | num x =>
    obtain ⟨r', h2, -⟩ := atanC_num hc
    exact atan_keep ih h2 hw

theorem asinC_keep {x : BF} {p : Nat} (hp : 0 < p) (hp2 : p ≤ 2 ^ 41) {rm : RM} {f : Nat} {c c' : Num.PiCache} {r : BF} {w : Nat}
    (ih : PiOk c) (hc : BF.asinC x p rm f c = some (r, c', w)) (hw : w ≤ 2 ^ 40) : PiOk c' := by
  cases x with
  | nan e =>
    injection hc with hc
    injection hc with _ hc
    injection hc with hc _
    rw [← hc]; exact ih
  | inf s =>
    injection hc with hc
    injection hc with _ hc
    injection hc with hc _
    rw [← hc]; exact ih
  | num x =>
    obtain ⟨r', h2, -⟩ := wrapPi_num hc
    exact asin_keep hp hp2 ih h2 hw

theorem AsinHist.ok {c : Num.PiCache} (h : AsinHist c) : PiOk c := by
  induction h with
  | new h => exact (PiHist.new h).ok
  | pi h hp hc ih => exact constPi_keep hp ih hc
  | atan h hp hp2 hc hw ih => exact atanC_keep hp.pos hp2 ih hc hw
  | asin h hp hp2 hc hw ih => exact asinC_keep hp.pos hp2 ih hc hw

/-- NaN. -/
theorem C75_nan (e : Option Err) (p : Nat) (rm : RM) (f : Nat) (c : Num.PiCache) : BF.asinC (.nan e) p rm f c = some (.nan e, c, 0) := rfl

/-- The infinities. -/
theorem C75_inf (s : Sign) (p : Nat) (rm : RM) (f : Nat) (c : Num.PiCache) : BF.asinC (.inf s) p rm f c = some (.nan none, c, 0) := rfl

/-- The value at a zero is a zero of the same sign, exactly, in every mode. -/
theorem C75_zero {x : Num} (hx : x.WF) (h0 : (x.toK : ℚ) = 0) {p : Nat} (hp : ValidP p) (rm : RM) (f : Nat) (c : Num.PiCache) :
    ∃ v, BF.asinC (.num x) p rm f c = some (.num v, c, 0) ∧ v.WF ∧ 64 * v.m.m.length = precBits p ∧ v.s = x.s ∧
      (v.toK : ℚ) = 0 ∧ v.inexact = x.inexact := by
  have hz := hx.toK_eq_zero.1 h0
  have hlt := hp.lt
  have hPM : PMAX = 2 ^ 62 - 2 ^ 31 - 1 := rfl
  have hv := zero_WF (p := precBits p) (by unfold wordLen precBits at *; omega) x.s x.inexact
  refine ⟨Num.zero (precBits p) x.s x.inexact, ?_, hv, ?_, rfl, zero_toK _ _ _, rfl⟩
  · unfold BF.asinC BF.wrapPi Num.asin
    dsimp only
    rw [hp.roundP, if_pos hz]
    unfold Num.new2
    rw [if_neg (by omega)]
    rfl
  · simp only [Num.zero, Mantissa.new, List.length_replicate]
    unfold wordLen precBits; omega

theorem abs_cast (x : Num) : |(x.toK : ℝ)| = ((|(x.toK : ℚ)| : ℚ) : ℝ) := by
  rw [Rat.cast_abs, toK_ratCast]

/-- Beyond one the result is NaN with the error "invalid argument". -/
theorem C75_domain {x : Num} (hx : x.WF) (h1 : 1 < |(x.toK : ℚ)|) (p : Nat) (rm : RM) (f : Nat) (c : Num.PiCache) :
    BF.asinC (.num x) p rm f c = some (.nan (some .invalidArgument), c, 0) := by
  have h0 : (x.toK : ℚ) ≠ 0 := by
    intro h
    rw [h, abs_zero] at h1
    linarith
  have hz := nz_of_ne hx h0
  have hgt : x.absCmp Num.ONE > 0 := by
    rw [(absCmp_one hx hz).1, abs_cast]
    exact_mod_cast h1
  unfold BF.asinC BF.wrapPi Num.asin
  dsimp only
  rw [hz, if_neg Bool.false_ne_true, if_pos hgt]
  rfl

theorem Rounds.double {rm : RM} {x u r : ℝ} (h : Rounds rm x u r) : Rounds rm (x * 2) (u * 2) (r * 2) := by
  obtain ⟨k, h1, h2⟩ := h
  refine ⟨k, by rw [h1]; ring, ?_⟩
  have a2 : |(2 : ℝ)| = 2 := abs_two
  have ax : |x * 2| = |x| * 2 := by rw [abs_mul, a2]
  have ar : |r * 2| = |r| * 2 := by rw [abs_mul, a2]
  have axr : |x * 2 - r * 2| = |x - r| * 2 := by rw [← sub_mul, abs_mul, a2]
  have am : x * 2 * (r * 2) = x * r * 4 := by ring
  cases rm <;> dsimp only at h2 ⊢ <;> try simp only [ax, ar, axr, am]
  all_goals first
    | exact ⟨by linarith [h2.1], by linarith [h2.2.1], by linarith [h2.2.2]⟩
    | exact ⟨by linarith [h2.1], by linarith [h2.2]⟩
    | exact ⟨by linarith [h2.1], fun h => h2.2 (by linarith)⟩

theorem RoundsFmt.double {rm : RM} {P : Nat} {x r : ℝ} (h : RoundsFmt rm P x r) (hx : (2 : ℝ) ^ EMIN ≤ |x|) :
    RoundsFmt rm P (x * 2) (r * 2) := by
  have h0 : (0 : ℝ) < 2 ^ EMIN := by positivity
  rcases h with ⟨h, -⟩ | ⟨q, h1, h2, h3⟩
  · rw [h, abs_zero] at hx; linarith
  · have hq := (zpow_lt_zpow_iff_right₀ (by norm_num : (1 : ℝ) < 2)).1 (lt_of_le_of_lt hx h2)
    have e : ∀ z : ℤ, (2 : ℝ) ^ (z + 1) = 2 ^ z * 2 := fun z => by rw [zpow_add₀ (by norm_num), zpow_one]
    refine Or.inr ⟨q + 1, ?_, ?_, ?_⟩
    · rw [show q + 1 - 1 = q - 1 + 1 by ring, e, abs_mul, abs_two]; linarith
    · rw [e, abs_mul, abs_two]; linarith
    · have h4 := h3.double
      rw [← e, show max q EMIN - (P : ℤ) + 1 = max (q + 1) EMIN - (P : ℤ) by omega] at h4
      exact h4

theorem invertRm_twice (rm : RM) : invertRm (invertRm rm) = rm := by cases rm <;> rfl

/-- At one and minus one, up to 4096 bits: `pi/2` and `-pi/2` correctly rounded. -/
theorem C75_one_partial {x : Num} (hx : x.WF) (h1 : |(x.toK : ℚ)| = 1) {p : Nat} (hp : 0 < p) (hp12 : p ≤ 4096) {rm : RM}
    (hd : rm = .up ∨ rm = .down ∨ rm = .toZero ∨ rm = .fromZero) {c : Num.PiCache} (hc : AsinHist c) (f : Nat) :
    ∃ v c', BF.asinC (.num x) p rm f c = some (.num v, c', 0) ∧ v.WF ∧ v.s = x.s ∧ 64 * v.m.m.length = precBits p ∧
      v.inexact = true ∧ RoundsFmt rm (precBits p) (Real.arcsin x.toK) v.toK ∧ Real.arcsin x.toK = x.toK * (Real.pi / 2) := by
  have hk : precBits p = 64 * ((p + 63) / 64) := rfl
  have hPM : PMAX = 2 ^ 62 - 2 ^ 31 - 1 := rfl
  have hv : ValidP p := ⟨hp, by omega⟩
  have h1' : |(x.toK : ℝ)| = 1 := by rw [abs_cast, h1, Rat.cast_one]
  have hz : x.isZero = false := nz_of_ne hx (by intro h; rw [h, abs_zero] at h1; norm_num at h1)
  obtain ⟨b1, b2⟩ := chudPi_small
  have hpi := Real.pi_gt_three
  obtain ⟨r, c', o1, o2, o3, o4⟩ := asin_one hx h1' hv (by omega) rm hc.ok f
  obtain ⟨v, rfl⟩ := o4 (Or.inr ⟨by rcases hd with rfl | rfl | rfl | rfl <;> rfl, by rw [hk]; exact pi_not_near (by omega) (by omega)⟩) (by omega)
  rcases o3 with ⟨v', e, h3⟩ | ⟨_, e⟩
  · injection e with e
    subst e
    obtain ⟨t1, t2⟩ := abs_one_sign h1'
    have hs : v.s = x.s := by
      cases hs : x.s with
      | pos => rw [hs, Sign.toK] at h3; exact h3.pos (by linarith)
      | neg => rw [hs, Sign.toK] at h3; exact h3.neg (by linarith)
    refine ⟨v, c', ?_, h3.wf, hs, h3.prec, h3.inexact, ?_, by rw [t2, t1]⟩
    · unfold BF.asinC BF.wrapPi
      dsimp only
      rw [o1]
      rfl
    · -- back to pi itself, then to its half
      have key : ∀ {rm : RM}, (rm = .up ∨ rm = .down ∨ rm = .toZero ∨ rm = .fromZero) → ∀ {z : ℝ},
          RoundsFmt rm (precBits p) (chudPi / 2) z → RoundsFmt rm (precBits p) (Real.pi / 2) z := by
        intro rm hd z h
        have e2 : (2 : ℝ) ^ EMIN ≤ 1 := zpow_le_one_of_nonpos₀ (by norm_num) (by unfold EMIN; omega)
        have h5 := RoundsFmt.double h (by rw [abs_of_pos (by linarith)]; linarith)
        rw [show chudPi / 2 * 2 = chudPi by ring, hk] at h5
        have h6 := (rounds_pi hd (by omega) (by omega) h5).half (by rw [abs_of_pos Real.pi_pos]; linarith)
        rw [← hk, show z * 2 / 2 = z by ring] at h6
        exact h6
      have h4 := h3.directed hd
      rw [t2]
      cases hxs : x.s with
      | pos =>
        rw [hxs, Sign.toK, one_mul] at h4
        rw [Sign.toK, one_mul]
        exact key hd h4
      | neg =>
        rw [hxs, Sign.toK, neg_one_mul] at h4
        rw [Sign.toK, neg_one_mul]
        rw [← invertRm_twice rm] at h4
        have h5 := h4.neg
        rw [neg_neg] at h5
        have h6 := (key (by rw [← RM.mirror_eq]; exact RM.mirror_directed hd) h5).neg
        rw [neg_neg] at h6
        exact h6
  · cases e

theorem arcsin_sign {x : Num} (h0 : (x.toK : ℚ) ≠ 0) {rm : RM} {P : Nat} {v : Num}
    (h : FunRounded rm P (Real.arcsin x.toK) v) : v.s = x.s := by
  have h2 : 0 < |(x.toK : ℝ)| := by
    rw [abs_pos, ← toK_ratCast x]; exact_mod_cast h0
  have h3 := Real.arcsin_pos.2 h2
  have h4 := sign_arcsin x
  cases hs : x.s with
  | pos => rw [hs, Sign.toK, one_mul] at h4; exact h.pos (by rw [h4]; linarith)
  | neg => rw [hs, Sign.toK] at h4; exact h.neg (by rw [h4]; linarith)

/-- Next to zero the result is `arcsin x` correctly rounded, in every mode and at every precision. -/
theorem C75_small {x : Num} (hx : x.WF) (h0 : (x.toK : ℚ) ≠ 0) (hlo : EMIN + 2 ≤ x.e) {p : Nat} (hp : ValidP p)
    (he : ((max (precBits p) (64 * x.m.m.length) : ℕ) : ℤ) + 1 < -(x.e * 2 - 2)) (rm : RM) (f : Nat) (c : Num.PiCache) :
    ∃ v, BF.asinC (.num x) p rm f c = some (.num v, c, 0) ∧ v.WF ∧ 64 * v.m.m.length = precBits p ∧ v.s = x.s ∧
      v.inexact = true ∧ RoundsFmt rm (precBits p) (Real.arcsin x.toK) v.toK := by
  have hz := nz_of_ne hx h0
  have hp0 := hp.pos
  have hE : EMIN = -2 ^ 31 := rfl
  obtain ⟨pw, hpw⟩ : ∃ pw, precBits p = 64 * pw := ⟨(p + 63) / 64, rfl⟩
  have hpw0 : 0 < pw := by unfold precBits at hpw; omega
  have hmb : x.m.maxBitLen = 64 * x.m.m.length := by unfold Mantissa.maxBitLen; omega
  rw [hpw] at he
  obtain ⟨v, v1, v2, v3⟩ := asin_small hx hz hlo hpw0 he rm
  have hlt1 : |(x.toK : ℝ)| < 1 := by
    obtain ⟨q, q1, q2, q3, -⟩ := hx.mag (K := ℝ) hz
    exact lt_of_lt_of_le q2 (zpow_le_one_of_nonpos₀ (by norm_num) (by omega))
  have hcmp := (absCmp_one hx hz).2.2 hlt1
  refine ⟨v, ?_, v3.wf, by rw [hpw]; exact v3.prec, arcsin_sign h0 v3, v3.inexact, by rw [hpw]; exact v2⟩
  unfold BF.asinC BF.wrapPi Num.asin
  dsimp only
  rw [hp.roundP, hpw, hz, if_neg Bool.false_ne_true, if_neg (by omega), if_neg (by omega), hmb, if_pos he, v1]
  rfl

/-- Where the constant pi used for the argument `x` at the working precision `w` is known to be pi: up to 7/10 it is not used,
up to 4096 bits it has been checked, and otherwise the formula behind it is a hypothesis. -/
def AsinCov (x : Num) (w : Nat) : Prop := |(x.toK : ℚ)| ≤ 7 / 10 ∨ w ≤ 4096 ∨ chudPi = Real.pi

theorem AsinCov.pi_close {x : Num} {w : Nat} (h : AsinCov x w) :
    7 / 10 < |(x.toK : ℝ)| → |chudPi - Real.pi| ≤ 2 ^ (-(w : ℤ) - 20) := by
  intro he
  rcases h with h | h | h
  · exfalso
    rw [abs_cast] at he
    have : ((7 / 10 : ℚ) : ℝ) < ((|(x.toK : ℚ)| : ℚ) : ℝ) := by push_cast at he ⊢; exact he
    have := Rat.cast_lt.1 this
    linarith
  · refine le_trans (chud_pi_close h) (zpow_le_zpow_right₀ (by norm_num) (by omega))
  · rw [h, sub_self, abs_zero]; positivity

theorem abs_lt_one_cast {x : Num} (h1 : |(x.toK : ℚ)| < 1) : |(x.toK : ℝ)| < 1 := by
  rw [abs_cast]; exact_mod_cast h1

/-- What is returned for the other arguments. -/
theorem C75_outcome_partial {x : Num} (hx : x.WF) (h0 : (x.toK : ℚ) ≠ 0) (h1 : |(x.toK : ℚ)| < 1) (hlo : EMIN + 2 ≤ x.e)
    {p : Nat} (hp : ValidP p) (rm : RM) {f : Nat} {c c' : Num.PiCache} (hc : AsinHist c) {r : BF} {w : Nat}
    (h : BF.asinC (.num x) p rm f c = some (r, c', w)) (hw : w + 64 ≤ 2 ^ 17) (hcov : AsinCov x w) :
    ∃ v, r = .num v ∧ v.s = x.s ∧ FunRounded rm (precBits p) (Real.arcsin x.toK) v := by
  obtain ⟨r', h2, h3⟩ := wrapPi_num h
  obtain ⟨v, v1, v2⟩ := asin_spec hx (nz_of_ne hx h0) (abs_lt_one_cast h1) hlo hp rm hc.ok h2 hw hcov.pi_close
  refine ⟨v, ?_, arcsin_sign h0 v2, v2⟩
  rw [h3, v1]; rfl

/-- In the directed modes it is `arcsin x` correctly rounded. -/
theorem C75_directed_partial {x : Num} (hx : x.WF) (h0 : (x.toK : ℚ) ≠ 0) (h1 : |(x.toK : ℚ)| < 1) (hlo : EMIN + 2 ≤ x.e)
    {p : Nat} (hp : ValidP p) {rm : RM} (hd : rm = .up ∨ rm = .down ∨ rm = .toZero ∨ rm = .fromZero) {f : Nat}
    {c c' : Num.PiCache} (hc : AsinHist c) {r : BF} {w : Nat}
    (h : BF.asinC (.num x) p rm f c = some (r, c', w)) (hw : w + 64 ≤ 2 ^ 17) (hcov : AsinCov x w) :
    ∃ v, r = .num v ∧ RoundsFmt rm (precBits p) (Real.arcsin x.toK) v.toK ∧ 64 * v.m.m.length = precBits p ∧
      v.inexact = true := by
  obtain ⟨v, v1, -, v2⟩ := C75_outcome_partial hx h0 h1 hlo hp rm hc h hw hcov
  exact ⟨v, v1, v2.directed hd, v2.prec, v2.inexact⟩

theorem arcsin_ge_emin {x : Num} (hx : x.WF) (h0 : (x.toK : ℚ) ≠ 0) (h1 : |(x.toK : ℚ)| < 1) (hlo : EMIN + 2 ≤ x.e) :
    (2 : ℝ) ^ (EMIN - 1) ≤ |Real.arcsin x.toK| := by
  obtain ⟨q, q1, -, q3, -⟩ := hx.mag (K := ℝ) (nz_of_ne hx h0)
  have hE : EMIN = -2 ^ 31 := rfl
  refine le_trans (le_trans ?_ q1) (arcsin_normal (abs_lt_one_cast h1).le).1
  exact zpow_le_zpow_right₀ (by norm_num) (by omega)

/-- In the directed modes the result depends neither on what the cache was used for before nor on the precision of the
argument. -/
theorem C75_history_partial {x y : Num} (hx : x.WF) (hy : y.WF) (h0 : (x.toK : ℚ) ≠ 0) (h1 : |(x.toK : ℚ)| < 1)
    (hxy : (x.toK : ℚ) = y.toK) (hlo : EMIN + 2 ≤ x.e) (hlo' : EMIN + 2 ≤ y.e)
    {p : Nat} (hp : ValidP p) {rm : RM} (hd : rm = .up ∨ rm = .down ∨ rm = .toZero ∨ rm = .fromZero) {f₁ f₂ : Nat}
    {c₁ c₂ c₁' c₂' : Num.PiCache} (hc₁ : AsinHist c₁) (hc₂ : AsinHist c₂) {r₁ r₂ : BF} {w₁ w₂ : Nat}
    (h₁ : BF.asinC (.num x) p rm f₁ c₁ = some (r₁, c₁', w₁)) (h₂ : BF.asinC (.num y) p rm f₂ c₂ = some (r₂, c₂', w₂))
    (hw₁ : w₁ + 64 ≤ 2 ^ 17) (hw₂ : w₂ + 64 ≤ 2 ^ 17) (hv₁ : AsinCov x w₁) (hv₂ : AsinCov y w₂) : r₁ = r₂ := by
  have hR : (x.toK : ℝ) = y.toK := by rw [← toK_ratCast x, ← toK_ratCast y, hxy]
  obtain ⟨v, rfl, -, v2⟩ := C75_outcome_partial hx h0 h1 hlo hp rm hc₁ h₁ hw₁ hv₁
  obtain ⟨v', rfl, -, v2'⟩ := C75_outcome_partial hy (hxy ▸ h0) (hxy ▸ h1) hlo' hp rm hc₂ h₂ hw₂ hv₂
  have hP : 64 ≤ precBits p := by have := hp.pos; unfold precBits; omega
  rw [← hR] at v2'
  rw [v2.unique hd hP (arcsin_ge_emin hx h0 h1 hlo) v2']

/-- In the directed modes the function grows with the argument. -/
theorem C75_mono_partial {x y : Num} (hx : x.WF) (hy : y.WF) (hx0 : (x.toK : ℚ) ≠ 0) (hy0 : (y.toK : ℚ) ≠ 0)
    (hx1 : |(x.toK : ℚ)| < 1) (hy1 : |(y.toK : ℚ)| < 1) (hlo : EMIN + 2 ≤ x.e) (hlo' : EMIN + 2 ≤ y.e)
    (hxy : (x.toK : ℚ) ≤ y.toK) {p : Nat} (hp : ValidP p) {rm : RM}
    (hd : rm = .up ∨ rm = .down ∨ rm = .toZero ∨ rm = .fromZero) {f₁ f₂ : Nat} {c₁ c₂ c₁' c₂' : Num.PiCache}
    (hc₁ : AsinHist c₁) (hc₂ : AsinHist c₂) {v₁ v₂ : Num} {w₁ w₂ : Nat}
    (h₁ : BF.asinC (.num x) p rm f₁ c₁ = some (.num v₁, c₁', w₁)) (h₂ : BF.asinC (.num y) p rm f₂ c₂ = some (.num v₂, c₂', w₂))
    (hw₁ : w₁ + 64 ≤ 2 ^ 17) (hw₂ : w₂ + 64 ≤ 2 ^ 17) (hv₁ : AsinCov x w₁) (hv₂ : AsinCov y w₂) : (v₁.toK : ℚ) ≤ v₂.toK := by
  have hxyR : (x.toK : ℝ) ≤ y.toK := by
    rw [← toK_ratCast x, ← toK_ratCast y]; exact_mod_cast hxy
  obtain ⟨v, e1, v2, -⟩ := C75_directed_partial hx hx0 hx1 hlo hp hd hc₁ h₁ hw₁ hv₁
  obtain ⟨v', e2, v2', -⟩ := C75_directed_partial hy hy0 hy1 hlo' hp hd hc₂ h₂ hw₂ hv₂
  injection e1 with e1
  injection e2 with e2
  rw [← e1] at v2
  rw [← e2] at v2'
  have hP : 0 < precBits p := by have := hp.pos; unfold precBits; omega
  have := v2.mono hP v2' (Real.monotone_arcsin hxyR)
  rw [← toK_ratCast v₁, ← toK_ratCast v₂] at this
  exact_mod_cast this

/-- The function is odd: `asin(-x)` rounded in one of the directed modes is `-asin(x)` rounded in the mirrored mode. -/
theorem C75_odd_partial {x y : Num} (hx : x.WF) (hy : y.WF) (h0 : (x.toK : ℚ) ≠ 0) (h1 : |(x.toK : ℚ)| < 1)
    (hxy : (y.toK : ℚ) = -x.toK) (hlo : EMIN + 2 ≤ x.e) (hlo' : EMIN + 2 ≤ y.e)
    {p : Nat} (hp : ValidP p) {rm : RM} (hd : rm = .up ∨ rm = .down ∨ rm = .toZero ∨ rm = .fromZero) {f₁ f₂ : Nat}
    {c₁ c₂ c₁' c₂' : Num.PiCache} (hc₁ : AsinHist c₁) (hc₂ : AsinHist c₂) {v₁ v₂ : Num} {w₁ w₂ : Nat}
    (h₁ : BF.asinC (.num x) p rm.mirror f₁ c₁ = some (.num v₁, c₁', w₁))
    (h₂ : BF.asinC (.num y) p rm f₂ c₂ = some (.num v₂, c₂', w₂))
    (hw₁ : w₁ + 64 ≤ 2 ^ 17) (hw₂ : w₂ + 64 ≤ 2 ^ 17) (hv₁ : AsinCov x w₁) (hv₂ : AsinCov y w₂) : (v₂.toK : ℚ) = -v₁.toK := by
  have hR : (y.toK : ℝ) = -x.toK := by
    rw [← toK_ratCast x, ← toK_ratCast y]; exact_mod_cast hxy
  have hy0 : (y.toK : ℚ) ≠ 0 := by rw [hxy]; simpa using h0
  have hy1 : |(y.toK : ℚ)| < 1 := by rw [hxy, abs_neg]; exact h1
  obtain ⟨v, e1, v2, -⟩ := C75_directed_partial hx h0 h1 hlo hp (RM.mirror_directed hd) hc₁ h₁ hw₁ hv₁
  obtain ⟨v', e2, v2', -⟩ := C75_directed_partial hy hy0 hy1 hlo' hp hd hc₂ h₂ hw₂ hv₂
  injection e1 with e1
  injection e2 with e2
  rw [← e1, RM.mirror_eq] at v2
  rw [← e2, hR, Real.arcsin_neg] at v2'
  have hP : 0 < precBits p := by have := hp.pos; unfold precBits; omega
  have := v2'.unique hP v2.neg
  rw [← toK_ratCast v₁, ← toK_ratCast v₂] at this
  exact_mod_cast this

/-- The first round returns a number in mode `None`. -/
theorem C75_number_partial {x : Num} (hx : x.WF) (h0 : (x.toK : ℚ) ≠ 0) (h1 : |(x.toK : ℚ)| < 1) (hlo : EMIN + 2 ≤ x.e)
    {p : Nat} (hp : ValidP p) {c : Num.PiCache} (hc : AsinHist c)
    (hw : 2 * max (precBits p) (64 * x.m.m.length) + 400 ≤ 2 ^ 17)
    (hcov : AsinCov x (2 * max (precBits p) (64 * x.m.m.length) + 256)) (f : Nat) :
    ∃ v c' w, BF.asinC (.num x) p .none (f + 1) c = some (.num v, c', w) ∧ w ≤ 2 * max (precBits p) (64 * x.m.m.length) + 256 ∧
      AsinCov x w := by
  have hz := nz_of_ne hx h0
  obtain ⟨r, c', w, h2, h3⟩ := asin_number (f := f) hx hz (abs_lt_one_cast h1) hp hc.ok hw hcov.pi_close
  have hcov' : AsinCov x w := by
    rcases hcov with h | h | h
    · exact Or.inl h
    · exact Or.inr (Or.inl (by omega))
    · exact Or.inr (Or.inr h)
  obtain ⟨v, rfl, -⟩ := asin_spec hx hz (abs_lt_one_cast h1) hlo hp .none hc.ok h2 (by omega) hcov'.pi_close
  refine ⟨v, c', w, ?_, h3, hcov'⟩
  unfold BF.asinC BF.wrapPi
  dsimp only
  rw [h2]
  rfl

/-! ## Concrete cases -/

/-- The number `-3/4`. -/
def exMinusThreeQuarters : Num := ⟨0, .neg, ⟨[13835058055282163712], 64⟩, false⟩

theorem exMinusThreeQuarters_WF : exMinusThreeQuarters.WF := Num.WF_of_check (by decide +kernel)

theorem exMinusThreeQuarters_toK : (exMinusThreeQuarters.toK : ℝ) = -(3 / 4) := by
  unfold Num.toK exMinusThreeQuarters
  simp [Sign.toK, val]
  norm_num

theorem exMinusThreeQuarters_toK_rat : (exMinusThreeQuarters.toK : ℚ) = -(3 / 4) := by
  unfold Num.toK exMinusThreeQuarters
  simp [Sign.toK, val]
  norm_num

set_option maxRecDepth 100000 in
/-- `asin(-3/4)` with 64 bits, rounded up, from a new cache: an argument for which pi is used. -/
example : ∃ c v c' w, AsinHist c ∧ exMinusThreeQuarters.WF ∧ (exMinusThreeQuarters.toK : ℚ) ≠ 0 ∧ |(exMinusThreeQuarters.toK : ℚ)| < 1 ∧
    EMIN + 2 ≤ exMinusThreeQuarters.e ∧ ValidP 64 ∧
    BF.asinC (.num exMinusThreeQuarters) 64 .up 1 c = some (.num v, c', w) ∧ w ≤ 4096 ∧ AsinCov exMinusThreeQuarters w ∧
    v.m.m = [15643984129589436480] ∧ v.e = 0 ∧ v.s = .neg ∧ RoundsFmt .up 64 (Real.arcsin (-(3 / 4))) v.toK := by
  obtain ⟨c, h1, -⟩ := C73_new
  have hw := exMinusThreeQuarters_WF
  have h0 : (exMinusThreeQuarters.toK : ℚ) ≠ 0 := by rw [exMinusThreeQuarters_toK_rat]; norm_num
  have ha : |(exMinusThreeQuarters.toK : ℚ)| < 1 := by rw [exMinusThreeQuarters_toK_rat, abs_neg, abs_of_pos] <;> norm_num
  have hp : ValidP 64 := ⟨by norm_num, by decide⟩
  have h2 : (match piNew with
    | .ok c => match BF.asinC (.num exMinusThreeQuarters) 64 .up 1 c with
      | some (.num v, _, w) => v.m.m == [15643984129589436480] && v.e == 0 && v.s == .neg && decide (w ≤ 1000)
      | _ => false
    | _ => false) = true := by decide +kernel
  rw [h1] at h2
  dsimp only at h2
  cases h3 : BF.asinC (.num exMinusThreeQuarters) 64 .up 1 c with
  | none => rw [h3] at h2; cases h2
  | some r =>
    obtain ⟨b, c', w⟩ := r
    rw [h3] at h2
    cases b with
    | nan e => cases h2
    | inf s => cases h2
    | num v =>
      simp at h2
      obtain ⟨⟨⟨h4, h5⟩, h5'⟩, h6⟩ := h2
      have hcov : AsinCov exMinusThreeQuarters w := Or.inr (Or.inl (by omega))
      obtain ⟨v', e1, e2, -⟩ := C75_directed_partial hw h0 ha (by decide) hp (Or.inl rfl) (.new h1) h3 (by omega) hcov
      injection e1 with e1
      rw [← e1, exMinusThreeQuarters_toK] at e2
      exact ⟨c, v, c', w, .new h1, hw, h0, ha, by decide, hp, h3, by omega, hcov, h4, h5, h5', e2⟩

set_option maxRecDepth 100000 in
/-- `asin(1)` with 64 bits. -/
example : Num.ONE.WF ∧ |(Num.ONE.toK : ℚ)| = 1 ∧ ∃ c, AsinHist c ∧
    (match BF.asinC (.num Num.ONE) 64 .up 0 c with
      | some (.num v, _, _) => v.m.m == [14488038916154245685] && v.e == 1 && v.inexact
      | _ => false) = true := by
  obtain ⟨c, h1, -⟩ := C73_new
  have h2 : (match piNew with
    | .ok c => match BF.asinC (.num Num.ONE) 64 .up 0 c with
      | some (.num v, _, _) => v.m.m == [14488038916154245685] && v.e == 1 && v.inexact
      | _ => false
    | _ => false) = true := by decide +kernel
  rw [h1] at h2
  refine ⟨ONE_WF, ?_, c, .new h1, h2⟩
  have h3 : ((Num.ONE.toK : ℚ) : ℝ) = 1 := by rw [toK_ratCast, ONE_toK]
  have h4 : (Num.ONE.toK : ℚ) = 1 := by exact_mod_cast h3
  rw [h4, abs_one]

set_option maxRecDepth 100000 in
/-- An argument next to zero. -/
example : exNearZero.WF ∧ (exNearZero.toK : ℚ) ≠ 0 ∧ EMIN + 2 ≤ exNearZero.e ∧
    ((max (precBits 64) (64 * exNearZero.m.m.length) : ℕ) : ℤ) + 1 < -(exNearZero.e * 2 - 2) ∧
    exNearZero.smallExp false 64 .down = .ok ⟨exNearZero.e, .neg, ⟨[MSB + 1], 64⟩, true⟩ ∧ exNearZero.m.m = [MSB] := by
  have hw : exNearZero.WF := Num.WF_of_check (by decide +kernel)
  refine ⟨hw, ?_, by decide, by decide +kernel, by decide +kernel, by decide +kernel⟩
  intro h
  have : exNearZero.isZero = false := by decide +kernel
  rw [hw.toK_eq_zero.1 h] at this; cases this

/-- Two is outside of the domain; the hypotheses of `C75_number_partial` about the size are met by `-3/4` at 1900 bits and by
`-1/2` at 65000 bits. -/
example : 1 < |(Num.TWO.toK : ℚ)| ∧
    2 * max (precBits 1900) (64 * exMinusThreeQuarters.m.m.length) + 400 ≤ 2 ^ 17 ∧
    AsinCov exMinusThreeQuarters (2 * max (precBits 1900) (64 * exMinusThreeQuarters.m.m.length) + 256) ∧
    2 * max (precBits 65000) (64 * exMinusHalf.m.m.length) + 400 ≤ 2 ^ 17 ∧ |(exMinusHalf.toK : ℚ)| ≤ 7 / 10 := by
  refine ⟨?_, by decide +kernel, Or.inr (Or.inl (by decide +kernel)), by decide +kernel, by rw [exMinusHalf_toK_rat, abs_neg, abs_of_pos] <;> norm_num⟩
  have h3 : ((Num.TWO.toK : ℚ) : ℝ) = 2 := by rw [toK_ratCast, TWO_toK]
  have h4 : (Num.TWO.toK : ℚ) = 2 := by exact_mod_cast h3
  rw [h4, abs_two]
  norm_num

end AF
