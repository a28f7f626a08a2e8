import Verif.Lemmas.Op
/-!
# C07: changing the precision rounds correctly

`set_precision(p, rm)` for `p` from 1 to the limit rounds the number to the format with `p` mantissa
bits (in mode `None`: the whole words holding `p` bits, the excess words being dropped), once, in the
requested direction. The mantissa of a subnormal number has leading zeros; `p` counts them, so the
grid of the result is never finer than `2^(EMIN-p)`, as `RoundsFmt` says.
-/

namespace AF

/-- How many mantissa bits `set_precision(p, rm)` keeps. -/
def setPrecBits (rm : RM) (p : Nat) : Nat := if rm = .none then precBits p else p

theorem setPrecBits_eq (rm : RM) (p : Nat) : keptBits rm p = setPrecBits rm p := by
  unfold keptBits setPrecBits precBits wordLen
  by_cases h : rm = .none <;> simp [h]

/-- The result is `x` rounded once, with the sign of `x`, or the error of an exponent overflow when the
rounded value reaches `2^EMAX`. -/
theorem C07_set_precision_rounds (x : Num) (hx : x.WF) (p : Nat) (hp : 0 < p)
    (hpm : p < 2 ^ 62 - 2 ^ 31 - 1) (rm : RM) :
    (∃ v, BF.setPrecision (.num x) p rm = .ok (.num v) ∧ v.WF ∧ 64 * v.m.m.length = precBits p ∧
      v.s = x.s ∧ RoundsFmt rm (setPrecBits rm p) (x.toK : ℚ) v.toK) ∨
    (BF.setPrecision (.num x) p rm = .error (.exponentOverflow x.s) ∧
      ∃ t : ℚ, RoundsPrec rm (setPrecBits rm p) (x.toK : ℚ) t ∧ (2 : ℚ) ^ EMAX ≤ |t|) := by
  have h := setPrecision_spec (K := ℚ) hx hp (by rw [PMAX_eq]; exact hpm) rm
  rw [setPrecBits_eq] at h
  cases hr : x.setPrecision p rm with
  | ok v =>
    rw [hr] at h
    left
    refine ⟨v, by simp only [BF.setPrecision, hr], h.1.1, ?_, h.1.2.2.1, h.1.2.2.2.2⟩
    rw [h.1.2.1]; unfold precBits wordLen; rfl
  | error er =>
    rw [hr] at h
    right
    refine ⟨by simp only [BF.setPrecision, hr, h.1], h.2.2⟩

/-- In the normal range this is rounding to `p` significant bits. -/
theorem C07_set_precision_normal (x : Num) (hx : x.WF) (p : Nat) (hp : 0 < p)
    (hpm : p < 2 ^ 62 - 2 ^ 31 - 1) (rm : RM)
    (hn : NormalRange rm (setPrecBits rm p) (x.toK : ℚ)) :
    ∃ v, BF.setPrecision (.num x) p rm = .ok (.num v) ∧ 64 * v.m.m.length = precBits p ∧
      v.s = x.s ∧ RoundsPrec rm (setPrecBits rm p) (x.toK : ℚ) v.toK := by
  rcases C07_set_precision_rounds x hx p hp hpm rm with ⟨v, h1, _, h2, h3, h4⟩ | ⟨_, t, h1, h2⟩
  · exact ⟨v, h1, h2, h3, h4.toPrec hn.1⟩
  · exact absurd (hn.2 t h1) (not_lt.2 h2)

/-- Reducing a 128-bit number to 70 bits rounds it. -/
example : ∃ v, BF.setPrecision (.num exB) 70 .up = .ok (.num v) ∧ 64 * v.m.m.length = 128 ∧
      v.s = exB.s ∧ RoundsPrec .up 70 (exB.toK : ℚ) v.toK :=
  C07_set_precision_normal exB exB_WF 70 (by norm_num) (by norm_num) .up
    (NormalRange.of_bounds (by decide) (a := -4) (b := 1)
      (by rw [exB_val, abs_of_neg (by norm_num)]; norm_num)
      (by rw [exB_val, abs_of_neg (by norm_num)]; norm_num) (by decide) (by decide))

/-- Widening never changes the value and never fails. -/
theorem C07_widening_exact (x : Num) (hx : x.WF) (p : Nat) (hp : 0 < p)
    (hpm : p < 2 ^ 62 - 2 ^ 31 - 1) (rm : RM) (hw : 64 * x.m.m.length ≤ p) :
    ∃ v, BF.setPrecision (.num x) p rm = .ok (.num v) ∧ v.WF ∧ 64 * v.m.m.length = precBits p ∧
      v.s = x.s ∧ (v.toK : ℚ) = x.toK := by
  have h := setPrecision_spec (K := ℚ) hx hp (by rw [PMAX_eq]; exact hpm) rm
  rcases C07_set_precision_rounds x hx p hp hpm rm with ⟨v, h1, h1', h2, h3, h4⟩ | ⟨h1, t, h2, h3⟩
  · refine ⟨v, h1, h1', h2, h3, ?_⟩
    cases hr : x.setPrecision p rm with
    | ok w =>
      rw [hr] at h
      simp only [BF.setPrecision, hr] at h1
      have : w = v := by simpa using h1
      subst this
      exact h.2 hw
    | error er =>
      simp only [BF.setPrecision, hr] at h1
      simp at h1
  · exfalso
    have hk : 64 * x.m.m.length ≤ setPrecBits rm p := by
      unfold setPrecBits precBits; split <;> omega
    have hP : 0 < setPrecBits rm p := by
      unfold setPrecBits precBits; split <;> omega
    have hr := hx.repr (K := ℚ) hk rm
    have hlt := hx.abs_lt_emax (K := ℚ)
    rcases le_or_gt ((2 : ℚ) ^ (EMIN - 1)) |x.toK| with hc | hc
    · have := h2.unique hP (hr.toPrec hc)
      rw [this] at h3
      exact absurd hlt (not_lt.2 h3)
    · have h5 := h2.abs_le hP hc.le
      have h6 : (2 : ℚ) ^ (EMIN - 1) < 2 ^ EMAX :=
        zpow_lt_zpow_right₀ (by norm_num) (by have := EMIN_lt_EMAX; omega)
      linarith

example : ∃ v, BF.setPrecision (.num exA) 200 .down = .ok (.num v) ∧ v.WF ∧
    64 * v.m.m.length = 256 ∧ v.s = exA.s ∧ (v.toK : ℚ) = exA.toK :=
  C07_widening_exact exA exA_WF 200 (by norm_num) (by norm_num) .down (by decide)

end AF
