import Verif.Model.Ctx
import Verif.Props.C45
/-!
# C51: the exponent range check of `expr!`

A result inside the range `[emin, emax]` of the context is returned unchanged, a result of magnitude
`2^emax` or more becomes the infinity of the same sign, a nonzero result below `2^(emin-1)` becomes zero of
the same precision, and infinities and NaN are unchanged. With `emin = EXPONENT_MIN` the subnormal numbers
are in the range.

A zero should stay zero. The check looks at the exponent field only, so this holds for zeros whose
exponent field is inside the limits; a zero with a larger exponent field becomes an infinity
(`C51_zero_refuted`).
-/

namespace AF

theorem C51_above (x : Num) (hx : x.WF) (emin emax : ℤ) (hE : EMIN ≤ emax)
    (h : (2 : ℚ) ^ emax ≤ |(x.toK : ℚ)|) : checkExponentRange (.num x) emin emax = .inf x.s := by
  have h1 := hx.abs_lt_zpow (K := ℚ)
  have he : emax < x.e := by
    by_contra hc
    have : (2 : ℚ) ^ x.e ≤ 2 ^ emax := zpow_le_zpow_right₀ (by norm_num) (by omega)
    linarith
  simp only [checkExponentRange, BF.exponent]
  rw [if_pos he]
  cases hs : x.s <;> simp [BF.isPositive, Num.isPositive, hs, BF.INF_POS, BF.INF_NEG]

theorem exp_of_bounds {x : Num} (hx : x.WF) (h0 : (x.toK : ℚ) ≠ 0) :
    (x.e = EMIN ∧ |(x.toK : ℚ)| < 2 ^ EMIN) ∨ (2 : ℚ) ^ (x.e - 1) ≤ |(x.toK : ℚ)| := by
  have h1 := hx.abs_lt_zpow (K := ℚ)
  by_cases he : x.e = EMIN
  · left; exact ⟨he, by rw [← he]; exact h1⟩
  · right
    have hz : x.isZero = false := by
      rw [← Bool.not_eq_true]; exact fun h => h0 (hx.toK_eq_zero.2 h)
    have hn0 := hx.n_pos hz
    have hfull : x.m.n = 64 * x.m.m.length := by
      have := hx.n_le
      by_contra hc
      exact he (hx.norm hn0 (by omega))
    have hv : 2 ^ (x.m.n - 1) ≤ val x.m.m := Nat.lt_size.1 (by rw [← hx.bits]; omega)
    rw [Num.abs_val]
    have h2 : (2 : ℚ) ^ (x.m.n - 1) ≤ (val x.m.m : ℚ) := by exact_mod_cast hv
    calc (2 : ℚ) ^ (x.e - 1) = 2 ^ (x.m.n - 1) * 2 ^ (x.e - (64 * x.m.m.length : ℕ)) := by
          rw [← zpow_natCast, ← zpow_add₀ (by norm_num)]; congr 1; omega
      _ ≤ _ := mul_le_mul_of_nonneg_right h2 (zpow_nonneg (by norm_num) _)

theorem C51_inside (x : Num) (hx : x.WF) (h0 : (x.toK : ℚ) ≠ 0) (emin emax : ℤ) (h1 : EMIN ≤ emin)
    (h2 : emin ≤ 0) (h3 : 0 ≤ emax) (hlo : (2 : ℚ) ^ (emin - 1) ≤ |(x.toK : ℚ)| ∨ emin = EMIN)
    (hhi : |(x.toK : ℚ)| < 2 ^ emax) : checkExponentRange (.num x) emin emax = .num x := by
  have hb := hx.emin
  have hlt := hx.abs_lt_zpow (K := ℚ)
  have hge : ¬ x.e < emin := by
    rcases hlo with h | h
    · intro hc
      have : (2 : ℚ) ^ x.e ≤ 2 ^ (emin - 1) := zpow_le_zpow_right₀ (by norm_num) (by omega)
      linarith
    · omega
  have hle : ¬ x.e > emax := by
    intro hc
    rcases exp_of_bounds hx h0 with ⟨h, _⟩ | h
    · have : EMIN ≤ 0 := by decide
      omega
    · have : (2 : ℚ) ^ emax ≤ 2 ^ (x.e - 1) := zpow_le_zpow_right₀ (by norm_num) (by omega)
      linarith
  simp only [checkExponentRange, BF.exponent]
  rw [if_neg hle, if_neg hge]

theorem C51_below (x : Num) (hx : x.WF) (h0 : (x.toK : ℚ) ≠ 0) (emin emax : ℤ) (h1 : EMIN < emin)
    (h2 : emin ≤ 0) (h3 : 0 ≤ emax) (hp : 64 * x.m.m.length < 2 ^ 62 - 2 ^ 31 - 1)
    (h : |(x.toK : ℚ)| < 2 ^ (emin - 1)) :
    ∃ v, checkExponentRange (.num x) emin emax = .num v ∧ v.WF ∧ (v.toK : ℚ) = 0 ∧
      v.m.m.length = x.m.m.length ∧ v.inexact = false := by
  have hlt : x.e < emin := by
    rcases exp_of_bounds hx h0 with ⟨h4, _⟩ | h4
    · omega
    · by_contra hc
      have : (2 : ℚ) ^ (emin - 1) ≤ 2 ^ (x.e - 1) := zpow_le_zpow_right₀ (by norm_num) (by omega)
      linarith
  obtain ⟨v, a1, a2, a3, a4, a5⟩ := new_spec (K := ℚ) (p := x.m.maxBitLen)
    (by rw [PMAX_eq]; unfold Mantissa.maxBitLen; omega)
  refine ⟨v, ?_, a2, a4, ?_, a5⟩
  · simp only [checkExponentRange, BF.exponent]
    rw [if_neg (by omega), if_pos hlt]
    show BF.resultToExt (Num.new x.m.maxBitLen) false true = _
    rw [a1]; rfl
  · unfold precBits Mantissa.maxBitLen at a3; omega

theorem C51_zero_partial (x : Num) (hx : x.WF) (h0 : (x.toK : ℚ) = 0) (emin emax : ℤ) (h1 : emin ≤ x.e)
    (h2 : x.e ≤ emax) : checkExponentRange (.num x) emin emax = .num x := by
  simp only [checkExponentRange, BF.exponent]
  rw [if_neg (by omega), if_neg (by omega)]

theorem C51_special (emin emax : ℤ) (s : Sign) (e : Option Err) :
    checkExponentRange (.inf s) emin emax = .inf s ∧ checkExponentRange (.nan e) emin emax = .nan e :=
  ⟨rfl, rfl⟩

/-- A zero with exponent field 100. -/
def exZero100 : Num := Num.mk 100 .pos ⟨[0], 0⟩ false

theorem C51_zero_refuted : ¬ ∀ (x : Num) (emin emax : ℤ), x.WF → (x.toK : ℚ) = 0 → EMIN ≤ emin → emin ≤ 0 →
    0 ≤ emax → emax ≤ EMAX → (checkExponentRange (.num x) emin emax).isZero = true := by
  intro h
  have := h exZero100 (-50) 50 (Num.WF_of_check (by decide)) (by simp [Num.toK, exZero100, val]) (by decide)
    (by decide) (by decide) (by decide)
  revert this
  decide

example : checkExponentRange (.num exMinusTwo) (-5) 1 = .inf .neg :=
  C51_above exMinusTwo exMinusTwo_WF (-5) 1 (by decide) (by rw [exMinusTwo_val]; norm_num)
example : checkExponentRange (.num exMinusTwo) (-5) 2 = .num exMinusTwo :=
  C51_inside exMinusTwo exMinusTwo_WF (by rw [exMinusTwo_val]; norm_num) (-5) 2 (by decide) (by decide)
    (by decide) (Or.inl (by rw [exMinusTwo_val]; norm_num [zpow_neg])) (by rw [exMinusTwo_val]; norm_num)

end AF
