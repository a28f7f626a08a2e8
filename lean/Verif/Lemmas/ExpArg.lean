import Verif.Lemmas.ExpF
import Verif.Lemmas.IntPart
import Verif.Lemmas.PowLoop
import Verif.Lemmas.ConstE
import Verif.Lemmas.DivBasic
/-!
# The integer and the fractional part of the exponent (`exp_positive_arg`)
-/

namespace AF

theorem toK_ratCast (x : Num) : ((x.toK : ℚ) : ℝ) = x.toK := by
  unfold Num.toK
  cases x.s <;> simp [Sign.toK]

/-- A non-zero number with a positive exponent fills its words. -/
theorem Num.WF.full {x : Num} (hx : x.WF) (hz : x.isZero = false) (he : EMIN < x.e) : x.m.n = 64 * x.m.m.length := by
  have h0 := hx.n_pos hz
  have h1 := hx.n_le
  by_contra hc
  have := hx.norm h0 (by omega)
  omega

/-- `int_as_usize`. -/
theorem intAsUsize_spec {x : Num} (hx : x.WF) (hz : x.isZero = false) (he : x.e ≤ 64) :
    ∃ n : Nat, x.intAsUsize = .ok n ∧ (n : ℤ) = ⌊|(x.toK : ℝ)|⌋ ∧ n < B := by
  unfold Num.intAsUsize
  by_cases h0 : x.e > 0
  · obtain ⟨k, hk⟩ : ∃ k : ℕ, x.e = k := ⟨x.e.toNat, by omega⟩
    rw [if_pos h0, hk, Int.toNat_natCast, if_pos (by omega)]
    have hn := hx.full hz (by unfold EMIN; omega)
    have hn0 := hx.n_pos hz
    obtain ⟨l, hl⟩ : ∃ l, x.m.m.length = l + 1 := ⟨x.m.m.length - 1, by omega⟩
    have hmsw : x.m.mostSignificantWord = val x.m.m / B ^ l := by
      unfold Mantissa.mostSignificantWord
      rw [if_pos hn0, show (x.m.n - 1) / 64 = l by omega, wd_eq_div hx.wf (by omega)]
      apply Nat.mod_eq_of_lt
      apply Nat.div_lt_of_lt_mul
      have := val_lt hx.wf
      rw [hl, pow_succ] at this
      exact this
    refine ⟨_, rfl, ?_, ?_⟩
    · rw [hmsw, Nat.shiftRight_eq_div_pow, Nat.div_div_eq_div_mul, B_pow, ← pow_add]
      have h1 : |(x.toK : ℝ)| = (val x.m.m : ℝ) / ((2 ^ (64 * l + (64 - k)) : ℕ) : ℝ) := by
        rw [Num.abs_val, hk, hl, show ((k : ℤ) - (64 * (l + 1) : ℕ)) = -((64 * l + (64 - k) : ℕ) : ℤ) by omega, zpow_neg,
          zpow_natCast, div_eq_mul_inv]
        push_cast; rfl
      rw [h1, Int.floor_div_natCast, Int.floor_natCast]
      exact Int.natCast_div _ _
    · rw [Nat.shiftRight_eq_div_pow]
      refine lt_of_le_of_lt (Nat.div_le_self _ _) ?_
      unfold Mantissa.mostSignificantWord
      rw [if_pos hn0]
      exact wd_lt hx.wf (by omega)
  · rw [if_neg h0]
    refine ⟨0, rfl, ?_, by unfold B; norm_num⟩
    have h1 := hx.abs_lt_zpow (K := ℝ)
    have h2 : (2 : ℝ) ^ x.e ≤ 1 := by
      rw [show (1 : ℝ) = 2 ^ (0 : ℤ) by norm_num]
      exact zpow_le_zpow_right₀ (by norm_num) (by omega)
    symm
    rw [Nat.cast_zero, Int.floor_eq_zero_iff]
    exact ⟨abs_nonneg _, lt_of_lt_of_le h1 h2⟩

/-- The fractional part, in the reals, and how small it can be. -/
theorem fract_real {x : Num} (hx : x.WF) (hlen : 64 * x.m.m.length < 2 ^ 31) :
    x.fract.WF ∧ x.fract.m.m.length = x.m.m.length ∧ |(x.fract.toK : ℝ)| = Int.fract |(x.toK : ℝ)| := by
  obtain ⟨h1, -, -, h4, h5⟩ := fract_WF_val hx hlen
  refine ⟨h1, h4, ?_⟩
  have := congrArg (fun q : ℚ => (q : ℝ)) h5
  push_cast at this
  rw [toK_ratCast, toK_ratCast] at this
  rw [this, Int.fract]
  have h6 := Rat.floor_cast (α := ℝ) |(x.toK : ℚ)|
  push_cast at h6
  rw [toK_ratCast] at h6
  rw [h6]

theorem fract_lower {x : Num} (hx : x.WF) (hz : x.isZero = false) {P : Nat} (hP : 64 * x.m.m.length ≤ P)
    (he : -(P : ℤ) < x.e) (he' : EMIN < x.e) (h0 : Int.fract |(x.toK : ℝ)| ≠ 0) :
    (2 : ℝ) ^ (-(P : ℤ)) ≤ Int.fract |(x.toK : ℝ)| := by
  by_cases h : x.e ≤ 0
  · have h1 := hx.abs_lt_zpow (K := ℝ)
    have h2 : (2 : ℝ) ^ x.e ≤ 1 := by
      rw [show (1 : ℝ) = 2 ^ (0 : ℤ) by norm_num]
      exact zpow_le_zpow_right₀ (by norm_num) (by omega)
    rw [Int.fract_eq_self.2 ⟨abs_nonneg _, lt_of_lt_of_le h1 h2⟩]
    obtain ⟨q, q1, q2, q3, q4⟩ := hx.mag (K := ℝ) hz
    refine le_trans (zpow_le_zpow_right₀ (by norm_num) ?_) q1
    omega
  · have hf : (0 : ℝ) < Int.fract |(x.toK : ℝ)| := lt_of_le_of_ne (Int.fract_nonneg _) (Ne.symm h0)
    obtain ⟨q, hq⟩ : ∃ q : ℤ, (x.e - (64 * x.m.m.length : ℕ)) = q := ⟨_, rfl⟩
    have ha := Num.abs_val (K := ℝ) x
    rw [hq] at ha
    rcases le_total 0 q with hq0 | hq0
    · obtain ⟨j, rfl⟩ := Int.eq_ofNat_of_zero_le hq0
      exfalso
      apply h0
      rw [ha, zpow_natCast, show (val x.m.m : ℝ) * 2 ^ j = ((val x.m.m * 2 ^ j : ℕ) : ℝ) by push_cast; rfl,
        Int.fract_natCast]
    · obtain ⟨j, hj⟩ := Int.eq_ofNat_of_zero_le (neg_nonneg.2 hq0)
      have hq' : q = -(j : ℤ) := by omega
      rw [hq', zpow_neg, zpow_natCast] at ha
      have h2 : (0 : ℝ) < 2 ^ j := by positivity
      have h3 : Int.fract |(x.toK : ℝ)| * 2 ^ j = (((val x.m.m : ℤ) - ⌊|(x.toK : ℝ)|⌋ * 2 ^ j : ℤ) : ℝ) := by
        rw [Int.fract]
        conv_lhs => lhs; lhs; rw [ha]
        push_cast
        field_simp
      have h4 : (0 : ℝ) < Int.fract |(x.toK : ℝ)| * 2 ^ j := by positivity
      rw [h3] at h4
      have h5 : (1 : ℤ) ≤ (val x.m.m : ℤ) - ⌊|(x.toK : ℝ)|⌋ * 2 ^ j := by
        have : (0 : ℤ) < (val x.m.m : ℤ) - ⌊|(x.toK : ℝ)|⌋ * 2 ^ j := by exact_mod_cast h4
        omega
      have h6 : (1 : ℝ) ≤ Int.fract |(x.toK : ℝ)| * 2 ^ j := by rw [h3]; exact_mod_cast h5
      refine le_trans (zpow_le_zpow_right₀ (by norm_num) (show -(P : ℤ) ≤ -(j : ℤ) by omega)) ?_
      rw [zpow_neg, zpow_natCast, inv_le_iff_one_le_mul₀ h2]
      exact h6

/-- A power in mode `None`. -/
theorem powi_none {x : Num} (hx : x.WF) (hx1 : (1 : ℝ) ≤ x.toK) (hix : x.inexact = true) {n p : Nat} (hn : 1 ≤ n)
    (hn32 : n < 2 ^ 32) (hp : ValidP p) (hP : precBits p ≤ 2 ^ 24) (hl : 64 * x.m.m.length = precBits p)
    (hb : (x.toK : ℝ) ^ n < 2 ^ (EMAX - 2)) :
    ∃ v, x.powi n p .none = .ok v ∧ v.WF ∧ 64 * v.m.m.length = precBits p ∧ v.inexact = true ∧
      (x.toK : ℝ) ^ n * (1 - 2 ^ (1 - (precBits p : ℤ))) ≤ v.toK ∧
      (v.toK : ℝ) ≤ x.toK ^ n * (1 + 2 ^ (1 - (precBits p : ℤ))) := by
  have hx0 : (0 : ℝ) < x.toK := by linarith
  have hz : x.isZero = false := by
    rw [← Bool.not_eq_true, ← hx.toK_eq_zero (K := ℝ)]
    exact hx0.ne'
  have hu : (0 : ℝ) < 2 ^ (1 - (precBits p : ℤ)) := by positivity
  by_cases h1 : n = 1
  · have hpb : precBits p = 64 * ((p + 63) / 64) := rfl
    have h64 : 64 ∣ precBits p := ⟨_, hpb⟩
    have hp0 := hp.pos
    have hs := setPrecision_spec (K := ℝ) hx (p := precBits p) (by omega) (by unfold PMAX; omega) .none
    obtain ⟨v, v1, v2, v3, v4, -⟩ := setPrecision_extend hx (p := precBits p) (by omega)
      (by unfold PMAX; omega) (by omega) .none
    rw [v1] at hs
    refine ⟨v, ?_, v2, ?_, ?_, ?_, ?_⟩
    · unfold Num.powi Num.powiInternal
      dsimp only
      rw [hp.roundP, if_neg (by omega), if_pos (by simp [h1])]
      exact v1
    · rw [v3]; unfold wordLen; omega
    · exact (hs.1.2.2.2.1 (Or.inr h64)).2 (Or.inl hix)
    · rw [h1, pow_one, v4]; nlinarith
    · rw [h1, pow_one, v4]; nlinarith
  · have hxQ : (1 : ℚ) ≤ x.toK := by
      have : ((1 : ℚ) : ℝ) ≤ ((x.toK : ℚ) : ℝ) := by rw [toK_ratCast]; push_cast; exact hx1
      exact_mod_cast this
    have hpw : (1 : ℚ) ≤ (x.toK : ℚ) ^ n := one_le_pow₀ hxQ
    have hs := powiInternal_spec hx hz (n := n) (p := p) (by omega) (by unfold B; omega) hp (by
      rw [abs_of_pos (by linarith)]
      refine le_trans ?_ hpw
      rw [show (1 : ℚ) = 2 ^ (0 : ℤ) by norm_num]
      exact zpow_le_zpow_right₀ (by norm_num) (by unfold EMIN; norm_num)) .none true
    unfold Num.powi
    cases hr : x.powiInternal n p .none true with
    | error e =>
      exfalso
      rw [hr] at hs
      rcases hs with ⟨s, -, h2, -⟩ | ⟨-, h2⟩
      · rw [abs_of_pos (by linarith)] at h2
        have h3 : (((2 : ℚ) ^ (EMAX - 2) : ℚ) : ℝ) ≤ (((x.toK : ℚ) ^ n : ℚ) : ℝ) := by exact_mod_cast h2
        rw [Rat.cast_zpow, Rat.cast_pow, toK_ratCast] at h3
        push_cast at h3
        linarith
      · apply h2
        rw [hl]
        refine ⟨?_, by omega⟩
        calc precBits p * n ≤ 2 ^ 24 * 2 ^ 32 := Nat.mul_le_mul hP hn32.le
          _ ≤ 2 ^ 60 := by norm_num
    | ok v =>
      rw [hr] at hs
      obtain ⟨n1, n2, n3⟩ := hs.none rfl
      have hvi : v.inexact = true := by
        by_contra hc
        have := (hs.exact (by simpa using hc)).1
        simp [hix] at this
      have hv0 : (0 : ℚ) ≤ v.toK := by
        by_contra hc
        push Not at hc
        nlinarith
      rw [abs_of_nonneg hv0, abs_of_pos (by linarith)] at n1 n2
      have m1 : (((x.toK : ℚ) ^ n * (1 - 2 ^ (1 - (precBits p : ℤ))) : ℚ) : ℝ) ≤ ((v.toK : ℚ) : ℝ) := by exact_mod_cast n1
      have m2 : ((v.toK : ℚ) : ℝ) ≤ (((x.toK : ℚ) ^ n * (1 + 2 ^ (-(precBits p : ℤ) - 64)) : ℚ) : ℝ) := by exact_mod_cast n2
      push_cast at m1 m2
      rw [toK_ratCast, toK_ratCast] at m1 m2
      refine ⟨v, rfl, hs.wf, hs.len, hvi, m1, le_trans m2 ?_⟩
      refine mul_le_mul_of_nonneg_left ?_ (by positivity)
      have : (2 : ℝ) ^ (-(precBits p : ℤ) - 64) ≤ 2 ^ (1 - (precBits p : ℤ)) :=
        zpow_le_zpow_right₀ (by norm_num) (by omega)
      linarith

end AF
