import Verif.Lemmas.Conv
import Verif.Lemmas.Cmp
/-!
# C50: integer predicates
-/

namespace AF

theorem isInt_spec (x : Num) (hx : x.WF) : x.isInt = true ↔ ∃ z : ℤ, (x.toK : ℚ) = z := by
  -- the magnitude decides
  have hab : (∃ z : ℤ, (x.toK : ℚ) = z) ↔ ∃ k : ℕ, |(x.toK : ℚ)| = k := by
    constructor
    · rintro ⟨z, hz⟩
      refine ⟨z.natAbs, ?_⟩
      rw [hz, ← Int.cast_abs, ← Int.natCast_natAbs, Int.cast_natCast]
    · rintro ⟨k, hk⟩
      rcases abs_choice (x.toK : ℚ) with h | h
      · exact ⟨k, by rw [← h, hk]; simp⟩
      · refine ⟨-k, ?_⟩
        have : (x.toK : ℚ) = -|(x.toK : ℚ)| := by rw [h]; ring
        rw [this, hk]; push_cast; ring
  rw [hab, Num.abs_val]
  unfold Num.isInt
  by_cases he : x.e > 0
  · rw [if_pos he]
    obtain ⟨n, hn⟩ : ∃ n : ℕ, x.e = n := ⟨x.e.toNat, by omega⟩
    rw [hn, Int.toNat_natCast]
    unfold Mantissa.maxBitLen
    by_cases hl : n < x.m.m.length * 64
    · rw [if_pos hl, Option.isNone_iff_eq_none, findOneFrom_none hx.wf]
      obtain ⟨d, hd⟩ : ∃ d, d = 64 * x.m.m.length - n := ⟨_, rfl⟩
      rw [← hd, show ((n : ℤ) - (64 * x.m.m.length : ℕ)) = -(d : ℤ) by omega, zpow_neg, zpow_natCast]
      constructor
      · intro h
        obtain ⟨k, hk⟩ := Nat.dvd_of_mod_eq_zero h
        refine ⟨k, ?_⟩
        rw [hk]; push_cast; field_simp
      · rintro ⟨k, hk⟩
        apply Nat.mod_eq_zero_of_dvd
        refine ⟨k, ?_⟩
        have h2 : (val x.m.m : ℚ) = 2 ^ d * k := by
          rw [← hk]; field_simp
        exact_mod_cast h2
    · rw [if_neg hl]
      simp only [true_iff]
      obtain ⟨d, hd⟩ : ∃ d, d = n - 64 * x.m.m.length := ⟨_, rfl⟩
      rw [show ((n : ℤ) - (64 * x.m.m.length : ℕ)) = (d : ℤ) by omega, zpow_natCast]
      exact ⟨val x.m.m * 2 ^ d, by push_cast; ring⟩
  · rw [if_neg he]
    constructor
    · intro h
      rw [hx.isZero_iff.1 h]
      exact ⟨0, by simp⟩
    · rintro ⟨k, hk⟩
      have h1 := hx.abs_lt_zpow (K := ℚ)
      rw [Num.abs_val, hk] at h1
      have h2 : (2 : ℚ) ^ x.e ≤ 1 := by
        calc (2 : ℚ) ^ x.e ≤ 2 ^ (0 : ℤ) := zpow_le_zpow_right₀ (by norm_num) (by omega)
          _ = 1 := zpow_zero _
      have h3 : (k : ℚ) < 1 := lt_of_lt_of_le h1 h2
      have h4 : k = 0 := by
        have : k < 1 := by exact_mod_cast h3
        omega
      rw [← hx.toK_eq_zero (K := ℚ), ← abs_eq_zero, Num.abs_val, hk, h4]; simp

theorem C50_is_int (x : Num) (hx : x.WF) : (BF.num x).isInt = true ↔ ∃ z : ℤ, (x.toK : ℚ) = z :=
  isInt_spec x hx

theorem C50_is_zero (x : Num) (hx : x.WF) : (BF.num x).isZero = true ↔ (x.toK : ℚ) = 0 :=
  hx.toK_eq_zero.symm

/-- `is_positive` and `is_negative` report the sign, which is the sign of a nonzero value. -/
theorem C50_sign (x : Num) (_hx : x.WF) :
    ((BF.num x).isPositive = true ↔ x.s = .pos) ∧ ((BF.num x).isNegative = true ↔ x.s = .neg) ∧
    (0 < (x.toK : ℚ) → (BF.num x).isPositive = true ∧ (BF.num x).isNegative = false) ∧
    ((x.toK : ℚ) < 0 → (BF.num x).isNegative = true ∧ (BF.num x).isPositive = false) := by
  have he := Num.toK_eq (K := ℚ) x
  have ha := abs_nonneg (x.toK : ℚ)
  cases hs : x.s with
  | pos =>
    rw [hs] at he; simp only [Sign.toK, one_mul] at he
    refine ⟨by simp [BF.isPositive, Num.isPositive, hs], by simp [BF.isNegative, Num.isNegative, hs], ?_, ?_⟩
    · intro _; simp [BF.isPositive, Num.isPositive, BF.isNegative, Num.isNegative, hs]
    · intro h; linarith
  | neg =>
    rw [hs] at he; simp only [Sign.toK] at he
    refine ⟨by simp [BF.isPositive, Num.isPositive, hs], by simp [BF.isNegative, Num.isNegative, hs], ?_, ?_⟩
    · intro h; linarith
    · intro _; simp [BF.isPositive, Num.isPositive, BF.isNegative, Num.isNegative, hs]

/-- Infinities and NaN are not integers, not zero; infinities have their sign. -/
theorem C50_special (s : Sign) (e : Option Err) :
    (BF.inf s).isInt = false ∧ (BF.nan e).isInt = false ∧ (BF.inf s).isZero = false ∧
    (BF.nan e).isZero = false ∧ ((BF.inf s).isPositive = true ↔ s = .pos) ∧
    ((BF.inf s).isNegative = true ↔ s = .neg) ∧ (BF.nan e).isPositive = false ∧
    (BF.nan e).isNegative = false := by
  cases s <;> simp [BF.isInt, BF.isZero, BF.isPositive, BF.isNegative]

/-- `exA` is `1 + 2^-63`, not an integer. -/
example : (BF.num exA).isInt = false := by
  rw [← Bool.not_eq_true, C50_is_int exA exA_WF, exA_val]
  rintro ⟨z, hz⟩
  have h : (9223372036854775809 : ℚ) = z * 9223372036854775808 := by rw [← hz]; norm_num
  have h2 : (9223372036854775809 : ℤ) = z * 9223372036854775808 := by exact_mod_cast h
  omega

end AF
