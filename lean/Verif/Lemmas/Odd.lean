import Verif.Lemmas.Conv
import Verif.Lemmas.Cmp
import Mathlib.Algebra.Ring.Int.Parity
/-! # The odd integer test -/

namespace AF

theorem mantOdd_spec {m : Mantissa} (hm : Wf m.m) {n : Nat} (hn0 : 0 < n) (hn : n ≤ 64 * m.m.length) :
    m.isOddInt n = true ↔
      val m.m / 2 ^ (64 * m.m.length - n) % 2 = 1 ∧ val m.m % 2 ^ (64 * m.m.length - n) = 0 := by
  unfold Mantissa.isOddInt Mantissa.maxBitLen
  dsimp only
  rw [show m.m.length * 64 - n = 64 * m.m.length - n by omega]
  obtain ⟨d, hd⟩ : ∃ d, d = 64 * m.m.length - n := ⟨_, rfl⟩
  rw [← hd]
  by_cases h0 : d = 0
  · rw [if_pos h0, h0]
    have hl : 0 < m.m.length := by omega
    have := wd_bit hm hl (t := 0) (by norm_num)
    simp only [Nat.shiftRight_zero, Nat.mul_zero, Nat.add_zero] at this
    rw [decide_eq_true_eq, this]
    simp only [pow_zero, Nat.div_one, Nat.mod_one, and_true]
    omega
  · rw [if_neg h0, wd_bit hm (i := d / 64) (t := d % 64) (by omega) (by omega), Nat.div_add_mod]
    have hfn := findOneFrom_none hm n
    rw [← hd] at hfn
    by_cases hb : val m.m / 2 ^ d % 2 = 1
    · rw [if_pos (by omega), Option.isNone_iff_eq_none, hfn]; simp [hb]
    · rw [if_neg (by omega)]; simp [hb]

/-- For a nonzero number `is_odd_int` decides whether the value is an odd integer. -/
theorem isOddInt_spec (x : Num) (hx : x.WF) (h0 : (x.toK : ℚ) ≠ 0) :
    x.isOddInt = true ↔ ∃ z : ℤ, Odd z ∧ (x.toK : ℚ) = z := by
  have hab : (∃ z : ℤ, Odd z ∧ (x.toK : ℚ) = z) ↔ ∃ k : ℕ, k % 2 = 1 ∧ |(x.toK : ℚ)| = k := by
    constructor
    · rintro ⟨z, ho, hz⟩
      refine ⟨z.natAbs, ?_, ?_⟩
      · exact Nat.odd_iff.1 (Int.natAbs_odd.2 ho)
      · rw [hz, ← Int.cast_abs, ← Int.natCast_natAbs, Int.cast_natCast]
    · rintro ⟨k, ho, hk⟩
      have hodd : Odd (k : ℤ) := by exact_mod_cast Nat.odd_iff.2 ho
      rcases abs_choice (x.toK : ℚ) with h | h
      · exact ⟨k, hodd, by rw [← h, hk]; simp⟩
      · refine ⟨-k, hodd.neg, ?_⟩
        have : (x.toK : ℚ) = -|(x.toK : ℚ)| := by rw [h]; ring
        rw [this, hk]; push_cast; ring
  have hz : x.isZero = false := by
    rw [← Bool.not_eq_true]; exact fun h => h0 (hx.toK_eq_zero.2 h)
  rw [hab]
  unfold Num.isOddInt
  by_cases he : x.e > 0
  · rw [if_pos he]
    obtain ⟨n, hn⟩ : ∃ n : ℕ, x.e = n := ⟨x.e.toNat, by omega⟩
    rw [Num.abs_val, hn, Int.toNat_natCast]
    by_cases hl : n ≤ x.m.maxBitLen
    · rw [if_pos hl]
      unfold Mantissa.maxBitLen at hl
      rw [mantOdd_spec hx.wf (by omega) (by omega)]
      obtain ⟨d, hd⟩ : ∃ d, d = 64 * x.m.m.length - n := ⟨_, rfl⟩
      rw [← hd, show ((n : ℤ) - (64 * x.m.m.length : ℕ)) = -(d : ℤ) by omega, zpow_neg, zpow_natCast]
      constructor
      · rintro ⟨h1, h2⟩
        refine ⟨val x.m.m / 2 ^ d, h1, ?_⟩
        have h3 : val x.m.m = 2 ^ d * (val x.m.m / 2 ^ d) := by
          have := Nat.div_add_mod (val x.m.m) (2 ^ d); omega
        generalize val x.m.m / 2 ^ d = q at h3
        rw [h3]; push_cast; field_simp
      · rintro ⟨k, ho, hk⟩
        have h2 : (val x.m.m : ℚ) = 2 ^ d * k := by rw [← hk]; field_simp
        have h3 : val x.m.m = 2 ^ d * k := by exact_mod_cast h2
        rw [h3, Nat.mul_div_cancel_left _ (by positivity), Nat.mul_mod_right]
        exact ⟨ho, rfl⟩
    · rw [if_neg hl]
      unfold Mantissa.maxBitLen at hl
      obtain ⟨d, hd⟩ : ∃ d, d + 1 = n - 64 * x.m.m.length := ⟨n - 64 * x.m.m.length - 1, by omega⟩
      rw [show ((n : ℤ) - (64 * x.m.m.length : ℕ)) = ((d + 1 : ℕ) : ℤ) by omega, zpow_natCast]
      constructor
      · intro h; cases h
      · rintro ⟨k, ho, hk⟩
        have : val x.m.m * 2 ^ (d + 1) = k := by exact_mod_cast hk
        rw [← this, pow_succ, ← mul_assoc, Nat.mul_mod_left] at ho
        cases ho
  · rw [if_neg he, hz]
    constructor
    · intro h; cases h
    · rintro ⟨k, ho, hk⟩
      have h1 := hx.abs_lt_zpow (K := ℚ)
      rw [hk] at h1
      have h2 : (2 : ℚ) ^ x.e ≤ 1 := by
        calc (2 : ℚ) ^ x.e ≤ 2 ^ (0 : ℤ) := zpow_le_zpow_right₀ (by norm_num) (by omega)
          _ = 1 := zpow_zero _
      have h3 : (k : ℚ) < 1 := lt_of_lt_of_le h1 h2
      have : k < 1 := by exact_mod_cast h3
      omega

end AF
