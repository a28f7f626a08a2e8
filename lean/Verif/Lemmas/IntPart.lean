import Verif.Lemmas.Conv
import Verif.Lemmas.Op
import Verif.Lemmas.Cmp
import Mathlib.Data.Nat.Bitwise
import Mathlib.Data.Rat.Floor
/-! # Integer and fractional part -/

namespace AF
set_option linter.unusedSectionVars false

theorem and_high_mask {v n : Nat} (hv : v < B) (hn : n < 64) :
    v &&& ((WMAX <<< n) % B) = v / 2 ^ n * 2 ^ n := by
  rw [shl_mod WMAX n (by omega), WMAX_eq, B_eq]
  have h1 : (2 ^ 64 - 1) % 2 ^ (64 - n) = 2 ^ (64 - n) - 1 := by
    have h2 : 2 ^ 64 - 1 = (2 ^ (64 - n) - 1) + 2 ^ (64 - n) * (2 ^ n - 1) := by
      have h3 : 2 ^ 64 = 2 ^ (64 - n) * 2 ^ n := by rw [← pow_add]; congr 1; omega
      have h4 : 0 < 2 ^ (64 - n) := by positivity
      have h5 : 0 < 2 ^ n := by positivity
      rw [h3, Nat.mul_sub, mul_one]
      have : 2 ^ (64 - n) ≤ 2 ^ (64 - n) * 2 ^ n := Nat.le_mul_of_pos_right _ h5
      omega
    rw [h2, Nat.add_mul_mod_self_left, Nat.mod_eq_of_lt]
    have h4 : 0 < 2 ^ (64 - n) := by positivity
    omega
  rw [h1, ← Nat.shiftLeft_eq, ← Nat.shiftLeft_eq, ← Nat.shiftRight_eq_div_pow]
  apply Nat.eq_of_testBit_eq
  intro i
  simp only [Nat.testBit_and, Nat.testBit_shiftLeft, Nat.testBit_two_pow_sub_one, Nat.testBit_shiftRight]
  by_cases hi : n ≤ i
  · rw [show n + (i - n) = i by omega]
    simp only [hi, ge_iff_le, decide_true, Bool.true_and]
    by_cases hi2 : i < 64
    · simp [show i - n < 64 - n by omega]
    · have : v.testBit i = false := Nat.testBit_lt_two_pow (by
        rw [B_eq] at hv
        exact lt_of_lt_of_le hv (Nat.pow_le_pow_right (by norm_num) (by omega)))
      simp [this]
  · simp [hi]

theorem maskRight_spec {m : List Nat} (hm : Wf m) (n : Nat) :
    val (maskBits m n false) = val m / 2 ^ n * 2 ^ n ∧ Wf (maskBits m n false) ∧
      (maskBits m n false).length = m.length := by
  unfold maskBits
  rw [if_neg (by simp)]
  induction m generalizing n with
  | nil => simp [maskLoop, val, Wf]
  | cons v vs ih =>
    obtain ⟨hv, hvs⟩ := wf_cons.1 hm
    unfold maskLoop
    by_cases hn : n ≥ 64
    · rw [if_pos hn]
      obtain ⟨i1, i2, i3⟩ := ih hvs (n - 64)
      refine ⟨?_, Wf.cons B_pos i2, by simp [i3]⟩
      simp only [val]
      rw [i1]
      have e : 2 ^ n = B * 2 ^ (n - 64) := by rw [B_eq, ← pow_add]; congr 1; omega
      rw [e, ← Nat.div_div_eq_div_mul, Nat.add_mul_div_left _ _ B_pos, Nat.div_eq_of_lt hv, Nat.zero_add]
      ring
    · rw [if_neg hn, and_high_mask hv (by omega)]
      refine ⟨?_, Wf.cons (lt_of_le_of_lt (Nat.div_mul_le_self _ _) hv) hvs, by simp⟩
      simp only [val]
      have e : B = 2 ^ n * 2 ^ (64 - n) := by rw [B_eq, ← pow_add]; congr 1; omega
      rw [e, mul_assoc, Nat.add_mul_div_left _ _ (by positivity)]
      ring

/-- The integer part of the magnitude of a number with a positive exponent. -/
theorem int_WF_val {x : Num} (hx : x.WF) :
    x.int.WF ∧ x.int.s = x.s ∧ x.int.inexact = x.inexact ∧ x.int.m.m.length = x.m.m.length ∧
      |(x.int.toK : ℚ)| = ⌊|(x.toK : ℚ)|⌋ := by
  unfold Num.int
  by_cases he : x.e > 0
  · rw [if_pos he]
    obtain ⟨n, hn⟩ : ∃ n : ℕ, x.e = n := ⟨x.e.toNat, by omega⟩
    have hmb : x.m.maxBitLen = 64 * x.m.m.length := by unfold Mantissa.maxBitLen; ring
    rw [hmb, hn, Int.toNat_natCast]
    by_cases hl : n < 64 * x.m.m.length
    · rw [if_pos hl]
      obtain ⟨d, hd⟩ : ∃ d, d = 64 * x.m.m.length - n := ⟨_, rfl⟩
      rw [← hd]
      obtain ⟨k1, k2, k3⟩ := maskRight_spec hx.wf d
      have hd1 : d ≤ 64 * x.m.m.length - 1 := by omega
      have hsz : x.m.n = Nat.size (val (maskBits x.m.m d false)) := by
        rw [k1]
        by_cases hv : val x.m.m = 0
        · rw [hx.bits, hv]; simp
        · have hz : x.isZero = false := by rw [← Bool.not_eq_true]; exact fun h => hv (hx.isZero_iff.1 h)
          have hfull : x.m.n = 64 * x.m.m.length := by
            have h1 := hx.n_le
            by_contra hc
            have := hx.norm (hx.n_pos hz) (by omega)
            rw [this] at he; exact absurd he (by decide)
          have hlow : 2 ^ (64 * x.m.m.length - 1) ≤ val x.m.m := by
            rw [← Nat.lt_size, ← hx.bits]; omega
          rw [hx.bits]
          have hne : val x.m.m / 2 ^ d ≠ 0 := by
            have : 2 ^ d ≤ val x.m.m := le_trans (Nat.pow_le_pow_right (by norm_num) hd1) hlow
            have := Nat.div_pos this (by positivity)
            omega
          rw [size_mul_two_pow hne, size_div_two_pow, ← hx.bits]; omega
      refine ⟨⟨k2, hsz, by simpa [hn] using hx.emin, by simpa [hn] using hx.emax, ?_, ?_⟩, rfl, rfl, k3, ?_⟩
      · dsimp only; rw [k3]; exact fun h1 h2 => hn ▸ hx.norm h1 h2
      · dsimp only; rw [k3]; exact hx.sized
      · rw [Num.abs_val, Num.abs_val]
        dsimp only
        rw [k1, k3, hn, show ((n : ℤ) - (64 * x.m.m.length : ℕ)) = -(d : ℤ) by omega, zpow_neg, zpow_natCast]
        have hp : (0 : ℚ) < 2 ^ d := by positivity
        symm
        rw [← div_eq_mul_inv, ← div_eq_mul_inv, show (2 : ℚ) ^ d = ((2 ^ d : ℕ) : ℚ) by push_cast; rfl]
        have hfl : ⌊(val x.m.m : ℚ) / ((2 ^ d : ℕ) : ℚ)⌋ = ((val x.m.m / 2 ^ d : ℕ) : ℤ) := by
          rw [Int.floor_eq_iff]
          have h1 := Nat.div_mul_le_self (val x.m.m) (2 ^ d)
          have h2 := Nat.lt_div_mul_add (a := val x.m.m) (b := 2 ^ d) (by positivity)
          have h1' : ((val x.m.m / 2 ^ d : ℕ) : ℚ) * ((2 ^ d : ℕ) : ℚ) ≤ val x.m.m := by exact_mod_cast h1
          have h2' : (val x.m.m : ℚ) < ((val x.m.m / 2 ^ d : ℕ) : ℚ) * ((2 ^ d : ℕ) : ℚ) + ((2 ^ d : ℕ) : ℚ) := by
            exact_mod_cast h2
          have hp' : (0 : ℚ) < ((2 ^ d : ℕ) : ℚ) := by push_cast; exact hp
          rw [Int.cast_natCast]
          constructor
          · rw [le_div_iff₀ hp']; exact h1'
          · rw [div_lt_iff₀ hp']; linarith
        rw [hfl, Int.cast_natCast, Nat.cast_mul, mul_div_assoc, div_self (by push_cast; exact hp.ne'), mul_one]
    · rw [if_neg hl]
      refine ⟨hx, rfl, rfl, rfl, ?_⟩
      rw [Num.abs_val, hn]
      obtain ⟨d, hd⟩ : ∃ d, d = n - 64 * x.m.m.length := ⟨_, rfl⟩
      rw [show ((n : ℤ) - (64 * x.m.m.length : ℕ)) = (d : ℤ) by omega, zpow_natCast]
      rw [show (val x.m.m : ℚ) * 2 ^ d = ((val x.m.m * 2 ^ d : ℕ) : ℚ) by push_cast; rfl]
      rw [Int.floor_natCast]; simp
  · rw [if_neg he]
    have hv0 : val (List.replicate x.m.m.length 0) = 0 := val_replicate_zero _
    refine ⟨⟨wf_zeros _, ?_, (by decide : EMIN ≤ 0), (by decide : 0 ≤ EMAX), fun h => absurd h (by
      simp [Mantissa.setZero]), ?_⟩, rfl, rfl, by simp [Mantissa.setZero], ?_⟩
    · simp only [Mantissa.setZero]; rw [hv0]; simp
    · simp only [Mantissa.setZero, List.length_replicate]; exact hx.sized
    · rw [Num.toK_of_zero (by exact hv0), abs_zero]
      have h1 := hx.abs_lt_zpow (K := ℚ)
      have h2 : (2 : ℚ) ^ x.e ≤ 1 := by
        calc (2 : ℚ) ^ x.e ≤ 2 ^ (0 : ℤ) := zpow_le_zpow_right₀ (by norm_num) (by omega)
          _ = 1 := zpow_zero _
      have : ⌊|(x.toK : ℚ)|⌋ = 0 := by
        rw [Int.floor_eq_zero_iff]
        exact ⟨abs_nonneg _, lt_of_lt_of_le h1 h2⟩
      rw [this]; simp

/-- The fractional part, for mantissas shorter than `2^31` bits. -/
theorem fract_WF_val {x : Num} (hx : x.WF) (hlen : 64 * x.m.m.length < 2 ^ 31) :
    x.fract.WF ∧ x.fract.s = x.s ∧ x.fract.inexact = x.inexact ∧ x.fract.m.m.length = x.m.m.length ∧
      |(x.fract.toK : ℚ)| = |(x.toK : ℚ)| - ⌊|(x.toK : ℚ)|⌋ := by
  have hv0 : val (List.replicate x.m.m.length 0) = 0 := val_replicate_zero _
  have hzero : ∀ k : ℕ, |(x.toK : ℚ)| = k →
      (Num.mk 0 x.s x.m.setZero x.inexact).WF ∧ x.m.setZero.m.length = x.m.m.length ∧
      |((Num.mk 0 x.s x.m.setZero x.inexact).toK : ℚ)| = |(x.toK : ℚ)| - ⌊|(x.toK : ℚ)|⌋ := by
    intro k hk
    refine ⟨⟨wf_zeros _, ?_, (by decide : EMIN ≤ 0), (by decide : 0 ≤ EMAX), fun h => absurd h (by
      simp [Mantissa.setZero]), ?_⟩, by simp [Mantissa.setZero], ?_⟩
    · simp only [Mantissa.setZero]; rw [hv0]; simp
    · simp only [Mantissa.setZero, List.length_replicate]; exact hx.sized
    · rw [Num.toK_of_zero (by exact hv0), hk, Int.floor_natCast]; simp
  unfold Num.fract
  by_cases he : x.e > 0
  · rw [if_pos he]
    obtain ⟨n, hn⟩ : ∃ n : ℕ, x.e = n := ⟨x.e.toNat, by omega⟩
    have hmb : x.m.maxBitLen = 64 * x.m.m.length := by unfold Mantissa.maxBitLen; ring
    have hn0 : 0 < n := by omega
    rw [hmb, hn, Int.toNat_natCast]
    by_cases hl : n < 64 * x.m.m.length
    · rw [if_pos hl]
      obtain ⟨d, hd⟩ : ∃ d, d = 64 * x.m.m.length - n := ⟨_, rfl⟩
      have hab : |(x.toK : ℚ)| = (val x.m.m : ℚ) / ((2 ^ d : ℕ) : ℚ) := by
        rw [Num.abs_val, hn, show ((n : ℤ) - (64 * x.m.m.length : ℕ)) = -(d : ℤ) by omega, zpow_neg,
          zpow_natCast, div_eq_mul_inv]
        push_cast; rfl
      have hp : (0 : ℚ) < ((2 ^ d : ℕ) : ℚ) := by push_cast; positivity
      have hdm : val x.m.m = 2 ^ d * (val x.m.m / 2 ^ d) + val x.m.m % 2 ^ d := (Nat.div_add_mod _ _).symm
      have hdmQ : (val x.m.m : ℚ) = ((2 ^ d : ℕ) : ℚ) * ((val x.m.m / 2 ^ d : ℕ) : ℚ) +
          ((val x.m.m % 2 ^ d : ℕ) : ℚ) := by exact_mod_cast hdm
      rw [findOneFrom_spec hx.wf hl, ← hd]
      by_cases hr : val x.m.m % 2 ^ d = 0
      · rw [if_pos hr]
        dsimp only
        obtain ⟨z1, z2, z3⟩ := hzero (val x.m.m / 2 ^ d) (by
          rw [hab, hdmQ, hr, Nat.cast_zero, add_zero, mul_div_assoc, mul_div_cancel₀]
          exact hp.ne')
        exact ⟨z1, rfl, rfl, z2, z3⟩
      · rw [if_neg hr]
        dsimp only
        obtain ⟨R, hR⟩ : ∃ R, R = val x.m.m % 2 ^ d := ⟨_, rfl⟩
        rw [← hR] at hr hdm hdmQ ⊢
        have hRlt : R < 2 ^ d := by rw [hR]; exact Nat.mod_lt _ (by positivity)
        have hsz1 : Nat.size R ≤ d := Nat.size_le.2 hRlt
        have hsz0 : 0 < Nat.size R := Nat.size_pos.2 (Nat.pos_of_ne_zero hr)
        obtain ⟨sh, hsh⟩ : ∃ sh, sh = 64 * x.m.m.length - Nat.size R := ⟨_, rfl⟩
        rw [← hsh]
        have hmin : ¬ ((n : ℤ) - (sh : ℤ) < EMIN) := by unfold EMIN; omega
        rw [if_neg hmin]
        have hv : val (shiftLeft x.m.m sh) = R * 2 ^ sh := by
          rw [val_shiftLeft hx.wf, B_pow]
          conv_lhs => rw [hdm]
          have e1 : (2 ^ d * (val x.m.m / 2 ^ d) + R) * 2 ^ sh =
              R * 2 ^ sh + 2 ^ (64 * x.m.m.length) * (2 ^ (d + sh - 64 * x.m.m.length) * (val x.m.m / 2 ^ d)) := by
            rw [← mul_assoc, ← pow_add, show 64 * x.m.m.length + (d + sh - 64 * x.m.m.length) = d + sh by omega,
              pow_add]
            ring
          rw [e1, Nat.add_mul_mod_self_left, Nat.mod_eq_of_lt]
          calc R * 2 ^ sh < 2 ^ Nat.size R * 2 ^ sh :=
                Nat.mul_lt_mul_of_pos_right (Nat.lt_size_self _) (by positivity)
            _ = 2 ^ (64 * x.m.m.length) := by rw [← pow_add]; congr 1; omega
        have hz : x.isZero = false := by
          rw [← Bool.not_eq_true]
          intro h
          have h0 := hx.isZero_iff.1 h
          rw [h0] at hR; simp at hR; exact hr hR
        have hfull : x.m.n = 64 * x.m.m.length := by
          have h1 := hx.n_le
          by_contra hc
          have := hx.norm (hx.n_pos hz) (by omega)
          rw [this] at he; exact absurd he (by decide)
        refine ⟨⟨shiftLeft_wf hx.wf _, ?_, by dsimp only; omega, ?_, ?_, ?_⟩, rfl, rfl, shiftLeft_length _ _, ?_⟩
        · dsimp only; rw [hv, size_mul_two_pow hr, hfull]; omega
        · dsimp only
          have := hx.emax
          omega
        · dsimp only; rw [shiftLeft_length, hfull]; intro _ h; omega
        · dsimp only; rw [shiftLeft_length]; exact hx.sized
        · rw [Num.abs_val, hab]
          dsimp only
          rw [hv, shiftLeft_length]
          have hfl : ⌊(val x.m.m : ℚ) / ((2 ^ d : ℕ) : ℚ)⌋ = ((val x.m.m / 2 ^ d : ℕ) : ℤ) := by
            rw [Int.floor_eq_iff, Int.cast_natCast]
            have h3 : (R : ℚ) < ((2 ^ d : ℕ) : ℚ) := by exact_mod_cast hRlt
            have h4 : (0 : ℚ) ≤ R := Nat.cast_nonneg _
            constructor
            · rw [le_div_iff₀ hp, hdmQ]; nlinarith
            · rw [div_lt_iff₀ hp]; nlinarith
          rw [hfl, Int.cast_natCast, show ((n : ℤ) - (sh : ℤ) - (64 * x.m.m.length : ℕ)) = -((d + sh : ℕ) : ℤ) by
            push_cast; omega, zpow_neg, zpow_natCast, pow_add]
          have : (val x.m.m : ℚ) / ((2 ^ d : ℕ) : ℚ) - ((val x.m.m / 2 ^ d : ℕ) : ℚ) = R / ((2 ^ d : ℕ) : ℚ) := by
            conv_lhs => rw [hdmQ]
            field_simp
            ring
          rw [this]
          push_cast
          field_simp
    · rw [if_neg hl]
      obtain ⟨d, hd⟩ : ∃ d, d = n - 64 * x.m.m.length := ⟨_, rfl⟩
      obtain ⟨z1, z2, z3⟩ := hzero (val x.m.m * 2 ^ d) (by
        rw [Num.abs_val, hn, show ((n : ℤ) - (64 * x.m.m.length : ℕ)) = (d : ℤ) by omega, zpow_natCast]
        push_cast; rfl)
      exact ⟨z1, rfl, rfl, z2, z3⟩
  · rw [if_neg he]
    refine ⟨hx, rfl, rfl, rfl, ?_⟩
    have h1 := hx.abs_lt_zpow (K := ℚ)
    have h2 : (2 : ℚ) ^ x.e ≤ 1 := by
      calc (2 : ℚ) ^ x.e ≤ 2 ^ (0 : ℤ) := zpow_le_zpow_right₀ (by norm_num) (by omega)
        _ = 1 := zpow_zero _
    have : ⌊|(x.toK : ℚ)|⌋ = 0 := by
      rw [Int.floor_eq_zero_iff]
      exact ⟨abs_nonneg _, lt_of_lt_of_le h1 h2⟩
    rw [this]; simp

end AF
