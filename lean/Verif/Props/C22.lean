import Verif.Props.C21
import Mathlib.Data.Nat.Bitwise
/-!
# C22: conversion from `f64`

The argument is the bit pattern of the `f64`. The claim is false in the code for the subnormal
patterns: they are converted to half of their value (`C22_refuted`, `C22_subnormal_half`).
A zero is converted to a zero of precision 0 and always positive sign.
-/

namespace AF

/-- The value of a finite binary64 bit pattern (IEEE 754). -/
def f64Val (u : Nat) : ℚ :=
  (if u / 2 ^ 63 = 1 then -1 else 1) *
    (if u / 2 ^ 52 % 2 ^ 11 = 0 then (u % 2 ^ 52 : ℕ) * (2 : ℚ) ^ (-1074 : ℤ)
     else (2 ^ 52 + u % 2 ^ 52 : ℕ) * (2 : ℚ) ^ ((u / 2 ^ 52 % 2 ^ 11 : ℕ) - 1075 : ℤ))

theorem fromU64_spec {p u : Nat} (hp : 0 < p) (hu : u < B) (h0 : u ≠ 0) :
    ∃ M sh, Mantissa.fromU64 p u = .ok (sh, ⟨M, 64 * M.length⟩) ∧ Normd M ∧ M.length = wordLen p ∧
      sh ≤ 63 ∧ val M = B ^ (wordLen p - 1) * u * 2 ^ sh := by
  have hl : 0 < wordLen p := by unfold wordLen; omega
  have hw : Wf (List.replicate (wordLen p - 1) 0 ++ [u]) := by
    rw [wf_append]; exact ⟨wf_zeros _, Wf.cons hu Wf.nil⟩
  have hv : val (List.replicate (wordLen p - 1) 0 ++ [u]) = B ^ (wordLen p - 1) * u := by
    rw [val_zeros_append]; simp [val]
  have hlen : (List.replicate (wordLen p - 1) 0 ++ [u]).length = wordLen p := by simp; omega
  have hne : val (List.replicate (wordLen p - 1) 0 ++ [u]) ≠ 0 := by
    rw [hv]; exact Nat.mul_ne_zero (B_pow_pos _).ne' h0
  obtain ⟨m1, m2, m3, m4, m5⟩ := maximize_spec hw hne
  refine ⟨_, (maximize (List.replicate (wordLen p - 1) 0 ++ [u])).2, ?_, ⟨m5, ?_, ?_⟩, ?_, ?_, ?_⟩
  rotate_left 2
  · rw [m4]; exact m3
  · rw [m4, hlen]
  · rw [m2, hlen, hv, B_pow, mul_comm (2 ^ _) u, size_mul_two_pow h0]
    have : 0 < Nat.size u := Nat.size_pos.2 (by omega)
    omega
  · rw [m1, hv]
  · unfold Mantissa.fromU64
    dsimp only
    rw [if_neg (by omega), mul_comm]
  · rw [m4, hlen]; exact hl

theorem fromU64_value {p u : Nat} (hp : 0 < p) (hpm : p < PMAX) (hu : u < B) (h0 : u ≠ 0) (e : ℤ)
    (h1 : EMIN + 63 ≤ e) (h2 : e ≤ EMAX) (s : Sign) :
    ∃ sh m, Mantissa.fromU64 p u = .ok (sh, m) ∧
      ∃ v : Num, v = Num.mk (e - (sh : ℤ)) s m false ∧ v.WF ∧ 64 * v.m.m.length = precBits p ∧
        (v.toK : ℚ) = s.toK * u * 2 ^ (e - 64) := by
  have hl : 0 < wordLen p := by unfold wordLen; omega
  obtain ⟨M, sh, h3, h4, h5, h6, h7⟩ := fromU64_spec hp hu h0
  refine ⟨sh, _, h3, _, rfl, WF_of_normd h4 rfl (by omega) (by omega) ?_ _ _, ?_, ?_⟩
  · rw [h5]; exact PMAX_words hpm
  · dsimp only; rw [h5]; rfl
  · unfold Num.toK
    dsimp only
    rw [h7, h5, B_pow, show e - (sh : ℤ) - (64 * wordLen p : ℕ) =
      (e - 64) - ((64 * (wordLen p - 1) + sh : ℕ) : ℤ) by
        push_cast [Nat.cast_sub (show 1 ≤ wordLen p by omega)]; ring,
      two_zpow_sub (e - 64), zpow_natCast, pow_add]
    push_cast
    field_simp

theorem f64_sign {u : Nat} (hu : u < 2 ^ 64) :
    ((if decide (u / 2 ^ 63 % 2 = 1) = true then Sign.neg else Sign.pos).toK : ℚ) =
      if u / 2 ^ 63 = 1 then -1 else 1 := by
  have : u / 2 ^ 63 % 2 = u / 2 ^ 63 := by omega
  rw [this]
  generalize u / 2 ^ 63 = b
  by_cases h : b = 1 <;> simp [h, Sign.toK]

/-- Proved for the normal patterns; missing from the full claim: subnormals (false). The precision may
be any from one. -/
theorem C22_from_f64_partial (u : Nat) (hu : u < 2 ^ 64) (h0 : u / 2 ^ 52 % 2 ^ 11 ≠ 0)
    (h1 : u / 2 ^ 52 % 2 ^ 11 ≠ 2047) (p : Nat) (hp : 0 < p) (hpm : p < 2 ^ 62 - 2 ^ 31 - 1) :
    ConvertsTo p (f64Val u) (BF.fromF64 u p) := by
  rw [← PMAX_eq] at hpm
  obtain ⟨E, hE⟩ : ∃ E, E = u / 2 ^ 52 % 2 ^ 11 := ⟨_, rfl⟩
  obtain ⟨F, hF⟩ : ∃ F, F = u % 2 ^ 52 := ⟨_, rfl⟩
  have hmag : u % 2 ^ 63 = E * 2 ^ 52 + F := by omega
  have hFlt : F < 2 ^ 52 := by omega
  have hElt : E < 2047 := by omega
  have hEpos : 0 < E := by omega
  unfold BF.fromF64 Num.fromF64
  rw [if_neg (by omega)]
  dsimp only
  rw [hmag, if_neg (by omega), if_neg (by omega), if_neg (by omega)]
  have e1 : ((E * 2 ^ 52 + F) <<< 12) % B = F * 2 ^ 12 := by
    rw [Nat.shiftLeft_eq, B_eq]; omega
  have e2 : ((E * 2 ^ 52 + F) >>> 52) &&& 2047 = E := by
    rw [Nat.shiftRight_eq_div_pow, show (2047 : ℕ) = 2 ^ 11 - 1 by norm_num, Nat.and_two_pow_sub_one_eq_mod]
    omega
  rw [e1, e2, if_pos (by omega)]
  have e3 : ((F * 2 ^ 12) >>> 1) ||| MSB = 2 ^ 63 + F * 2 ^ 11 := by
    rw [Nat.shiftRight_eq_div_pow, pow_one, MSB_eq, Nat.lor_comm, or_eq_add (s := 63) (by norm_num) (by omega)]
    omega
  dsimp only
  rw [e3]
  obtain ⟨sh, m, h2, v, h3, h4, h5, h6⟩ := fromU64_value (p := p) (u := 2 ^ 63 + F * 2 ^ 11) hp hpm
    (by rw [B_eq]; omega) (by omega) (((E + 1 : ℕ) : ℤ) - 1023) (by unfold EMIN; omega) (by unfold EMAX; omega)
    (if decide (u / 2 ^ 63 % 2 = 1) = true then .neg else .pos)
  rw [h2]
  dsimp only
  refine ⟨v, by rw [h3]; rfl, h4, h5, ?_, by rw [h3]⟩
  rw [h6, f64_sign hu]
  unfold f64Val
  rw [← hE, ← hF, if_neg (show ¬ E = 0 by omega), mul_assoc]
  congr 1
  rw [show (((E + 1 : ℕ) : ℤ) - 1023 - 64) = ((E : ℕ) : ℤ) - 1075 - (11 : ℕ) by push_cast; ring,
    two_zpow_sub _ ((11 : ℕ) : ℤ), zpow_natCast]
  push_cast
  field_simp
  ring

/-- What the code does with subnormal patterns. -/
theorem C22_subnormal_half (u : Nat) (hu : u < 2 ^ 64) (h0 : u / 2 ^ 52 % 2 ^ 11 = 0)
    (h1 : u % 2 ^ 52 ≠ 0) (p : Nat) (hp : 0 < p) (hpm : p < 2 ^ 62 - 2 ^ 31 - 1) :
    ConvertsTo p (f64Val u / 2) (BF.fromF64 u p) := by
  rw [← PMAX_eq] at hpm
  obtain ⟨F, hF⟩ : ∃ F, F = u % 2 ^ 52 := ⟨_, rfl⟩
  have hmag : u % 2 ^ 63 = F := by omega
  have hFlt : F < 2 ^ 52 := by omega
  unfold BF.fromF64 Num.fromF64
  rw [if_neg (by omega)]
  dsimp only
  rw [hmag, if_neg (by omega), if_neg (by omega), if_neg (by omega)]
  have e1 : (F <<< 12) % B = F * 2 ^ 12 := by
    rw [Nat.shiftLeft_eq, B_eq]; omega
  have e2 : (F >>> 52) &&& 2047 = 0 := by
    rw [Nat.shiftRight_eq_div_pow, Nat.div_eq_of_lt hFlt, Nat.zero_and]
  rw [e1, e2, if_neg (by omega)]
  dsimp only
  obtain ⟨sh, m, h2, v, h3, h4, h5, h6⟩ := fromU64_value (p := p) (u := F * 2 ^ 12) hp hpm
    (by rw [B_eq]; omega) (by omega) (((0 : ℕ) : ℤ) - 1023) (by unfold EMIN; omega) (by unfold EMAX; omega)
    (if decide (u / 2 ^ 63 % 2 = 1) = true then .neg else .pos)
  rw [h2]
  dsimp only
  refine ⟨v, by rw [h3]; rfl, h4, h5, ?_, by rw [h3]⟩
  rw [h6, f64_sign hu]
  unfold f64Val
  rw [← hF, if_pos h0, mul_assoc, mul_div_assoc]
  congr 1
  rw [show (((0 : ℕ) : ℤ) - 1023 - 64) = -1074 - (13 : ℕ) by norm_num, two_zpow_sub _ ((13 : ℕ) : ℤ), zpow_natCast]
  push_cast
  field_simp
  norm_num

theorem C22_from_f64_zero (u : Nat) (h0 : u % 2 ^ 63 = 0) (p : Nat) (hpm : p < 2 ^ 62 - 2 ^ 31 - 1) :
    ∃ v, BF.fromF64 u p = .num v ∧ (v.toK : ℚ) = 0 := by
  rw [← PMAX_eq] at hpm
  unfold BF.fromF64 Num.fromF64
  rw [if_neg (by omega)]
  dsimp only
  rw [if_pos h0]
  exact ⟨Num.zero 0 .pos false, rfl, zero_toK _ _ _⟩

theorem C22_from_f64_inf_nan (u : Nat) (hu : u < 2 ^ 64) (h : u / 2 ^ 52 % 2 ^ 11 = 2047) (p : Nat)
    (hpm : p < 2 ^ 62 - 2 ^ 31 - 1) :
    (u % 2 ^ 52 = 0 → BF.fromF64 u p = .inf (if u / 2 ^ 63 = 1 then .neg else .pos)) ∧
    (u % 2 ^ 52 ≠ 0 → (BF.fromF64 u p).isNan = true) := by
  rw [← PMAX_eq] at hpm
  unfold BF.fromF64 Num.fromF64
  rw [if_neg (by omega)]
  dsimp only
  rw [if_neg (by omega)]
  constructor
  · intro h1
    rw [if_pos (by omega)]
    have : u / 2 ^ 63 % 2 = u / 2 ^ 63 := by omega
    rw [this]
    generalize u / 2 ^ 63 = b
    by_cases h2 : b = 1 <;> simp [h2, BF.resultToExt, Sign.isPos, BF.INF_NEG, BF.INF_POS]
  · intro h1
    rw [if_neg (by omega), if_pos (by omega)]
    rfl

/-- The smallest positive `f64`, `2^-1074`, is converted to `2^-1075`. -/
theorem C22_refuted : ¬ ∀ u, u < 2 ^ 64 → u / 2 ^ 52 % 2 ^ 11 ≠ 2047 → ∀ p, 64 ≤ p → p < 2 ^ 62 - 2 ^ 31 - 1 →
    ∃ v, BF.fromF64 u p = .num v ∧ (v.toK : ℚ) = f64Val u := by
  intro h
  obtain ⟨v, h1, h2⟩ := h 1 (by norm_num) (by norm_num) 64 le_rfl (by norm_num)
  obtain ⟨w, h3, _, _, h4, _⟩ := C22_subnormal_half 1 (by norm_num) (by norm_num) (by norm_num) 64 (by norm_num)
    (by norm_num)
  rw [h1] at h3
  injection h3 with h3
  rw [← h3, h2] at h4
  have h5 : f64Val 1 ≠ 0 := by norm_num [f64Val]
  have h6 : f64Val 1 = 0 := by linarith
  exact h5 h6

/-- `-1.5` is `0xBFF8000000000000`. -/
example : ConvertsTo 100 (f64Val 0xBFF8000000000000) (BF.fromF64 0xBFF8000000000000 100) :=
  C22_from_f64_partial _ (by norm_num) (by norm_num) (by norm_num) 100 (by norm_num) (by norm_num)

example : f64Val 0xBFF8000000000000 = -3 / 2 := by norm_num [f64Val]

example : BF.fromF64 0xFFF0000000000000 64 = .inf .neg :=
  (C22_from_f64_inf_nan 0xFFF0000000000000 (by norm_num) (by norm_num) 64 (by norm_num)).1 (by norm_num)

end AF
