import Verif.Model.Consts
import Verif.Lemmas.FullPrec
import Verif.Lemmas.Conv
import Verif.Lemmas.NumDiv
import Verif.Lemmas.DecApx
import Verif.Lemmas.FftWord
import Mathlib.Algebra.Order.Archimedean.Real.Basic
/-!
# Exact integers held by numbers, for the binary splitting of the constants
-/

namespace AF

set_option linter.unusedSectionVars false

/-- The number `x` is the positive integer `N`, without trailing zero words. -/
structure IsNat (x : Num) (N : Nat) : Prop where
  wf : x.WF
  eq : (x.toK : ℝ) = N
  exact : x.inexact = false
  len : (64 * x.m.m.length : ℤ) ≤ x.e + 63
  pos : 0 < N

theorem IsNat.nz {x : Num} {N : Nat} (h : IsNat x N) : x.isZero = false := by
  have h1 := h.wf.toK_eq_zero (K := ℝ)
  rw [h.eq] at h1
  cases hz : x.isZero with
  | false => rfl
  | true =>
    have := h1.2 hz
    have := h.pos
    norm_cast at *; omega

/-- A normalised mantissa whose lowest word is not zero, holding an integer. -/
theorem len_of_low {m : List Nat} (hm : Wf m) (h0 : 0 < m.length) {e : ℤ} {N : Nat}
    (hl : wd m 0 ≠ 0) (hv : (val m : ℝ) * 2 ^ (e - (64 * m.length : ℕ)) = N) :
    (64 * m.length : ℤ) ≤ e + 63 := by
  by_contra hc
  push Not at hc
  obtain ⟨j, hj⟩ : ∃ j : ℕ, (64 * m.length : ℤ) - e = j + 64 := by
    refine ⟨(64 * m.length - e - 64 : ℤ).toNat, ?_⟩
    rw [Int.toNat_of_nonneg (by omega)]; ring
  have h1 : val m = N * 2 ^ (j + 64) := by
    have h2 : (e - (64 * m.length : ℕ) : ℤ) = -((j + 64 : ℕ) : ℤ) := by push_cast; omega
    rw [h2, zpow_neg, zpow_natCast] at hv
    have h3 : (0 : ℝ) < 2 ^ (j + 64) := by positivity
    have h4 : (val m : ℝ) = N * 2 ^ (j + 64) := by
      rw [← hv]; field_simp
    exact_mod_cast h4
  apply hl
  rw [low_word hm h0, h1, pow_add, ← mul_assoc, B_eq, Nat.mul_mod_left]

/-- The result of an exact operation on integers. -/
theorem FullDelivers.isNat {N : Nat} (hN : 0 < N) {r : Except Err Num} (h : FullDelivers (N : ℝ) false r) :
    (∃ v, r = .ok v ∧ IsNat v N) ∧ (N : ℝ) < 2 ^ EMAX ∨
      r = .error (.exponentOverflow .pos) ∧ (2 : ℝ) ^ EMAX ≤ N := by
  obtain ⟨-, h2, h3⟩ := h
  have hp : (1 : ℝ) ≤ N := by exact_mod_cast hN
  have ha : |(N : ℝ)| = N := abs_of_nonneg (by linarith)
  rw [ha] at h2 h3
  rcases lt_or_ge (N : ℝ) (2 ^ EMAX) with h | h
  · left
    refine ⟨?_, h⟩
    obtain ⟨v, h4, h5, h6, h7, h8, h9, h10, h11⟩ := h2 (le_trans (zpow_le_one_of_nonpos₀ (by norm_num)
      (by unfold EMIN; norm_num)) hp) h
    have hs : v.s = .pos := toK_sign_pos (K := ℝ) (by rw [h5]; linarith)
    have hl : (64 * v.m.m.length : ℤ) ≤ v.e + 63 := by
      refine len_of_low h7.1 h7.2.1 (N := N) h11 ?_
      rw [← h5]; unfold Num.toK; rw [hs]; simp [Sign.toK]
    refine ⟨v, h4, ⟨h7.1, ?_, h9, h10, fun _ hlt => absurd hlt (by omega), ?_⟩, h5, h6, hl, hN⟩
    · rw [h8, h7.size]
    · unfold EMAX at h10; omega
  · right
    refine ⟨?_, h⟩
    rcases h3 h with h4 | h4
    · exact h4.1
    · exact absurd h4.2 (by linarith)

theorem IsNat.mul {x y : Num} {M N : Nat} (hx : IsNat x M) (hy : IsNat y N) :
    (∃ v, x.mulFullPrec y = .ok v ∧ IsNat v (M * N)) ∧ ((M * N : ℕ) : ℝ) < 2 ^ EMAX ∨
      x.mulFullPrec y = .error (.exponentOverflow .pos) ∧ (2 : ℝ) ^ EMAX ≤ (M * N : ℕ) := by
  have h := mulGeneral_full (K := ℝ) hx.wf hy.wf .none
  have hi : mulIx x y = false := by unfold mulIx; rw [hx.exact, hy.exact]; simp
  rw [hx.eq, hy.eq, hi, ← Nat.cast_mul] at h
  exact h.isNat (Nat.mul_pos hx.pos hy.pos)

theorem IsNat.add {x y : Num} {M N : Nat} (hx : IsNat x M) (hy : IsNat y N) :
    (∃ v, x.addFullPrec y = .ok v ∧ IsNat v (M + N)) ∧ ((M + N : ℕ) : ℝ) < 2 ^ EMAX ∨
      x.addFullPrec y = .error (.exponentOverflow .pos) ∧ (2 : ℝ) ^ EMAX ≤ (M + N : ℕ) := by
  have h := addSub_full (K := ℝ) hx.wf hy.wf hx.nz hy.nz true .none
  rw [if_pos rfl, hx.eq, hy.eq, hx.exact, hy.exact, ← Nat.cast_add] at h
  exact h.isNat (Nat.add_pos_left hx.pos _)

theorem IsNat.lt {x : Num} {N : Nat} (h : IsNat x N) : (N : ℝ) < 2 ^ EMAX := by
  have h1 := h.wf.abs_lt_zpow (K := ℝ)
  rw [h.eq, abs_of_nonneg (by positivity)] at h1
  exact lt_of_lt_of_le h1 (zpow_le_zpow_right₀ (by norm_num) h.wf.emax)

theorem IsNat.fromUsize {u : Nat} (h0 : 0 < u) (hu : u < B) : IsNat (Num.fromUsize u) u := by
  have hw : Wf [u] := by intro x hx; rw [List.mem_singleton.1 hx]; exact hu
  have hv : val [u] = u := by simp [val]
  obtain ⟨h1, h2, h3, h4, h5⟩ := maximize_spec hw (by rw [hv]; omega)
  rw [hv] at h1 h2
  rw [List.length_singleton] at h2 h3 h4
  have hsz : Nat.size u ≤ 64 := Nat.size_le.2 (by rw [← B_eq]; exact hu)
  have hsz0 : 0 < Nat.size u := Nat.size_pos.2 h0
  have e : Num.fromUsize u = ⟨(Nat.size u : ℤ), .pos, ⟨(maximize [u]).1, 64⟩, false⟩ := by
    unfold Num.fromUsize Mantissa.fromUsize
    rw [if_neg (by omega)]
    simp only [Mantissa.maxBitLen, h4, h2]
    congr 1; push_cast; omega
  have hn : Normd (maximize [u]).1 := ⟨h5, by omega, by rw [h4]; exact h3⟩
  rw [e]
  refine ⟨WF_of_normd hn (by rw [h4]) (by unfold EMIN; omega) (by unfold EMAX; omega) (by rw [h4]; norm_num) _ _,
    ?_, rfl, ?_, h0⟩
  · unfold Num.toK
    dsimp only
    rw [h1, h4, h2]
    simp only [Sign.toK, one_mul]
    rw [Nat.cast_mul, mul_assoc]
    have : ((2 ^ (64 * 1 - Nat.size u) : ℕ) : ℝ) * 2 ^ ((Nat.size u : ℤ) - (64 * 1 : ℕ)) = 1 := by
      rw [Nat.cast_pow, Nat.cast_ofNat, ← zpow_natCast, ← zpow_add₀ (by norm_num)]
      rw [show (((64 * 1 - Nat.size u : ℕ) : ℤ) + ((Nat.size u : ℤ) - (64 * 1 : ℕ))) = 0 by omega, zpow_zero]
    rw [this, mul_one]
  · dsimp only; rw [h4]; push_cast; omega

theorem IsNat.fromWord {d : Nat} (h0 : 0 < d) (hd : d < B) :
    ∃ v, Num.fromWord d 1 = .ok v ∧ IsNat v d := by
  obtain ⟨v, h1, h2, h3, h4, h5⟩ := fromWord_spec (K := ℝ) hd (p := 1) (by norm_num) (by decide)
  refine ⟨v, h1, h2, h4, h5, ?_, h0⟩
  have hl : v.m.m.length = 1 := by
    have : precBits 1 = 64 := by decide
    omega
  have h6 := h2.abs_lt_zpow (K := ℝ)
  rw [h4, abs_of_nonneg (by positivity)] at h6
  have h7 : (1 : ℝ) ≤ d := by exact_mod_cast h0
  have h8 : (0 : ℤ) < v.e := by
    by_contra hc
    have := zpow_le_one_of_nonpos₀ (a := (2 : ℝ)) (by norm_num) (not_lt.1 hc)
    linarith
  rw [hl]; omega

end AF
