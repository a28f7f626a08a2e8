import Verif.Lemmas.Ext
import Verif.Lemmas.Samples
/-! # Conversions from machine numbers and from words -/

namespace AF
set_option linter.unusedSectionVars false

variable {K : Type*} [Field K] [LinearOrder K] [IsStrictOrderedRing K]

/-- `r` is a well-formed exact number of `P` bits with value `X`. -/
def ExactNum (P : Nat) (X : K) (r : Except Err Num) : Prop :=
  ∃ v, r = .ok v ∧ v.WF ∧ 64 * v.m.m.length = P ∧ (v.toK : K) = X ∧ v.inexact = false

theorem WF_of_normd {m : List Nat} (hm : Normd m) {n : Nat} (hn : n = 64 * m.length) {e : ℤ}
    (h1 : EMIN ≤ e) (h2 : e ≤ EMAX) (hs : 64 * m.length ≤ 2 ^ 62 - 2 ^ 31) (s : Sign) (ix : Bool) :
    (Num.mk e s ⟨m, n⟩ ix).WF :=
  ⟨hm.1, by rw [hn]; exact hm.size.symm, h1, h2, fun _ h => absurd h (by dsimp only; omega), hs⟩

theorem PMAX_words {p : Nat} (h : p < PMAX) : 64 * wordLen p ≤ 2 ^ 62 - 2 ^ 31 := by
  rw [PMAX_eq] at h; unfold wordLen; omega

theorem new_spec {p : Nat} (hpm : p < PMAX) : ExactNum (precBits p) (0 : K) (Num.new p) := by
  unfold Num.new
  rw [if_neg (by omega)]
  refine ⟨_, rfl, zero_WF (PMAX_words hpm) _ _, ?_, zero_toK _ _ _, rfl⟩
  simp [Num.zero, Mantissa.new, precBits, wordLen]

/-- A word put at the top of a mantissa of `l` words. -/
theorem top_word (l d : Nat) (hl : 0 < l) : (List.replicate l 0).set (l - 1) d = List.replicate (l - 1) 0 ++ [d] := by
  obtain ⟨k, rfl⟩ : ∃ k, l = k + 1 := ⟨l - 1, by omega⟩
  rw [Nat.add_sub_cancel, List.replicate_succ']
  rw [List.set_append_right _ _ (by simp)]
  simp

theorem normd_top {l d : Nat} (hd : 2 ^ 63 ≤ d) (hB : d < B) :
    Normd (List.replicate l 0 ++ [d]) ∧ val (List.replicate l 0 ++ [d]) = B ^ l * d ∧
      (List.replicate l 0 ++ [d]).length = l + 1 := by
  have hv : val (List.replicate l 0 ++ [d]) = B ^ l * d := by rw [val_zeros_append]; simp [val]
  have hl : (List.replicate l 0 ++ [d]).length = l + 1 := by simp
  refine ⟨⟨?_, by omega, ?_⟩, hv, hl⟩
  · rw [wf_append]; exact ⟨wf_zeros l, Wf.cons hB Wf.nil⟩
  · rw [hv, hl, B_pow, show 64 * (l + 1) - 1 = 64 * l + 63 by omega, pow_add]
    exact Nat.mul_le_mul_left _ hd

theorem lz_norm {d : Nat} (hd : 2 ^ 63 ≤ d) (hB : d < B) : lz d = 0 := by
  have := (lz_spec (by omega) hB).2
  by_contra hc
  have h2 : 2 ^ 1 ≤ 2 ^ lz d := Nat.pow_le_pow_right (by norm_num) (by omega)
  have := Nat.mul_le_mul hd h2
  omega

theorem mantFromWord_spec {p d : Nat} (hp : 0 < p) (hd : 2 ^ 63 ≤ d) (hB : d < B) :
    Mantissa.fromWord p d = .ok ⟨List.replicate (wordLen p - 1) 0 ++ [d], 64 * wordLen p⟩ := by
  have hl : 0 < wordLen p := by unfold wordLen; omega
  unfold Mantissa.fromWord
  dsimp only
  rw [if_neg (by omega), if_pos (by omega), lz_norm hd hB, Nat.shiftLeft_zero, Nat.mod_eq_of_lt hB,
    top_word _ _ hl]

theorem fromWord_spec {d p : Nat} (hd : d < B) (hp : 0 < p) (hpm : p < PMAX) :
    ExactNum (precBits p) (d : K) (Num.fromWord d p) := by
  unfold Num.fromWord
  rw [if_neg (by omega)]
  by_cases h0 : d = 0
  · rw [if_pos h0, h0, Nat.cast_zero]; exact new_spec hpm
  · rw [if_neg h0]
    obtain ⟨z1, z2⟩ := lz_spec (by omega) hd
    have z3 := lz_le (by omega) hd
    have hl : 0 < wordLen p := by unfold wordLen; omega
    have hsh : (d <<< lz d) % B = d * 2 ^ lz d := by
      rw [Nat.shiftLeft_eq, Nat.mod_eq_of_lt (by rw [B_eq]; exact z2)]
    dsimp only
    rw [hsh, mantFromWord_spec hp z1 (by rw [B_eq]; exact z2)]
    dsimp only
    obtain ⟨n1, n2, n3⟩ := normd_top (l := wordLen p - 1) z1 (by rw [B_eq]; exact z2)
    have n3' : (List.replicate (wordLen p - 1) 0 ++ [d * 2 ^ lz d]).length = wordLen p := by rw [n3]; omega
    refine ⟨_, rfl, WF_of_normd n1 (by rw [n3']) (by unfold EMIN; omega) (by unfold EMAX; omega)
      (by rw [n3']; exact PMAX_words hpm) _ _, ?_, ?_, rfl⟩
    · rw [n3']; rfl
    · unfold Num.toK
      dsimp only
      rw [n2, n3', B_pow]
      simp only [Sign.toK, one_mul]
      rw [show (64 - (lz d : ℤ) - (64 * wordLen p : ℕ)) = -((64 * (wordLen p - 1) + lz d : ℕ) : ℤ) by
        push_cast [Nat.cast_sub (show 1 ≤ wordLen p by omega)]; ring]
      rw [zpow_neg, zpow_natCast, pow_add]
      push_cast
      field_simp

theorem lz128_spec (f v : Nat) (h0 : 0 < v) (h1 : v < 2 ^ 128) (h2 : 2 ^ 127 ≤ v * 2 ^ f) :
    2 ^ 127 ≤ v * 2 ^ Num.lz128 f v ∧ v * 2 ^ Num.lz128 f v < 2 ^ 128 ∧ Num.lz128 f v ≤ f := by
  induction f generalizing v with
  | zero => simp only [Num.lz128, pow_zero, mul_one] at *; omega
  | succ f ih =>
    unfold Num.lz128
    by_cases h : v < 2 ^ 127
    · rw [if_pos h]
      have := ih (v * 2) (by omega) (by omega)
        (by rw [mul_assoc, mul_comm 2, ← pow_succ]; exact h2)
      have e : v * 2 ^ (Num.lz128 f (v * 2) + 1) = v * 2 * 2 ^ Num.lz128 f (v * 2) := by ring
      rw [e]
      omega
    · rw [if_neg h, pow_zero, mul_one]; omega

theorem mantFromWords_spec {p : Nat} {w : List Nat} (hw : Wf w) (hl : w.length ≤ wordLen p) :
    Mantissa.fromWords p w = .ok ⟨List.replicate (wordLen p - w.length) 0 ++ w,
      Nat.size (val (List.replicate (wordLen p - w.length) 0 ++ w))⟩ := by
  unfold Mantissa.fromWords
  dsimp only
  rw [if_neg (by omega), findBitLen_eq (by rw [wf_append]; exact ⟨wf_zeros _, hw⟩)]

theorem fromU128_spec {v p : Nat} (hv : v < 2 ^ 128) (hp : 128 ≤ p) (hpm : p < PMAX) :
    ExactNum (precBits p) (v : K) (Num.fromU128 v p) := by
  unfold Num.fromU128
  rw [if_neg (by omega), if_neg (by omega)]
  by_cases h0 : v = 0
  · rw [if_pos h0, h0, Nat.cast_zero]; exact new_spec hpm
  · rw [if_neg h0]
    dsimp only
    obtain ⟨z1, z2, z3⟩ := lz128_spec 128 v (by omega) hv (by
      calc 2 ^ 127 ≤ 1 * 2 ^ 128 := by norm_num
        _ ≤ v * 2 ^ 128 := Nat.mul_le_mul_right _ (by omega))
    generalize Num.lz128 128 v = t at *
    have hl : 2 ≤ wordLen p := by unfold wordLen; omega
    have hB : B = 2 ^ 64 := B_eq
    have hd : v * 2 ^ t / B < B := by
      rw [Nat.div_lt_iff_lt_mul B_pos, hB, ← pow_add]; exact z2
    rw [Nat.mod_eq_of_lt hd]
    have hw : Wf [v * 2 ^ t % B, v * 2 ^ t / B] := Wf.cons (Nat.mod_lt _ B_pos) (Wf.cons hd Wf.nil)
    have hvw : val [v * 2 ^ t % B, v * 2 ^ t / B] = v * 2 ^ t := by
      simp only [val, mul_zero, add_zero]; exact Nat.mod_add_div _ _
    rw [mantFromWords_spec hw (by simpa using hl)]
    dsimp only
    have hlen : (List.replicate (wordLen p - [v * 2 ^ t % B, v * 2 ^ t / B].length) 0 ++
        [v * 2 ^ t % B, v * 2 ^ t / B]).length = wordLen p := by simp; omega
    have hval : val (List.replicate (wordLen p - [v * 2 ^ t % B, v * 2 ^ t / B].length) 0 ++
        [v * 2 ^ t % B, v * 2 ^ t / B]) = B ^ (wordLen p - 2) * (v * 2 ^ t) := by
      rw [val_zeros_append, hvw]; rfl
    generalize hM : List.replicate (wordLen p - [v * 2 ^ t % B, v * 2 ^ t / B].length) 0 ++
        [v * 2 ^ t % B, v * 2 ^ t / B] = M at *
    have hWM : Wf M := by rw [← hM, wf_append]; exact ⟨wf_zeros _, hw⟩
    have hN : Normd M := by
      refine ⟨hWM, by omega, ?_⟩
      rw [hlen, hval, B_pow, show 64 * wordLen p - 1 = 64 * (wordLen p - 2) + 127 by omega, pow_add]
      exact Nat.mul_le_mul_left _ z1
    refine ⟨_, rfl, WF_of_normd hN (by rw [hN.size]) (by unfold EMIN; omega) (by unfold EMAX; omega)
      (by rw [hlen]; exact PMAX_words hpm) _ _, ?_, ?_, rfl⟩
    · rw [hlen]; rfl
    · unfold Num.toK
      dsimp only
      rw [hval, hlen, B_pow]
      simp only [Sign.toK, one_mul]
      rw [show (128 - (t : ℤ) - (64 * wordLen p : ℕ)) = -((64 * (wordLen p - 2) + t : ℕ) : ℤ) by
        push_cast [Nat.cast_sub hl]; ring]
      rw [zpow_neg, zpow_natCast, pow_add]
      push_cast
      field_simp

theorem setSign_exact {P : Nat} {n : Nat} {r : Except Err Num} (h : ExactNum P (n : K) r)
    (hpos : ∀ v, r = .ok v → v.s = .pos) (neg : Bool) :
    ∃ v, r = .ok v ∧ ExactNum P (if neg then -(n : K) else n)
      (.ok (v.setSign (if neg then .neg else .pos))) := by
  obtain ⟨v, h1, h2, h3, h4, h5⟩ := h
  have hs := hpos v h1
  subst h1
  refine ⟨v, rfl, _, rfl, ⟨h2.1, h2.2, h2.3, h2.4, h2.5, h2.6⟩, h3, ?_, h5⟩
  unfold Num.toK at h4
  rw [hs] at h4
  cases neg
  · simpa [Num.toK, Num.setSign] using h4
  · simp only [Num.toK, Num.setSign, if_true]
    rw [← h4]
    simp only [Sign.toK]
    ring

theorem fromWord_pos {d p : Nat} : ∀ v, Num.fromWord d p = .ok v → v.s = .pos := by
  intro v h
  unfold Num.fromWord at h
  split at h
  · simp at h
  · split at h
    · unfold Num.new at h
      split at h
      · simp at h
      · injection h with h; rw [← h]; rfl
    · dsimp only at h
      split at h
      · simp at h
      · injection h with h; rw [← h]

theorem fromU128_pos {d p : Nat} : ∀ v, Num.fromU128 d p = .ok v → v.s = .pos := by
  intro v h
  unfold Num.fromU128 at h
  split at h
  · simp at h
  split at h
  · simp at h
  split at h
  · unfold Num.new at h
    split at h
    · simp at h
    · injection h with h; rw [← h]; rfl
  · dsimp only at h
    split at h
    · simp at h
    · injection h with h; rw [← h]

theorem int_cast_sign (i : ℤ) : (if decide (i < 0) = true then -(i.natAbs : K) else (i.natAbs : K)) = (i : K) := by
  have hc : (i.natAbs : K) = ((|i| : ℤ) : K) := by
    rw [← Int.natCast_natAbs, Int.cast_natCast]
  rw [hc]
  by_cases h : i < 0
  · rw [if_pos (by simpa using h), abs_of_neg h]; push_cast; ring
  · rw [if_neg (by simpa using h), abs_of_nonneg (by omega)]

theorem fromU_spec {sz u p : Nat} (hsz : 0 < sz) (hsz' : sz ≤ 64) (hu : u < 2 ^ sz) (hp : sz ≤ p) (hpm : p < PMAX) :
    ExactNum (precBits p) (u : K) (Num.fromU sz u p) := by
  unfold Num.fromU
  rw [if_neg (by omega)]
  refine fromWord_spec ?_ (by omega) hpm
  rw [B_eq]
  exact lt_of_lt_of_le hu (Nat.pow_le_pow_right (by norm_num) hsz')

theorem fromI_spec {sz p : Nat} {i : ℤ} (hsz : 0 < sz) (hsz' : sz ≤ 64) (hi : |i| ≤ 2 ^ (sz - 1))
    (hp : sz ≤ p) (hpm : p < PMAX) :
    ExactNum (precBits p) (i : K) (Num.fromI sz i p) := by
  have hu : i.natAbs < 2 ^ sz := by
    have : (i.natAbs : ℤ) ≤ 2 ^ (sz - 1) := by rw [Int.natCast_natAbs]; exact hi
    have h2 : i.natAbs ≤ 2 ^ (sz - 1) := by exact_mod_cast this
    exact lt_of_le_of_lt h2 (Nat.pow_lt_pow_right (by norm_num) (by omega))
  obtain ⟨v, hv, h⟩ := setSign_exact (fromU_spec (K := K) hsz hsz' hu hp hpm)
    (by unfold Num.fromU; rw [if_neg (by omega)]; exact fromWord_pos) (decide (i < 0))
  rw [int_cast_sign] at h
  unfold Num.fromI
  rw [hv]
  simpa using h

theorem fromI128_spec {p : Nat} {i : ℤ} (hi : |i| ≤ 2 ^ 127) (hp : 128 ≤ p) (hpm : p < PMAX) :
    ExactNum (precBits p) (i : K) (Num.fromI128 i p) := by
  have hu : i.natAbs < 2 ^ 128 := by
    have : (i.natAbs : ℤ) ≤ 2 ^ 127 := by rw [Int.natCast_natAbs]; exact hi
    omega
  obtain ⟨v, hv, h⟩ := setSign_exact (fromU128_spec (K := K) hu hp hpm) fromU128_pos (decide (i < 0))
  rw [int_cast_sign] at h
  unfold Num.fromI128
  rw [hv]
  simpa using h

end AF
