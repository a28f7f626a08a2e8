import Verif.Lemmas.Conv
/-!
# C21: integer conversions are exact

`sz` is the width of the integer type (8, 16, 32, 64). The limit `2^62 - 2^31 - 1` is the one of
`p_assertion`.
-/

namespace AF

/-- `r` is an exact number of `precBits p` bits with the value `X`. -/
def ConvertsTo (p : Nat) (X : ℚ) (r : BF) : Prop :=
  ∃ v, r = .num v ∧ v.WF ∧ 64 * v.m.m.length = precBits p ∧ (v.toK : ℚ) = X ∧ v.inexact = false

theorem ExactNum.toBF {p : Nat} {X : ℚ} {r : Except Err Num} (h : ExactNum (precBits p) X r) :
    ConvertsTo p X (BF.resultToExt r false true) := by
  obtain ⟨v, h1, h2⟩ := h
  subst h1
  exact ⟨v, rfl, h2⟩

theorem C21_from_unsigned (sz : Nat) (hsz : sz ∈ [8, 16, 32, 64]) (u : Nat) (hu : u < 2 ^ sz) (p : Nat)
    (hp : sz ≤ p) (hpm : p < 2 ^ 62 - 2 ^ 31 - 1) : ConvertsTo p u (BF.fromU sz u p) := by
  have h : 0 < sz ∧ sz ≤ 64 := by
    simp only [List.mem_cons, List.not_mem_nil, or_false] at hsz; omega
  exact (fromU_spec h.1 h.2 hu hp (by rw [PMAX_eq]; exact hpm)).toBF

theorem C21_from_signed (sz : Nat) (hsz : sz ∈ [8, 16, 32, 64]) (i : ℤ) (h1 : -2 ^ (sz - 1) ≤ i)
    (h2 : i < 2 ^ (sz - 1)) (p : Nat) (hp : sz ≤ p) (hpm : p < 2 ^ 62 - 2 ^ 31 - 1) :
    ConvertsTo p i (BF.fromI sz i p) := by
  have h : 0 < sz ∧ sz ≤ 64 := by
    simp only [List.mem_cons, List.not_mem_nil, or_false] at hsz; omega
  exact (fromI_spec h.1 h.2 (abs_le.2 ⟨h1, h2.le⟩) hp (by rw [PMAX_eq]; exact hpm)).toBF

theorem C21_from_u128 (u : Nat) (hu : u < 2 ^ 128) (p : Nat) (hp : 128 ≤ p)
    (hpm : p < 2 ^ 62 - 2 ^ 31 - 1) : ConvertsTo p u (BF.fromU128 u p) :=
  (fromU128_spec hu hp (by rw [PMAX_eq]; exact hpm)).toBF

theorem C21_from_i128 (i : ℤ) (h1 : -2 ^ 127 ≤ i) (h2 : i < 2 ^ 127) (p : Nat) (hp : 128 ≤ p)
    (hpm : p < 2 ^ 62 - 2 ^ 31 - 1) : ConvertsTo p i (BF.fromI128 i p) :=
  (fromI128_spec (abs_le.2 ⟨h1, h2.le⟩) hp (by rw [PMAX_eq]; exact hpm)).toBF

/-- `from_word` needs no minimal precision except one. -/
theorem C21_from_word (d : Nat) (hd : d < 2 ^ 64) (p : Nat) (hp : 0 < p)
    (hpm : p < 2 ^ 62 - 2 ^ 31 - 1) : ConvertsTo p d (BF.fromWord d p) :=
  (fromWord_spec (by rw [B_eq]; exact hd) hp (by rw [PMAX_eq]; exact hpm)).toBF

/-- Any other precision is rejected. -/
theorem C21_rejects (sz : Nat) (u : Nat) (i : ℤ) (p : Nat) :
    (p < sz ∨ 2 ^ 62 - 2 ^ 31 - 1 ≤ p →
      BF.fromU sz u p = .nan (some .invalidArgument) ∧ BF.fromI sz i p = .nan (some .invalidArgument)) ∧
    (p < 128 ∨ 2 ^ 62 - 2 ^ 31 - 1 ≤ p →
      BF.fromU128 u p = .nan (some .invalidArgument) ∧ BF.fromI128 i p = .nan (some .invalidArgument)) := by
  rw [← PMAX_eq]
  constructor
  · intro h
    have hU : ∀ u, Num.fromU sz u p = .error .invalidArgument := by
      intro u
      unfold Num.fromU Num.fromWord
      split
      · rfl
      · rw [if_pos (by omega)]
    unfold BF.fromU BF.fromI Num.fromI
    rw [hU, hU]
    exact ⟨rfl, rfl⟩
  · intro h
    have hU : ∀ u, Num.fromU128 u p = .error .invalidArgument := by
      intro u
      unfold Num.fromU128
      split
      · rfl
      · rw [if_pos (by omega)]
    unfold BF.fromU128 BF.fromI128 Num.fromI128
    rw [hU, hU]
    exact ⟨rfl, rfl⟩

example : ConvertsTo 100 ((-128 : ℤ) : ℚ) (BF.fromI 8 (-128) 100) :=
  C21_from_signed 8 (by decide) (-128) (by norm_num) (by norm_num) 100 (by norm_num) (by norm_num)

example : ConvertsTo 64 ((12345 : ℕ) : ℚ) (BF.fromU 16 12345 64) :=
  C21_from_unsigned 16 (by decide) 12345 (by norm_num) 64 (by norm_num) (by norm_num)

example : ConvertsTo 200 ((2 ^ 100 + 1 : ℕ) : ℚ) (BF.fromU128 (2 ^ 100 + 1) 200) :=
  C21_from_u128 (2 ^ 100 + 1) (by norm_num) 200 (by norm_num) (by norm_num)

example : ConvertsTo 200 ((-2 ^ 127 : ℤ) : ℚ) (BF.fromI128 (-2 ^ 127) 200) :=
  C21_from_i128 (-2 ^ 127) (by norm_num) (by norm_num) 200 (by norm_num) (by norm_num)

example : ConvertsTo 1 ((5 : ℕ) : ℚ) (BF.fromWord 5 1) :=
  C21_from_word 5 (by norm_num) 1 (by norm_num) (by norm_num)

example : BF.fromU 64 5 63 = .nan (some .invalidArgument) := ((C21_rejects 64 5 0 63).1 (by norm_num)).1

end AF
