import Verif.Lemmas.TryPrec
/-!
# `try_set_precision` when the check is off, passes, or fails
-/

namespace AF

set_option linter.unusedSectionVars false

theorem scanWords_false_check (td : Nat) (l : List Nat) (st : ScanSt) (h : st.check = false) :
    (scanWords td l st).check = false := by
  induction l generalizing st with
  | nil => exact h
  | cons v vs ih =>
    unfold scanWords
    apply ih
    simp only [h, Bool.false_and, Bool.false_eq_true, if_false]
    split <;> simp [h]

theorem roundPrep_off (m : List Nat) (i t cc : Nat) :
    ∃ rz, ∀ c, roundPrep m i t c false = (⟨false, c, rz⟩, 0, i) := by
  unfold roundPrep
  by_cases h : t > 0
  · by_cases h2 : (wd m i <<< (64 - t)) % B ≠ 0
    · exact ⟨false, fun c => by simp [h, h2]⟩
    · exact ⟨true, fun c => by simp [h, h2]⟩
  · exact ⟨true, fun c => by simp [h]⟩

/-- Without the check the number of correct bits is not used. -/
theorem roundMantissa_nocheck (m : List Nat) (n : Nat) (rm : RM) (pos : Bool) (s s' : Nat) (ix : Bool) :
    roundMantissa m n rm pos false s ix = roundMantissa m n rm pos false s' ix := by
  unfold roundMantissa
  dsimp only
  by_cases h1 : rm = .none
  · rw [if_pos h1, if_pos h1]
  · rw [if_neg h1, if_neg h1]
    by_cases h2 : n > 0 ∧ n < m.length * 64
    · rw [if_pos h2, if_pos h2]
      by_cases h3 : rm = .toEven ∨ rm = .toOdd
      · rw [if_pos h3, if_pos h3]
        obtain ⟨rz, h⟩ := roundPrep_off m ((n - 1) / 64) ((n - 1) % 64) 0
        unfold roundNearest
        simp only [h, scanWords_false_check _ _ ⟨false, _, rz⟩ rfl, scanWords_rz]
      · rw [if_neg h3, if_neg h3]
        obtain ⟨rz, h⟩ := roundPrep_off m (n / 64) (n % 64) 0
        unfold roundDirected
        simp only [h, scanWords_false_check _ _ ⟨false, _, rz⟩ rfl, scanWords_rz]
    · rw [if_neg h2, if_neg h2]

theorem roundMantissa_off_check (m : List Nat) (n : Nat) (rm : RM) (pos : Bool) (s : Nat) (ix : Bool) :
    (roundMantissa m n rm pos false s ix).check = false := by
  unfold roundMantissa
  dsimp only
  by_cases h1 : rm = .none
  · rw [if_pos h1]
  · rw [if_neg h1]
    by_cases h2 : n > 0 ∧ n < m.length * 64
    · rw [if_pos h2]
      by_cases h3 : rm = .toEven ∨ rm = .toOdd
      · rw [if_pos h3]
        obtain ⟨rz, h⟩ := roundPrep_off m ((n - 1) / 64) ((n - 1) % 64) 0
        unfold roundNearest
        simp only [h, scanWords_false_check _ _ ⟨false, _, rz⟩ rfl]
        simp
      · rw [if_neg h3]
        obtain ⟨rz, h⟩ := roundPrep_off m (n / 64) (n % 64) 0
        unfold roundDirected
        simp only [h, scanWords_false_check _ _ ⟨false, _, rz⟩ rfl]
        simp
    · rw [if_neg h2]

/-- For a whole number of words the check of the nearest modes does not alter an accepted result. -/
theorem roundMantissa_nearest_check (m : List Nat) (n : Nat) (hn0 : 0 < n) (hn : 64 ∣ n) (rm : RM)
    (hrm : rm = .toEven ∨ rm = .toOdd) (pos : Bool) (s s' : Nat) (ix : Bool) (hL : n < m.length * 64)
    (h : (roundMantissa m n rm pos true s ix).check = false) :
    roundMantissa m n rm pos true s ix = roundMantissa m n rm pos false s' ix := by
  have hne : rm ≠ .none := by rcases hrm with h | h <;> rw [h] <;> decide
  unfold roundMantissa at h ⊢
  simp only [if_neg hne, if_pos (show n > 0 ∧ n < m.length * 64 from ⟨hn0, hL⟩), if_pos hrm] at h ⊢
  have ht : (n - 1) % 64 > 0 := by omega
  have hrz : ∀ cc cc', (roundPrep m ((n - 1) / 64) ((n - 1) % 64) cc true).1.remZero =
      (roundPrep m ((n - 1) / 64) ((n - 1) % 64) cc' false).1.remZero := by
    intro cc cc'
    unfold roundPrep
    rw [if_pos ht, if_pos ht]
    dsimp only
    simp only [if_true, Bool.false_eq_true, if_false]
    by_cases h1 : (wd m ((n - 1) / 64) <<< (64 - (n - 1) % 64)) % B ≠ 0
    · rw [if_pos h1, if_pos h1]
      split
      · rfl
      · split <;> rfl
    · rw [if_neg h1, if_neg h1]
  have hst : ∀ cc cc', (scanWords (roundPrep m ((n - 1) / 64) ((n - 1) % 64) cc true).2.1
      (m.take ((n - 1) / 64)) (roundPrep m ((n - 1) / 64) ((n - 1) % 64) cc true).1).remZero =
      (scanWords (roundPrep m ((n - 1) / 64) ((n - 1) % 64) cc' false).2.1
      (m.take ((n - 1) / 64)) (roundPrep m ((n - 1) / 64) ((n - 1) % 64) cc' false).1).remZero := by
    intro cc cc'
    rw [scanWords_rz, scanWords_rz, hrz cc cc']
  have hcf : ∀ cc, (scanWords (roundPrep m ((n - 1) / 64) ((n - 1) % 64) cc false).2.1
      (m.take ((n - 1) / 64)) (roundPrep m ((n - 1) / 64) ((n - 1) % 64) cc false).1).check = false := by
    intro cc
    obtain ⟨rz, h⟩ := roundPrep_off m ((n - 1) / 64) ((n - 1) % 64) 0
    rw [h]; exact scanWords_false_check _ _ _ rfl
  unfold roundNearest at h ⊢
  dsimp only at h ⊢
  generalize (n - (m.length * 64 - s)) / 64 = cc at *
  generalize (n - (m.length * 64 - s')) / 64 = cc' at *
  have hct : (scanWords (roundPrep m ((n - 1) / 64) ((n - 1) % 64) cc true).2.1
      (m.take ((n - 1) / 64)) (roundPrep m ((n - 1) / 64) ((n - 1) % 64) cc true).1).check = false := by
    revert h
    cases (scanWords (roundPrep m ((n - 1) / 64) ((n - 1) % 64) cc true).2.1
      (m.take ((n - 1) / 64)) (roundPrep m ((n - 1) / 64) ((n - 1) % 64) cc true).1).check <;> simp
  rw [hct, hcf cc', hst cc cc']

/-- Exact numbers, mode `None`, and accepted numbers in the nearest modes: `try_set_precision` is
`set_precision`. -/
theorem tryPrec_eq_setPrec {x : Num} {p s : Nat} (hp : 0 < p) (hps : p ≤ s) (hs : s ≤ 64 * x.m.m.length)
    {rm : RM} (h64 : 64 ∣ p) (hc : x.inexact = false ∨ rm = .none ∨ rm = .toEven ∨ rm = .toOdd) {b : Bool} {v : Num}
    (h : x.trySetPrecision p rm s = .ok (b, v)) (hb : x.inexact = false ∨ rm = .none ∨ b = true) :
    b = true ∧ x.setPrecision p rm = .ok v := by
  have hmb : x.m.maxBitLen = x.m.m.length * 64 := rfl
  unfold Num.trySetPrecision at h
  unfold Num.setPrecision
  unfold Num.setPrecisionInternal at h ⊢
  by_cases h1 : p ≥ PMAX
  · rw [if_pos h1] at h; cases h
  rw [if_neg h1] at h ⊢
  by_cases h2 : x.m.maxBitLen > p ∧ p > 0
  · rw [if_pos h2] at h ⊢
    rw [if_neg (by omega)] at h ⊢
    have hR : (roundMantissa x.m.m (x.m.maxBitLen - p) rm x.isPositive x.inexact s x.inexact).check = false ∧
        roundMantissa x.m.m (x.m.maxBitLen - p) rm x.isPositive x.inexact s x.inexact =
        roundMantissa x.m.m (x.m.maxBitLen - p) rm x.isPositive false x.m.maxBitLen x.inexact ∨
        ((roundMantissa x.m.m (x.m.maxBitLen - p) rm x.isPositive x.inexact s x.inexact).check = true ∧
          x.inexact = true ∧ rm ≠ .none) := by
      have hfalse : (roundMantissa x.m.m (x.m.maxBitLen - p) rm x.isPositive false x.m.maxBitLen
          x.inexact).check = false := by
        exact roundMantissa_off_check _ _ _ _ _ _
      cases hix : x.inexact with
      | false =>
        left
        have := roundMantissa_nocheck x.m.m (x.m.maxBitLen - p) rm x.isPositive s x.m.maxBitLen false
        rw [hix] at hfalse
        rw [this]
        exact ⟨hfalse, rfl⟩
      | true =>
        rw [hix] at hfalse hc
        rcases hc with hc | hc | hc
        · cases hc
        · left
          rw [hc]
          constructor
          · unfold roundMantissa; rfl
          · unfold roundMantissa; rfl
        · cases hk : (roundMantissa x.m.m (x.m.maxBitLen - p) rm x.isPositive true s true).check with
          | false =>
            left
            refine ⟨rfl, ?_⟩
            exact roundMantissa_nearest_check _ _ (by omega) (by omega) rm hc _ _ _ _ (by omega) hk
          | true =>
            right
            exact ⟨rfl, rfl, by rcases hc with h | h <;> rw [h] <;> decide⟩
    rcases hR with ⟨hR1, hR2⟩ | ⟨hR1, hR2, hR3⟩
    · rw [hR2] at h hR1
      revert h
      simp only [hR1, Bool.false_and, Bool.false_eq_true, if_false]
      split
      · split
        · intro h; cases h
        · intro h; injection h with h; injection h with h h'; exact ⟨h.symm, by rw [← h']⟩
      · split
        · intro h; injection h with h; injection h with h h'; exact ⟨h.symm, by rw [← h']⟩
        · split
          · intro h; injection h with h; injection h with h h'; exact ⟨h.symm, by rw [← h']⟩
          · intro h; injection h with h; injection h with h h'; exact ⟨h.symm, by rw [← h']⟩
    · exfalso
      dsimp only at h
      rw [hR1, hR2] at h
      simp only [Bool.true_or, Bool.and_true, if_true] at h
      injection h with h; injection h with h h'
      rcases hb with hb | hb | hb
      · rw [hR2] at hb; cases hb
      · exact hR3 hb
      · rw [hb] at h; cases h
  · rw [if_neg h2, if_neg (by omega)] at h ⊢
    injection h with h; injection h with h h'; exact ⟨h.symm, by rw [← h']⟩

/-- `try_set_precision` fails with overflow only, at the largest exponent. -/
theorem tryPrec_error {x : Num} {p s : Nat} (hp : 0 < p) (hpm : p < PMAX) (hps : p ≤ s)
    (hs : s ≤ 64 * x.m.m.length) {rm : RM} {er : Err} (h : x.trySetPrecision p rm s = .error er) :
    er = .exponentOverflow x.s ∧ x.e = EMAX := by
  have hmb : x.m.maxBitLen = x.m.m.length * 64 := rfl
  unfold Num.trySetPrecision Num.setPrecisionInternal at h
  rw [if_neg (by omega)] at h
  split at h
  · rw [if_neg (by omega)] at h
    dsimp only at h
    split at h
    · cases h
    · split at h
      · split at h
        · rename_i he
          injection h with h
          exact ⟨h.symm, he⟩
        · cases h
      · split at h
        · cases h
        · split at h <;> cases h
  · rw [if_neg (by omega)] at h
    cases h

end AF
