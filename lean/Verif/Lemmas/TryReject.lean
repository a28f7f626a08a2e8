import Verif.Lemmas.PowExact
/-!
# What a rejected directed rounding shows about the value
-/

namespace AF

set_option linter.unusedSectionVars false

/-- The bits that reject a directed rounding at a word boundary are all equal. -/
theorem directed_reject {m : List Nat} (hm : Wf m) {i g : Nat} (hi : i < m.length) (hg : g < i) (rm : RM) (pos ix : Bool)
    (h : (roundDirected m (64 * i) rm pos true (i - g) ix).check = true) :
    val m % 2 ^ (64 * i) / 2 ^ (64 * g) = 0 ∨ val m % 2 ^ (64 * i) / 2 ^ (64 * g) + 1 = 2 ^ (64 * (i - g)) := by
  unfold roundDirected at h
  simp only [Nat.mul_mod_right, show 64 * i / 64 = i by omega] at h
  have hprep : roundPrep m i 0 (i - g) true =
      if wd m (i - 1) = WMAX then (⟨true, i - g - 1, false⟩, WMAX, i - 1)
      else if wd m (i - 1) ≠ 0 then (⟨false, i - g - 1, false⟩, 0, i - 1)
      else (⟨true, i - g - 1, true⟩, 0, i - 1) := by
    unfold roundPrep
    rw [if_neg (by omega), if_pos (by simp; omega)]
  have hwz := wd_lt hm (show i - 1 < m.length by omega)
  have hwin := val_window hm (g := g) (i := i - 1) (t := 64) (by omega) (le_refl _) (by omega)
  rw [show 64 * (i - 1) + 64 = 64 * i by omega, ← B_eq, Nat.mod_eq_of_lt hwz] at hwin
  have hl : ((m.take (i - 1)).drop g).length = i - 1 - g := by simp; omega
  have htake : ∀ td : Nat, (∀ v ∈ (m.take (i - 1)).reverse.take (i - g - 1), v = td) →
      ∀ v ∈ (m.take (i - 1)).drop g, v = td := by
    intro td hall v hv
    apply hall
    rw [List.take_reverse, List.mem_reverse]
    have hlen : (m.take (i - 1)).length = i - 1 := by simp; omega
    rw [hlen, show i - 1 - (i - g - 1) = g by omega]
    exact hv
  have hmid : Wf ((m.take (i - 1)).drop g) := (hm.take _).drop _
  rw [hwin]
  by_cases h1 : wd m (i - 1) = WMAX
  · rw [if_pos h1] at hprep
    rw [hprep] at h
    dsimp only at h
    have hc : (scanWords WMAX (m.take (i - 1)).reverse ⟨true, i - g - 1, false⟩).check = true := by
      by_contra hc
      rw [if_neg hc] at h
      simp at h
    rw [scanWords_check] at hc
    have h2 := (val_all_max hmid).2 (htake _ hc)
    right
    rw [h1, hl] at *
    have hW : WMAX + 1 = 2 ^ 64 := by decide
    have h3 : 2 ^ (64 * (i - g)) = 2 ^ (64 * (i - 1 - g)) * 2 ^ 64 := by rw [← pow_add]; congr 1; omega
    rw [h3, ← hW]
    have : 2 ^ (64 * (i - 1 - g)) * (WMAX + 1) = 2 ^ (64 * (i - 1 - g)) * WMAX + 2 ^ (64 * (i - 1 - g)) := by ring
    omega
  · by_cases h2 : wd m (i - 1) ≠ 0
    · rw [if_neg h1, if_pos h2] at hprep
      rw [hprep] at h
      dsimp only at h
      rw [scanWords_false] at h
      simp at h
    · push Not at h2
      rw [if_neg h1, if_neg (not_not.2 h2)] at hprep
      rw [hprep] at h
      dsimp only at h
      have hc : (scanWords 0 (m.take (i - 1)).reverse ⟨true, i - g - 1, true⟩).check = true := by
        by_contra hc
        rw [if_neg hc] at h
        simp at h
      rw [scanWords_check] at hc
      left
      rw [h2, (val_eq_zero_iff (m := (m.take (i - 1)).drop g)).2 (htake _ hc)]
      simp

variable {K : Type*} [Field K] [LinearOrder K] [IsStrictOrderedRing K]

/-- A rejected directed rounding: the magnitude is near a multiple of the unit. -/
theorem tryPrec_reject {t : Num} (ht : t.WF) {pw w : Nat} (hp : 0 < pw) (hpw : 64 * pw + 64 ≤ w) (hw : 64 ∣ w)
    (hwl : w ≤ 64 * t.m.m.length) {rm : RM} (hdir : rm.directed = true) {v : Num}
    (h : t.trySetPrecision (64 * pw) rm w = .ok (false, v)) :
    t.inexact = true ∧ ∃ j : ℕ, |(|(t.toK : K)| - j * 2 ^ (t.e - (64 * pw : ℕ)))| ≤ 2 ^ (t.e - (w : ℤ)) := by
  have hix : t.inexact = true := by
    by_contra hc
    have hc : t.inexact = false := by simpa using hc
    obtain ⟨h1, _⟩ := tryPrec_eq_setPrec (by omega) (by omega) hwl (by omega) (Or.inl hc) h (Or.inl hc)
    cases h1
  refine ⟨hix, ?_⟩
  have hrn : rm ≠ .none := by intro h; rw [h] at hdir; cases hdir
  have hne : ¬ (rm = .toEven ∨ rm = .toOdd) := by rintro (h | h) <;> rw [h] at hdir <;> cases hdir
  have hmb : t.m.maxBitLen = t.m.m.length * 64 := rfl
  unfold Num.trySetPrecision Num.setPrecisionInternal at h
  by_cases hP : 64 * pw ≥ PMAX
  · rw [if_pos hP] at h; cases h
  rw [if_neg hP, if_pos (by rw [hmb]; omega), if_neg (by rw [hmb]; omega)] at h
  dsimp only at h
  obtain ⟨i, hi⟩ : ∃ i, i = t.m.m.length - pw := ⟨_, rfl⟩
  obtain ⟨g, hg⟩ : ∃ g, g = t.m.m.length - w / 64 := ⟨_, rfl⟩
  have hw64 : 64 * (w / 64) = w := Nat.mul_div_cancel' hw
  have hsub : t.m.maxBitLen - 64 * pw = 64 * i := by rw [hmb]; omega
  have hround : roundMantissa t.m.m (64 * i) rm t.isPositive t.inexact w t.inexact =
      roundDirected t.m.m (64 * i) rm t.isPositive true (i - g) t.inexact := by
    unfold roundMantissa
    dsimp only
    rw [if_neg hrn, if_pos (by omega), if_neg hne, hix]
    congr 1
    omega
  rw [hsub, hround] at h
  have hck : (roundDirected t.m.m (64 * i) rm t.isPositive true (i - g) t.inexact).check = true := by
    by_contra hc
    have hc : (roundDirected t.m.m (64 * i) rm t.isPositive true (i - g) t.inexact).check = false := by simpa using hc
    rw [hc] at h
    simp only [Bool.false_and, Bool.false_eq_true, if_false] at h
    split at h
    · split at h <;> cases h
    · split at h
      · cases h
      · split at h <;> cases h
  have hrej := directed_reject ht.wf (by omega : i < t.m.m.length) (by omega : g < i) rm t.isPositive t.inexact hck
  rw [Num.abs_val]
  have hlen : 64 * t.m.m.length = 64 * i + 64 * pw := by omega
  have hlen2 : 64 * t.m.m.length = 64 * g + w := by omega
  obtain ⟨q, hq⟩ : ∃ q, q = val t.m.m / 2 ^ (64 * i) := ⟨_, rfl⟩
  have hdm : val t.m.m = 2 ^ (64 * i) * q + val t.m.m % 2 ^ (64 * i) := by rw [hq]; exact (Nat.div_add_mod _ _).symm
  obtain ⟨R, hR⟩ : ∃ R, R = val t.m.m % 2 ^ (64 * i) := ⟨_, rfl⟩
  rw [← hR] at hdm hrej
  have hRdm : R = 2 ^ (64 * g) * (R / 2 ^ (64 * g)) + R % 2 ^ (64 * g) := (Nat.div_add_mod _ _).symm
  have hRm : R % 2 ^ (64 * g) < 2 ^ (64 * g) := Nat.mod_lt _ (by positivity)
  have key : ∃ j : ℕ, |(val t.m.m : ℤ) - j * 2 ^ (64 * i)| ≤ 2 ^ (64 * g) := by
    rcases hrej with h0 | h0
    · refine ⟨q, ?_⟩
      rw [h0, Nat.mul_zero, Nat.zero_add] at hRdm
      have : (val t.m.m : ℤ) - q * 2 ^ (64 * i) = (R % 2 ^ (64 * g) : ℕ) := by
        rw [← hRdm, hdm]; push_cast; ring
      rw [this, abs_of_nonneg (by positivity)]
      exact_mod_cast hRm.le
    · refine ⟨q + 1, ?_⟩
      have h3 : 2 ^ (64 * i) = 2 ^ (64 * g) * (R / 2 ^ (64 * g) + 1) := by
        rw [h0, ← pow_add]; congr 1; omega
      have : (val t.m.m : ℤ) - ((q + 1 : ℕ) : ℤ) * 2 ^ (64 * i) = (R % 2 ^ (64 * g) : ℕ) - 2 ^ (64 * g) := by
        have h4 : (2 : ℤ) ^ (64 * i) = 2 ^ (64 * g) * ((R / 2 ^ (64 * g) : ℕ) + 1) := by exact_mod_cast h3
        have h5 : (R : ℤ) = 2 ^ (64 * g) * ((R / 2 ^ (64 * g) : ℕ) : ℤ) + ((R % 2 ^ (64 * g) : ℕ) : ℤ) := by
          exact_mod_cast hRdm
        have h6 : (val t.m.m : ℤ) = 2 ^ (64 * i) * q + R := by exact_mod_cast hdm
        rw [h6]
        push_cast at h4 h5 ⊢
        linear_combination h5 - h4
      rw [this, abs_le]
      have h7 : ((R % 2 ^ (64 * g) : ℕ) : ℤ) < 2 ^ (64 * g) := by exact_mod_cast hRm
      have h8 : (0 : ℤ) ≤ ((R % 2 ^ (64 * g) : ℕ) : ℤ) := by positivity
      constructor <;> linarith
  obtain ⟨j, hj⟩ := key
  refine ⟨j, ?_⟩
  have hjq : |(val t.m.m : K) - j * 2 ^ (64 * i)| ≤ 2 ^ (64 * g) := by exact_mod_cast hj
  have e1 : (2 : K) ^ (t.e - (64 * pw : ℕ)) = 2 ^ (64 * i) * 2 ^ (t.e - (64 * t.m.m.length : ℕ)) := by
    rw [← zpow_natCast, ← zpow_add₀ (by norm_num)]; congr 1; rw [hlen]; push_cast; ring
  have e2 : (2 : K) ^ (t.e - (w : ℤ)) = 2 ^ (64 * g) * 2 ^ (t.e - (64 * t.m.m.length : ℕ)) := by
    rw [← zpow_natCast, ← zpow_add₀ (by norm_num)]; congr 1; rw [hlen2]; push_cast; ring
  rw [e1, e2, show (val t.m.m : K) * 2 ^ (t.e - (64 * t.m.m.length : ℕ)) - j * (2 ^ (64 * i) * 2 ^ (t.e - (64 * t.m.m.length : ℕ))) =
    ((val t.m.m : K) - j * 2 ^ (64 * i)) * 2 ^ (t.e - (64 * t.m.m.length : ℕ)) by ring, abs_mul,
    abs_of_pos (show (0 : K) < 2 ^ (t.e - (64 * t.m.m.length : ℕ)) by positivity)]
  exact mul_le_mul_of_nonneg_right hjq (by positivity)

end AF
