import Verif.Lemmas.RadixCom
import Verif.Lemmas.Ext
import Verif.Lemmas.TryPrec
import Verif.Model.Dec
/-!
# Rounding by `convert_from_radix` in radix 2, 8 and 16
-/

set_option linter.unusedSectionVars false

namespace AF

variable {K : Type*} [Field K] [LinearOrder K] [IsStrictOrderedRing K]

theorem digNat_ge {b d : Nat} {ds : List Nat} (hd : d ≠ 0) : b ^ ds.length ≤ digNat b (d :: ds) := by
  rw [digNat_cons]
  have : 1 ≤ d := by omega
  calc b ^ ds.length = 1 * b ^ ds.length := by ring
    _ ≤ d * b ^ ds.length := Nat.mul_le_mul_right _ this
    _ ≤ _ := by omega

/-- The number made from binary digits before rounding is well-formed when the first digit is not zero,
or the exponent is the smallest one, or the digits are all zero. -/
theorem bin_WF {x : Num} {digits : List Nat} {e : Int} (hne : digits ≠ []) (he : x.e = e) (hw : Wf x.m.m)
    (hn : x.m.n = Nat.size (val x.m.m)) (hL : x.m.m.length = wordLen digits.length)
    (hv : val x.m.m = digNat 2 digits * 2 ^ (64 * wordLen digits.length - digits.length))
    (hlen : roundP digits.length < PMAX) (hlo : EMIN ≤ e) (hhi : e ≤ EMAX)
    (h : digits.head? ≠ some 0 ∨ e = EMIN ∨ digNat 2 digits = 0) : x.WF := by
  have hlw : digits.length ≤ 64 * wordLen digits.length := by unfold wordLen; omega
  refine ⟨hw, hn, by omega, by omega, ?_, ?_⟩
  · intro h0 h1
    rw [he]
    rcases h with h | h | h
    · exfalso
      cases digits with
      | nil => exact hne rfl
      | cons d ds =>
        have hd : d ≠ 0 := by simpa using h
        have h2 := digNat_ge (b := 2) (ds := ds) hd
        simp only [List.length_cons] at hlw hL hv
        have h3 : 2 ^ (64 * x.m.m.length - 1) ≤ val x.m.m := by
          rw [hv, hL]
          calc 2 ^ (64 * wordLen (ds.length + 1) - 1)
              = 2 ^ ds.length * 2 ^ (64 * wordLen (ds.length + 1) - (ds.length + 1)) := by
                rw [← pow_add]; congr 1; omega
            _ ≤ _ := Nat.mul_le_mul_right _ h2
        have h4 : 64 * x.m.m.length - 1 < Nat.size (val x.m.m) := Nat.lt_size.2 h3
        omega
    · exact h
    · exfalso
      rw [hv, h, Nat.zero_mul] at hn
      simp at hn; omega
  · rw [hL]
    have : roundP digits.length = 64 * wordLen digits.length := by
      unfold roundP wordLen; unfold roundP PMAX USIZE_MAX at hlen; unfold USIZE_MAX; omega
    rw [this] at hlen; rw [PMAX_eq] at hlen; omega

theorem new_delivers {pw : Nat} (hp0 : 0 < pw) (hpm : 64 * pw < PMAX) (rm : RM) (s : Sign) :
    Delivers rm (64 * pw) (0 : K) false (.ok (Num.mk 0 s (Mantissa.new (64 * pw)) false)) := by
  have hwf : (Num.mk 0 s (Mantissa.new (64 * pw)) false).WF := by
    refine ⟨?_, ?_, by simp [EMIN], by simp [EMAX], ?_, ?_⟩
    · unfold Mantissa.new; simp only; intro w hw
      rw [List.mem_replicate] at hw; rw [hw.2]; exact B_pos
    · unfold Mantissa.new; simp
    · unfold Mantissa.new; simp
    · unfold Mantissa.new; simp only [List.length_replicate, wordLen_mul]
      rw [PMAX_eq] at hpm; omega
  have hval : ((Num.mk 0 s (Mantissa.new (64 * pw)) false).toK : K) = 0 := by
    unfold Num.toK Mantissa.new; simp
  refine ⟨hwf, by unfold Mantissa.new; simp [wordLen_mul], fun h => absurd h (lt_irrefl _),
    fun h => absurd h (lt_irrefl _), by simp [hval], Or.inl ?_⟩
  rw [hval]; exact Or.inl ⟨rfl, rfl⟩

theorem convFromBinary_delivers {s : Sign} {digits : List Nat} {e : Int} {pw : Nat} {rm : RM}
    (hlen : roundP digits.length < PMAX) (hd : ∀ v ∈ digits, v < 2) (hlo : EMIN ≤ e) (hhi : e ≤ EMAX)
    (h : digits.head? ≠ some 0 ∨ e = EMIN ∨ digNat 2 digits = 0) (hp0 : 0 < pw) (hpm : 64 * pw < PMAX) :
    Delivers rm (64 * pw) (radixVal 2 (s, digits, e) : K) false (Num.convFromBinary s digits e (64 * pw) rm) := by
  have hpU : 64 * pw < USIZE_MAX := by unfold PMAX at hpm; unfold USIZE_MAX; omega
  by_cases hne : digits = []
  · subst hne
    have e0 : (radixVal 2 (s, [], e) : K) = 0 := by unfold radixVal; simp [digNat_nil]
    rw [e0]
    unfold Num.convFromBinary
    simp only [List.isEmpty_nil, if_true, if_pos hpU]
    unfold Num.new
    rw [if_neg (by omega)]
    exact new_delivers hp0 hpm rm .pos
  · obtain ⟨x, h1, h2, h3, h4, h5, h6, h7, h8⟩ := convFromBinary_num (s := s) (e := e) (p := 64 * pw) (rm := rm)
      hne hlen hd
    rw [h8, if_pos hpU, ← bin_val (K := K) h1 h2 h6 h7, ← h3]
    exact setPrecision_delivers (bin_WF hne h2 h4 h5 h6 h7 hlen hlo hhi h) hp0 hpm rm

theorem convFromCom_zero {s : Sign} {digits : List Nat} {e : Int} {k p : Nat} {rm : RM} (hk : k = 3 ∨ k = 4)
    (hz : ∀ v ∈ digits, v = 0) : Num.convFromCommensurable s digits e k p rm =
      .ok (Num.mk 0 s (Mantissa.new (if p < USIZE_MAX then p else DEFAULT_P)) false) := by
  rcases comScan_spec hk digits with ⟨z, f, h1, h2, h3, h4⟩ | ⟨_, v, hv, hv2⟩
  · unfold Num.convFromCommensurable
    rw [h1]
    rcases h4 with h4 | ⟨v, vs, h5, h6, _⟩
    · simp only [if_pos h4]
    · exfalso
      have : v ∈ digits := List.mem_of_mem_drop (by rw [h5]; simp)
      have := hz v this; omega
  · exfalso; rw [hz v hv] at hv2; exact hv2 (by positivity)

theorem convFromCom_delivers {s : Sign} {digits : List Nat} {e : Int} {k pw : Nat} {rm : RM} (hk : k = 3 ∨ k = 4)
    (hlen : roundP (digits.length * k + 64) < PMAX) (hd : ∀ v ∈ digits, v < 2 ^ k) (hp0 : 0 < pw)
    (hpm : 64 * (pw + 1) < PMAX)
    (hup : Num.directedUp rm s.isPos = false ∨
      (2 : K) ^ (EMIN - ((64 * (pw + 1) : ℕ) : ℤ)) ≤ |(radixVal (2 ^ k) (s, digits, e) : K)| ∨
      digNat (2 ^ k) digits = 0) :
    Delivers rm (64 * pw) (radixVal (2 ^ k) (s, digits, e) : K) false
      (Num.convFromCommensurable s digits e k (64 * pw) rm) := by
  have hpU : 64 * pw < USIZE_MAX := by unfold PMAX at hpm; unfold USIZE_MAX; omega
  by_cases hnz : ∃ v ∈ digits, v ≠ 0
  swap
  · push Not at hnz
    have e0 : (radixVal (2 ^ k) (s, digits, e) : K) = 0 := by
      unfold radixVal; simp only; rw [(digNat_eq_zero (Nat.two_pow_pos k)).2 hnz, Nat.cast_zero]; ring
    rw [e0, convFromCom_zero hk hnz, if_pos hpU]
    exact new_delivers hp0 (by omega) rm s
  · obtain ⟨m, e1, h1, h2, h3, h4, h5⟩ := convFromCom_num (K := K) (s := s) (e := e) (p := 64 * pw) (rm := rm)
      hk hd hnz hlen
    have hX : (radixVal (2 ^ k) (s, digits, e) : K) =
        (s.toK : K) * (val m.m * 2 ^ (e1 - (64 * m.m.length : ℕ))) := by
      unfold radixVal; simp only; rw [h4, mul_assoc]
    rw [hX] at hup ⊢
    rw [h5]
    refine comFinish_delivers h1 h2 h3 s e1 hp0 hpm rm ?_
    rcases hup with h | h | h
    · exact Or.inl h
    · right
      have hM : (0 : K) < val m.m := by exact_mod_cast h1.pos
      rw [abs_toK, abs_of_pos (mul_pos hM (two_zpow_pos _))] at h
      have hq2 : (val m.m : K) * 2 ^ (e1 - (64 * m.m.length : ℕ)) < 2 ^ e1 := by
        have : (val m.m : K) < 2 ^ ((64 * m.m.length : ℕ) : ℤ) := by
          rw [zpow_natCast]; exact_mod_cast h1.val_lt
        calc (val m.m : K) * 2 ^ (e1 - (64 * m.m.length : ℕ)) <
              2 ^ ((64 * m.m.length : ℕ) : ℤ) * 2 ^ (e1 - (64 * m.m.length : ℕ)) :=
                mul_lt_mul_of_pos_right this (two_zpow_pos _)
          _ = 2 ^ e1 := by rw [← two_zpow_add]; congr 1; ring
      exact (zpow_lt_zpow_iff_right₀ (by norm_num)).1 (lt_of_le_of_lt h hq2)
    · exfalso
      obtain ⟨v, hv, hv0⟩ := hnz
      exact hv0 ((digNat_eq_zero (by positivity)).1 h v hv)

/-- A digit out of range is reported, unless the exponent is too large already. -/
theorem convFromCom_bad {s : Sign} {digits : List Nat} {e : Int} {k p : Nat} {rm : RM} (hk : k = 3 ∨ k = 4)
    (hbad : ∃ v ∈ digits, ¬ v < 2 ^ k) (he : e * k ≤ EMAX) :
    Num.convFromCommensurable s digits e k p rm = .error .invalidArgument := by
  have hk0 : 0 < k := by omega
  rcases comScan_spec hk digits with ⟨z, f, h1, h2, h3, h4⟩ | ⟨h1, _⟩
  swap
  · unfold Num.convFromCommensurable; rw [h1]
  · obtain ⟨v, hv, hv2⟩ := hbad
    have hv' : v ∈ digits.drop z := by
      rw [← List.take_append_drop z digits, List.mem_append] at hv
      rcases hv with h | h
      · exfalso; rw [h3 v h] at hv2; exact hv2 (by positivity)
      · exact h
    have hz : z ≠ digits.length := by
      intro h; rw [h, List.drop_length] at hv'; simp at hv'
    unfold Num.convFromCommensurable
    rw [h1]
    simp only [if_neg hz]
    by_cases hm : roundP ((digits.length - z) * k + 64) ≥ PMAX
    · rw [if_pos hm]
    · rw [if_neg hm, if_neg (show ¬ e * (k : ℤ) - ((k * z + f : ℕ) : ℤ) > EMAX by generalize k * z + f = g; omega)]
      rcases h4 with h4 | ⟨w, ws, _, _, _, h7, _⟩
      · exact absurd h4 hz
      · rw [comFill_bad (s := k) (digits.drop z) (wordLen (roundP ((digits.length - z) * k + 64))) (k - f) 0
          ⟨v, hv', hv2⟩ (by unfold wordLen roundP USIZE_MAX; unfold roundP PMAX USIZE_MAX at hm; omega) ?_]
        rw [List.length_drop]
        have h8 : (digits.length - z) * k + 64 ≤ roundP ((digits.length - z) * k + 64) := by
          unfold roundP USIZE_MAX; unfold roundP PMAX USIZE_MAX at hm; omega
        have h9 : roundP ((digits.length - z) * k + 64) ≤ 64 * wordLen (roundP ((digits.length - z) * k + 64)) := by
          generalize roundP ((digits.length - z) * k + 64) = q; unfold wordLen; omega
        have : k * (digits.length - z) = (digits.length - z) * k := Nat.mul_comm _ _
        omega

theorem convFromBinary_bad {s : Sign} {digits : List Nat} {e : Int} {p : Nat} {rm : RM}
    (hbad : ∃ v ∈ digits, ¬ v < 2) :
    Num.convFromBinary s digits e p rm = .error .invalidArgument := by
  unfold Num.convFromBinary
  have hne : digits.isEmpty = false := by
    cases digits with
    | nil => obtain ⟨v, hv, _⟩ := hbad; simp at hv
    | cons _ _ => rfl
  rw [hne]
  simp only [Bool.false_eq_true, if_false]
  by_cases h : roundP digits.length ≥ PMAX
  · rw [if_pos h]
  · rw [if_neg h, binLoop_bad _ _ _ (by obtain ⟨v, hv, h2⟩ := hbad; exact ⟨v, List.mem_reverse.2 hv, h2⟩)]

end AF
