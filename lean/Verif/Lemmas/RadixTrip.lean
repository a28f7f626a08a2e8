import Verif.Lemmas.Repr
import Verif.Lemmas.Radix
import Verif.Lemmas.RadixDel
/-!
# Digits of a number: length, first digit, and exact reading without a precision
-/

set_option linter.unusedSectionVars false

namespace AF

variable {K : Type*} [Field K] [LinearOrder K] [IsStrictOrderedRing K]

/-- A leading zero digit makes the value small. -/
theorem radixVal_head_zero {b : Nat} (hb : 0 < b) {s : Sign} {ds : List Nat} {e : Int} (hd : ∀ d ∈ ds, d < b)
    (h : ds.head? = some 0) : |(radixVal b (s, ds, e) : K)| < (b : K) ^ (e - 1) := by
  cases ds with
  | nil => simp at h
  | cons d ds =>
    have hd0 : d = 0 := by simpa using h
    subst hd0
    unfold radixVal
    simp only
    have hbK : (0 : K) < b := by exact_mod_cast hb
    rw [mul_assoc, abs_toK, digNat_cons, Nat.zero_mul, Nat.zero_add, abs_of_nonneg (by positivity)]
    have h1 : (digNat b ds : K) < (b : K) ^ (ds.length : ℤ) := by
      rw [zpow_natCast]; exact_mod_cast digNat_lt hb (fun d hd' => hd d (by simp [hd']))
    calc (digNat b ds : K) * (b : K) ^ (e - ((0 :: ds).length : ℕ))
        < (b : K) ^ (ds.length : ℤ) * (b : K) ^ (e - ((0 :: ds).length : ℕ)) :=
          mul_lt_mul_of_pos_right h1 (by positivity)
      _ = (b : K) ^ (e - 1) := by
          rw [← zpow_add₀ hbK.ne']; congr 1; push_cast [List.length_cons]; ring

theorem cutTrail_length_le (ds : List Nat) : (cutTrail ds).length ≤ ds.length := by
  unfold cutTrail; rw [List.length_take]; omega

theorem convToBinary_length {x : Num} (hw : Wf x.m.m) : x.convToBinary.2.1.length ≤ 64 * x.m.m.length := by
  unfold Num.convToBinary
  refine le_trans (cutTrail_length_le _) ?_
  rw [(digNat_flat (wf_reverse.2 hw)).2, List.length_reverse]

theorem com_length {x : Num} {s : Nat} (hs : 0 < s) {D : Digits}
    (hv : (radixVal (2 ^ s) D : K) = x.toK) (hd : ∀ d ∈ D.2.1, d < 2 ^ s) (hsg : D.1 = x.s)
    (hhi : D.2.2 * s < x.e + s) (hlast : ∀ h : D.2.1 ≠ [], D.2.1.getLast h ≠ 0) :
    D.2.1.length * s ≤ 64 * x.m.m.length + 2 * s := by
  by_contra hc
  push Not at hc
  have hne : D.2.1 ≠ [] := by intro h; rw [h] at hc; simp at hc
  obtain ⟨xs, d, hxs⟩ : ∃ xs d, D.2.1 = xs ++ [d] := ⟨_, _, (List.dropLast_append_getLast hne).symm⟩
  have hd0 : d ≠ 0 := by
    have := hlast hne; simp only [hxs, List.getLast_append_of_ne_nil, ne_eq, List.cons_ne_nil, not_false_eq_true,
      List.getLast_singleton] at this; exact this
  have hdl : d < 2 ^ s := hd d (by rw [hxs]; simp)
  obtain ⟨n, hn⟩ : ∃ n : ℕ, x.e - (64 * x.m.m.length : ℕ) = (s : ℤ) * (D.2.2 - D.2.1.length) + (s + n : ℕ) := by
    refine ⟨(x.e - (64 * x.m.m.length : ℕ) - (s : ℤ) * (D.2.2 - D.2.1.length) - s).toNat, ?_⟩
    have h1 : (s : ℤ) * (D.2.2 - D.2.1.length) = D.2.2 * s - (D.2.1.length * s : ℕ) := by push_cast; ring
    rw [h1]
    push_cast at hc ⊢
    omega
  have h2 : (digNat (2 ^ s) D.2.1 : K) = (val x.m.m * 2 ^ n * 2 ^ s : ℕ) := by
    unfold radixVal Num.toK at hv
    rw [hsg, mul_assoc, mul_assoc] at hv
    have hv2 := mul_left_cancel₀ (toK_ne_zero (K := K) x.s) hv
    rw [hn, Nat.cast_pow, Nat.cast_ofNat, ← zpow_natCast (2 : K) s, ← zpow_mul, two_zpow_add,
      mul_comm ((2 : K) ^ ((s : ℤ) * _)), ← mul_assoc] at hv2
    have hv3 := mul_right_cancel₀ (two_zpow_pos (K := K) _).ne' hv2
    rw [hv3, zpow_natCast]
    push_cast; ring
  have h3 : digNat (2 ^ s) D.2.1 = val x.m.m * 2 ^ n * 2 ^ s := by exact_mod_cast h2
  rw [hxs, digNat_snoc] at h3
  have h4 : (digNat (2 ^ s) xs * 2 ^ s + d) % 2 ^ s = 0 := by rw [h3]; exact Nat.mul_mod_left _ _
  rw [Nat.mul_comm, Nat.mul_add_mod, Nat.mod_eq_of_lt hdl] at h4
  exact hd0 h4

/-- Binary digits read without a precision: the value is kept exactly. -/
theorem convFromBinary_auto {s : Sign} {digits : List Nat} {e : Int} {rm : RM}
    (hlen : roundP digits.length < PMAX) (hd : ∀ v ∈ digits, v < 2) (hlo : EMIN ≤ e) (hhi : e ≤ EMAX)
    (hnz : digNat 2 digits ≠ 0) :
    ∃ v, Num.convFromBinary s digits e USIZE_MAX rm = .ok v ∧ v.WF ∧ v.s = s ∧ v.inexact = false ∧
      (v.toK : K) = radixVal 2 (s, digits, e) := by
  have hne : digits ≠ [] := by rintro rfl; simp at hnz
  obtain ⟨x, h1, h2, h3, h4, h5, h6, h7, h8⟩ := convFromBinary_num (s := s) (e := e) (p := USIZE_MAX) (rm := rm)
    hne hlen hd
  have hval : (x.toK : K) = radixVal 2 (s, digits, e) := bin_val h1 h2 h6 h7
  have hv0 : val x.m.m ≠ 0 := by rw [h7]; exact Nat.mul_ne_zero hnz (by positivity)
  have hmb : x.m.maxBitLen = 64 * x.m.m.length := by unfold Mantissa.maxBitLen; ring
  have hsz : 64 * x.m.m.length ≤ 2 ^ 62 - 2 ^ 31 := by
    rw [h6]
    have : roundP digits.length = 64 * wordLen digits.length := by
      unfold roundP wordLen; unfold roundP PMAX USIZE_MAX at hlen; unfold USIZE_MAX; omega
    rw [this] at hlen; rw [PMAX_eq] at hlen; omega
  have hnle : x.m.n ≤ 64 * x.m.m.length := by
    rw [h5]; exact Nat.size_le.2 (by rw [← B_pow]; exact val_lt h4)
  rw [h8, if_neg (lt_irrefl _)]
  simp only [hmb]
  have hxK : (x.toK : K) = (s.toK : K) * val x.m.m * 2 ^ (e - (64 * x.m.m.length : ℕ)) := by
    unfold Num.toK; rw [h1, h2]
  split
  · rename_i hsh
    split
    · rename_i hes
      obtain ⟨a1, a2, a3, a4, a5⟩ := maximize_spec h4 hv0
      rw [← h5] at a2
      refine ⟨_, rfl, ?_, rfl, rfl, ?_⟩
      · have hnd : Normd (maximize x.m.m).1 := ⟨a5, by rw [a4]; omega, by rw [a4]; exact a3⟩
        exact WF_of_normd hnd (by rw [a4])
          (by omega) (by omega) (by rw [a4]; omega) s false
      · rw [← hval, hxK]
        unfold Num.toK
        simp only
        rw [a1, a4, a2, Nat.cast_mul, Nat.cast_pow, Nat.cast_ofNat, mul_assoc, mul_assoc, mul_assoc, ← zpow_natCast,
          ← two_zpow_add]
        congr 3; ring
    · rename_i hes
      push Not at hes
      set es := (e - EMIN).toNat with hes'
      have hb : val x.m.m * 2 ^ es < B ^ x.m.m.length := by
        rw [B_pow]
        have : val x.m.m < 2 ^ x.m.n := by rw [h5]; exact Nat.lt_size_self _
        calc val x.m.m * 2 ^ es < 2 ^ x.m.n * 2 ^ es := Nat.mul_lt_mul_of_pos_right this (by positivity)
          _ = 2 ^ (x.m.n + es) := (pow_add _ _ _).symm
          _ ≤ _ := Nat.pow_le_pow_right (by norm_num) (by omega)
      have hsv : val (shiftLeft x.m.m es) = val x.m.m * 2 ^ es := by
        rw [val_shiftLeft h4, Nat.mod_eq_of_lt hb]
      refine ⟨_, rfl, ?_, rfl, rfl, ?_⟩
      · refine ⟨shiftLeft_wf h4 _, ?_, le_rfl, EMIN_lt_EMAX.le, fun _ _ => rfl, by simpa using hsz⟩
        simp only [hsv]; rw [size_mul_two_pow hv0, h5]
      · rw [← hval, hxK]
        unfold Num.toK
        simp only [hsv, shiftLeft_length]
        rw [Nat.cast_mul, Nat.cast_pow, Nat.cast_ofNat, mul_assoc, mul_assoc, mul_assoc, ← zpow_natCast, ← two_zpow_add]
        congr 3; omega
  · rename_i hsh
    rw [not_and_or] at hsh
    refine ⟨Num.mk e s x.m false, by rw [← h1, ← h2, ← h3], ?_, rfl, rfl, ?_⟩
    · refine ⟨h4, h5, hlo, hhi, ?_, hsz⟩
      intro _ hlt
      simp only at hlt
      rcases hsh with h | h
      · omega
      · simp only; omega
    · rw [← hval, hxK]; rfl

/-- Octal and hexadecimal digits read without a precision: the value is kept exactly when it is normal. -/
theorem convFromCom_auto {s : Sign} {digits : List Nat} {e : Int} {k : Nat} {rm : RM} (hk : k = 3 ∨ k = 4)
    (hlen : roundP (digits.length * k + 64) < PMAX) (hd : ∀ v ∈ digits, v < 2 ^ k)
    (hlo : (2 : K) ^ (EMIN - 1) ≤ |(radixVal (2 ^ k) (s, digits, e) : K)|)
    (hhi : |(radixVal (2 ^ k) (s, digits, e) : K)| < 2 ^ EMAX) :
    ∃ v, Num.convFromCommensurable s digits e k USIZE_MAX rm = .ok v ∧ v.WF ∧ v.s = s ∧ v.inexact = false ∧
      (v.toK : K) = radixVal (2 ^ k) (s, digits, e) := by
  have hnz : ∃ v ∈ digits, v ≠ 0 := by
    by_contra hc
    push Not at hc
    have e0 : (radixVal (2 ^ k) (s, digits, e) : K) = 0 := by
      unfold radixVal; simp only; rw [(digNat_eq_zero (Nat.two_pow_pos k)).2 hc, Nat.cast_zero]; ring
    rw [e0, abs_zero] at hlo
    exact absurd (two_zpow_pos (K := K) (EMIN - 1)) (not_lt.2 hlo)
  obtain ⟨m, e1, h1, h2, h3, h4, h5⟩ := convFromCom_num (K := K) (s := s) (e := e) (p := USIZE_MAX) (rm := rm)
    hk hd hnz hlen
  have hX : (radixVal (2 ^ k) (s, digits, e) : K) =
      (s.toK : K) * (val m.m * 2 ^ (e1 - (64 * m.m.length : ℕ))) := by
    unfold radixVal; simp only; rw [h4, mul_assoc]
  rw [hX] at hlo hhi ⊢
  have hM : (0 : K) < val m.m := by exact_mod_cast h1.pos
  rw [abs_toK, abs_of_pos (mul_pos hM (two_zpow_pos _))] at hlo hhi
  have hq2 : (val m.m : K) * 2 ^ (e1 - (64 * m.m.length : ℕ)) < 2 ^ e1 := by
    have : (val m.m : K) < 2 ^ ((64 * m.m.length : ℕ) : ℤ) := by
      rw [zpow_natCast]; exact_mod_cast h1.val_lt
    calc (val m.m : K) * 2 ^ (e1 - (64 * m.m.length : ℕ)) <
          2 ^ ((64 * m.m.length : ℕ) : ℤ) * 2 ^ (e1 - (64 * m.m.length : ℕ)) :=
            mul_lt_mul_of_pos_right this (two_zpow_pos _)
      _ = 2 ^ e1 := by rw [← two_zpow_add]; congr 1; ring
  have hq1 : (2 : K) ^ (e1 - 1) ≤ val m.m * 2 ^ (e1 - (64 * m.m.length : ℕ)) := by
    have : (2 : K) ^ ((64 * m.m.length - 1 : ℕ) : ℤ) ≤ val m.m := by
      rw [zpow_natCast]; exact_mod_cast h1.2.2
    calc (2 : K) ^ (e1 - 1) = 2 ^ ((64 * m.m.length - 1 : ℕ) : ℤ) * 2 ^ (e1 - (64 * m.m.length : ℕ)) := by
          rw [← two_zpow_add]; congr 1
          have := h1.2.1
          push_cast [show 1 ≤ 64 * m.m.length by omega]; ring
      _ ≤ _ := mul_le_mul_of_nonneg_right this (two_zpow_pos _).le
  have b1 : EMIN - 1 < e1 := (zpow_lt_zpow_iff_right₀ (by norm_num)).1 (lt_of_le_of_lt hlo hq2)
  have b2 : e1 - 1 < EMAX := (zpow_lt_zpow_iff_right₀ (by norm_num)).1 (lt_of_le_of_lt hq1 hhi)
  rw [h5]
  unfold comFinish
  rw [if_neg (by omega), if_neg (by omega)]
  simp only [if_neg (lt_irrefl USIZE_MAX)]
  refine ⟨_, rfl, WF_of_normd h1 h2 (by omega) (by omega) (by rw [PMAX_eq] at h3; omega) s false, rfl, rfl, ?_⟩
  unfold Num.toK; ring

end AF
