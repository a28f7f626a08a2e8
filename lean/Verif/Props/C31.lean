import Verif.Lemmas.RadixTrip
import Verif.Props.C32
/-!
# C31: digits in radix 2, 8 and 16 are lossless

The digits of a finite number, evaluated, give exactly the number; read back with a precision not less than
that of the number they give the number again. Without a precision (`usize::MAX`) this holds in binary, and in
octal and hexadecimal for normal numbers. Exceptions, with witnesses:

* the zero of length zero (for example `BigFloat::new(0)`) makes the octal and hexadecimal conversion panic
  (`C31_com_empty_refuted`);
* subnormal numbers read back from octal or hexadecimal digits without a precision carry a wrong bit length and
  do not compare equal (`C31_com_auto_refuted`).

The length limit excludes mantissas within two words of the largest accepted precision (2^62 bits).
-/

namespace AF

theorem C31_bin_digits (x : Num) (hx : x.WF) (rm : RM) (tp : List TenPow) :
    ∃ d, ((BF.num x).convertToRadix .bin rm tp).1 = .ok d ∧ (radixVal 2 d : ℚ) = x.toK ∧
      (∀ v ∈ d.2.1, v < 2) ∧ d.1 = x.s := by
  obtain ⟨h1, h2, h3⟩ := convToBinary_spec (K := ℚ) hx.wf
  exact ⟨x.convToBinary, rfl, h1, h2, h3⟩

theorem C31_com_digits_partial (rdx : Radix) (k : Nat) (hk : ComRadix rdx k) (x : Num) (hx : x.WF) (hne : x.m.m ≠ [])
    (rm : RM) (tp : List TenPow) :
    ∃ d, ((BF.num x).convertToRadix rdx rm tp).1 = .ok d ∧ (radixVal (2 ^ k) d : ℚ) = x.toK ∧
      (∀ v ∈ d.2.1, v < 2 ^ k) ∧ d.1 = x.s := by
  rcases hk with ⟨rfl, rfl⟩ | ⟨rfl, rfl⟩
  · obtain ⟨d, h1, h2, h3, h4, _⟩ := convToCommensurable_spec (K := ℚ) hx.wf hne (s := 3) (by norm_num) (by norm_num)
    exact ⟨d, h1, h2, h3, h4⟩
  · obtain ⟨d, h1, h2, h3, h4, _⟩ := convToCommensurable_spec (K := ℚ) hx.wf hne (s := 4) (by norm_num) (by norm_num)
    exact ⟨d, h1, h2, h3, h4⟩

theorem C31_com_empty_refuted :
    ¬ ∀ (rdx : Radix) (k : Nat), ComRadix rdx k → ∀ x : Num, x.WF → ∀ (rm : RM) (tp : List TenPow),
      ∃ d, ((BF.num x).convertToRadix rdx rm tp).1 = .ok d := by
  intro h
  obtain ⟨d, h1⟩ := h .hex 4 (Or.inr ⟨rfl, rfl⟩) (Num.mk 0 .pos ⟨[], 0⟩ false) (Num.WF_of_check (by decide)) .none []
  have h2 : ((BF.num (Num.mk 0 .pos ⟨[], 0⟩ false)).convertToRadix .hex .none []).1 = .error .panic := by decide
  rw [h2] at h1
  cases h1

/-- The zero of length zero is what `BigFloat::new(0)` returns. -/
example : BF.new 0 = .num (Num.mk 0 .pos ⟨[], 0⟩ false) := by decide

/-- `r` is the number `x` again: same value, well-formed, marked exact, and with the sign of `x` unless zero. -/
def SameNum (x : Num) (r : BF) : Prop :=
  ∃ v, r = .num v ∧ v.WF ∧ (v.toK : ℚ) = x.toK ∧ v.inexact = false ∧ (x.isZero = false → v.s = x.s)

theorem bin_digits_head {x : Num} (hx : x.WF) : x.convToBinary.2.1.head? ≠ some 0 ∨ x.convToBinary.2.2 = EMIN ∨
    digNat 2 x.convToBinary.2.1 = 0 := by
  obtain ⟨h1, h2, _⟩ := convToBinary_spec (K := ℚ) hx.wf
  by_cases hz : x.isZero = true
  · right; right
    have h0 := (hx.toK_eq_zero (K := ℚ)).2 hz
    rw [h0] at h1
    unfold radixVal at h1
    rcases mul_eq_zero.1 h1 with h | h
    · rcases mul_eq_zero.1 h with h | h
      · exact absurd h (toK_ne_zero _)
      · exact_mod_cast h
    · exact absurd h (zpow_ne_zero _ (by norm_num))
  · have hz' : x.isZero = false := by simpa using hz
    by_cases hn : x.m.n < 64 * x.m.m.length
    · right; left; exact hx.norm (hx.n_pos hz') hn
    · left
      intro hc
      have h3 := radixVal_head_zero (K := ℚ) (b := 2) (by norm_num) (s := x.convToBinary.1) (e := x.convToBinary.2.2) h2 hc
      have h4 : (radixVal 2 (x.convToBinary.1, x.convToBinary.2.1, x.convToBinary.2.2) : ℚ) = x.toK := h1
      rw [h4] at h3
      obtain ⟨q, g1, _, _, g4⟩ := hx.mag (K := ℚ) hz'
      have hq : q = x.e := by rw [g4]; omega
      rw [hq] at g1
      exact absurd h3 (not_lt.2 g1)

/-- Binary digits of `x`, read back with a precision that is not less than the one of `x`. -/
theorem C31_bin_back (x : Num) (hx : x.WF) (p : Nat) (hp : ValidP p) (hxp : 64 * x.m.m.length ≤ precBits p)
    (rm rm' : RM) (tp tp' : List TenPow) :
    ∃ d, ((BF.num x).convertToRadix .bin rm tp).1 = .ok d ∧
      SameNum x (BF.convertFromRadix d.1 d.2.1 d.2.2 .bin p rm' tp').1 := by
  obtain ⟨h1, h2, _⟩ := convToBinary_spec (K := ℚ) hx.wf
  refine ⟨x.convToBinary, rfl, ?_⟩
  have hl := convToBinary_length hx.wf
  have := C32_bin_partial x.convToBinary.1 x.convToBinary.2.1 x.convToBinary.2.2 hx.emin hx.emax p hp rm' tp'
    (by have h3 := hp.lt; unfold precBits at *; omega) h2 (bin_digits_head hx)
  rw [show (radixVal 2 (x.convToBinary.1, x.convToBinary.2.1, x.convToBinary.2.2) : ℚ) = x.toK from h1] at this
  obtain ⟨v, a1, a2, _, a4, a5, a6⟩ := this.rep hx hp.prec.pos hxp
  exact ⟨v, a1, a2, a4, a5, a6⟩

theorem C31_com_back (rdx : Radix) (k : Nat) (hk : ComRadix rdx k) (x : Num) (hx : x.WF) (hne : x.m.m ≠ [])
    (p : Nat) (hp : ValidP p) (hxp : 64 * x.m.m.length ≤ precBits p) (hp2 : precBits p + 128 < 2 ^ 62 - 2 ^ 31 - 1)
    (rm rm' : RM) (tp tp' : List TenPow) :
    ∃ d, ((BF.num x).convertToRadix rdx rm tp).1 = .ok d ∧
      SameNum x (BF.convertFromRadix d.1 d.2.1 d.2.2 rdx p rm' tp').1 := by
  have hk' : 0 < k ∧ k ≤ 4 := by rcases hk with ⟨_, rfl⟩ | ⟨_, rfl⟩ <;> norm_num
  obtain ⟨d, h1, h2, h3, h4, h5, h6, h7⟩ := convToCommensurable_spec (K := ℚ) hx.wf hne (s := k) hk'.1 (by omega)
  refine ⟨d, by rcases hk with ⟨rfl, rfl⟩ | ⟨rfl, rfl⟩ <;> exact h1, ?_⟩
  have hl := com_length (K := ℚ) hk'.1 h2 h3 h4 h6 h7
  have h2' : (radixVal (2 ^ k) (d.1, d.2.1, d.2.2) : ℚ) = x.toK := h2
  have := C32_com_partial rdx k hk d.1 d.2.1 d.2.2 p hp (by omega) rm' tp'
    (by unfold precBits at *; omega) h3 (by
      by_cases hz : x.isZero = true
      · right; right
        have h0 := (hx.toK_eq_zero (K := ℚ)).2 hz
        rw [h0] at h2'
        unfold radixVal at h2'
        rcases mul_eq_zero.1 h2' with h | h
        · rcases mul_eq_zero.1 h with h | h
          · exact absurd h (toK_ne_zero _)
          · exact_mod_cast h
        · exact absurd h (zpow_ne_zero _ (by simp))
      · right; left
        rw [h2', x.abs_val]
        have h8 : (1 : ℚ) ≤ val x.m.m := by
          have := hx.val_ne (by simpa using hz)
          exact_mod_cast Nat.one_le_iff_ne_zero.2 this
        calc (2 : ℚ) ^ (EMIN - ((precBits p + 64 : ℕ) : ℤ)) ≤ 2 ^ (x.e - (64 * x.m.m.length : ℕ)) := by
              apply zpow_mono_two
              have := hx.emin
              push_cast; omega
          _ = 1 * 2 ^ (x.e - (64 * x.m.m.length : ℕ)) := by ring
          _ ≤ _ := mul_le_mul_of_nonneg_right h8 (two_zpow_pos _).le)
  rw [h2'] at this
  obtain ⟨v, a1, a2, _, a4, a5, a6⟩ := this.rep hx hp.prec.pos hxp
  exact ⟨v, a1, a2, a4, a5, a6⟩

/-- Binary digits of `x`, read back without a precision. -/
theorem C31_bin_auto (x : Num) (hx : x.WF) (hlen : 64 * x.m.m.length < 2 ^ 62 - 2 ^ 31 - 1)
    (rm rm' : RM) (tp tp' : List TenPow) :
    ∃ d, ((BF.num x).convertToRadix .bin rm tp).1 = .ok d ∧
      SameNum x (BF.convertFromRadix d.1 d.2.1 d.2.2 .bin USIZE_MAX rm' tp').1 := by
  obtain ⟨h1, h2, h3⟩ := convToBinary_spec (K := ℚ) hx.wf
  refine ⟨x.convToBinary, rfl, ?_⟩
  have hl := convToBinary_length hx.wf
  have hdis : (BF.convertFromRadix x.convToBinary.1 x.convToBinary.2.1 x.convToBinary.2.2 .bin USIZE_MAX rm' tp').1 =
      BF.resultToExt (Num.convFromBinary x.convToBinary.1 x.convToBinary.2.1 x.convToBinary.2.2 USIZE_MAX rm') false true := by
    unfold BF.convertFromRadix Num.convertFromRadix
    simp only [lt_irrefl, false_and, if_false]
  rw [hdis]
  have h1' : (radixVal 2 (x.convToBinary.1, x.convToBinary.2.1, x.convToBinary.2.2) : ℚ) = x.toK := h1
  by_cases hz : digNat 2 x.convToBinary.2.1 = 0
  · -- zero: no digits are left
    have h0 : (x.toK : ℚ) = 0 := by rw [← h1']; unfold radixVal; simp [hz]
    have hemp : x.convToBinary.2.1 = [] := by
      by_contra hc
      have hl := (cutTrail_spec (x.m.m.reverse.flatMap (fun v => wordBits v 64)))
      have hall := (digNat_eq_zero (b := 2) (by norm_num)).1 hz
      have h5 := hall _ (List.getLast_mem hc)
      obtain ⟨_, _, h6⟩ := hl
      exact h6 hc h5
    rw [hemp]
    refine ⟨Num.mk 0 .pos (Mantissa.new 128) false, by rfl, ?_, ?_, rfl, ?_⟩
    · exact Num.WF_of_check (by decide)
    · rw [h0]; unfold Num.toK Mantissa.new; simp
    · intro hz2; rw [(hx.toK_eq_zero (K := ℚ)).1 h0] at hz2; cases hz2
  · obtain ⟨v, a1, a2, a3, a4, a5⟩ := convFromBinary_auto (K := ℚ) (s := x.convToBinary.1) (rm := rm')
      (limit_roundP (n := x.convToBinary.2.1.length) (by unfold precBits; omega)) h2 hx.emin hx.emax hz
    have a1' : Num.convFromBinary x.convToBinary.1 x.convToBinary.2.1 x.convToBinary.2.2 USIZE_MAX rm' = .ok v := a1
    rw [a1']
    exact ⟨v, rfl, a2, by rw [a5]; exact h1, a4, fun _ => by rw [a3, h3]⟩

/-- Octal and hexadecimal digits of a normal number, read back without a precision. -/
theorem C31_com_auto_partial (rdx : Radix) (k : Nat) (hk : ComRadix rdx k) (x : Num) (hx : x.WF)
    (hnorm : (2 : ℚ) ^ (EMIN - 1) ≤ |(x.toK : ℚ)|) (hlen : 64 * x.m.m.length + 128 < 2 ^ 62 - 2 ^ 31 - 1)
    (rm rm' : RM) (tp tp' : List TenPow) :
    ∃ d, ((BF.num x).convertToRadix rdx rm tp).1 = .ok d ∧
      SameNum x (BF.convertFromRadix d.1 d.2.1 d.2.2 rdx USIZE_MAX rm' tp').1 := by
  have hk' : (k = 3 ∨ k = 4) ∧ 0 < k ∧ k ≤ 4 := by rcases hk with ⟨_, rfl⟩ | ⟨_, rfl⟩ <;> norm_num
  have hne : x.m.m ≠ [] := by
    intro h
    have : (x.toK : ℚ) = 0 := by unfold Num.toK; rw [h]; simp
    rw [this, abs_zero] at hnorm
    exact absurd (two_zpow_pos (K := ℚ) (EMIN - 1)) (not_lt.2 hnorm)
  obtain ⟨d, h1, h2, h3, h4, h5, h6, h7⟩ := convToCommensurable_spec (K := ℚ) hx.wf hne (s := k) hk'.2.1 (by omega)
  refine ⟨d, by rcases hk with ⟨rfl, rfl⟩ | ⟨rfl, rfl⟩ <;> exact h1, ?_⟩
  have hl := com_length (K := ℚ) hk'.2.1 h2 h3 h4 h6 h7
  have h2' : (radixVal (2 ^ k) (d.1, d.2.1, d.2.2) : ℚ) = x.toK := h2
  have hdis : (BF.convertFromRadix d.1 d.2.1 d.2.2 rdx USIZE_MAX rm' tp').1 =
      BF.resultToExt (Num.convFromCommensurable d.1 d.2.1 d.2.2 k USIZE_MAX rm') false true := by
    unfold BF.convertFromRadix Num.convertFromRadix
    simp only [lt_irrefl, false_and, if_false]
    rcases hk with ⟨rfl, rfl⟩ | ⟨rfl, rfl⟩ <;> rfl
  rw [hdis]
  obtain ⟨v, a1, a2, a3, a4, a5⟩ := convFromCom_auto (K := ℚ) (s := d.1) (digits := d.2.1) (e := d.2.2) (rm := rm') hk'.1
    (limit_roundP (by unfold precBits; omega)) h3 (by rw [h2']; exact hnorm) (by rw [h2']; exact hx.abs_lt_emax)
  rw [a1]
  exact ⟨v, rfl, a2, by rw [a5]; exact h2, a4, fun _ => by rw [a3, h4]⟩

/-- The subnormal number `5 · 2^(EMIN-64)` read back from its octal digits without a precision compares as smaller
than itself. -/
theorem C31_com_auto_refuted :
    ∃ (x : Num) (d : Digits), x.WF ∧ ((BF.num x).convertToRadix .oct .none []).1 = .ok d ∧
      ¬ SameNum x (BF.convertFromRadix d.1 d.2.1 d.2.2 .oct USIZE_MAX .none []).1 ∧
      (BF.convertFromRadix d.1 d.2.1 d.2.2 .oct USIZE_MAX .none []).1.cmp (.num x) = some (-1) := by
  refine ⟨Num.mk EMIN .pos ⟨[5], 3⟩ false, (.pos, List.replicate 21 0 ++ [5], -715827882),
    Num.WF_of_check (by decide), by decide +kernel, ?_, by decide +kernel⟩
  have h : (BF.convertFromRadix .pos (List.replicate 21 0 ++ [5]) (-715827882) .oct USIZE_MAX .none []).1 =
      .num (Num.mk EMIN .pos ⟨[0, 0, 5], 128⟩ false) := by decide +kernel
  rintro ⟨v, h1, h2, _⟩
  simp only at h1
  rw [h] at h1
  cases h1
  have := h2.bits
  revert this
  have h3 : val [0, 0, 5] = 5 * 2 ^ 128 := by decide
  show ¬ 128 = Nat.size (val [0, 0, 5])
  rw [h3, size_mul_two_pow (by norm_num)]
  have : Nat.size 5 = 3 := by decide
  omega

/-! ### Cases -/

example : ∃ d, ((BF.num exB).convertToRadix .bin .none []).1 = .ok d ∧
    SameNum exB (BF.convertFromRadix d.1 d.2.1 d.2.2 .bin 100 .none []).1 :=
  C31_bin_back exB exB_WF 100 ValidP_100 (by decide) .none .none [] []

example : ∃ d, ((BF.num exB).convertToRadix .oct .none []).1 = .ok d ∧
    SameNum exB (BF.convertFromRadix d.1 d.2.1 d.2.2 .oct 100 .none []).1 :=
  C31_com_back .oct 3 (Or.inl ⟨rfl, rfl⟩) exB exB_WF (by decide) 100 ValidP_100 (by decide) (by decide) .none .none [] []

/-- A subnormal number. -/
example : ∃ d, ((BF.num (Num.mk EMIN .neg ⟨[5], 3⟩ false)).convertToRadix .hex .none []).1 = .ok d ∧
    SameNum (Num.mk EMIN .neg ⟨[5], 3⟩ false) (BF.convertFromRadix d.1 d.2.1 d.2.2 .hex 64 .none []).1 :=
  C31_com_back .hex 4 (Or.inr ⟨rfl, rfl⟩) (Num.mk EMIN .neg ⟨[5], 3⟩ false) (Num.WF_of_check (by decide)) (by decide) 64
    ValidP_64 (by decide) (by decide) .none .none [] []

end AF
