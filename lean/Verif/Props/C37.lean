import Verif.Lemmas.Format
import Verif.Props.C31
/-!
# C37: text round trip in binary, octal and hexadecimal

A finite number with a mantissa is formatted without loss: parsing the text at the precision of the number (or a
larger one) gives the number again, with its sign also when it is a zero. A zero without a mantissa makes the
formatter panic in octal and hexadecimal (`C37_empty_refuted`), and loses its sign in binary
(`C37_empty_sign_refuted`).
-/

namespace AF

/-- `r` is the number `x` again, sign of zero included. -/
def SameNumSigned (x : Num) (r : BF) : Prop :=
  ∃ v, r = .num v ∧ v.WF ∧ (v.toK : ℚ) = x.toK ∧ v.inexact = false ∧ v.s = x.s

theorem normal_head {x : Num} (hx : x.WF) (hz : x.isZero = false) (hn : ¬ x.m.n < 64 * x.m.m.length) {b k : Nat}
    (hb : b = 2 ^ k) {d : Digits} (hd : ∀ v ∈ d.2.1, v < b) (hv : (radixVal b d : ℚ) = x.toK)
    (he : d.2.2 * k < x.e + k) : d.2.1.head? ≠ some 0 := by
  intro hc
  have h3 := radixVal_head_zero (K := ℚ) (b := b) (by rw [hb]; exact Nat.two_pow_pos k) (s := d.1) (e := d.2.2) hd hc
  have h4 : (radixVal b (d.1, d.2.1, d.2.2) : ℚ) = x.toK := hv
  rw [h4] at h3
  obtain ⟨q, g1, _, _, g4⟩ := hx.mag (K := ℚ) hz
  have hq : q = x.e := by rw [g4]; omega
  rw [hq] at g1
  refine absurd h3 (not_lt.2 (le_trans ?_ g1))
  have : ((b : ℕ) : ℚ) = (2 : ℚ) ^ (k : ℤ) := by rw [hb]; push_cast; rfl
  rw [this, ← zpow_mul]
  apply zpow_mono_two
  have : (k : ℤ) * (d.2.2 - 1) = d.2.2 * k - k := by ring
  omega

theorem zero_digits {x : Num} (hx : x.WF) {b : Nat} (hb : 0 < b) {d : Digits} (hv : (radixVal b d : ℚ) = x.toK)
    (hlast : ∀ h : d.2.1 ≠ [], d.2.1.getLast h ≠ 0) : x.isZero = true ↔ d.2.1 = [] := by
  rw [← hx.toK_eq_zero (K := ℚ), ← hv]
  constructor
  · intro h
    by_contra hc
    unfold radixVal at h
    have h1 : digNat b d.2.1 = 0 := by
      rcases mul_eq_zero.1 h with h | h
      · rcases mul_eq_zero.1 h with h | h
        · exact absurd h (toK_ne_zero _)
        · exact_mod_cast h
      · exact absurd h (zpow_ne_zero _ (by have : (b : ℚ) ≠ 0 := by exact_mod_cast hb.ne'
                                           exact this))
    exact hlast hc ((digNat_eq_zero hb).1 h1 _ (List.getLast_mem hc))
  · intro h
    unfold radixVal
    rw [h]; simp [digNat]

/-- The digits of a number are read back from its text. -/
theorem text_read {x : Num} (hx : x.WF) {rdx : Radix} {k : Nat} (hk : 0 < k) (hb : rdx.num = 2 ^ k) {d : Digits}
    (hd : ∀ v ∈ d.2.1, v < 2 ^ k) (hv : (radixVal (2 ^ k) d : ℚ) = x.toK) (h1 : x.e ≤ d.2.2 * k)
    (h2 : d.2.2 * k < x.e + k) (hlast : ∀ h : d.2.1 ≠ [], d.2.1.getLast h ≠ 0) (hnz : d.2.1 ≠ []) :
    let r := parseText (x.digitsText rdx d) rdx
    r.sign = d.1 ∧ r.nan = false ∧ r.inf = false ∧ r.mant = d.2.1 ∧ r.e = d.2.2 := by
  have hz : x.isZero = false := by
    have := (zero_digits hx (Nat.two_pow_pos k) hv hlast).not.2 hnz
    simpa using this
  obtain ⟨s, ds, e⟩ := d
  cases ds with
  | nil => exact absurd rfl hnz
  | cons d0 ds =>
    simp only at *
    have hkz : (1 : ℤ) ≤ k := by exact_mod_cast hk
    refine digitsText_read (by rw [hb]; exact hd d0 (by simp)) (fun v hv => by rw [hb]; exact hd v (by simp [hv]))
      ?_ ?_ ?_ ?_
    · have := hx.emin
      by_contra hc
      push Not at hc
      have h3 : e * k ≤ (EMIN - 1) * k := mul_le_mul_of_nonneg_right (by omega) (by omega)
      have h4 : (EMIN - 1) * k ≤ (EMIN - 1) * 1 := mul_le_mul_of_nonpos_left hkz (by decide)
      omega
    · have := hx.emax
      by_contra hc
      push Not at hc
      have h3 : (EMAX + 1) * k ≤ e * k := mul_le_mul_of_nonneg_right (by omega) (by omega)
      have h4 : (EMAX + 1) * (k : ℤ) = EMAX * k + k := by ring
      have h5 : EMAX * 1 ≤ EMAX * (k : ℤ) := mul_le_mul_of_nonneg_left hkz (by decide)
      omega
    · intro hsub
      have hn : x.m.n < 64 * x.m.m.length := by
        unfold Num.isSubnormal Mantissa.isSubnormal Mantissa.maxBitLen at hsub
        simpa [Nat.mul_comm] using hsub
      have := hx.norm (hx.n_pos hz) hn
      by_contra hc
      push Not at hc
      have h3 : 1 * k ≤ e * k := mul_le_mul_of_nonneg_right hc (by omega)
      rw [this] at h2
      unfold EMIN at h2
      omega
    · intro hsub
      have hn : ¬ x.m.n < 64 * x.m.m.length := by
        unfold Num.isSubnormal Mantissa.isSubnormal Mantissa.maxBitLen at hsub
        simpa [Nat.mul_comm] using hsub
      have := normal_head hx hz hn rfl hd hv h2
      simpa using this

theorem convFromBinary_zero_signed (s : Sign) {pw : Nat} (hp0 : 0 < pw) (hpm : 64 * pw < PMAX) (rm : RM) :
    ∃ v, Num.convFromBinary s [0] 0 (64 * pw) rm = .ok v ∧ v.s = s := by
  have hU : 64 * pw < USIZE_MAX := by unfold PMAX at hpm; unfold USIZE_MAX; omega
  have h1 : Num.convFromBinary s [0] 0 (64 * pw) rm =
      (Num.mk 0 s ((⟨[0], 0⟩ : Mantissa).updateBitLen) false).setPrecision (64 * pw) rm := by
    unfold Num.convFromBinary
    simp only [List.isEmpty_cons, Bool.false_eq_true, if_false]
    rw [if_neg (by decide)]
    simp only [show binLoop [0].reverse (if [0].length % 64 ≠ 0 then 64 - [0].length % 64 else [0].length % 64) 0 = .ok [0] by decide,
      show fillUp [0] (wordLen [0].length) = .ok [0] by decide, if_pos hU]
  rw [h1]
  unfold Num.setPrecision Num.setPrecisionInternal
  simp only
  rw [if_neg (by omega), if_neg, if_neg (by omega)]
  · exact ⟨_, rfl, rfl⟩
  · rintro ⟨h, _⟩
    have : (⟨[0], 0⟩ : Mantissa).updateBitLen.maxBitLen = 64 := by decide
    omega

theorem C37_bin (x : Num) (hx : x.WF) (p : Nat) (hp : ValidP p) (hxp : 64 * x.m.m.length ≤ precBits p)
    (rm rm' : RM) (tp tp' : List TenPow) :
    ∃ t, ((BF.num x).format .bin rm tp).1 = .ok t ∧ SameNumSigned x (BF.parse t .bin p rm' tp').1 := by
  obtain ⟨h1, h2, h3⟩ := convToBinary_spec (K := ℚ) hx.wf
  have hlast : ∀ h : x.convToBinary.2.1 ≠ [], x.convToBinary.2.1.getLast h ≠ 0 := by
    obtain ⟨_, _, h6⟩ := cutTrail_spec (x.m.m.reverse.flatMap (fun v => wordBits v 64))
    exact h6
  refine ⟨x.digitsText .bin x.convToBinary, rfl, ?_⟩
  by_cases hnz : x.convToBinary.2.1 = []
  · have hz := (zero_digits hx (by norm_num) h1 hlast).2 hnz
    have hd : x.convToBinary = (x.s, [], x.e) := by
      rw [← h3]; exact Prod.ext rfl (Prod.ext hnz rfl)
    obtain ⟨r1, r2, r3, r4, r5⟩ := zeroText_read x .bin x.s x.e
    rw [hd]
    unfold BF.parse
    simp only [r1, r2, r3, r4, r5, Bool.false_eq_true, if_false]
    have h0 := C32_bin_partial x.s [0] 0 (by decide) (by decide) p hp rm' tp' (by decide) (by decide)
      (Or.inr (Or.inr (by decide)))
    have e0 : (radixVal 2 (x.s, [0], 0) : ℚ) = x.toK := by
      rw [(hx.toK_eq_zero (K := ℚ)).2 hz]; unfold radixVal; simp [digNat]
    rw [e0] at h0
    obtain ⟨v, a1, a2, _, a4, a5, a6⟩ := h0.rep hx hp.prec.pos hxp
    refine ⟨v, a1, a2, a4, a5, ?_⟩
    obtain ⟨w, hw, hws⟩ := convFromBinary_zero_signed x.s (pw := (p + 63) / 64) (by have := hp.pos; omega)
      (by have := hp.prec.lt'; unfold precBits at this; exact this) rm'
    have hpU : p < USIZE_MAX := lt_trans hp.lt' (by decide)
    have hc : (BF.convertFromRadix x.s [0] 0 .bin p rm' tp').1 = .num w := by
      unfold BF.convertFromRadix Num.convertFromRadix
      simp only [if_pos hpU, hp.roundP]
      rw [if_neg (by have := hp.prec.lt'; omega), if_neg (by have := hp.prec.pos; omega)]
      unfold precBits
      simp only [hw]
      rfl
    rw [hc] at a1
    cases a1
    exact hws
  · have hz : x.isZero = false := by
      have := (zero_digits hx (by norm_num) h1 hlast).not.2 hnz
      simpa using this
    obtain ⟨r1, r2, r3, r4, r5⟩ := text_read hx (rdx := .bin) (k := 1) (by norm_num) rfl h2 h1
      (by show x.e ≤ x.e * ((1 : ℕ) : ℤ); simp) (by show x.e * ((1 : ℕ) : ℤ) < x.e + ((1 : ℕ) : ℤ); push_cast; omega) hlast hnz
    obtain ⟨d, b1, v, b2, b3, b4, b5, b6⟩ := C31_bin_back x hx p hp hxp rm rm' tp tp'
    have hd : d = x.convToBinary := by
      have : ((BF.num x).convertToRadix .bin rm tp).1 = .ok x.convToBinary := rfl
      rw [this] at b1; cases b1; rfl
    subst hd
    refine ⟨v, ?_, b3, b4, b5, b6 hz⟩
    unfold BF.parse
    simp only [r1, r2, r3, r4, r5, Bool.false_eq_true, if_false]
    exact b2

theorem C37_com_partial (rdx : Radix) (k : Nat) (hk : ComRadix rdx k) (x : Num) (hx : x.WF) (hne : x.m.m ≠ [])
    (p : Nat) (hp : ValidP p) (hxp : 64 * x.m.m.length ≤ precBits p) (hp2 : precBits p + 128 < 2 ^ 62 - 2 ^ 31 - 1)
    (rm rm' : RM) (tp tp' : List TenPow) :
    ∃ t, ((BF.num x).format rdx rm tp).1 = .ok t ∧ SameNumSigned x (BF.parse t rdx p rm' tp').1 := by
  have hk' : 0 < k ∧ k ≤ 4 ∧ rdx.num = 2 ^ k ∧ (k = 3 ∨ k = 4) := by
    rcases hk with ⟨rfl, rfl⟩ | ⟨rfl, rfl⟩ <;> simp [Radix.num]
  obtain ⟨d, h1, h2, h3, h4, h5, h6, h7⟩ := convToCommensurable_spec (K := ℚ) hx.wf hne (s := k) hk'.1 (by omega)
  have hconv : Num.convertToRadix x rdx rm tp = (.ok d, tp) := by
    rcases hk with ⟨rfl, rfl⟩ | ⟨rfl, rfl⟩ <;> (unfold Num.convertToRadix; simp only [h1])
  have hf : ((BF.num x).format rdx rm tp).1 = .ok (x.digitsText rdx d) := by
    unfold BF.format Num.format
    simp only [hconv]
  refine ⟨_, hf, ?_⟩
  by_cases hnz : d.2.1 = []
  · have hz := (zero_digits hx (Nat.two_pow_pos k) h2 h7).2 hnz
    have hd : d = (x.s, [], d.2.2) := by
      rw [← h4]; exact Prod.ext rfl (Prod.ext hnz rfl)
    obtain ⟨r1, r2, r3, r4, r5⟩ := zeroText_read x rdx x.s d.2.2
    rw [hd]
    unfold BF.parse
    simp only [r1, r2, r3, r4, r5, Bool.false_eq_true, if_false]
    have h0 := C32_com_partial rdx k hk x.s [0] 0 p hp (by omega) rm' tp' (by
      have : [0].length * k + 64 ≤ 128 := by simp; omega
      unfold precBits; omega) (by simp) (Or.inr (Or.inr (by simp [digNat])))
    have e0 : (radixVal (2 ^ k) (x.s, [0], 0) : ℚ) = x.toK := by
      rw [(hx.toK_eq_zero (K := ℚ)).2 hz]; unfold radixVal; simp [digNat]
    rw [e0] at h0
    obtain ⟨v, a1, a2, _, a4, a5, a6⟩ := h0.rep hx hp.prec.pos hxp
    refine ⟨v, a1, a2, a4, a5, ?_⟩
    rw [com_dispatch hk x.s [0] 0 p hp rm' tp', convFromCom_zero hk'.2.2.2 (by simp)] at a1
    cases a1
    rfl
  · have hz : x.isZero = false := by
      have := (zero_digits hx (Nat.two_pow_pos k) h2 h7).not.2 hnz
      simpa using this
    obtain ⟨r1, r2, r3, r4, r5⟩ := text_read hx (rdx := rdx) hk'.1 hk'.2.2.1 h3 h2 h5 h6 h7 hnz
    obtain ⟨d', b1, v, b2, b3, b4, b5, b6⟩ := C31_com_back rdx k hk x hx hne p hp hxp hp2 rm rm' tp tp'
    have hd : d' = d := by
      unfold BF.convertToRadix at b1
      simp only [hconv] at b1
      cases b1; rfl
    subst hd
    refine ⟨v, ?_, b3, b4, b5, b6 hz⟩
    unfold BF.parse
    simp only [r1, r2, r3, r4, r5, Bool.false_eq_true, if_false]
    exact b2

/-! ### Cases -/

example : ∃ t, ((BF.num exB).format .bin .none []).1 = .ok t ∧ SameNumSigned exB (BF.parse t .bin 128 .up []).1 :=
  C37_bin exB (Num.WF_of_check (by decide)) 128 ⟨by decide, by decide⟩ (by decide) _ _ _ _

/-- The smallest positive number of 64 bits, in octal. -/
example : ∃ t, ((BF.num (Num.mk EMIN .pos ⟨[1], 1⟩ false)).format .oct .none []).1 = .ok t ∧
    SameNumSigned (Num.mk EMIN .pos ⟨[1], 1⟩ false) (BF.parse t .oct 64 .toEven []).1 :=
  C37_com_partial .oct 3 (Or.inl ⟨rfl, rfl⟩) _ (Num.WF_of_check (by decide)) (by decide) 64 ValidP_64 (by decide)
    (by decide) _ _ _ _

example : ((BF.num (Num.mk (-7) .neg ⟨[0xABC0000000000000], 64⟩ false)).format .hex .none []).1 =
    .ok "-1.578_e-2".toList := by decide +kernel

/-- Formatting a zero without a mantissa panics. -/
theorem C37_empty_refuted :
    (Num.mk 0 .pos ⟨[], 0⟩ false).WF ∧ ((BF.num (Num.mk 0 .pos ⟨[], 0⟩ false)).format .hex .none []).1 = .error .panic :=
  ⟨Num.WF_of_check (by decide), by decide⟩

/-- In binary such a zero loses its sign at its precision (0). -/
theorem C37_empty_sign_refuted :
    (Num.mk 0 .neg ⟨[], 0⟩ false).WF ∧
    ((BF.num (Num.mk 0 .neg ⟨[], 0⟩ false)).format .bin .none []).1 = .ok "-0.0".toList ∧
    (BF.parse "-0.0".toList .bin 0 .none []).1 = .num (Num.mk 0 .pos ⟨[], 0⟩ false) :=
  ⟨Num.WF_of_check (by decide), by decide, by decide⟩

end AF
