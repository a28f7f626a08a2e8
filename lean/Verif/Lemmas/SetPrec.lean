import Mathlib.Algebra.Order.Field.Rat
import Verif.Lemmas.Num
/-!
# `set_precision`
-/

namespace AF

set_option linter.unusedSectionVars false

variable {K : Type*} [Field K] [LinearOrder K] [IsStrictOrderedRing K]

theorem truncTo_wordLen {m : List Nat} {p : Nat} (h : wordLen p ≤ m.length) :
    truncTo m p = m.drop (m.length - wordLen p) := by
  have := truncTo_eq_drop h
  rw [← this]
  unfold truncTo wordLen
  have e : ((p + 63) / 64 * 64 + 63) / 64 = (p + 63) / 64 := by omega
  simp only [e]

theorem tryExtend_wordLen {m : List Nat} {p : Nat} (h : m.length ≤ wordLen p) :
    tryExtend m p = List.replicate (wordLen p - m.length) 0 ++ m := by
  have := tryExtend_eq h
  rw [← this]
  unfold tryExtend wordLen
  have e : ((p + 63) / 64 * 64 + 63) / 64 = (p + 63) / 64 := by omega
  simp only [e]

theorem size_div_two_pow (v k : Nat) : Nat.size (v / 2 ^ k) = Nat.size v - k := by
  by_cases h : v / 2 ^ k = 0
  · rw [h]
    have : v < 2 ^ k := by
      rcases Nat.div_eq_zero_iff.1 h with h | h
      · exact absurd h (by positivity)
      · exact h
    have := Nat.size_le.2 this
    simp only [Nat.size_zero]; omega
  · have hd := Nat.div_add_mod v (2 ^ k)
    have := size_add_mul (Nat.mod_lt v (show 0 < 2 ^ k by positivity)) h
    rw [add_comm, hd] at this
    omega

/-- `set_length` to fewer words drops low words. -/
theorem setLength_down {x : Mantissa} (hw : Wf x.m) (hn : x.n = Nat.size (val x.m)) {p : Nat}
    (h : wordLen p ≤ x.m.length) :
    (x.setLength p).m.length = wordLen p ∧ Wf (x.setLength p).m ∧
    val (x.setLength p).m = val x.m / 2 ^ (64 * (x.m.length - wordLen p)) ∧
    (x.setLength p).n = Nat.size (val (x.setLength p).m) := by
  unfold Mantissa.setLength
  rcases Nat.lt_or_ge (wordLen p) x.m.length with h1 | h1
  · simp only [if_pos h1]
    rw [truncTo_wordLen h]
    have hv : val (x.m.drop (x.m.length - wordLen p)) =
        val x.m / 2 ^ (64 * (x.m.length - wordLen p)) := by rw [val_drop hw, B_pow]
    refine ⟨by simp; omega, hw.drop _, hv, ?_⟩
    rw [hv, size_div_two_pow, ← hn]
    split <;> omega
  · have e : wordLen p = x.m.length := by omega
    simp only [if_neg (show ¬ wordLen p < x.m.length by omega),
      if_neg (show ¬ wordLen p > x.m.length by omega)]
    refine ⟨e.symm, hw, ?_, hn⟩
    rw [e]; simp

/-- `set_length` to more words appends zero words below. -/
theorem setLength_up {x : Mantissa} (hw : Wf x.m) (hn : x.n = Nat.size (val x.m)) {p : Nat}
    (h : x.m.length ≤ wordLen p) :
    (x.setLength p).m.length = wordLen p ∧ Wf (x.setLength p).m ∧
    val (x.setLength p).m = val x.m * 2 ^ (64 * (wordLen p - x.m.length)) ∧
    (x.setLength p).n = Nat.size (val (x.setLength p).m) := by
  unfold Mantissa.setLength
  rcases Nat.lt_or_ge x.m.length (wordLen p) with h1 | h1
  · simp only [if_neg (show ¬ wordLen p < x.m.length by omega), if_pos (show wordLen p > x.m.length by omega)]
    rw [tryExtend_wordLen h]
    have hv : val (List.replicate (wordLen p - x.m.length) 0 ++ x.m) =
        val x.m * 2 ^ (64 * (wordLen p - x.m.length)) := by
      rw [val_zeros_append, B_pow, mul_comm]
    refine ⟨by simp; omega, ext_wf hw _, hv, ?_⟩
    rw [hv]
    by_cases h0 : val x.m = 0
    · have : x.n = 0 := by rw [hn, h0]; simp
      simp [h0, this]
    · rw [size_mul_two_pow h0, ← hn]
      have : x.n ≠ 0 := by rw [hn]; simpa [Nat.size_eq_zero] using h0
      simp only [if_pos this]; omega
  · have e : wordLen p = x.m.length := by omega
    simp only [if_neg (show ¬ wordLen p < x.m.length by omega),
      if_neg (show ¬ wordLen p > x.m.length by omega)]
    refine ⟨e.symm, hw, ?_, hn⟩
    rw [e]; simp

theorem isAllZero_iff (x : Mantissa) : x.isAllZero = true ↔ val x.m = 0 := by
  unfold Mantissa.isAllZero
  rw [List.all_eq_true, val_eq_zero_iff]
  simp

/-- Magnitude bounds of a non-zero number, with `max q EMIN = e`. -/
theorem Num.WF.mag {x : Num} (hx : x.WF) (hz : x.isZero = false) :
    ∃ q : ℤ, (2 : K) ^ (q - 1) ≤ |(x.toK : K)| ∧ |(x.toK : K)| < (2 : K) ^ q ∧ max q EMIN = x.e ∧
      q = x.e - ((64 * x.m.m.length - x.m.n : ℕ) : ℤ) := by
  obtain ⟨e1, m1, _, hm1, hv1, hl1, _, he1⟩ := normalize_spec (K := K) hx hz
  refine ⟨e1, ?_, ?_, ?_, he1⟩
  · rw [hv1, two_zpow_sub, zpow_one]
    have := mul_le_mul_of_nonneg_right (half_le_frac (K := K) hm1) (two_zpow_pos (K := K) e1).le
    linarith
  · rw [hv1]
    have := mul_lt_mul_of_pos_right (frac_lt_one (K := K) hm1.1) (two_zpow_pos (K := K) e1)
    linarith
  · have h1 := hx.n_pos hz
    have h2 := hx.norm h1
    have h3 := hx.n_le
    have h4 := hx.emin
    by_cases h5 : x.m.n < 64 * x.m.m.length
    · have := h2 h5; rw [max_eq_right (by omega)]; omega
    · rw [max_eq_left (by omega)]; omega

/-- The bits `set_precision` keeps: whole words when no rounding is requested. -/
def keptBits (rm : RM) (p : Nat) : Nat := if rm = .none then 64 * wordLen p else p

theorem roundsFmt_of_mag {x : Num} (hx : x.WF) (hz : x.isZero = false) {rm : RM} {P k : Nat}
    (hk : RMag rm x.s.isPos (|(x.toK : K)| / 2 ^ (x.e - (P : ℤ))) k) :
    RoundsFmt rm P (x.toK : K) (x.s.toK * (k * 2 ^ (x.e - (P : ℤ)))) := by
  obtain ⟨q, h1, h2, h3, _⟩ := Num.WF.mag (K := K) hx hz
  refine Or.inr ⟨q, h1, h2, ?_⟩
  rw [h3]
  have := RMag.toRounds' (s := x.s) (abs_nonneg (x.toK : K)) (two_zpow_pos (x.e - (P : ℤ))) hk
  rwa [← Num.toK_eq] at this

theorem rndN_zero (rm : RM) (pos : Bool) (sh : Nat) : rndN rm pos 0 sh = 0 := by
  have h := rndN_RMag (K := ℚ) rm pos 0 sh
  have e : ((0 : ℕ) : ℚ) / 2 ^ sh = ((0 : ℕ) : ℚ) := by simp
  rw [e] at h
  exact h.of_int

/-- What is left to show once the kept words are known. -/
theorem setPrec_close {x v : Num} (hx : x.WF) {p : Nat} (hp : 0 < p)
    (hsz : 64 * wordLen p ≤ 2 ^ 62 - 2 ^ 31) {rm : RM} {P : Nat} (hP : P = keptBits rm p)
    (hPL : P ≤ 64 * x.m.m.length) (hP2 : P ≤ 64 * wordLen p) (hP0 : 0 < P)
    (hlen : v.m.m.length = wordLen p) (hwf : Wf v.m.m)
    (hn : v.m.n = Nat.size (val v.m.m)) (hs : v.s = x.s)
    (hcase : ((v.e = x.e ∨ (val v.m.m = 0 ∧ v.e = 0)) ∧
        val v.m.m = rndN rm x.s.isPos (val x.m.m) (64 * x.m.m.length - P) * 2 ^ (64 * wordLen p - P)) ∨
      (rndN rm x.s.isPos (val x.m.m) (64 * x.m.m.length - P) = 2 ^ P ∧ x.e < EMAX ∧
        v.e = x.e + 1 ∧ val v.m.m = 2 ^ (64 * wordLen p - 1)))
    (hix : (rm ≠ .none ∨ 64 ∣ p) → v.inexact =
      (x.inexact || decide (val x.m.m % 2 ^ (64 * x.m.m.length - P) ≠ 0))) :
    v.WF ∧ v.m.m.length = wordLen p ∧ v.s = x.s ∧
      ((rm ≠ .none ∨ 64 ∣ p) → (v.inexact = true ↔ x.inexact = true ∨ (v.toK : K) ≠ x.toK)) ∧
      RoundsFmt rm (keptBits rm p) (x.toK : K) v.toK := by
  set k := rndN rm x.s.isPos (val x.m.m) (64 * x.m.m.length - P) with hk
  have hwl : 0 < wordLen p := by unfold wordLen; omega
  have hmag := rndN_RMag (K := K) rm x.s.isPos (val x.m.m) (64 * x.m.m.length - P)
  rw [← hk] at hmag
  have hX : |(x.toK : K)| / 2 ^ (x.e - (P : ℤ)) = (val x.m.m : K) / 2 ^ (64 * x.m.m.length - P) := by
    rw [Num.abs_val, mul_div_assoc, ← zpow_sub₀ (by norm_num), div_eq_mul_inv, ← zpow_natCast,
      ← zpow_neg]
    congr 2; omega
  have hv : (v.toK : K) = x.s.toK * (k * 2 ^ (x.e - (P : ℤ))) := by
    unfold Num.toK
    rw [hs, hlen, mul_assoc]
    congr 1
    rcases hcase with ⟨h1, h2⟩ | ⟨h1, _, h2, h3⟩
    · rcases h1 with h1 | ⟨h1, _⟩
      · rw [h2, h1]; push_cast
        rw [mul_assoc, ← zpow_natCast, two_zpow_mul]
        congr 2; omega
      · have hk0 : k = 0 := by
          rw [h1] at h2
          rcases Nat.mul_eq_zero.1 h2.symm with h | h
          · exact h
          · exact absurd h (by positivity)
        rw [h1, hk0]; simp
    · rw [h3, h1, h2]; push_cast
      rw [← zpow_natCast, ← zpow_natCast, two_zpow_mul, two_zpow_mul]
      congr 1; omega
  have hWF : v.WF := by
    refine ⟨hwf, hn, ?_, ?_, ?_, by rw [hlen]; exact hsz⟩
    · have := hx.emin
      rcases hcase with ⟨h1 | h1, _⟩ | h1
      · rw [h1]; exact this
      · rw [h1.2]; unfold EMIN; norm_num
      · omega
    · have := hx.emax
      rcases hcase with ⟨h1 | h1, _⟩ | h1
      · rw [h1]; exact this
      · rw [h1.2]; unfold EMAX; norm_num
      · omega
    · intro g1 g2
      rcases hcase with ⟨h1 | h1, h2⟩ | ⟨_, _, _, h3⟩
      · by_cases hsub : x.m.n < 64 * x.m.m.length
        · rw [h1]
          apply hx.norm _ hsub
          apply Nat.pos_of_ne_zero
          intro hc
          rw [hx.bits, Nat.size_eq_zero] at hc
          have : k = 0 := by
            rw [hk, hc]; exact rndN_zero _ _ _
          rw [h2, this] at hn
          simp at hn
          omega
        · exfalso
          have hnn : Nat.size (val x.m.m) = 64 * x.m.m.length := by
            have := hx.n_le; rw [← hx.bits]; omega
          have hlo : 2 ^ (64 * x.m.m.length - 1) ≤ val x.m.m := by
            rw [← Nat.lt_size]; omega
          have hk1 : 2 ^ (P - 1) ≤ k := by
            refine le_trans ?_ (rndN_ge rm x.s.isPos (val x.m.m) (64 * x.m.m.length - P))
            rw [Nat.le_div_iff_mul_le (by positivity), ← pow_add]
            exact le_trans (le_of_eq (by congr 1; omega)) hlo
          have hval : 2 ^ (64 * wordLen p - 1) ≤ val v.m.m := by
            rw [h2]
            calc 2 ^ (64 * wordLen p - 1) = 2 ^ (P - 1) * 2 ^ (64 * wordLen p - P) := by
                  rw [← pow_add]; congr 1; omega
              _ ≤ _ := Nat.mul_le_mul_right _ hk1
          have := Nat.lt_size.2 hval
          rw [hlen] at g2; omega
      · rw [hn, h1.1] at g1; simp at g1
      · rw [hn, h3, size_two_pow_sub (by omega), hlen] at g2; omega
  refine ⟨hWF, hlen, hs, ?_, ?_⟩
  · intro hc
    rw [hix hc, Bool.or_eq_true, decide_eq_true_eq]
    apply or_congr_right
    rw [hv, Num.toK_eq (x := x), ne_eq (x.s.toK * _), mul_right_inj' (toK_ne_zero _)]
    have hu := two_zpow_pos (K := K) (x.e - (P : ℤ))
    have e1 : |(x.toK : K)| = (val x.m.m : K) / 2 ^ (64 * x.m.m.length - P) * 2 ^ (x.e - (P : ℤ)) := by
      rw [← hX, div_mul_cancel₀ _ hu.ne']
    rw [e1, mul_left_inj' hu.ne', eq_div_iff (by positivity)]
    constructor
    · intro h heq
      have : k * 2 ^ (64 * x.m.m.length - P) = val x.m.m := by exact_mod_cast heq
      rw [← this, Nat.mul_mod_left] at h; exact h rfl
    · intro h hc
      obtain ⟨c, hc⟩ := Nat.dvd_of_mod_eq_zero hc
      apply h
      have hkc : k = c := by
        have : (val x.m.m : K) / 2 ^ (64 * x.m.m.length - P) = (c : K) := by
          rw [hc]; push_cast; field_simp
        rw [this] at hmag; exact hmag.of_int
      rw [hkc, hc]; push_cast; ring
  · rw [← hP, hv]
    by_cases hz : x.isZero = true
    · have h0 := hx.isZero_iff.1 hz
      left
      refine ⟨Num.toK_of_zero h0, ?_⟩
      have : k = 0 := by rw [hk, h0]; exact rndN_zero _ _ _
      rw [this]; simp
    · apply roundsFmt_of_mag hx (by simpa using hz)
      rw [hX]; exact hmag

/-- The result of `set_precision` for `0 < p < PMAX`. -/
theorem setPrecision_spec {x : Num} (hx : x.WF) {p : Nat} (hp : 0 < p) (hpm : p < PMAX) (rm : RM) :
    match x.setPrecision p rm with
    | .ok v => (v.WF ∧ v.m.m.length = wordLen p ∧ v.s = x.s ∧
        ((rm ≠ .none ∨ 64 ∣ p) → (v.inexact = true ↔ x.inexact = true ∨ (v.toK : K) ≠ x.toK)) ∧
        RoundsFmt rm (keptBits rm p) (x.toK : K) v.toK) ∧
        (64 * x.m.m.length ≤ p → (v.toK : K) = x.toK)
    | .error er => er = .exponentOverflow x.s ∧ x.isZero = false ∧
        ∃ t : K, RoundsPrec rm (keptBits rm p) (x.toK : K) t ∧ (2 : K) ^ EMAX ≤ |t| := by
  have hsz : 64 * wordLen p ≤ 2 ^ 62 - 2 ^ 31 := by unfold PMAX at hpm; unfold wordLen; omega
  have hwl : 0 < wordLen p := by unfold wordLen; omega
  have hpw : p ≤ 64 * wordLen p := by unfold wordLen; omega
  have hmb : x.m.maxBitLen = 64 * x.m.m.length := by unfold Mantissa.maxBitLen; ring
  unfold Num.setPrecision Num.setPrecisionInternal
  rw [if_neg (by omega)]
  by_cases hgt : x.m.maxBitLen > p
  · rw [if_pos ⟨hgt, hp⟩, if_neg (by omega)]
    have hL : wordLen p ≤ x.m.m.length := by unfold wordLen; omega
    have hpL : p < 64 * x.m.m.length := by omega
    rw [hmb]
    set sh := 64 * x.m.m.length - p with hsh
    have hsh0 : 0 < sh := by omega
    have hshL : sh < 64 * x.m.m.length := by omega
    have hpos : x.isPositive = x.s.isPos := rfl
    rw [hpos]
    have hnow : ¬ (64 * x.m.m.length ≤ p) := by omega
    by_cases hrm : rm = .none
    · subst hrm
      rw [roundMantissa_none hx.wf hsh0 hshL]
      have hkb : 64 * wordLen p = keptBits .none p := by unfold keptBits; rw [if_pos rfl]
      have hixx : (x.inexact || (x.inexact || decide (val x.m.m % 2 ^ sh ≠ 0))) =
          (x.inexact || decide (val x.m.m % 2 ^ sh ≠ 0)) := by cases x.inexact <;> simp
      have hixp : ((RM.none ≠ RM.none) ∨ 64 ∣ p) →
          (x.inexact || decide (val x.m.m % 2 ^ sh ≠ 0)) = (x.inexact ||
            decide (val x.m.m % 2 ^ (64 * x.m.m.length - 64 * wordLen p) ≠ 0)) := by
        rintro (h | h)
        · exact absurd rfl h
        · have : 64 * wordLen p = p := by unfold wordLen; omega
          rw [this]
      simp only [Bool.false_and, Bool.false_eq_true, if_false, hixx]
      have hm1 : (Mantissa.mk x.m.m x.m.n) = x.m := rfl
      have hval : ∀ v : Nat, v = val x.m.m / 2 ^ (64 * (x.m.m.length - wordLen p)) →
          v = rndN .none x.s.isPos (val x.m.m) (64 * x.m.m.length - 64 * wordLen p) *
            2 ^ (64 * wordLen p - 64 * wordLen p) := by
        intro v hv
        rw [rndN_none, hv, Nat.sub_self, pow_zero, mul_one, Nat.mul_sub]
      by_cases h0 : (Mantissa.mk x.m.m x.m.n).isAllZero = true
      · rw [if_pos h0]
        have hv0 := (isAllZero_iff _).1 h0
        dsimp only at hv0
        obtain ⟨a1, a2, a3, a4⟩ := setLength_down (x := Mantissa.mk x.m.m 0) hx.wf
          (by dsimp only; rw [hv0]; simp) hL
        refine ⟨setPrec_close (P := 64 * wordLen p) hx hp hsz hkb (by omega) (le_refl _) (by omega)
          a1 a2 a4 rfl ?_ hixp, fun h => absurd h hnow⟩
        left
        exact ⟨Or.inr ⟨by dsimp only; rw [a3, hv0]; simp, rfl⟩, hval _ a3⟩
      · rw [if_neg h0]
        by_cases hs : (Mantissa.mk x.m.m x.m.n).isSubnormal = true
        · rw [if_pos hs]
          obtain ⟨a1, a2, a3, a4⟩ := setLength_down (x := (Mantissa.mk x.m.m x.m.n).updateBitLen)
            hx.wf (findBitLen_eq hx.wf) hL
          refine ⟨setPrec_close (P := 64 * wordLen p) hx hp hsz hkb (by omega) (le_refl _) (by omega)
            a1 a2 a4 rfl ?_ hixp, fun h => absurd h hnow⟩
          left
          exact ⟨Or.inl rfl, hval _ a3⟩
        · rw [if_neg hs]
          obtain ⟨a1, a2, a3, a4⟩ := setLength_down (x := (Mantissa.mk x.m.m x.m.n))
            hx.wf hx.bits hL
          refine ⟨setPrec_close (P := 64 * wordLen p) hx hp hsz hkb (by omega) (le_refl _) (by omega)
            a1 a2 a4 rfl ?_ hixp, fun h => absurd h hnow⟩
          left
          exact ⟨Or.inl rfl, hval _ a3⟩
    · obtain ⟨hc, hi, hl2, hwf2, hlt2, hge2⟩ :=
        roundMantissa_spec hx.wf hsh0 hshL hrm x.s.isPos (64 * x.m.m.length) x.inexact
      set Q := roundMantissa x.m.m sh rm x.s.isPos false (64 * x.m.m.length) x.inexact with hQ
      have hkb : p = keptBits rm p := by unfold keptBits; rw [if_neg hrm]
      have hixx : (x.inexact || Q.inexact) = (x.inexact || decide (val x.m.m % 2 ^ sh ≠ 0)) := by
        rw [hi]; cases x.inexact <;> simp
      simp only [hc]
      simp only [Bool.false_and, Bool.false_eq_true, if_false, hixx]
      set k := rndN rm x.s.isPos (val x.m.m) sh with hk
      have hpw2 : 2 ^ (64 * x.m.m.length) = 2 ^ p * 2 ^ sh := by
        rw [← pow_add]; congr 1; omega
      by_cases hkl : k * 2 ^ sh < 2 ^ (64 * x.m.m.length)
      · obtain ⟨e1, e2⟩ := hlt2 hkl
        rw [e1]
        simp only [Bool.false_eq_true, if_false]
        have hval : ∀ v : Nat, v = val Q.m / 2 ^ (64 * (Q.m.length - wordLen p)) →
            v = k * 2 ^ (64 * wordLen p - p) := by
          intro v hv
          rw [hv, e2, hl2]
          have : 2 ^ sh = 2 ^ (64 * wordLen p - p) * 2 ^ (64 * (x.m.m.length - wordLen p)) := by
            rw [← pow_add]; congr 1; omega
          rw [this, ← mul_assoc, Nat.mul_div_cancel _ (by positivity)]
        by_cases h0 : (Mantissa.mk Q.m x.m.n).isAllZero = true
        · rw [if_pos h0]
          have hv0 := (isAllZero_iff _).1 h0
          dsimp only at hv0
          obtain ⟨a1, a2, a3, a4⟩ := setLength_down (x := Mantissa.mk Q.m 0) hwf2
            (by dsimp only; rw [hv0]; simp) (by dsimp only; rw [hl2]; exact hL)
          refine ⟨setPrec_close (P := p) hx hp hsz hkb (by omega) (by omega) hp
            a1 a2 a4 rfl ?_ (fun _ => rfl), fun h => absurd h hnow⟩
          left
          exact ⟨Or.inr ⟨by dsimp only; rw [a3, hv0]; simp, rfl⟩, hval _ a3⟩
        · rw [if_neg h0]
          by_cases hs : (Mantissa.mk Q.m x.m.n).isSubnormal = true
          · rw [if_pos hs]
            obtain ⟨a1, a2, a3, a4⟩ := setLength_down (x := (Mantissa.mk Q.m x.m.n).updateBitLen)
              hwf2 (findBitLen_eq hwf2) (by show wordLen p ≤ Q.m.length; rw [hl2]; exact hL)
            refine ⟨setPrec_close (P := p) hx hp hsz hkb (by omega) (by omega) hp
              a1 a2 a4 rfl ?_ (fun _ => rfl), fun h => absurd h hnow⟩
            left
            exact ⟨Or.inl rfl, hval _ a3⟩
          · rw [if_neg hs]
            have hnn : x.m.n = Nat.size (val Q.m) := by
              have hs' : x.m.n = 64 * x.m.m.length := by
                unfold Mantissa.isSubnormal Mantissa.maxBitLen at hs
                simp only [decide_eq_true_eq] at hs
                rw [hl2] at hs
                have := hx.n_le
                omega
              rw [hs', e2]
              have hlo : 2 ^ (64 * x.m.m.length - 1) ≤ val x.m.m := by
                rw [← Nat.lt_size, ← hx.bits]; omega
              have hk1 : 2 ^ (p - 1) ≤ k := by
                refine le_trans ?_ (rndN_ge rm x.s.isPos (val x.m.m) sh)
                rw [Nat.le_div_iff_mul_le (by positivity), ← pow_add]
                exact le_trans (le_of_eq (by congr 1; omega)) hlo
              apply le_antisymm
              · have : 2 ^ (64 * x.m.m.length - 1) ≤ k * 2 ^ sh := by
                  calc 2 ^ (64 * x.m.m.length - 1) = 2 ^ (p - 1) * 2 ^ sh := by
                        rw [← pow_add]; congr 1; omega
                    _ ≤ _ := Nat.mul_le_mul_right _ hk1
                have := Nat.lt_size.2 this
                omega
              · rw [Nat.size_le]; exact hkl
            obtain ⟨a1, a2, a3, a4⟩ := setLength_down (x := (Mantissa.mk Q.m x.m.n))
              hwf2 hnn (by dsimp only; rw [hl2]; exact hL)
            refine ⟨setPrec_close (P := p) hx hp hsz hkb (by omega) (by omega) hp
              a1 a2 a4 rfl ?_ (fun _ => rfl), fun h => absurd h hnow⟩
            left
            exact ⟨Or.inl rfl, hval _ a3⟩
      · obtain ⟨e1, e2⟩ := hge2 (by omega)
        rw [e1]
        simp only [if_true]
        have hkv : k = 2 ^ p := by
          have h1 := rndN_le rm x.s.isPos (val x.m.m) sh
          have hlt := val_lt_two_pow hx.wf
          have h2 : val x.m.m / 2 ^ sh < 2 ^ p := by
            apply Nat.div_lt_of_lt_mul
            rw [mul_comm, ← hpw2]; exact hlt
          rw [hpw2] at hkl
          have h4 : 2 ^ p ≤ k := by
            by_contra hc
            exact hkl (Nat.mul_lt_mul_of_pos_right (by omega) (by positivity))
          omega
        have hVbig : 2 ^ (64 * x.m.m.length - 1) ≤ val x.m.m := by
          have h1 := rndN_le rm x.s.isPos (val x.m.m) sh
          rw [← hk, hkv] at h1
          have h3 : 2 ^ p = 2 * 2 ^ (p - 1) := two_pow_split p hp
          have hp1 : 0 < 2 ^ (p - 1) := by positivity
          have h2 : 2 ^ (p - 1) ≤ val x.m.m / 2 ^ sh := by omega
          rw [Nat.le_div_iff_mul_le (by positivity), ← pow_add] at h2
          exact le_trans (le_of_eq (by congr 1; omega)) h2
        have hn64 : x.m.n = 64 * x.m.m.length := by
          have := hx.n_le
          have h2 := Nat.lt_size.2 hVbig
          rw [← hx.bits] at h2; omega
        have hz : x.isZero = false := by
          by_contra hc
          rw [Bool.not_eq_false] at hc
          have := hx.isZero_iff.1 hc
          have : 0 < 2 ^ (64 * x.m.m.length - 1) := by positivity
          omega
        by_cases hemax : x.e = EMAX
        · rw [if_pos hemax]
          refine ⟨rfl, hz, x.s.toK * (k * 2 ^ (x.e - (p : ℤ))), ?_, ?_⟩
          · rw [← hkb]
            obtain ⟨q, h1, h2, h3, h4⟩ := Num.WF.mag (K := K) hx hz
            refine Or.inr ⟨q, h1, h2, ?_⟩
            have hq : q = x.e := by rw [h4, hn64]; simp
            rw [hq]
            have hX : |(x.toK : K)| / 2 ^ (x.e - (p : ℤ)) = (val x.m.m : K) / 2 ^ sh := by
              rw [Num.abs_val, mul_div_assoc, ← zpow_sub₀ (by norm_num), div_eq_mul_inv,
                ← zpow_natCast, ← zpow_neg]
              congr 2; omega
            have hmag := rndN_RMag (K := K) rm x.s.isPos (val x.m.m) sh
            rw [← hk, ← hX] at hmag
            have := RMag.toRounds' (s := x.s) (abs_nonneg (x.toK : K))
              (two_zpow_pos (x.e - (p : ℤ))) hmag
            rwa [← Num.toK_eq] at this
          · rw [abs_toK, hkv]
            push_cast
            rw [← zpow_natCast, two_zpow_mul, abs_of_pos (two_zpow_pos _), hemax]
            apply le_of_eq; congr 1; omega
        · rw [if_neg hemax]
          have hem := hx.emax
          obtain ⟨a1, a2, a3, a4⟩ := setLength_down (x := (Mantissa.mk Q.m x.m.n))
            hwf2 (by dsimp only; rw [e2, size_two_pow_sub (by omega)]; exact hn64)
            (by dsimp only; rw [hl2]; exact hL)
          refine ⟨setPrec_close (P := p) hx hp hsz hkb (by omega) (by omega) hp
            a1 a2 a4 rfl ?_ (fun _ => rfl), fun h => absurd h hnow⟩
          right
          refine ⟨hkv, lt_of_le_of_ne hem hemax, rfl, ?_⟩
          dsimp only
          rw [a3]
          dsimp only
          rw [e2, hl2, Nat.pow_div (by omega) (by norm_num)]
          congr 1; omega
  · rw [if_neg (by omega), if_neg (by omega)]
    have hL : x.m.m.length ≤ wordLen p := by omega
    obtain ⟨a1, a2, a3, a4⟩ := setLength_up hx.wf hx.bits hL
    dsimp only
    have hv : (Num.toK { x with m := x.m.setLength p } : K) = x.toK := by
      unfold Num.toK
      dsimp only
      rw [a1, a3]
      push_cast
      rw [mul_assoc, mul_assoc, mul_assoc, ← zpow_natCast, two_zpow_mul]
      congr 3; push_cast; omega
    refine ⟨⟨⟨a2, a4, hx.emin, hx.emax, ?_, by rw [a1]; exact hsz⟩, a1, rfl, ?_, ?_⟩, fun _ => hv⟩
    · dsimp only
      rw [a4, a3, a1]
      by_cases h0 : val x.m.m = 0
      · rw [h0]; simp
      · rw [size_mul_two_pow h0, ← hx.bits]
        intro g1 g2
        have : x.m.n ≠ 0 := by rw [hx.bits]; simpa [Nat.size_eq_zero] using h0
        exact hx.norm (by omega) (by omega)
    · intro _; rw [hv]; simp
    · rw [hv]
      by_cases hz : x.isZero = true
      · left; exact ⟨hx.toK_eq_zero.2 hz, hx.toK_eq_zero.2 hz⟩
      · rw [Bool.not_eq_true] at hz
        have hP : 64 * x.m.m.length ≤ keptBits rm p := by
          unfold keptBits; split <;> omega
        have hX : |(x.toK : K)| / 2 ^ (x.e - ((keptBits rm p : ℕ) : ℤ)) =
            ((val x.m.m * 2 ^ (keptBits rm p - 64 * x.m.m.length) : ℕ) : K) := by
          rw [Num.abs_val, mul_div_assoc, ← zpow_sub₀ (by norm_num)]
          push_cast
          rw [← zpow_natCast]
          congr 2; omega
        have := roundsFmt_of_mag (K := K) (P := keptBits rm p) hx hz (rm := rm)
          (by rw [hX]; exact RMag.exact rm x.s.isPos _)
        rw [← hX, div_mul_cancel₀ _ (two_zpow_pos _).ne', ← Num.toK_eq] at this
        exact this

/-- `set_precision` to whole words delivers the number itself, rounded. -/
theorem setPrecision_delivers {x : Num} (hx : x.WF) {pw : Nat} (hp : 0 < pw) (hpm : 64 * pw < PMAX)
    (rm : RM) : Delivers rm (64 * pw) (x.toK : K) x.inexact (x.setPrecision (64 * pw) rm) := by
  have h := setPrecision_spec (K := K) hx (p := 64 * pw) (by omega) hpm rm
  have hk : keptBits rm (64 * pw) = 64 * pw := by unfold keptBits; rw [wordLen_mul]; simp
  have hsp : 0 < (x.toK : K) → x.s = .pos := by
    rw [Num.toK_eq]; intro h
    cases hs : x.s
    · rw [hs] at h; simp only [Sign.toK, neg_mul, one_mul] at h
      have := abs_nonneg (x.toK : K); linarith
    · rfl
  have hsn : (x.toK : K) < 0 → x.s = .neg := by
    rw [Num.toK_eq]; intro h
    cases hs : x.s
    · rfl
    · rw [hs] at h; simp only [Sign.toK, one_mul] at h
      have := abs_nonneg (x.toK : K); linarith
  rw [hk] at h
  unfold Delivers
  cases hr : x.setPrecision (64 * pw) rm with
  | ok v =>
    rw [hr] at h
    obtain ⟨⟨h1, h2, h3, h4, h5⟩, _⟩ := h
    exact ⟨h1, by rw [h2, wordLen_mul], fun h => by rw [h3]; exact hsp h,
      fun h => by rw [h3]; exact hsn h, h4 (Or.inr (Dvd.intro _ rfl)), Or.inl h5⟩
  | error er =>
    rw [hr] at h
    obtain ⟨h1, h2, h3⟩ := h
    refine ⟨?_, h3⟩
    have hne : (x.toK : K) ≠ 0 := by
      intro hc; rw [hx.toK_eq_zero.1 hc] at h2; simp at h2
    rcases lt_or_gt_of_ne hne with h | h
    · right; exact ⟨h, by rw [h1, hsn h]⟩
    · left; exact ⟨h, by rw [h1, hsp h]⟩

end AF
