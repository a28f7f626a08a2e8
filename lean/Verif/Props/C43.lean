import Mathlib.Data.Real.Archimedean
import Verif.Lemmas.TryPrec
import Verif.Lemmas.Samples
/-!
# C43: `try_set_precision` only accepts roundable approximations

The full claim: when `try_set_precision(p, rm, s)` returns `true` for an inexact `x`, every real number
within `2^(e - s)` of `x` rounds at `p` bits to the number left in `x`. It is proved for the directed
modes, and for the nearest modes when all bits of `x` are correct (`s` is the length of the mantissa).

For the nearest modes with fewer correct bits the claim is false: the loop at mantissa.rs 947 inspects the
words from the least significant one up, that is, it takes words that are not correct as evidence
(`C43_nearest_refuted`). With `RoundingMode::None` nothing is checked (`C43_none_refuted`).
-/

namespace AF

theorem C43_try_set_precision_partial (x : Num) (hx : x.WF) (hix : x.inexact = true) (p s : Nat)
    (hp : 0 < p) (hps : p < s) (hs : s ≤ 64 * x.m.m.length) (h64 : 64 ∣ s) (rm : RM) (hrm : rm ≠ .none)
    (hnear : rm.nearest = true → s = 64 * x.m.m.length) (v : Num)
    (h : BF.trySetPrecision (.num x) p rm s = (true, .num v)) :
    v.WF ∧ v.m.m.length = wordLen p ∧ v.s = x.s ∧ v.inexact = true ∧
    ∀ y : ℝ, |y - x.toK| < (2 : ℝ) ^ (x.e - (s : ℤ)) → RoundsFmt rm p y v.toK := by
  have h1 : x.trySetPrecision p rm s = .ok (true, v) := by
    simp only [BF.trySetPrecision] at h
    revert h
    cases x.trySetPrecision p rm s with
    | ok r =>
      intro h
      simp only [Prod.mk.injEq, BF.num.injEq] at h
      rw [← h.1, ← h.2]
    | error e => simp
  obtain ⟨b, c1, c2, c3, c4, c5⟩ := tryPrec_accept (K := ℝ) hx hix hp hps hs h64 hrm hnear h1
  refine ⟨c1, c2, c3, c4, fun y hy => ?_⟩
  rw [c5]
  exact roundable_spec hx hp hps hs hnear b hy

/-- Three words, two of them correct, rounded up to one word: accepted, since the second word is mixed. -/
def exC : Num := Num.mk 0 .pos ⟨[0, 5, MSB], 192⟩ true

example : BF.trySetPrecision (.num exC) 64 .up 128 =
    (true, .num (Num.mk 0 .pos ⟨[MSB + 1], 64⟩ true)) := by decide

example : ∀ y : ℝ, |y - exC.toK| < (2 : ℝ) ^ (exC.e - ((128 : ℕ) : ℤ)) →
    RoundsFmt .up 64 y (Num.mk 0 .pos ⟨[MSB + 1], 64⟩ true).toK :=
  (C43_try_set_precision_partial exC (Num.WF_of_check (by decide)) rfl 64 128 (by norm_num) (by norm_num)
    (by decide) (by norm_num) .up (by decide) (by intro h; cases h) _ (by decide)).2.2.2.2

/-- Rejected: the correct part of the discarded bits is zero, whatever follows. -/
example : (BF.trySetPrecision (.num (Num.mk 0 .pos ⟨[7, 0, MSB], 192⟩ true)) 64 .up 128).1 = false := by
  decide

/-- An exact number is always accepted and rounded as by `set_precision`. -/
theorem C43_exact (x : Num) (hx : x.WF) (hix : x.inexact = false) (p : Nat) (rm : RM) :
    BF.trySetPrecision (.num x) p rm x.m.maxBitLen =
      (match x.setPrecision p rm with | .ok y => (true, .num y) | .error e => (true, .nan (some e))) := by
  have key : ∀ b w, x.setPrecisionInternal p rm false x.m.maxBitLen = .ok (b, w) → b = true := by
    intro b w h
    unfold Num.setPrecisionInternal at h
    split at h
    · simp at h
    · split at h
      · rename_i hc
        split at h
        · simp at h
        · have hchk : (roundMantissa x.m.m (x.m.maxBitLen - p) rm x.isPositive false x.m.maxBitLen
              x.inexact).check = false := by
            by_cases hrm : rm = .none
            · unfold roundMantissa; rw [if_pos hrm]
            · have hmb : x.m.maxBitLen = 64 * x.m.m.length := by unfold Mantissa.maxBitLen; ring
              exact (roundMantissa_spec hx.wf (by omega) (by omega) hrm _ _ _).1
          simp only [hchk, Bool.false_and, Bool.false_eq_true, if_false] at h
          split at h
          · split at h
            · simp at h
            · injection h with h; injection h with h _; exact h.symm
          · split at h
            · injection h with h; injection h with h _; exact h.symm
            · split at h <;> (injection h with h; injection h with h _; exact h.symm)
      · split at h
        · split at h
          · simp only [Bool.false_and, Bool.false_eq_true, if_false] at h
            injection h with h; injection h with h _; exact h.symm
          · injection h with h; injection h with h _; exact h.symm
        · injection h with h; injection h with h _; exact h.symm
  simp only [BF.trySetPrecision, Num.trySetPrecision, Num.setPrecision, hix]
  revert key
  cases x.setPrecisionInternal p rm false x.m.maxBitLen with
  | ok r =>
    intro key
    have := key r.1 r.2 rfl
    simp [this]
  | error e => intro _; rfl

/-- Infinities and NaN are accepted and unchanged. -/
theorem C43_special (x : BF) (hx : ∀ v, x ≠ .num v) (p s : Nat) (rm : RM) :
    x.trySetPrecision p rm s = (true, x) := by
  cases x with
  | num v => exact absurd rfl (hx v)
  | inf s => rfl
  | nan e => rfl

theorem toK_e0 (m : List Nat) (n : Nat) (b : Bool) (k : Nat) (hk : 64 * m.length = k) :
    (Num.toK (Num.mk 0 .pos ⟨m, n⟩ b) : ℝ) = (val m : ℝ) / 2 ^ k := by
  unfold Num.toK
  dsimp only
  rw [hk, show Sign.toK (K := ℝ) .pos = 1 from rfl, one_mul, zero_sub, zpow_neg, zpow_natCast]
  rfl

/-- Half an ulp and zeros in the correct part, so that numbers on both sides of the tie agree with `x`; the
last word decides for acceptance. -/
theorem C43_nearest_refuted :
    ∃ (x v : Num) (y : ℝ), x.WF ∧ x.inexact = true ∧
      BF.trySetPrecision (.num x) 64 .toEven 128 = (true, .num v) ∧ x.m.m.length = 4 ∧
      |y - x.toK| < (2 : ℝ) ^ (x.e - ((128 : ℕ) : ℤ)) ∧ ¬ RoundsFmt .toEven 64 y v.toK := by
  refine ⟨Num.mk 0 .pos ⟨[5, 0, MSB, MSB], 256⟩ true, Num.mk 0 .pos ⟨[MSB + 1], 64⟩ true,
    (2 ^ 64 + 1) / 2 ^ 65 - 1 / 2 ^ 130, Num.WF_of_check (by decide), rfl, by decide, rfl, ?_, ?_⟩
  · rw [toK_e0 _ _ _ 256 rfl, show val [5, 0, MSB, MSB] = 2 ^ 255 + 2 ^ 191 + 5 by decide]
    dsimp only
    rw [zero_sub, zpow_neg, zpow_natCast, abs_of_neg (by norm_num)]
    norm_num
  · rw [toK_e0 _ _ _ 64 rfl, show val [MSB + 1] = 2 ^ 63 + 1 by decide]
    rintro (⟨h, _⟩ | ⟨q, h1, h2, h3⟩)
    · norm_num at h
    · have hlt1 : |((2 ^ 64 + 1) / 2 ^ 65 - 1 / 2 ^ 130 : ℝ)| < 2 ^ (0 : ℤ) := by
        rw [abs_of_pos (by norm_num)]; norm_num
      have hge : (2 : ℝ) ^ (-1 : ℤ) ≤ |((2 ^ 64 + 1) / 2 ^ 65 - 1 / 2 ^ 130 : ℝ)| := by
        rw [abs_of_pos (by norm_num)]; norm_num
      have g1 := (zpow_lt_zpow_iff_right₀ (show (1 : ℝ) < 2 by norm_num)).1 (lt_of_le_of_lt h1 hlt1)
      have g2 := (zpow_lt_zpow_iff_right₀ (show (1 : ℝ) < 2 by norm_num)).1 (lt_of_le_of_lt hge h2)
      have hq : q = 0 := by omega
      rw [hq, max_eq_left (by decide), zero_sub, zpow_neg, zpow_natCast] at h3
      obtain ⟨k, _, h4⟩ := h3
      simp only at h4
      have h5 := h4.1
      rw [abs_of_neg (by norm_num)] at h5
      norm_num at h5

/-- `None`: nothing is checked. The value just below `1/2` agrees with `x = 1/2` but its leading 64 bits
are others. -/
theorem C43_none_refuted :
    ∃ (x v : Num) (y : ℝ), x.WF ∧ x.inexact = true ∧
      BF.trySetPrecision (.num x) 64 .none 128 = (true, .num v) ∧ x.m.m.length = 2 ∧
      |y - x.toK| < (2 : ℝ) ^ (x.e - ((128 : ℕ) : ℤ)) ∧ ¬ RoundsFmt .none 64 y v.toK := by
  refine ⟨Num.mk 0 .pos ⟨[0, MSB], 128⟩ true, Num.mk 0 .pos ⟨[MSB], 64⟩ true,
    1 / 2 - 1 / 2 ^ 130, Num.WF_of_check (by decide), rfl, by decide, rfl, ?_, ?_⟩
  · rw [toK_e0 _ _ _ 128 rfl, show val [0, MSB] = 2 ^ 127 by decide]
    dsimp only
    rw [zero_sub, zpow_neg, zpow_natCast, abs_of_neg (by norm_num)]
    norm_num
  · rw [toK_e0 _ _ _ 64 rfl, show val [MSB] = 2 ^ 63 by decide]
    rintro (⟨h, _⟩ | ⟨q, _, _, k, _, h4⟩)
    · norm_num at h
    · simp only at h4
      have h5 := h4.1
      rw [abs_of_pos (by norm_num), abs_of_pos (by norm_num)] at h5
      norm_num at h5

end AF
