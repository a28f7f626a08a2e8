import Verif.Lemmas.RoundN
import Verif.Lemmas.Samples
/-!
# C20: `round(n, rm)` rounds once to `n` fractional binary digits

The full claim is that for every finite `x`, every accepted `n` and every mode except `None` the result is
the multiple of `2^-n` next to `x` in direction `rm`. It is proved for everything but one corner: a
round-to-nearest mode, `n = 2^31`, and a subnormal `x` whose bit length is a multiple of 64. There the
code looks at the top bit of the wrong word (num.rs 1240) and the claim fails (`C20_subnormal_refuted`).
A result that does not fit the exponent range is delivered as an infinity.
-/

namespace AF

theorem C20_round_partial (x : Num) (hx : x.WF) (n : Nat) (hn : n < 2 ^ 62 - 1) (rm : RM)
    (hrm : rm ≠ .none)
    (hex : rm.nearest = true → n = 2 ^ 31 → (2 : ℚ) ^ (EMIN - 1) ≤ |(x.toK : ℚ)| ∨
      x.m.n % 64 ≠ 0 ∨ (x.toK : ℚ) = 0) :
    (∃ v, BF.round (.num x) n rm = .num v ∧ v.WF ∧ v.s = x.s ∧ v.m.m.length = x.m.m.length ∧
      Rounds rm (x.toK : ℚ) ((2 : ℚ) ^ (-(n : ℤ))) v.toK ∧
      (v.inexact = true ↔ x.inexact = true ∨ (v.toK : ℚ) ≠ x.toK)) ∨
    (BF.round (.num x) n rm = .inf x.s ∧
      ∃ r : ℚ, Rounds rm (x.toK : ℚ) ((2 : ℚ) ^ (-(n : ℤ))) r ∧ (2 : ℚ) ^ EMAX ≤ |r|) := by
  have h := round_spec (K := ℚ) hx (n := n) (by unfold ISIZE_MAX; omega) hrm (by
    intro h1 h2 h3
    by_cases hz : x.isZero = true
    · right
      rw [hx.bits, hx.isZero_iff.1 hz]; simp
    left
    by_contra hne
    have hz : x.isZero = false := by simpa using hz
    have hnl := hx.n_le
    have he := hx.norm (hx.n_pos hz) (by omega)
    have hn31 : n = 2 ^ 31 := by rw [he] at h2; unfold EMIN at h2; omega
    rcases hex h1 hn31 with h4 | h4 | h4
    · obtain ⟨q, _, g2, _, g4⟩ := Num.WF.mag (K := ℚ) hx hz
      have : q ≤ EMIN - 1 := by omega
      exact absurd (lt_of_lt_of_le g2 (zpow_le_zpow_right₀ (by norm_num) this)) (not_lt.2 h4)
    · exact h4 h3
    · exact absurd ((hx.toK_eq_zero).1 h4) (by simp [hz]))
  have hw := fun v hv => round_WF (v := v) hx n rm hv
  show (∃ v, BF.resultToExt (x.round n rm) x.isZero true = .num v ∧ _) ∨
    (BF.resultToExt (x.round n rm) x.isZero true = .inf x.s ∧ _)
  generalize x.round n rm = r at h hw
  cases r with
  | ok v =>
    left
    obtain ⟨a, b, c⟩ := hw v rfl
    exact ⟨v, rfl, a, c, b, h.1, h.2⟩
  | error e =>
    right
    obtain ⟨rfl, h2⟩ := h
    refine ⟨?_, h2⟩
    cases x.s <;> rfl

/-- `1 + 2^-63` rounded to one fractional digit. -/
example : (∃ v, BF.round (.num exA) 1 .up = .num v ∧ v.WF ∧ v.s = exA.s ∧
      v.m.m.length = exA.m.m.length ∧
      Rounds .up (exA.toK : ℚ) ((2 : ℚ) ^ (-((1 : ℕ) : ℤ))) v.toK ∧
      (v.inexact = true ↔ exA.inexact = true ∨ (v.toK : ℚ) ≠ exA.toK)) ∨
    (BF.round (.num exA) 1 .up = .inf exA.s ∧
      ∃ r : ℚ, Rounds .up (exA.toK : ℚ) ((2 : ℚ) ^ (-((1 : ℕ) : ℤ))) r ∧ (2 : ℚ) ^ EMAX ≤ |r|) :=
  C20_round_partial exA exA_WF 1 (by norm_num) .up (by decide) (by intro h; cases h)

/-- The result is `3/2`. -/
example : BF.round (.num exA) 1 .up =
    .num (Num.mk 1 .pos ⟨[0xC000000000000000], 64⟩ true) := by decide

/-- Too large an `n` is refused: the result is NaN with `InvalidArgument`. -/
theorem C20_round_large (x : Num) (n : Nat) (hn : 2 ^ 62 - 1 ≤ n) (rm : RM) :
    BF.round (.num x) n rm = .nan (some .invalidArgument) := by
  have h : x.round n rm = .error .invalidArgument := by
    unfold Num.round
    rw [if_pos (by unfold ISIZE_MAX; omega)]
  show BF.resultToExt (x.round n rm) x.isZero true = _
  rw [h]
  rfl

/-- The smallest subnormal excluded above: `2^(EMIN-65)` rounded to nearest at `2^-2^31` gives
`2^-2^31`, although the value is less than `2^-64` units and `0` is the nearest multiple. -/
theorem C20_subnormal_refuted :
    ∃ x v : Num, x.WF ∧ BF.round (.num x) (2 ^ 31) .toOdd = .num v ∧ v.s = .pos ∧ x.s = .pos ∧
      v.e = 1 + EMIN ∧ v.m.m = [0, MSB] ∧ x.e = EMIN ∧ x.m.m = [MSB, 0] ∧
      ¬ Rounds .toOdd (x.toK : ℚ) ((2 : ℚ) ^ (-((2 ^ 31 : ℕ) : ℤ))) v.toK := by
  refine ⟨Num.mk EMIN .pos ⟨[MSB, 0], 64⟩ false, Num.mk (1 + EMIN) .pos ⟨[0, MSB], 128⟩ true,
    Num.WF_of_check (by decide), by decide, rfl, rfl, rfl, rfl, rfl, rfl, ?_⟩
  have hx : ∀ e : ℤ, (Num.toK (Num.mk e .pos ⟨[MSB, 0], 64⟩ false) : ℚ) = 2 ^ (-65 : ℤ) * (2 : ℚ) ^ e := by
    intro e
    unfold Num.toK
    have h1 : val [MSB, 0] = 2 ^ 63 := by decide
    rw [h1, Nat.cast_pow, ← zpow_natCast, show Sign.toK (K := ℚ) .pos = 1 from rfl, one_mul, Nat.cast_ofNat,
      ← zpow_add₀ (by norm_num), ← zpow_add₀ (by norm_num)]
    congr 1
    simp only [List.length_cons, List.length_nil]
    push_cast; ring
  have hv : ∀ e : ℤ, (Num.toK (Num.mk (1 + e) .pos ⟨[0, MSB], 128⟩ true) : ℚ) = 1 * (2 : ℚ) ^ e := by
    intro e
    unfold Num.toK
    have h1 : val [0, MSB] = 2 ^ 127 := by decide
    rw [h1, Nat.cast_pow, ← zpow_natCast, show Sign.toK (K := ℚ) .pos = 1 from rfl, one_mul, Nat.cast_ofNat,
      ← zpow_add₀ (by norm_num), one_mul]
    congr 1
    simp only [List.length_cons, List.length_nil]
    push_cast; ring
  have hE : (-((2 ^ 31 : ℕ) : ℤ)) = EMIN := by decide
  rw [hx, hv, hE]
  have hu : (0 : ℚ) < (2 : ℚ) ^ EMIN := two_zpow_pos _
  generalize (2 : ℚ) ^ EMIN = u at hu
  rintro ⟨k, _, h2⟩
  simp only at h2
  have h3 := h2.1
  rw [← sub_mul, abs_mul, abs_of_pos hu, abs_of_neg (by norm_num)] at h3
  have h4 : (0 : ℚ) < -(2 ^ (-65 : ℤ) - 1) - 1 / 2 := by norm_num
  nlinarith

end AF
