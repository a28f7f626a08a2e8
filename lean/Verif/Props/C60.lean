import Verif.Lemmas.ConstLn10
import Verif.Lemmas.Ext
/-!
# C60: the constant ln 10

The full claim: for every precision, every rounding mode and whatever was asked of the cache before, `Consts::ln_10`
returns the natural logarithm of 10 correctly rounded, as a number marked inexact.

The number of terms is chosen for the precision of the result, not for the working precision, so the value rounded
is only known to be within `2^(-P-7)` of `ln 10`, while its rounding is accepted as if it were known to 64 bits more.
So the number returned is that of `ConstClose` (`C60_outcomes_partial`): correctly rounded in the four directed modes
unless the 6 bits of `ln 10` after the first `P` are all equal (`C60_directed_partial`), and then independent
of the history of the cache (`C60_history_partial`). The function always ends. It returns a number for precisions up
to `2^23` bits in mode `None`, and in the directed modes under the same condition on the bits
(`C60_number_partial`).

The claim is false for large precisions: from 39 million bits on the answer is NaN with `ExponentOverflow`, in every
mode and for every cache (`C60_overflow`, `C60_refuted`), since the common denominator of the series is larger than
any number.

Missing: correct rounding in the nearest modes, and in the directed modes at precisions where the condition fails.
-/

namespace AF

/-- The caches that exist after `Ln10Cache::new` and any number of calls with valid precisions. -/
inductive Ln10Hist : ConstCache (Num × Num × Num) → Prop
  | new {c} : ln10New = .ok c → Ln10Hist c
  | call {c c' p rm r} : Ln10Hist c → ValidP p → constLn10 p rm c = some (r, c') → Ln10Hist c'

theorem constLn10_spec {p : Nat} (hp : ValidP p) (rm : RM) {c : ConstCache (Num × Num × Num)}
    (hc : CacheOk (LnRep 81 121) (LnValOk 81 121 6 (Real.log 10)) c) :
    ∃ r c', constLn10 p rm c = some (r, c') ∧ CacheOk (LnRep 81 121) (LnValOk 81 121 6 (Real.log 10)) c' ∧
      ((∃ v, r = .num v ∧ ConstClose rm (precBits p) (Real.log 10) v) ∨
        r = .nan (some (.exponentOverflow .pos))) ∧
      (rm = .none ∨ rm.directed = true ∧ ¬ NearGrid (precBits p) 6 (Real.log 10) →
        2 * (precBits p * 1728 / 1000 + 4) ≤ 2 ^ 25 → ∃ v, r = .num v) ∧
      (2 ^ 26 ≤ precBits p * 1728 / 1000 + 4 → r = .nan (some (.exponentOverflow .pos))) := by
  have hp0 := hp.pos
  have hp1 := hp.lt
  obtain ⟨pw, hpw⟩ : ∃ pw, precBits p = 64 * pw := ⟨(p + 63) / 64, rfl⟩
  have hpw0 : 0 < pw := by unfold precBits at hpw; omega
  have hr2 : roundP (precBits p) = precBits p := by rw [hpw]; unfold roundP USIZE_MAX; omega
  have hpm : 64 * pw < PMAX := by unfold PMAX; omega
  obtain ⟨r, c', h1, h2, h3, h4, h5⟩ := (ln10_loop hpw0 hpm rm).forPrec ln10Series hc
    (by rw [← hpw, hr2, hpw]; exact ln10_inv_start hpw0)
  rw [← hpw] at h1 h3 h4 h5
  unfold constLn10 ln10ForPrec
  rw [hp.roundP, h1]
  refine ⟨constToBF r, c', rfl, h2, ?_, ?_, ?_⟩
  · rcases h3 with ⟨v, rfl, h6⟩ | rfl
    · exact Or.inl ⟨v, rfl, h6⟩
    · exact Or.inr rfl
  · intro hs hb
    obtain ⟨v, rfl⟩ := h4 hs hb
    exact ⟨v, rfl⟩
  · intro hb
    rw [h5 hb]; rfl

theorem Ln10Hist.ok {c : ConstCache (Num × Num × Num)} (h : Ln10Hist c) :
    CacheOk (LnRep 81 121) (LnValOk 81 121 6 (Real.log 10)) c := by
  induction h with
  | new h =>
    obtain ⟨c', h1, h2⟩ := ln_new ln10Series (by norm_num) ln10_value
    rw [show lnNew ln10Leaf ln10Calc = ln10New from rfl] at h1
    rw [h] at h1
    injection h1 with h1
    rw [h1]; exact h2
  | call h hp hc ih =>
    obtain ⟨r, c', h1, h2, -⟩ := constLn10_spec hp _ ih
    rw [h1] at hc
    injection hc with hc
    injection hc with _ hc
    rw [← hc]; exact h2

/-- A cache can be made. -/
theorem C60_new : ∃ c, ln10New = .ok c ∧ Ln10Hist c := by
  obtain ⟨c, h, _⟩ := ln_new ln10Series (by norm_num) ln10_value
  exact ⟨c, h, .new h⟩

/-- Every call ends, with the logarithm of 10 as described by `ConstClose` or with NaN for an exponent overflow. -/
theorem C60_outcomes_partial {p : Nat} (hp : ValidP p) (rm : RM) {c : ConstCache (Num × Num × Num)} (hc : Ln10Hist c) :
    ∃ r c', constLn10 p rm c = some (r, c') ∧ Ln10Hist c' ∧
      ((∃ v, r = .num v ∧ ConstClose rm (precBits p) (Real.log 10) v) ∨
        r = .nan (some (.exponentOverflow .pos))) := by
  obtain ⟨r, c', h1, -, h3, -⟩ := constLn10_spec hp rm hc.ok
  exact ⟨r, c', h1, hc.call hp h1, h3⟩

theorem constLn10_rounded {p : Nat} (hp : ValidP p) {rm : RM}
    (hd : rm = .up ∨ rm = .down ∨ rm = .toZero ∨ rm = .fromZero) (hg : ¬ NearGrid (precBits p) 6 (Real.log 10))
    {c c' : ConstCache (Num × Num × Num)} (hc : Ln10Hist c) {v : Num} (h : constLn10 p rm c = some (.num v, c')) :
    ConstRounded rm (precBits p) (Real.log 10) v := by
  obtain ⟨r, c'', h1, -, h3, -⟩ := constLn10_spec hp rm hc.ok
  rw [h1] at h
  injection h with h
  injection h with h _
  rcases h3 with ⟨v', rfl, h4⟩ | rfl
  · injection h with h
    rw [← h]
    exact h4.rounded hd (q := 2) (by unfold EMIN; norm_num) (by have := hp.pos; unfold precBits; omega)
      log_ten_binade.1 log_ten_binade.2 hg
  · cases h

/-- In the directed modes a number returned is the logarithm of 10 correctly rounded, if the bits of `ln 10` at that
place are not exceptional. -/
theorem C60_directed_partial {p : Nat} (hp : ValidP p) {rm : RM}
    (hd : rm = .up ∨ rm = .down ∨ rm = .toZero ∨ rm = .fromZero) (hg : ¬ NearGrid (precBits p) 6 (Real.log 10))
    {c c' : ConstCache (Num × Num × Num)} (hc : Ln10Hist c) {v : Num} (h : constLn10 p rm c = some (.num v, c')) :
    RoundsFmt rm (precBits p) (Real.log 10) v.toK ∧ 64 * v.m.m.length = precBits p ∧ v.inexact = true := by
  have h4 := constLn10_rounded hp hd hg hc h
  exact ⟨h4.directed hd, h4.prec, h4.inexact⟩

/-- In the directed modes the number then does not depend on what the cache was used for before. -/
theorem C60_history_partial {p : Nat} (hp : ValidP p) {rm : RM}
    (hd : rm = .up ∨ rm = .down ∨ rm = .toZero ∨ rm = .fromZero) (hg : ¬ NearGrid (precBits p) 6 (Real.log 10))
    {c₁ c₂ c₁' c₂' : ConstCache (Num × Num × Num)}
    (hc₁ : Ln10Hist c₁) (hc₂ : Ln10Hist c₂) {v₁ v₂ : Num} (h₁ : constLn10 p rm c₁ = some (.num v₁, c₁'))
    (h₂ : constLn10 p rm c₂ = some (.num v₂, c₂')) : v₁ = v₂ := by
  have hP : 64 ≤ precBits p := by have := hp.pos; unfold precBits; omega
  exact (constLn10_rounded hp hd hg hc₁ h₁).unique hd hP (by have := log_ten_small.1; linarith)
    (constLn10_rounded hp hd hg hc₂ h₂)

/-- Up to `2^23` bits the answer is a number in mode `None`, and in the directed modes unless the digits of `ln 10` at
that place are exceptional. -/
theorem C60_number_partial {p : Nat} (hp : 0 < p) (hp23 : p ≤ 2 ^ 23) {rm : RM}
    (hs : rm = .none ∨ (rm = .up ∨ rm = .down ∨ rm = .toZero ∨ rm = .fromZero) ∧ ¬ NearGrid (precBits p) 6 (Real.log 10))
    {c : ConstCache (Num × Num × Num)} (hc : Ln10Hist c) : ∃ v c', constLn10 p rm c = some (.num v, c') := by
  have hP : precBits p ≤ p + 63 ∧ 64 ≤ precBits p := by unfold precBits; omega
  obtain ⟨r, c', h1, -, -, h4, -⟩ := constLn10_spec (p := p) ⟨hp, by omega⟩ rm hc.ok
  obtain ⟨v, rfl⟩ := h4 (by
    rcases hs with h | ⟨h, h'⟩
    · exact Or.inl h
    · exact Or.inr ⟨by rcases h with rfl | rfl | rfl | rfl <;> rfl, h'⟩) (by omega)
  exact ⟨v, c', h1⟩

/-- From 39 million bits on the answer is NaN, whatever the mode and the cache. -/
theorem C60_overflow {p : Nat} (hp : ValidP p) (h39 : 39000000 ≤ p) (rm : RM) {c : ConstCache (Num × Num × Num)}
    (hc : Ln10Hist c) : ∃ c', constLn10 p rm c = some (.nan (some (.exponentOverflow .pos)), c') := by
  obtain ⟨r, c', h1, -, -, -, h5⟩ := constLn10_spec hp rm hc.ok
  rw [h5 (by unfold precBits; omega)] at h1
  exact ⟨c', h1⟩

/-- So the full claim fails: at a valid precision no number is returned. -/
theorem C60_refuted : ¬ ∀ (p : Nat) (rm : RM) (c : ConstCache (Num × Num × Num)), ValidP p → Ln10Hist c →
    ∃ v c', constLn10 p rm c = some (.num v, c') := by
  intro h
  have hp : ValidP 39000000 := ⟨by norm_num, by decide⟩
  obtain ⟨c, -, hc⟩ := C60_new
  obtain ⟨v, c', h1⟩ := h _ .up c hp hc
  obtain ⟨c'', h2⟩ := C60_overflow hp (le_refl _) .up hc
  rw [h1] at h2
  injection h2 with h2
  injection h2 with h2 _
  cases h2

/-! ## Concrete cases -/

/-- The bits of `ln 10` after the first 64 are not exceptional. -/
theorem log_ten_64 : ¬ NearGrid (precBits 64) 6 (Real.log 10) := by
  obtain ⟨P, hP⟩ : ∃ P, P = lnP 81 121 0 128 := ⟨_, rfl⟩
  obtain ⟨Q, hQ⟩ : ∃ Q, Q = lnQ 121 0 128 := ⟨_, rfl⟩
  have hQ0 : (0 : ℝ) < Q := by rw [hQ]; exact_mod_cast lnQ_pos (by norm_num) 0 128
  have k1 : (10618799479599967254 * 10 + 9) * (11 * Q) ≤ 18 * (Q + P) * 2 ^ 62 * 10 := by
    rw [hP, hQ]; decide +kernel
  have k2 : 18 * (Q + P) * 2 ^ 62 * 100 ≤ (10618799479599967254 * 100 + 93) * (11 * Q) := by
    rw [hP, hQ]; decide +kernel
  obtain ⟨b1, b2⟩ := ln_bounds (by norm_num) (by norm_num) hasSum_ln10 128
  have b3 := ln10_terms (k := 71) (b := 128) (by norm_num)
  rw [← hP, ← hQ] at b1 b2
  rintro ⟨q, n1, n2, j, n3⟩
  obtain ⟨hl1, hl2⟩ := log_ten_small
  have hq : q = 2 := by
    have r3 := (zpow_lt_zpow_iff_right₀ (by norm_num : (1 : ℝ) < 2)).1
      (lt_of_le_of_lt (show (2 : ℝ) ^ (1 : ℤ) ≤ Real.log 10 by norm_num; linarith) n2)
    have r4 := (zpow_lt_zpow_iff_right₀ (by norm_num : (1 : ℝ) < 2)).1
      (lt_of_le_of_lt n1 (show Real.log 10 < (2 : ℝ) ^ (2 : ℤ) by norm_num; linarith))
    omega
  subst hq
  have m1 : ((10618799479599967254 * 10 + 9 : ℕ) : ℝ) * (11 * Q) ≤ 18 * (Q + P) * 2 ^ 62 * 10 := by exact_mod_cast k1
  have m2 : (18 : ℝ) * (Q + P) * 2 ^ 62 * 100 ≤ ((10618799479599967254 * 100 + 93 : ℕ) : ℝ) * (11 * Q) := by
    exact_mod_cast k2
  have hS : (Q : ℝ) + P = Q * (1 + P / Q) := by field_simp
  obtain ⟨S, hSe⟩ : ∃ S : ℝ, S = 1 + P / Q := ⟨_, rfl⟩
  rw [← hSe] at b1 b2 hS
  rw [hS] at m1 m2
  have m3 : ((10618799479599967254 * 10 + 9 : ℕ) : ℝ) * 11 ≤ 18 * S * 2 ^ 62 * 10 := by
    refine le_of_mul_le_mul_right (le_trans (le_of_eq ?_) (le_trans m1 (le_of_eq ?_))) hQ0 <;> ring
  have m4 : (18 : ℝ) * S * 2 ^ 62 * 100 ≤ ((10618799479599967254 * 100 + 93 : ℕ) : ℝ) * 11 := by
    refine le_of_mul_le_mul_right (le_trans (le_of_eq ?_) (le_trans m2 (le_of_eq ?_))) hQ0 <;> ring
  obtain ⟨X, hX⟩ : ∃ X : ℝ, X = (((81 : ℕ) : ℝ) / (121 : ℕ)) ^ 128 := ⟨_, rfl⟩
  rw [← hX] at b2 b3
  norm_num [precBits] at b2 b3 m3 m4 n3
  obtain ⟨n4, n5⟩ := abs_le.1 n3
  have j1 : ((10618799479599967254 : ℤ) : ℝ) < j := by push_cast; linarith
  have j2 : (j : ℝ) < ((10618799479599967255 : ℤ) : ℝ) := by push_cast; linarith
  have j3 : (10618799479599967254 : ℤ) < j := by exact_mod_cast j1
  have j4 : j < (10618799479599967255 : ℤ) := by exact_mod_cast j2
  omega

set_option maxRecDepth 100000 in
/-- `ln 10` with 64 bits, rounded up, from a new cache, and once more from the cache left behind. -/
example : ∃ c v c' c'', Ln10Hist c ∧ ValidP 64 ∧ constLn10 64 .up c = some (.num v, c') ∧
    constLn10 64 .up c' = some (.num v, c'') ∧ v.m.m = [10618799479599967255] ∧ v.e = 2 := by
  obtain ⟨c, h1, hc⟩ := C60_new
  have hp : ValidP 64 := ⟨by norm_num, by decide⟩
  have h2 : (match ln10New with
    | .ok c => match constLn10 64 .up c with
      | some (.num v, c') => v.m.m == [10618799479599967255] && v.e == 2 && (constLn10 64 .up c').any fun r =>
          match r.1 with
          | .num _ => true
          | _ => false
      | _ => false
    | _ => false) = true := by decide +kernel
  rw [h1] at h2
  dsimp only at h2
  obtain ⟨r, c', h3, hc', h4⟩ := C60_outcomes_partial hp .up hc
  rw [h3] at h2
  rcases h4 with ⟨v, rfl, h5⟩ | rfl
  · obtain ⟨r', c'', h6, -, h7⟩ := C60_outcomes_partial hp .up hc'
    dsimp only at h2
    rw [h6] at h2
    rcases h7 with ⟨v', rfl, h8⟩ | rfl
    · simp at h2
      have : v' = v := C60_history_partial hp (Or.inl rfl) log_ten_64 hc' hc h6 h3
      rw [this] at h6
      exact ⟨c, v, c', c'', hc, hp, h3, h6, h2.1, h2.2⟩
    · simp at h2
  · simp at h2

/-- A precision at which the answer is NaN, and one below the limit of `C60_number_partial`. -/
example : ValidP 39000000 ∧ 39000000 ≤ 39000000 ∧ 0 < 2 ^ 23 ∧ 2 ^ 23 ≤ 2 ^ 23 :=
  ⟨⟨by norm_num, by decide⟩, by norm_num, by norm_num, by norm_num⟩

end AF
