import Verif.Model.Random
import Verif.Lemmas.Conv
import Verif.Lemmas.NumRoot
import Verif.Lemmas.RootBounds
import Mathlib.Data.Nat.Bitwise
/-!
# C81: random numbers are normal numbers of the requested precision and exponent range

The documentation of `random_normal` promises a normal number, zero excluded, with an exponent from `exp_from`
to `exp_to` inclusive, for every state of the random generator. The claim is false in the code:

* if all the words drawn are zero the result is zero (`C81_zero_refuted`), and with `p = 0` it always is
  (`C81_no_words_refuted`);
* the exponent `exp_to` is never chosen (`C81_inclusive_refuted`);
* if the drawn `isize` is the smallest one, the function panics, or returns an exponent out of the range in builds
  without overflow checks (`C81_abs_refuted`).

`C81_normal_partial` proves the claim in all the other cases, with the upper end of the range excluded.
`C81_reached` shows that every number meeting this description is returned for some state of the generator.
-/

namespace AF

/-- The values drawn have their types, and one word has been drawn for each 64 bits of the precision. -/
structure Draws.Typed (d : Draws) (p : Nat) : Prop where
  words : Wf d.words
  count : d.words.length = (p + 63) / 64
  mix : d.mix < 2 ^ 64
  rmin : -2 ^ 63 ≤ d.r
  rmax : d.r < 2 ^ 63
  byte : d.byte < 256

/-- `v` is a normal number of the precision `p` (rounded up to words) with exponent `e`. -/
def NormalNum (p : Nat) (e : ℤ) (v : Num) : Prop :=
  v.WF ∧ 64 * v.m.m.length = precBits p ∧ v.inexact = false ∧ v.e = e ∧
    (2 : ℚ) ^ (e - 1) ≤ |(v.toK : ℚ)| ∧ |(v.toK : ℚ)| < 2 ^ e

theorem xor_top {a y : Nat} (ha : 2 ^ 63 ≤ a) (ha' : a < 2 ^ 64) (hy : y < 2 ^ 63) :
    2 ^ 63 ≤ a ^^^ y := by
  have h1 : a.testBit 63 = true := by
    rw [Nat.testBit_eq_decide_div_mod_eq]
    simp only [decide_eq_true_eq]
    omega
  have h2 : y.testBit 63 = false := Nat.testBit_lt_two_pow hy
  apply Nat.ge_two_pow_of_testBit
  rw [Nat.testBit_xor, h1, h2]
  rfl

theorem xorLow_normd {m : List Nat} (hm : Normd m) {y : Nat} (hy : y < 2 ^ 63) :
    Normd (xorLow m y) ∧ (xorLow m y).length = m.length := by
  obtain ⟨h1, h2, h3⟩ := hm
  cases m with
  | nil => simp at h2
  | cons a t =>
    have ha : a < 2 ^ 64 := by have := h1 a (by simp); rwa [B_eq] at this
    have hx : a ^^^ y < B := by
      rw [B_eq]; exact Nat.xor_lt_two_pow ha (by omega)
    refine ⟨⟨?_, by simp [xorLow], ?_⟩, rfl⟩
    · exact Wf.cons hx (fun w hw => h1 w (by simp [hw]))
    · simp only [xorLow, List.length_cons, val] at h3 ⊢
      rcases Nat.eq_zero_or_pos t.length with h0 | h0
      · have : t = [] := List.length_eq_zero_iff.1 h0
        subst this
        simp only [List.length_nil, zero_add, mul_one, val, mul_zero, add_zero] at h3 ⊢
        exact xor_top h3 ha hy
      · have e1 : 2 ^ (64 * (t.length + 1) - 1) = B * 2 ^ (64 * t.length - 1) := by
          rw [B_eq, ← pow_add]; congr 1; omega
        rw [e1] at h3 ⊢
        have haB : a < B := by rw [B_eq]; exact ha
        have : B * 2 ^ (64 * t.length - 1) < B * (val t + 1) := by linarith [mul_add B (val t) 1]
        have := Nat.lt_of_mul_lt_mul_left this
        have := Nat.mul_le_mul_left B (show 2 ^ (64 * t.length - 1) ≤ val t by omega)
        omega

theorem maximize_normd {m : List Nat} (hm : Wf m) (h : val m ≠ 0) :
    Normd (maximize m).1 ∧ (maximize m).1.length = m.length := by
  obtain ⟨_, _, m3, m4, m5⟩ := maximize_spec hm h
  refine ⟨⟨m5, ?_, by rw [m4]; exact m3⟩, m4⟩
  rw [m4]
  rcases m with _ | ⟨a, t⟩
  · exact absurd rfl h
  · simp

theorem normd_bounds {m : List Nat} (hm : Normd m) (e : ℤ) (s : Sign) (n : Nat) (ix : Bool) :
    (2 : ℚ) ^ (e - 1) ≤ |((Num.mk e s ⟨m, n⟩ ix).toK : ℚ)| ∧ |((Num.mk e s ⟨m, n⟩ ix).toK : ℚ)| < 2 ^ e := by
  obtain ⟨h1, h2, h3⟩ := hm
  have h4 : val m < 2 ^ (64 * m.length) := by have := val_lt h1; rwa [B_pow] at this
  unfold Num.toK
  dsimp only
  rw [mul_assoc, abs_toK, abs_of_nonneg (by positivity)]
  have p2 : (0 : ℚ) < 2 ^ (e - (64 * m.length : ℕ)) := by positivity
  constructor
  · have e1 : (2 : ℚ) ^ (e - 1) = ((2 ^ (64 * m.length - 1) : ℕ) : ℚ) * 2 ^ (e - (64 * m.length : ℕ)) := by
      push_cast
      rw [← zpow_natCast, ← zpow_add₀ (by norm_num)]
      congr 1
      omega
    rw [e1]
    exact mul_le_mul_of_nonneg_right (by exact_mod_cast h3) p2.le
  · have e1 : (2 : ℚ) ^ e = ((2 ^ (64 * m.length) : ℕ) : ℚ) * 2 ^ (e - (64 * m.length : ℕ)) := by
      push_cast
      rw [← zpow_natCast, ← zpow_add₀ (by norm_num)]
      congr 1
      omega
    rw [e1]
    exact mul_lt_mul_of_pos_right (by exact_mod_cast h4) p2

theorem asExponent_id {z : ℤ} (h1 : EMIN ≤ z) (h2 : z ≤ EMAX) : asExponent z = z := by
  unfold asExponent
  unfold EMIN at h1
  unfold EMAX at h2
  omega

theorem randomNormal_mant {d : Draws} {p : Nat} (hd : d.Typed p) (h0 : ∃ w ∈ d.words, w ≠ 0) :
    ∃ M, Mantissa.randomNormal d = ⟨M, 64 * M.length⟩ ∧ Normd M ∧ M.length = wordLen p := by
  have hv : val d.words ≠ 0 := by
    rw [Ne, val_eq_zero_iff]
    obtain ⟨w, hw, hn⟩ := h0
    exact fun h => hn (h w hw)
  have hz : (Mantissa.mk d.words 0).isAllZero = false := by
    rw [Bool.eq_false_iff, Ne, isAllZero_iff]; exact hv
  obtain ⟨n1, n2⟩ := maximize_normd hd.words hv
  obtain ⟨n3, n4⟩ := xorLow_normd n1 (y := d.mix >>> 1)
    (by rw [Nat.shiftRight_eq_div_pow]; have := hd.mix; omega)
  refine ⟨_, ?_, n3, ?_⟩
  · unfold Mantissa.randomNormal
    simp only [hz, Bool.not_false, if_true, n4]
  · rw [n4, n2, hd.count]; rfl

/-- Proved for all draws except an all-zero mantissa and the smallest `isize`, and with `exp_to` excluded from the
range of a range that is not reversed or a single exponent; missing from the full claim: these cases (false). -/
theorem C81_normal_partial (checked : Bool) (p : Nat) (hpm : p < 2 ^ 62 - 2 ^ 31 - 1) (a b : ℤ)
    (ha : -2147483648 ≤ a) (ha' : a ≤ 2147483647) (hb : b ≤ 2147483647) (d : Draws) (hd : d.Typed p)
    (h0 : ∃ w ∈ d.words, w ≠ 0) (hr : d.r ≠ -2 ^ 63) :
    ∃ v e, BF.randomNormal checked p a b d = .num v ∧ NormalNum p e v ∧ (a < b → a ≤ e ∧ e < b) ∧
      (b ≤ a → e = a) ∧ (v.s = .pos ↔ d.byte % 2 = 0) := by
  rw [← PMAX_eq] at hpm
  obtain ⟨M, m1, m2, m3⟩ := randomNormal_mant hd h0
  obtain ⟨e, he, h1, h2⟩ : ∃ e : ℤ, randomExponent checked a b d.r = .ok e ∧ (a < b → a ≤ e ∧ e < b) ∧ (b ≤ a → e = a) := by
    unfold randomExponent
    by_cases hab : a < b
    · rw [if_pos hab]
      unfold isizeAbs
      rw [if_neg hr]
      dsimp only
      have t1 : 0 ≤ (d.r.natAbs : ℤ).tmod (b - a) := Int.tmod_nonneg _ (by omega)
      have t2 : (d.r.natAbs : ℤ).tmod (b - a) < b - a := Int.tmod_lt_of_pos _ (by omega)
      refine ⟨_, rfl, ?_, fun h => by omega⟩
      rw [asExponent_id (by unfold EMIN; omega) (by unfold EMAX; omega)]
      intro _
      omega
    · rw [if_neg hab]
      exact ⟨a, rfl, fun h => absurd h hab, fun _ => rfl⟩
  have hrange : EMIN ≤ e ∧ e ≤ EMAX := by
    unfold EMIN EMAX
    by_cases hab : a < b
    · have := h1 hab; omega
    · have := h2 (by omega); omega
  refine ⟨⟨e, if d.byte &&& 1 = 0 then .pos else .neg, ⟨M, 64 * M.length⟩, false⟩, e, ?_, ⟨?_, ?_, rfl, rfl, ?_⟩,
    h1, h2, ?_⟩
  · unfold BF.randomNormal Num.randomNormal
    rw [if_neg (by omega)]
    dsimp only
    rw [he, m1]
    rfl
  · exact WF_of_normd m2 rfl hrange.1 hrange.2 (by rw [m3]; exact PMAX_words hpm) _ _
  · dsimp only; rw [m3]; rfl
  · exact normd_bounds m2 _ _ _ _
  · dsimp only
    rw [show (1 : ℕ) = 2 ^ 1 - 1 by norm_num, Nat.and_two_pow_sub_one_eq_mod]
    simp

/-- Every normal number of the precision with an exponent below `exp_to` is returned for some draws. -/
theorem C81_reached (checked : Bool) (p : Nat) (hpm : p < 2 ^ 62 - 2 ^ 31 - 1) (a b e : ℤ)
    (ha : -2147483648 ≤ a) (hb : b ≤ 2147483647) (h1 : a ≤ e) (h2 : e < b) (v : Num) (hv : NormalNum p e v) :
    ∃ d : Draws, d.Typed p ∧ BF.randomNormal checked p a b d = .num v := by
  rw [← PMAX_eq] at hpm
  obtain ⟨w1, w2, w3, w4, w5, _⟩ := hv
  obtain ⟨e', s, ⟨M, n⟩, ix⟩ := v
  dsimp only at w2 w3 w4
  subst w4 w3
  have hlen : M.length = wordLen p := by
    have : precBits p = 64 * wordLen p := rfl
    omega
  have hv0 : val M ≠ 0 := by
    intro h
    unfold Num.toK at w5
    dsimp only at w5
    rw [h] at w5
    simp only [Nat.cast_zero, mul_zero, zero_mul, abs_zero] at w5
    have : (0 : ℚ) < 2 ^ (e' - 1) := by positivity
    linarith
  have hb0 := w1.wf
  have hnb := w1.bits
  dsimp only at hb0 hnb
  have hMl : 0 < M.length := by
    rcases M with _ | ⟨x, t⟩
    · exact absurd rfl hv0
    · simp
  -- the top bit is set
  have htop : 2 ^ (64 * M.length - 1) ≤ val M := by
    unfold Num.toK at w5
    dsimp only at w5
    rw [mul_assoc, abs_toK, abs_of_nonneg (by positivity)] at w5
    have e1 : (2 : ℚ) ^ (e' - 1) = ((2 ^ (64 * M.length - 1) : ℕ) : ℚ) * 2 ^ (e' - (64 * M.length : ℕ)) := by
      push_cast
      rw [← zpow_natCast, ← zpow_add₀ (by norm_num)]
      congr 1
      omega
    rw [e1] at w5
    have p2 : (0 : ℚ) < 2 ^ (e' - (64 * M.length : ℕ)) := by positivity
    exact_mod_cast le_of_mul_le_mul_right w5 p2
  have hN : Normd M := ⟨hb0, hMl, htop⟩
  have hn : n = 64 * M.length := by rw [hnb]; exact hN.size
  subst hn
  have hmax : (maximize M).1 = M := by
    have hs := maximize_spec hb0 hv0
    have h0 := maximize_shift_zero hb0 hMl htop
    rw [h0] at hs
    exact val_inj hs.2.2.2.2 hb0 (maximize_length M) (by simpa using hs.1)
  refine ⟨⟨M, 0, e' - a, if s = .pos then 0 else 1⟩, ⟨hb0, hlen, by norm_num, ?_, ?_, ?_⟩, ?_⟩
  · dsimp only; omega
  · dsimp only; omega
  · dsimp only; split <;> norm_num
  · have hz : (Mantissa.mk M 0).isAllZero = false := by
      rw [Bool.eq_false_iff, Ne, isAllZero_iff]; exact hv0
    have hx : xorLow M 0 = M := by
      cases M with
      | nil => rfl
      | cons x t => simp [xorLow]
    have hab : a < b := by omega
    have hrr : isizeAbs checked (e' - a) = .ok (e' - a) := by
      unfold isizeAbs
      rw [if_neg (by omega)]
      congr 1
      omega
    unfold BF.randomNormal Num.randomNormal Mantissa.randomNormal randomExponent
    rw [if_neg (by omega)]
    simp only [hz, Bool.not_false, if_true, hmax, Nat.zero_shiftRight, hx, hab, hrr]
    rw [Int.tmod_eq_of_lt (by omega) (by omega), show e' - a + a = e' by omega,
      asExponent_id w1.emin w1.emax]
    cases s <;> simp [BF.resultToExt]

/-- A precision out of range is rejected. -/
theorem C81_rejects (checked : Bool) (p : Nat) (hp : 2 ^ 62 - 2 ^ 31 - 1 ≤ p) (a b : ℤ) (d : Draws) :
    BF.randomNormal checked p a b d = .nan (some .invalidArgument) := by
  unfold BF.randomNormal Num.randomNormal
  rw [if_pos (by rw [PMAX_eq]; exact hp)]
  rfl

/-- An all-zero draw gives zero, with the exponent that was chosen: zero is not excluded. -/
theorem C81_zero_refuted (checked : Bool) (p : Nat) (hpm : p < 2 ^ 62 - 2 ^ 31 - 1) (a : ℤ) :
    ∃ (d : Draws) (v : Num), d.Typed p ∧ BF.randomNormal checked p a a d = .num v ∧ (v.toK : ℚ) = 0 ∧ v.e = a := by
  rw [← PMAX_eq] at hpm
  have hv : val (List.replicate (wordLen p) 0) = 0 := by simp
  refine ⟨⟨List.replicate (wordLen p) 0, 0, 0, 0⟩, ⟨a, .pos, ⟨List.replicate (wordLen p) 0, 0⟩, false⟩,
    ⟨wf_zeros _, by simp [wordLen], by norm_num, by norm_num, by norm_num, by norm_num⟩, ?_, ?_, rfl⟩
  · have hz : (Mantissa.mk (List.replicate (wordLen p) 0) 0).isAllZero = true := by
      rw [isAllZero_iff]; exact hv
    unfold BF.randomNormal Num.randomNormal Mantissa.randomNormal randomExponent
    rw [if_neg (by omega)]
    simp [hz, BF.resultToExt]
  · unfold Num.toK
    simp

/-- With the precision 0, which is accepted, every draw gives a zero. -/
theorem C81_no_words_refuted (checked : Bool) (a : ℤ) (d : Draws) (hd : d.Typed 0) :
    ∃ v, BF.randomNormal checked 0 a a d = .num v ∧ (v.toK : ℚ) = 0 := by
  have h := hd.count
  have hw : d.words = [] := List.length_eq_zero_iff.1 (by simpa using h)
  unfold BF.randomNormal Num.randomNormal Mantissa.randomNormal randomExponent
  rw [if_neg (by unfold PMAX; norm_num), hw]
  refine ⟨_, by simp only [lt_irrefl, if_false]; rfl, ?_⟩
  simp [Num.toK, Mantissa.isAllZero]

/-- The upper end of the range is never chosen, although the documentation includes it. -/
theorem C81_inclusive_refuted (checked : Bool) (p : Nat) (a b : ℤ)
    (ha : -2147483648 ≤ a) (hb : b ≤ 2147483647) (hab : a < b) (d : Draws) (hr : d.r ≠ -2 ^ 63) (v : Num)
    (h : BF.randomNormal checked p a b d = .num v) : v.e ≠ b := by
  unfold BF.randomNormal Num.randomNormal at h
  by_cases hp : p ≥ PMAX
  · rw [if_pos hp] at h; cases h
  · rw [if_neg hp] at h
    unfold randomExponent at h
    dsimp only at h
    rw [if_pos hab] at h
    unfold isizeAbs at h
    rw [if_neg hr] at h
    dsimp only [BF.resultToExt] at h
    have t1 : 0 ≤ (d.r.natAbs : ℤ).tmod (b - a) := Int.tmod_nonneg _ (by omega)
    have t2 : (d.r.natAbs : ℤ).tmod (b - a) < b - a := Int.tmod_lt_of_pos _ (by omega)
    rw [asExponent_id (by unfold EMIN; omega) (by unfold EMAX; omega)] at h
    injection h with h
    rw [← h]
    dsimp only
    omega

/-- The smallest `isize` has no absolute value: the range `0 … 3` gives a panic, or the exponent `-2`. -/
theorem C81_abs_refuted : ∃ d : Draws, d.Typed 64 ∧
    Num.randomNormal true 64 0 3 d = .error .panic ∧
    ∃ v, Num.randomNormal false 64 0 3 d = .ok v ∧ v.e = -2 := by
  refine ⟨⟨[1], 0, -2 ^ 63, 0⟩, ⟨?_, rfl, by norm_num, le_rfl, by norm_num, by norm_num⟩, ?_, ?_⟩
  · intro w hw
    simp only [List.mem_singleton] at hw
    subst hw
    decide
  · decide +kernel
  · exact ⟨⟨-2, .pos, ⟨[2 ^ 63], 64⟩, false⟩, by decide +kernel, rfl⟩

/-- Draws meeting the hypotheses of `C81_normal_partial` and of `C81_inclusive_refuted`; the highest word drawn is
zero and the words are shifted. -/
example : ∃ d : Draws, d.Typed 100 ∧ (∃ w ∈ d.words, w ≠ 0) ∧ d.r ≠ -2 ^ 63 ∧
    BF.randomNormal true 100 (-5) 7 d = .num ⟨-2, .neg, ⟨[3, 2 ^ 63 + 2 ^ 62], 128⟩, false⟩ := by
  refine ⟨⟨[3, 0], 7, -15, 1⟩, ⟨?_, rfl, by norm_num, by norm_num, by norm_num, by norm_num⟩,
    ⟨3, by simp, by norm_num⟩, by norm_num, by decide +kernel⟩
  intro w hw
  simp only [List.mem_cons, List.not_mem_nil, or_false] at hw
  rcases hw with rfl | rfl <;> decide

/-- A number meeting the hypotheses of `C81_reached`. -/
example : NormalNum 64 3 ⟨3, .neg, ⟨[2 ^ 63 + 2 ^ 61], 64⟩, false⟩ := by
  refine ⟨Num.WF_of_check (by decide), by decide, rfl, rfl, ?_, ?_⟩ <;>
  · unfold Num.toK
    norm_num [val, Sign.toK, abs_of_neg]

end AF
