import Verif.Model.Pow
import Verif.Lemmas.Mul
import Verif.Lemmas.TryPrec2
import Verif.Lemmas.Repr
import Verif.SpecExt
import Mathlib.Algebra.Order.Archimedean.Basic
import Mathlib.Data.Rat.Floor
import Mathlib.Tactic.LinearCombination
/-!
# Error analysis of `powi`
-/

namespace AF

set_option linter.unusedSectionVars false

/-! ## The bits of the exponent -/

theorem and_MSB_iff {i : Nat} (hi : i < B) : i &&& MSB ≠ 0 ↔ 2 ^ 63 ≤ i := by
  have hB : B = 2 ^ 64 := rfl
  have hM : MSB = 2 ^ 63 := rfl
  rw [hM, Nat.and_two_pow]
  have : i.testBit 63 = decide (2 ^ 63 ≤ i) := by
    rw [Nat.testBit_eq_decide_div_mod_eq]
    congr 1
    apply propext
    have : i / 2 ^ 63 < 2 := by omega
    constructor
    · intro h
      by_contra hc
      have : i / 2 ^ 63 = 0 := Nat.div_eq_of_lt (by omega)
      omega
    · intro h
      have : 1 ≤ i / 2 ^ 63 := (Nat.one_le_div_iff (by positivity)).2 h
      omega
  rw [this]
  by_cases h : 2 ^ 63 ≤ i <;> simp [h]

theorem shl_mod_hi {i : Nat} (hi : i < B) (h : 2 ^ 63 ≤ i) : (i <<< 1) % B = 2 * i - 2 ^ 64 := by
  have hB : B = 2 ^ 64 := rfl
  rw [Nat.shiftLeft_eq, hB]; rw [hB] at hi; omega

theorem shl_mod_lo {i : Nat} (h : i < 2 ^ 63) : (i <<< 1) % B = 2 * i := by
  have hB : B = 2 ^ 64 := rfl
  rw [Nat.shiftLeft_eq, hB]; omega

/-- The words of the exponent loops: `r` in the top `b` bits. -/
theorem shifted_cases {b r : Nat} (hb : b < 64) (hr : r < 2 ^ (b + 1)) :
    r * 2 ^ (64 - (b + 1)) < B ∧ (2 ^ 63 ≤ r * 2 ^ (64 - (b + 1)) ↔ 2 ^ b ≤ r) ∧
    (2 ^ b ≤ r → 2 * (r * 2 ^ (64 - (b + 1))) - 2 ^ 64 = (r - 2 ^ b) * 2 ^ (64 - b)) ∧
    2 * (r * 2 ^ (64 - (b + 1))) = r * 2 ^ (64 - b) := by
  have e1 : 2 ^ (b + 1) * 2 ^ (64 - (b + 1)) = 2 ^ 64 := by rw [← pow_add]; congr 1; omega
  have e2 : 2 ^ b * 2 ^ (64 - (b + 1)) = 2 ^ 63 := by rw [← pow_add]; congr 1; omega
  have e3 : 2 * 2 ^ (64 - (b + 1)) = 2 ^ (64 - b) := by rw [← pow_succ']; congr 1; omega
  have e4 : 2 ^ b * 2 ^ (64 - b) = 2 ^ 64 := by rw [← pow_add]; congr 1; omega
  have hpos : 0 < 2 ^ (64 - (b + 1)) := by positivity
  have hd : 2 * (r * 2 ^ (64 - (b + 1))) = r * 2 ^ (64 - b) := by rw [← e3]; ring
  refine ⟨?_, ?_, ?_, hd⟩
  · show _ < 2 ^ 64
    rw [← e1]; exact Nat.mul_lt_mul_of_pos_right hr hpos
  · rw [← e2]; exact ⟨fun h => Nat.le_of_mul_le_mul_right h hpos, fun h => Nat.mul_le_mul_right _ h⟩
  · intro h
    rw [hd, Nat.sub_mul, e4]

theorem powStrip_aux (b : Nat) : ∀ n, b ≤ 64 → 0 < n → n < 2 ^ b →
    ∃ bp, bp < b ∧ 2 ^ bp ≤ n ∧ n < 2 ^ (bp + 1) ∧
      powStrip b (n * 2 ^ (64 - b)) = (bp, (n - 2 ^ bp) * 2 ^ (64 - bp)) := by
  induction b with
  | zero => intro n _ h0 h; simp at h; omega
  | succ b ih =>
    intro n hb h0 h
    obtain ⟨c1, c2, c3, c4⟩ := shifted_cases (b := b) (by omega) h
    unfold powStrip
    by_cases hn : 2 ^ b ≤ n
    · rw [if_pos ((and_MSB_iff c1).2 (c2.2 hn)), shl_mod_hi c1 (c2.2 hn), c3 hn]
      exact ⟨b, by omega, hn, h, rfl⟩
    · have h63 : n * 2 ^ (64 - (b + 1)) < 2 ^ 63 := by
        by_contra hc; exact hn (c2.1 (by omega))
      rw [if_neg (by rw [and_MSB_iff c1]; omega), shl_mod_lo h63, c4]
      obtain ⟨bp, d1, d2, d3, d4⟩ := ih n (by omega) h0 (by omega)
      exact ⟨bp, by omega, d2, d3, d4⟩

theorem powStrip_spec {n : Nat} (h0 : 0 < n) (hn : n < B) :
    ∃ bp, bp < 64 ∧ 2 ^ bp ≤ n ∧ n < 2 ^ (bp + 1) ∧
      powStrip 64 n = (bp, (n - 2 ^ bp) * 2 ^ (64 - bp)) := by
  have := powStrip_aux 64 n le_rfl h0 hn
  simpa using this

/-! ## One rounding away from zero -/

theorem RoundsPrec.fromZero_rel {K : Type} [Field K] [LinearOrder K] [IsStrictOrderedRing K] {P : Nat} {A r : K}
    (hA : A ≠ 0) (h : RoundsPrec .fromZero P A r) :
    ∃ c : K, r = A * c ∧ 1 ≤ c ∧ c ≤ 1 + 2 ^ (1 - (P : ℤ)) := by
  rcases h with ⟨h, _⟩ | ⟨q, h1, h2, k, _, h3, h4, h5⟩
  · exact absurd h hA
  have hA0 : 0 < |A| := abs_pos.2 hA
  have hc : 0 ≤ r / A := by
    rw [show r / A = A * r / (A * A) by field_simp]
    exact div_nonneg h5 (mul_self_nonneg _)
  have e : r = A * (r / A) := by field_simp
  have ea : |r| = |A| * (r / A) := by
    conv_lhs => rw [e]
    rw [abs_mul, abs_of_nonneg hc]
  refine ⟨r / A, e, ?_, ?_⟩
  · rw [ea] at h3
    by_contra hcc
    nlinarith
  · have h6 : (2 : K) ^ (q - (P : ℤ)) ≤ |A| * 2 ^ (1 - (P : ℤ)) := by
      rw [show q - (P : ℤ) = (q - 1) + (1 - P) by ring, zpow_add₀ (by norm_num)]
      exact mul_le_mul_of_nonneg_right h1 (by positivity)
    rw [ea] at h4
    by_contra hcc
    have : |A| * (1 + 2 ^ (1 - (P : ℤ))) < |A| * (r / A) := mul_lt_mul_of_pos_left (by linarith) hA0
    linarith

/-- `(1 + u)^N` to first order. -/
theorem one_add_pow_le {K : Type} [Field K] [LinearOrder K] [IsStrictOrderedRing K] (u : K) (hu : 0 ≤ u) :
    ∀ N : ℕ, (N : K) * u ≤ 1 → (1 + u) ^ N ≤ 1 + N * u + (N * u) ^ 2 := by
  intro N
  induction N with
  | zero => intro _; simp
  | succ N ih =>
    intro h
    push_cast at h ⊢
    have hN : (N : K) * u ≤ 1 := by linarith
    have h1 := ih hN
    rw [pow_succ]
    have h2 : (1 + u) ^ N * (1 + u) ≤ (1 + N * u + (N * u) ^ 2) * (1 + u) :=
      mul_le_mul_of_nonneg_right h1 (by linarith)
    have h3 : (N : K) * u * (N * u * u) ≤ N * u * u := by
      have : 0 ≤ (N : K) * u * u := by positivity
      nlinarith
    nlinarith [mul_nonneg hu hu, Nat.cast_nonneg (α := K) N]

/-! ## Square and multiply -/

/-- `t` approximates `X^m` from the far side of zero, with `m - 1` roundings of relative size `2^(1-P)`. -/
structure PowApx (X : ℚ) (w P m : Nat) (t : Num) : Prop where
  wf : t.WF
  len : 64 * t.m.m.length = P
  ex : ∃ c : ℚ, t.toK = X ^ m * c ∧ 1 ≤ c ∧ c ≤ (1 + 2 ^ (1 - (P : ℤ))) ^ (m - 1)
  exact : t.inexact = false → t.toK = X ^ m
  small : w * m ≤ P → t.inexact = false

/-- A value with at most `P` significant bits is not changed by rounding to `P` bits. -/
theorem RoundsPrec.of_int {rm : RM} {P : Nat} {A r : ℚ} (h : RoundsPrec rm P A r) {k a : ℤ}
    (hA : A = k * 2 ^ a) (hk : |k| < 2 ^ P) : r = A := by
  rcases h with ⟨h1, h2⟩ | ⟨q, h1, h2, h3⟩
  · rw [h1, h2]
  · have hq : q - P ≤ a := by
      have h4 : |A| < (2 : ℚ) ^ ((P : ℤ) + a) := by
        rw [hA, abs_mul, abs_of_pos (show (0 : ℚ) < 2 ^ a by positivity), zpow_add₀ (by norm_num), zpow_natCast]
        have : |(k : ℚ)| < 2 ^ P := by exact_mod_cast hk
        exact mul_lt_mul_of_pos_right this (by positivity)
      have := (zpow_lt_zpow_iff_right₀ (show (1 : ℚ) < 2 by norm_num)).1 (lt_of_le_of_lt h1 h4)
      omega
    obtain ⟨d, hd⟩ : ∃ d : ℕ, a = (q - P) + d := ⟨(a - (q - P)).toNat, by omega⟩
    have hA2 : A = ((k * 2 ^ d : ℤ) : ℚ) * 2 ^ (q - (P : ℤ)) := by
      rw [hA, hd, zpow_add₀ (by norm_num), zpow_natCast]; push_cast; ring
    have h5 := Rounds.self (K := ℚ) rm (show (0 : ℚ) < 2 ^ (q - (P : ℤ)) by positivity) (k * 2 ^ d)
    rw [← hA2] at h5
    exact h3.unique (by positivity) h5

theorem mulIx_false_left {x y : Num} (hx : x.isZero = false) (hy : y.isZero = false)
    (h : mulIx x y = false) : x.inexact = false ∧ y.inexact = false := by
  unfold mulIx at h
  simpa [hx, hy] using h

/-- One product of approximations. -/
theorem PowApx.mul {X : ℚ} {w P m k px : Nat} {s t : Num} {kx ax : ℤ} (hkx : X = kx * 2 ^ ax)
    (hkw : |kx| < 2 ^ w) (hs : PowApx X w P m s) (hk : 0 < k) (hm : 0 < m)
    (ht : t.WF) (htk : ∃ c : ℚ, t.toK = X ^ k * c ∧ 1 ≤ c ∧ c ≤ (1 + 2 ^ (1 - (P : ℤ))) ^ (k - 1))
    (hte : t.inexact = false → t.toK = X ^ k) (hts : w * k ≤ P → t.inexact = false) (hX : X ≠ 0)
    (hp : 0 < px) (hpm : roundP px < PMAX) (hP : roundP px = P) (hlo : (2 : ℚ) ^ (EMIN - 1) ≤ |X| ^ (m + k)) :
    (∃ v, s.mul t px .fromZero = .ok v ∧ PowApx X w P (m + k) v) ∨
    (∃ sg, s.mul t px .fromZero = .error (.exponentOverflow sg) ∧
      (2 : ℚ) ^ EMAX ≤ (|X| * (1 + 2 ^ (1 - (P : ℤ)))) ^ (m + k)) := by
  obtain ⟨c, hc, c1, c2⟩ := hs.ex
  obtain ⟨d, hd, d1, d2⟩ := htk
  have hD := mulGeneral_spec (K := ℚ) hs.wf ht hp hpm .fromZero
  rw [hP] at hD
  set u : ℚ := 2 ^ (1 - (P : ℤ)) with hu
  have hu0 : 0 < u := by positivity
  have hprod : (s.toK : ℚ) * t.toK = X ^ (m + k) * (c * d) := by rw [hc, hd, pow_add]; ring
  have hcd1 : 1 ≤ c * d := by nlinarith
  have hcd2 : c * d ≤ (1 + u) ^ (m + k - 2) := by
    rw [show m + k - 2 = (m - 1) + (k - 1) by omega, pow_add]
    exact mul_le_mul c2 d2 (by linarith) (by positivity)
  have hne : X ^ (m + k) * (c * d) ≠ 0 := mul_ne_zero (pow_ne_zero _ hX) (by positivity)
  have hlo' : (2 : ℚ) ^ (EMIN - 1) ≤ |X ^ (m + k) * (c * d)| := by
    rw [abs_mul, abs_pow, abs_of_pos (show 0 < c * d by linarith)]
    nlinarith [show 0 ≤ |X| ^ (m + k) by positivity]
  have hs0 : s.isZero = false := by
    rw [← Bool.not_eq_true, ← hs.wf.toK_eq_zero (K := ℚ), hc]
    exact mul_ne_zero (pow_ne_zero _ hX) (by linarith)
  have ht0 : t.isZero = false := by
    rw [← Bool.not_eq_true, ← ht.toK_eq_zero (K := ℚ), hd]
    exact mul_ne_zero (pow_ne_zero _ hX) (by linarith)
  have hstep : ∀ f : ℚ, f ≤ 1 + u → 1 ≤ f → c * d * f ≤ (1 + u) ^ (m + k - 1) := by
    intro f hf hf1
    rw [show m + k - 1 = (m + k - 2) + 1 by omega, pow_succ]
    exact mul_le_mul hcd2 hf (by linarith) (by positivity)
  unfold Num.mul
  rw [hprod] at hD
  cases hr : s.mulGeneral t px .fromZero false with
  | ok v =>
    rw [hr] at hD
    refine Or.inl ⟨v, rfl, hD.1, hD.2.1, ?_, ?_, ?_⟩
    · obtain ⟨f, hf, f1, f2⟩ := (hD.normal hlo').fromZero_rel hne
      exact ⟨c * d * f, by rw [hf]; ring, by nlinarith, hstep f f2 f1⟩
    · intro hix
      have h5 := hD.2.2.2.2.1
      rw [hix] at h5
      simp only [Bool.false_eq_true, false_iff, not_or, not_not] at h5
      obtain ⟨e1, e2⟩ := mulIx_false_left hs0 ht0 (by simpa using h5.1)
      rw [h5.2, ← hprod, hs.exact e1, hte e2, pow_add]
    · intro hsm
      have e1 := hs.small (le_trans (Nat.mul_le_mul_left _ (by omega)) hsm)
      have e2 := hts (le_trans (Nat.mul_le_mul_left _ (by omega)) hsm)
      have hA : X ^ (m + k) * (c * d) = X ^ (m + k) := by
        rw [← hprod, hs.exact e1, hte e2, pow_add]
      have h6 : (v.toK : ℚ) = X ^ (m + k) * (c * d) := by
        refine (hD.normal hlo').of_int (k := kx ^ (m + k)) (a := ax * (m + k : ℕ)) ?_ ?_
        · rw [hA, hkx, mul_pow, zpow_mul, zpow_natCast, Int.cast_pow]
        · rw [abs_pow]
          calc |kx| ^ (m + k) < (2 ^ w) ^ (m + k) := pow_lt_pow_left₀ hkw (abs_nonneg _) (by omega)
            _ = 2 ^ (w * (m + k)) := by rw [pow_mul]
            _ ≤ 2 ^ P := pow_le_pow_right₀ (by norm_num) hsm
      have h5 := hD.2.2.2.2.1
      cases hv : v.inexact with
      | false => rfl
      | true =>
        rw [hv] at h5
        rcases h5.1 rfl with h7 | h7
        · unfold mulIx at h7
          rw [e1, e2] at h7
          simp at h7
        · exact absurd h6 h7
  | error e =>
    rw [hr] at hD
    obtain ⟨h1, r, h2, h3⟩ := hD
    right
    refine ⟨?_, ?_⟩
    · exact if 0 < X ^ (m + k) * (c * d) then .pos else .neg
    · refine ⟨?_, ?_⟩
      · rcases h1 with ⟨ha, hb⟩ | ⟨ha, hb⟩
        · rw [if_pos ha, hb]
        · rw [if_neg (by linarith), hb]
      · obtain ⟨f, hf, f1, f2⟩ := h2.fromZero_rel hne
        have hf0 : 0 < c * d * f := by positivity
        have habs : |r| = |X| ^ (m + k) * (c * d * f) := by
          rw [hf, mul_assoc, abs_mul, abs_pow, abs_of_pos hf0]
        rw [habs] at h3
        refine h3.trans ?_
        rw [mul_pow]
        refine mul_le_mul_of_nonneg_left ((hstep f f2 f1).trans ?_) (by positivity)
        exact pow_le_pow_right₀ (by linarith) (by omega)

/-- The condition that no power up to the `n`-th is below the normal range. -/
theorem pow_lower {X : ℚ} {n m : Nat} (hm : m ≤ n) (h : (2 : ℚ) ^ (EMIN - 1) ≤ |X| ^ n) :
    (2 : ℚ) ^ (EMIN - 1) ≤ |X| ^ m := by
  by_cases h1 : 1 ≤ |X|
  · exact (zpow_le_one_of_nonpos₀ (by norm_num) (by unfold EMIN; norm_num)).trans (one_le_pow₀ h1)
  · exact h.trans (pow_le_pow_of_le_one (abs_nonneg _) (le_of_not_ge h1) hm)

theorem pow_upper {a : ℚ} {n m : Nat} (ha : 0 ≤ a) (hm : m ≤ n) (h : (2 : ℚ) ^ EMAX ≤ a ^ m) :
    (2 : ℚ) ^ EMAX ≤ a ^ n := by
  by_cases h1 : 1 ≤ a
  · exact h.trans (pow_le_pow_right₀ h1 hm)
  · exfalso
    have h2 : a ^ m ≤ 1 := pow_le_one₀ ha (by linarith)
    have h3 : (1 : ℚ) < 2 ^ EMAX := one_lt_zpow₀ (by norm_num) (by unfold EMAX; norm_num)
    linarith

theorem powMul_spec {X : ℚ} (hX : X ≠ 0) {arg : Num} (ha : arg.WF) (hax : arg.toK = X)
    (hai : arg.inexact = false) {w : Nat} {kx ax : ℤ} (hkx : X = kx * 2 ^ ax) (hkw : |kx| < 2 ^ w) {P px n : Nat} (hp : 0 < px) (hpm : roundP px < PMAX) (hP : roundP px = P)
    (hlo : (2 : ℚ) ^ (EMIN - 1) ≤ |X| ^ n) : ∀ (bp r m : Nat) (t : Num), bp < 64 → r < 2 ^ bp → 0 < m →
    m * 2 ^ bp + r = n → PowApx X w P m t →
    (∃ v, Num.powMul arg px bp t (r * 2 ^ (64 - bp)) = .ok v ∧ PowApx X w P n v) ∨
    (∃ sg, Num.powMul arg px bp t (r * 2 ^ (64 - bp)) = .error (.exponentOverflow sg) ∧
      (2 : ℚ) ^ EMAX ≤ (|X| * (1 + 2 ^ (1 - (P : ℤ)))) ^ n) := by
  intro bp
  induction bp with
  | zero =>
    intro r m t _ hr hm hn ht
    left
    refine ⟨t, rfl, ?_⟩
    have : n = m := by simp at hr hn; omega
    rw [this]; exact ht
  | succ b ih =>
    intro r m t hb hr hm hn ht
    obtain ⟨c1, c2, c3, c4⟩ := shifted_cases (b := b) (by omega) hr
    have e2 : m * 2 ^ (b + 1) = (m + m) * 2 ^ b := by rw [pow_succ]; ring
    have hb1 : 1 ≤ 2 ^ b := Nat.one_le_two_pow
    have hpos : (0 : ℚ) ≤ |X| * (1 + 2 ^ (1 - (P : ℤ))) := by positivity
    have hmm : m + m ≤ n := by nlinarith
    unfold Num.powMul
    rcases ht.mul hkx hkw hm hm ht.wf ht.ex ht.exact ht.small hX hp hpm hP (pow_lower hmm hlo) with
      ⟨v, h1, h2⟩ | ⟨sg, h1, h2⟩
    · rw [h1]
      dsimp only
      by_cases hr2 : 2 ^ b ≤ r
      · rw [if_pos ((and_MSB_iff c1).2 (c2.2 hr2)), shl_mod_hi c1 (c2.2 hr2), c3 hr2]
        have hn2 : (m + m + 1) * 2 ^ b + (r - 2 ^ b) = n := by
          rw [add_mul, one_mul, ← e2]; omega
        have hle : m + m + 1 ≤ n := by nlinarith
        rcases h2.mul hkx hkw (k := 1) one_pos (by omega) ha ⟨1, by simp [hax], le_rfl, by simp⟩
          (by simp [hax]) (fun _ => hai) hX hp hpm hP (pow_lower hle hlo) with ⟨w, h3, h4⟩ | ⟨sg, h3, h4⟩
        · rw [h3]
          exact ih _ _ _ (by omega) (by rw [pow_succ] at hr; omega) (by omega) hn2 h4
        · rw [h3]
          exact Or.inr ⟨sg, rfl, pow_upper hpos hle h4⟩
      · have h63 : r * 2 ^ (64 - (b + 1)) < 2 ^ 63 := by
          by_contra hc; exact hr2 (c2.1 (by omega))
        rw [if_neg (by rw [and_MSB_iff c1]; omega), shl_mod_lo h63, c4]
        exact ih _ _ _ (by omega) (by omega) (by omega) (by rw [← e2]; exact hn) h2
    · rw [h1]
      exact Or.inr ⟨sg, rfl, pow_upper hpos hmm h2⟩

/-! ## One round of the loop -/

theorem Num.toK_int (x : Num) (hx : x.WF) : ∃ k a : ℤ, (x.toK : ℚ) = k * 2 ^ a ∧ |k| < 2 ^ (64 * x.m.m.length) := by
  refine ⟨x.s.toInt * val x.m.m, x.e - (64 * x.m.m.length : ℕ), ?_, ?_⟩
  · unfold Num.toK
    push_cast
    congr 2
    cases x.s <;> simp [Sign.toK, Sign.toInt]
  · have h := val_lt_two_pow hx.wf
    have : |x.s.toInt * (val x.m.m : ℤ)| = (val x.m.m : ℤ) := by
      cases x.s <;> simp [Sign.toInt]
    rw [this]
    exact_mod_cast h

theorem powTry_spec {x : Num} (hx : x.WF) (hz : x.isZero = false) {n bp px : Nat} (hb : bp < 64)
    (hbn : 2 ^ bp ≤ n) (hnb : n < 2 ^ (bp + 1)) (hlen : 64 * x.m.m.length ≤ px) (hpm : roundP px < PMAX)
    (hp : 0 < px) (hlo : (2 : ℚ) ^ (EMIN - 1) ≤ |(x.toK : ℚ)| ^ n) :
    (∃ v, x.powTry px bp ((n - 2 ^ bp) * 2 ^ (64 - bp)) = .ok v ∧
      PowApx x.toK (64 * x.m.m.length) (roundP px) n v) ∨
    (∃ sg, x.powTry px bp ((n - 2 ^ bp) * 2 ^ (64 - bp)) = .error (.exponentOverflow sg) ∧
      (2 : ℚ) ^ EMAX ≤ (|(x.toK : ℚ)| * (1 + 2 ^ (1 - (roundP px : ℤ)))) ^ n) := by
  have hX : (x.toK : ℚ) ≠ 0 := by
    intro h; rw [hx.toK_eq_zero.1 h] at hz; cases hz
  obtain ⟨k, a, h1, h2⟩ := x.toK_int hx
  have hpP : px < PMAX := by
    have := roundP_eq hpm
    unfold wordLen at this
    omega
  have harg : (Num.mk x.e x.s x.m false).WF := ⟨hx.wf, hx.bits, hx.emin, hx.emax, hx.norm, hx.sized⟩
  have hargK : ((Num.mk x.e x.s x.m false).toK : ℚ) = x.toK := rfl
  unfold Num.powTry
  dsimp only
  have hS := setPrecision_spec (K := ℚ) harg hp hpP .fromZero
  have hok : ∃ v, (Num.mk x.e x.s x.m false).setPrecision px .fromZero = .ok v := by
    have hmb : x.m.maxBitLen = x.m.m.length * 64 := rfl
    unfold Num.setPrecision Num.setPrecisionInternal
    rw [if_neg (by omega), if_neg (by dsimp only; omega), if_neg (by omega)]
    exact ⟨_, rfl⟩
  obtain ⟨v, hv⟩ := hok
  rw [hv] at hS ⊢
  dsimp only at hS ⊢
  obtain ⟨⟨c1, c2, c3, c4, c5⟩, c6⟩ := hS
  have hvK : (v.toK : ℚ) = x.toK := c6 hlen
  have hvi : v.inexact = false := by
    have h := c4 (Or.inl (by decide))
    cases hh : v.inexact with
    | false => rfl
    | true =>
      rw [hh] at h
      rcases h.1 rfl with h | h
      · cases h
      · exact absurd hvK h
  have h0 : PowApx x.toK (64 * x.m.m.length) (roundP px) 1 v :=
    ⟨c1, by rw [c2, roundP_eq hpm], ⟨1, by rw [hvK]; ring, le_rfl, by simp⟩, fun _ => by rw [hvK, pow_one],
      fun _ => hvi⟩
  exact powMul_spec hX harg hargK rfl h1 h2 hp hpm rfl hlo bp (n - 2 ^ bp) 1 v hb
    (by rw [pow_succ] at hnb; omega) one_pos (by omega) h0

/-- A refused working precision. -/
theorem powTry_invalid {x : Num} {bp i px : Nat} (hb : 0 < bp) (hlen : 64 * x.m.m.length ≤ px)
    (hp : 0 < px) (hpm : ¬ roundP px < PMAX) : x.powTry px bp i = .error .invalidArgument := by
  have hmb : x.m.maxBitLen = x.m.m.length * 64 := rfl
  unfold Num.powTry
  dsimp only
  unfold Num.setPrecision Num.setPrecisionInternal
  by_cases h : px ≥ PMAX
  · rw [if_pos h]
  · rw [if_neg h, if_neg (by dsimp only; omega), if_neg (by omega)]
    dsimp only
    obtain ⟨b, rfl⟩ : ∃ b, bp = b + 1 := ⟨bp - 1, by omega⟩
    unfold Num.powMul Num.mul Num.mulGeneral
    dsimp only
    rw [if_pos (by simpa using hpm)]

/-- The accumulated error is below the last of the `w` working bits. -/
theorem pow_error_small {n bp w P : Nat} (hb : bp < 64) (hb1 : 1 ≤ bp) (hnb : n < 2 ^ (bp + 1)) (hw : 64 ∣ w)
    (hP : 64 ∣ P) (hPw : w + 2 * bp ≤ P) :
    (1 + (2 : ℚ) ^ (1 - (P : ℤ))) ^ n ≤ 1 + 2 ^ (-(w : ℤ) - 1) := by
  have hPe : bp + 4 + w ≤ P := by omega
  set u : ℚ := 2 ^ (1 - (P : ℤ)) with hu
  have hu0 : 0 ≤ u := by positivity
  set d : ℚ := 2 ^ (-(w : ℤ) - 2) with hd
  have hd1 : d ≤ 1 / 4 := by
    rw [hd, show (1 / 4 : ℚ) = 2 ^ (-2 : ℤ) by norm_num]
    exact zpow_le_zpow_right₀ (by norm_num) (by omega)
  have hd0 : 0 ≤ d := by positivity
  have hNu : (n : ℚ) * u ≤ d := by
    have h1 : (n : ℚ) ≤ 2 ^ ((bp : ℤ) + 1) := by
      have : (n : ℚ) ≤ ((2 ^ (bp + 1) : ℕ) : ℚ) := by exact_mod_cast hnb.le
      refine this.trans (le_of_eq ?_)
      rw [← Nat.cast_succ, zpow_natCast]; push_cast; rfl
    calc (n : ℚ) * u ≤ 2 ^ ((bp : ℤ) + 1) * u := mul_le_mul_of_nonneg_right h1 hu0
      _ = 2 ^ ((bp : ℤ) + 1 + (1 - (P : ℤ))) := by rw [hu, ← zpow_add₀ (by norm_num)]
      _ ≤ d := by rw [hd]; exact zpow_le_zpow_right₀ (by norm_num) (by omega)
  have h1 := one_add_pow_le u hu0 n (by linarith)
  have h2 : (2 : ℚ) ^ (-(w : ℤ) - 1) = 2 * d := by
    rw [hd, show -(w : ℤ) - 1 = 1 + (-(w : ℤ) - 2) by ring, zpow_add₀ (by norm_num), zpow_one]
  rw [h2]
  have h3 : 0 ≤ (n : ℚ) * u := by positivity
  nlinarith

end AF
