import Verif.SpecNum
import Mathlib.Tactic.Linarith
import Mathlib.Tactic.Positivity
import Mathlib.Tactic.NormNum
import Mathlib.Tactic.Ring
import Mathlib.Algebra.Order.Field.Power
/-!
# Rounding is monotone, and therefore unique
-/

set_option linter.unusedSectionVars false

namespace AF

variable {K : Type*} [Field K] [LinearOrder K] [IsStrictOrderedRing K]

/-- A multiple of the grid rounds to itself. -/
theorem Rounds.self (rm : RM) {u : K} (hu : 0 < u) (k : ℤ) : Rounds rm (k * u) u (k * u) := by
  refine ⟨k, rfl, ?_⟩
  have h2 : 0 < u / 2 := half_pos hu
  cases rm <;> simp [mul_self_nonneg, hu]
  · exact ⟨h2.le, fun h => absurd h h2.ne⟩
  · exact ⟨h2.le, fun h => absurd h h2.ne⟩

/-- Rounding towards zero is rounding down of a non-negative value. -/
theorem Rounds.toZero_nonneg {x u r : K} (h : Rounds .toZero x u r) (hx : 0 ≤ x) :
    0 ≤ r ∧ Rounds .down x u r := by
  obtain ⟨k, hk, h1, h2, h3⟩ := h
  have hr : 0 ≤ r := by
    rcases hx.eq_or_lt with h0 | h0
    · rw [← h0, abs_zero] at h1
      rw [abs_nonpos_iff.1 h1]
    · by_contra hc
      push Not at hc
      have := mul_neg_of_pos_of_neg h0 hc
      linarith
  rw [abs_of_nonneg hx, abs_of_nonneg hr] at h1 h2
  exact ⟨hr, k, hk, h1, h2⟩

theorem Rounds.toZero_nonpos {x u r : K} (h : Rounds .toZero x u r) (hx : x ≤ 0) :
    r ≤ 0 ∧ Rounds .up x u r := by
  obtain ⟨k, hk, h1, h2, h3⟩ := h
  have hr : r ≤ 0 := by
    rcases hx.eq_or_lt with h0 | h0
    · rw [h0, abs_zero] at h1
      rw [abs_nonpos_iff.1 h1]
    · by_contra hc
      push Not at hc
      have := mul_neg_of_neg_of_pos h0 hc
      linarith
  rw [abs_of_nonpos hx, abs_of_nonpos hr] at h1 h2
  exact ⟨hr, k, hk, by linarith, by linarith⟩

theorem Rounds.fromZero_nonneg {x u r : K} (hu : 0 < u) (h : Rounds .fromZero x u r) (hx : 0 ≤ x) :
    0 ≤ r ∧ Rounds .up x u r := by
  obtain ⟨k, hk, h1, h2, h3⟩ := h
  have hr : 0 ≤ r := by
    rcases hx.eq_or_lt with h0 | h0
    · rw [← h0, abs_zero, zero_add, hk, abs_mul, abs_of_pos hu] at h2
      have h4 : |(k : K)| < 1 := by
        by_contra hc
        push Not at hc
        have := mul_le_mul_of_nonneg_right hc hu.le
        linarith
      have h5 : |k| < 1 := by exact_mod_cast h4
      have h6 : k = 0 := by rw [abs_lt] at h5; omega
      rw [hk, h6]; simp
    · by_contra hc
      push Not at hc
      have := mul_neg_of_pos_of_neg h0 hc
      linarith
  rw [abs_of_nonneg hx, abs_of_nonneg hr] at h1 h2
  exact ⟨hr, k, hk, h1, h2⟩

theorem Rounds.fromZero_nonpos {x u r : K} (hu : 0 < u) (h : Rounds .fromZero x u r) (hx : x ≤ 0) :
    r ≤ 0 ∧ Rounds .down x u r := by
  obtain ⟨k, hk, h1, h2, h3⟩ := h
  have hr : r ≤ 0 := by
    rcases hx.eq_or_lt with h0 | h0
    · rw [h0, abs_zero, zero_add, hk, abs_mul, abs_of_pos hu] at h2
      have h4 : |(k : K)| < 1 := by
        by_contra hc
        push Not at hc
        have := mul_le_mul_of_nonneg_right hc hu.le
        linarith
      have h5 : |k| < 1 := by exact_mod_cast h4
      have h6 : k = 0 := by rw [abs_lt] at h5; omega
      rw [hk, h6]; simp
    · by_contra hc
      push Not at hc
      have := mul_neg_of_neg_of_pos h0 hc
      linarith
  rw [abs_of_nonpos hx, abs_of_nonpos hr] at h1 h2
  exact ⟨hr, k, hk, by linarith, by linarith⟩

theorem Rounds.mono_up {x y u r t : K} (hu : 0 < u) (h1 : Rounds .up x u r)
    (h2 : Rounds .up y u t) (hxy : x ≤ y) : r ≤ t := by
  obtain ⟨k, hk, a1, a2⟩ := h1
  obtain ⟨l, hl, b1, b2⟩ := h2
  by_contra hc
  push Not at hc
  have h3 : l < k := by
    rw [hk, hl] at hc
    have := lt_of_mul_lt_mul_right hc hu.le
    exact_mod_cast this
  have h4 : (l : K) + 1 ≤ k := by exact_mod_cast h3
  have := mul_le_mul_of_nonneg_right h4 hu.le
  rw [add_mul, one_mul, ← hk, ← hl] at this
  linarith

theorem Rounds.mono_down {x y u r t : K} (hu : 0 < u) (h1 : Rounds .down x u r)
    (h2 : Rounds .down y u t) (hxy : x ≤ y) : r ≤ t := by
  obtain ⟨k, hk, a1, a2⟩ := h1
  obtain ⟨l, hl, b1, b2⟩ := h2
  by_contra hc
  push Not at hc
  have h3 : l < k := by
    rw [hk, hl] at hc
    have := lt_of_mul_lt_mul_right hc hu.le
    exact_mod_cast this
  have h4 : (l : K) + 1 ≤ k := by exact_mod_cast h3
  have := mul_le_mul_of_nonneg_right h4 hu.le
  rw [add_mul, one_mul, ← hk, ← hl] at this
  linarith

theorem near_mono {x y u r t : K} (hu : 0 < u) {k l : ℤ} (hk : r = k * u) (hl : t = l * u)
    (a1 : |x - r| ≤ u / 2) (b1 : |y - t| ≤ u / 2) (hxy : x ≤ y) :
    r ≤ t ∨ (k = l + 1 ∧ |x - r| = u / 2 ∧ |y - t| = u / 2) := by
  by_cases hc : r ≤ t
  · exact Or.inl hc
  right
  push Not at hc
  have h3 : l < k := by
    rw [hk, hl] at hc
    have := lt_of_mul_lt_mul_right hc hu.le
    exact_mod_cast this
  have h4 : (l : K) + 1 ≤ k := by exact_mod_cast h3
  have h5 := mul_le_mul_of_nonneg_right h4 hu.le
  rw [add_mul, one_mul, ← hk, ← hl] at h5
  rw [abs_le] at a1 b1
  have e1 : x - r = -(u / 2) := by linarith
  have e2 : y - t = u / 2 := by linarith
  refine ⟨?_, ?_, ?_⟩
  · have h6 : (k : K) * u = (l + 1) * u := by rw [add_mul, one_mul, ← hk, ← hl]; linarith
    have := mul_right_cancel₀ hu.ne' h6
    exact_mod_cast this
  · rw [e1, abs_neg, abs_of_pos (by linarith)]
  · rw [e2, abs_of_pos (by linarith)]

theorem Rounds.none_iff (x u r : K) : Rounds .none x u r ↔ Rounds .toZero x u r := Iff.rfl

/-- Rounding on a fixed grid is monotone. -/
theorem Rounds.mono {rm : RM} {x y u r t : K} (hu : 0 < u) (h1 : Rounds rm x u r)
    (h2 : Rounds rm y u t) (hxy : x ≤ y) : r ≤ t := by
  have hz : Rounds .toZero x u r → Rounds .toZero y u t → r ≤ t := by
    intro h1 h2
    rcases le_total 0 x with h | h
    · exact (h1.toZero_nonneg h).2.mono_down hu (h2.toZero_nonneg (le_trans h hxy)).2 hxy
    · rcases le_total 0 y with g | g
      · exact le_trans (h1.toZero_nonpos h).1 (h2.toZero_nonneg g).1
      · exact (h1.toZero_nonpos h).2.mono_up hu (h2.toZero_nonpos g).2 hxy
  cases rm with
  | none => exact hz h1 h2
  | toZero => exact hz h1 h2
  | up => exact h1.mono_up hu h2 hxy
  | down => exact h1.mono_down hu h2 hxy
  | fromZero =>
    rcases le_total 0 x with h | h
    · exact (h1.fromZero_nonneg hu h).2.mono_up hu (h2.fromZero_nonneg hu (le_trans h hxy)).2 hxy
    · rcases le_total 0 y with g | g
      · exact le_trans (h1.fromZero_nonpos hu h).1 (h2.fromZero_nonneg hu g).1
      · exact (h1.fromZero_nonpos hu h).2.mono_down hu (h2.fromZero_nonpos hu g).2 hxy
  | toEven =>
    obtain ⟨k, hk, a1, a2⟩ := h1
    obtain ⟨l, hl, b1, b2⟩ := h2
    rcases near_mono hu hk hl a1 b1 hxy with h | ⟨h, e1, e2⟩
    · exact h
    · have c1 := a2 e1
      have c2 := b2 e2
      rw [h] at c1
      rw [Int.even_add_one] at c1
      exact absurd c2 c1
  | toOdd =>
    obtain ⟨k, hk, a1, a2⟩ := h1
    obtain ⟨l, hl, b1, b2⟩ := h2
    rcases near_mono hu hk hl a1 b1 hxy with h | ⟨h, e1, e2⟩
    · exact h
    · have c1 := a2 e1
      have c2 := b2 e2
      rw [h] at c1
      rw [← Int.not_even_iff_odd] at c1 c2
      rw [Int.even_add_one] at c1
      exact absurd c2 c1

theorem Rounds.unique {rm : RM} {x u r t : K} (hu : 0 < u) (h1 : Rounds rm x u r)
    (h2 : Rounds rm x u t) : r = t :=
  le_antisymm (h1.mono hu h2 le_rfl) (h2.mono hu h1 le_rfl)

theorem Rounds.zero {rm : RM} {u r : K} (hu : 0 < u) (h : Rounds rm 0 u r) : r = 0 := by
  have := Rounds.self rm hu 0
  rw [Int.cast_zero, zero_mul] at this
  exact h.unique hu this

theorem Rounds.nonneg {rm : RM} {x u r : K} (hu : 0 < u) (h : Rounds rm x u r) (hx : 0 ≤ x) :
    0 ≤ r := by
  have := Rounds.self rm hu 0
  rw [Int.cast_zero, zero_mul] at this
  exact this.mono hu h hx

theorem Rounds.nonpos {rm : RM} {x u r : K} (hu : 0 < u) (h : Rounds rm x u r) (hx : x ≤ 0) :
    r ≤ 0 := by
  have := Rounds.self rm hu 0
  rw [Int.cast_zero, zero_mul] at this
  exact h.mono hu this hx

/-- Rounding with a grid `2^(f q)` chosen by the binade `q` of the value. Covers `RoundsPrec` and
`RoundsFmt`. -/
def RoundsBy (f : ℤ → ℤ) (rm : RM) (x r : K) : Prop :=
  (x = 0 ∧ r = 0) ∨
  ∃ q : ℤ, (2 : K) ^ (q - 1) ≤ |x| ∧ |x| < (2 : K) ^ q ∧ Rounds rm x ((2 : K) ^ f q) r

/-- Binade boundaries lie on the grids on both sides. -/
def GridOk (f : ℤ → ℤ) : Prop :=
  (∀ q q' : ℤ, q ≤ q' → f q ≤ f q') ∧ ∀ q q' : ℤ, q < q' → f q = f q' ∨ f q' ≤ q' - 1

theorem gridOk_prec {P : Nat} (hP : 0 < P) : GridOk (fun q => q - (P : ℤ)) := by
  refine ⟨?_, ?_⟩
  · intro q q' h; dsimp only; omega
  · intro q q' h; right; dsimp only; omega

theorem gridOk_fmt {P : Nat} (hP : 0 < P) : GridOk (fun q => max q EMIN - (P : ℤ)) := by
  refine ⟨?_, ?_⟩
  · intro q q' h; dsimp only; omega
  · intro q q' h; dsimp only
    by_cases hq : q' < EMIN
    · left; omega
    · right; omega

theorem zpow_grid (rm : RM) {a b : ℤ} (h : b ≤ a) :
    Rounds rm ((2 : K) ^ a) (2 ^ b) (2 ^ a) := by
  have := Rounds.self rm (zpow_pos (two_pos : (0:K) < 2) b) (2 ^ (a - b).toNat)
  have e : (((2 : ℤ) ^ (a - b).toNat : ℤ) : K) * 2 ^ b = 2 ^ a := by
    push_cast
    rw [← zpow_natCast, ← zpow_add₀ (by norm_num)]
    congr 1; omega
  rwa [e] at this

theorem neg_zpow_grid (rm : RM) {a b : ℤ} (h : b ≤ a) :
    Rounds rm (-(2 : K) ^ a) (2 ^ b) (-2 ^ a) := by
  have := Rounds.self rm (zpow_pos (two_pos : (0:K) < 2) b) (-2 ^ (a - b).toNat)
  have e : ((-(2 : ℤ) ^ (a - b).toNat : ℤ) : K) * 2 ^ b = -2 ^ a := by
    push_cast
    rw [neg_mul, ← zpow_natCast, ← zpow_add₀ (by norm_num)]
    congr 2; omega
  rwa [e] at this

theorem RoundsBy.mono {f : ℤ → ℤ} (hf : GridOk f) {rm : RM} {x y r t : K}
    (h1 : RoundsBy f rm x r) (h2 : RoundsBy f rm y t) (hxy : x ≤ y) : r ≤ t := by
  have hp : ∀ n : ℤ, (0 : K) < 2 ^ n := fun n => zpow_pos two_pos n
  rcases h1 with ⟨hx, hr⟩ | ⟨q, a1, a2, a3⟩
  · rcases h2 with ⟨_, ht⟩ | ⟨q', b1, b2, b3⟩
    · rw [hr, ht]
    · rw [hr]; exact b3.nonneg (hp _) (by rw [← hx]; exact hxy)
  rcases h2 with ⟨hy, ht⟩ | ⟨q', b1, b2, b3⟩
  · rw [ht]; exact a3.nonpos (hp _) (by rw [← hy]; exact hxy)
  rcases le_total 0 x with h0 | h0
  · have hy0 := le_trans h0 hxy
    rw [abs_of_nonneg h0] at a1 a2
    rw [abs_of_nonneg hy0] at b1 b2
    have hqq : q ≤ q' := by
      by_contra hc
      push Not at hc
      have : (2 : K) ^ q' ≤ 2 ^ (q - 1) := zpow_le_zpow_right₀ (by norm_num) (by omega)
      linarith
    rcases hqq.eq_or_lt with e | hlt
    · rw [e] at a3; exact a3.mono (hp _) b3 hxy
    · rcases hf.2 q q' hlt with e | e
      · rw [e] at a3; exact a3.mono (hp _) b3 hxy
      · have e2 := hf.1 q q' hqq
        have g1 : (2 : K) ^ q ≤ 2 ^ (q' - 1) := zpow_le_zpow_right₀ (by norm_num) (by omega)
        exact le_trans (a3.mono (hp _) (zpow_grid rm (le_trans e2 e)) (le_trans a2.le g1))
          ((zpow_grid rm e).mono (hp _) b3 b1)
  · rcases le_total 0 y with hy0 | hy0
    · exact le_trans (a3.nonpos (hp _) h0) (b3.nonneg (hp _) hy0)
    rw [abs_of_nonpos h0] at a1 a2
    rw [abs_of_nonpos hy0] at b1 b2
    have hqq : q' ≤ q := by
      by_contra hc
      push Not at hc
      have : (2 : K) ^ q ≤ 2 ^ (q' - 1) := zpow_le_zpow_right₀ (by norm_num) (by omega)
      linarith
    rcases hqq.eq_or_lt with e | hlt
    · rw [e] at b3; exact a3.mono (hp _) b3 hxy
    · rcases hf.2 q' q hlt with e | e
      · rw [e] at b3; exact a3.mono (hp _) b3 hxy
      · have e2 := hf.1 q' q hqq
        have g1 : (2 : K) ^ q' ≤ 2 ^ (q - 1) := zpow_le_zpow_right₀ (by norm_num) (by omega)
        exact le_trans (a3.mono (hp _) (neg_zpow_grid rm e) (by linarith))
          ((neg_zpow_grid rm (le_trans e2 e)).mono (hp _) b3 (by linarith))

theorem RoundsPrec.mono {P : Nat} (hP : 0 < P) {rm : RM} {x y r t : K}
    (h1 : RoundsPrec rm P x r) (h2 : RoundsPrec rm P y t) (hxy : x ≤ y) : r ≤ t :=
  RoundsBy.mono (gridOk_prec hP) h1 h2 hxy

theorem RoundsFmt.mono {P : Nat} (hP : 0 < P) {rm : RM} {x y r t : K}
    (h1 : RoundsFmt rm P x r) (h2 : RoundsFmt rm P y t) (hxy : x ≤ y) : r ≤ t :=
  RoundsBy.mono (gridOk_fmt hP) h1 h2 hxy

theorem RoundsPrec.unique {P : Nat} (hP : 0 < P) {rm : RM} {x r t : K}
    (h1 : RoundsPrec rm P x r) (h2 : RoundsPrec rm P x t) : r = t :=
  le_antisymm (h1.mono hP h2 le_rfl) (h2.mono hP h1 le_rfl)

theorem RoundsFmt.unique {P : Nat} (hP : 0 < P) {rm : RM} {x r t : K}
    (h1 : RoundsFmt rm P x r) (h2 : RoundsFmt rm P x t) : r = t :=
  le_antisymm (h1.mono hP h2 le_rfl) (h2.mono hP h1 le_rfl)

end AF
