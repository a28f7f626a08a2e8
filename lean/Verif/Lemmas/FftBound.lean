import Mathlib.Algebra.BigOperators.Group.Finset.Basic
import Mathlib.Algebra.Order.BigOperators.Group.Finset
import Mathlib.Algebra.BigOperators.Group.Finset.Piecewise
import Mathlib.Data.Finset.Card
import Mathlib.Tactic.Ring
import Mathlib.Tactic.Linarith
/-!
# The size of the coefficients of the product (fft.rs)
-/

namespace AF

/-- The coefficient `n` of the product of two polynomials. -/
def convC (K : Nat) (p q : Nat → Nat) (n : Nat) : Nat :=
  ∑ a ∈ Finset.range K, ∑ b ∈ Finset.range K, if a + b = n then p a * q b else 0

theorem convC_eq {K : Nat} (p q : Nat → Nat) {n : Nat} (hn : n < K) :
    convC K p q n = ∑ a ∈ Finset.range (n + 1), p a * q (n - a) := by
  unfold convC
  have h1 : ∀ a ∈ Finset.range K, (∑ b ∈ Finset.range K, if a + b = n then p a * q b else 0) =
      if a ≤ n then p a * q (n - a) else 0 := by
    intro a _
    by_cases ha : a ≤ n
    · rw [if_pos ha, Finset.sum_eq_single (n - a)]
      · rw [if_pos (by omega)]
      · intro b _ hb; rw [if_neg (by omega)]
      · intro h; exact absurd (Finset.mem_range.2 (by omega)) h
    · rw [if_neg ha]
      refine Finset.sum_eq_zero fun b _ => ?_
      rw [if_neg (by omega)]
  rw [Finset.sum_congr rfl h1, ← Finset.sum_filter]
  refine Finset.sum_congr ?_ fun _ _ => rfl
  ext a
  simp only [Finset.mem_filter, Finset.mem_range]
  omega

theorem convC_le {K k m δ n1 I J : Nat} {p q : Nat → Nat} (hK : K = 2 ^ k) (hk : 7 ≤ k) (hIJ : I + J ≤ K + 1)
    (hp0 : ∀ a, I ≤ a → p a = 0) (hq0 : ∀ a, J ≤ a → q a = 0)
    (hp1 : ∀ a, a + 1 < I → p a < 2 ^ m) (hq1 : ∀ a, a + 1 < J → q a < 2 ^ m)
    (hp2 : ∀ a, p a < 2 ^ (m + δ)) (hq2 : ∀ a, q a < 2 ^ (m + δ))
    (h1 : 2 * (m + δ) ≤ n1) (h2 : 2 * m + k ≤ n1) {n : Nat} (hn : n < K) : convC K p q n ≤ 2 ^ n1 := by
  rw [convC_eq p q hn]
  by_cases hc : n + 2 = I + J
  · -- a single product
    have hs : ∑ a ∈ Finset.range (n + 1), p a * q (n - a) ≤ p (I - 1) * q (n - (I - 1)) := by
      refine le_trans (le_of_eq ?_) (le_refl (∑ a ∈ {I - 1}, p a * q (n - a))) |>.trans (le_of_eq (by simp))
      by_cases hI : I - 1 ∈ Finset.range (n + 1)
      · symm
        refine Finset.sum_subset (by simpa using hI) ?_
        intro a _ ha
        simp only [Finset.mem_singleton] at ha
        rcases Nat.lt_or_ge a I with h | h
        · rw [hq0 (n - a) (by omega), Nat.mul_zero]
        · rw [hp0 a h, Nat.zero_mul]
      · rw [Finset.sum_eq_zero]
        · simp only [Finset.mem_range] at hI
          rw [Finset.sum_singleton, hq0 (n - (I - 1)) (by omega), Nat.mul_zero]
        · intro a ha
          simp only [Finset.mem_range] at hI ha
          rw [hq0 (n - a) (by omega), Nat.mul_zero]
    calc _ ≤ _ := hs
      _ ≤ 2 ^ (m + δ) * 2 ^ (m + δ) := Nat.mul_le_mul (hp2 _).le (hq2 _).le
      _ = 2 ^ (2 * (m + δ)) := by rw [two_mul, pow_add 2 (m + δ)]
      _ ≤ _ := Nat.pow_le_pow_right (by norm_num) h1
  · set S := (Finset.range (n + 1)).filter (fun a => a < I ∧ n - a < J) with hS
    have hsub : ∑ a ∈ Finset.range (n + 1), p a * q (n - a) = ∑ a ∈ S, p a * q (n - a) := by
      symm
      refine Finset.sum_subset (Finset.filter_subset _ _) ?_
      intro a ha hna
      rw [hS, Finset.mem_filter] at hna
      rcases Nat.lt_or_ge a I with h | h
      · rw [hq0 (n - a) (by by_contra hh; exact hna ⟨ha, h, by omega⟩), Nat.mul_zero]
      · rw [hp0 a h, Nat.zero_mul]
    have hcI : S.card ≤ I := by
      refine le_trans (Finset.card_le_card (t := Finset.range I) ?_) (by simp)
      intro a ha
      rw [hS, Finset.mem_filter] at ha
      exact Finset.mem_range.2 ha.2.1
    have hcJ : S.card ≤ J := by
      refine le_trans (Finset.card_le_card_of_injOn (t := Finset.range J) (fun a => n - a) ?_ ?_) (by simp)
      · intro a ha
        simp only [hS, Finset.coe_filter, Set.mem_ofPred_eq] at ha
        simpa using ha.2.2
      · intro a ha b hb hab
        simp only [hS, Finset.coe_filter, Set.mem_ofPred_eq, Finset.mem_range] at ha hb
        simp only at hab
        omega
    have hterm : ∀ a ∈ S, p a * q (n - a) ≤ 2 ^ (2 * m) +
        ((if a = I - 1 then 2 ^ (2 * m + δ) else 0) + (if a = n - (J - 1) then 2 ^ (2 * m + δ) else 0)) := by
      intro a ha
      rw [hS, Finset.mem_filter, Finset.mem_range] at ha
      obtain ⟨h3, h4, h5⟩ := ha
      have e1 : 2 ^ (2 * m) = 2 ^ m * 2 ^ m := by rw [two_mul, pow_add]
      have e2 : 2 ^ (2 * m + δ) = 2 ^ (m + δ) * 2 ^ m := by rw [← pow_add]; congr 1; omega
      by_cases ca : a = I - 1
      · have : p a * q (n - a) ≤ 2 ^ (m + δ) * 2 ^ m := Nat.mul_le_mul (hp2 _).le (hq1 _ (by omega)).le
        rw [if_pos ca, e2]; omega
      · by_cases cb : a = n - (J - 1)
        · have : p a * q (n - a) ≤ 2 ^ m * 2 ^ (m + δ) := Nat.mul_le_mul (hp1 _ (by omega)).le (hq2 _).le
          rw [Nat.mul_comm (2 ^ m)] at this
          rw [if_pos cb, e2]; omega
        · have : p a * q (n - a) ≤ 2 ^ m * 2 ^ m := Nat.mul_le_mul (hp1 _ (by omega)).le (hq1 _ (by omega)).le
          rw [e1]; omega
    have hsum : ∑ a ∈ S, p a * q (n - a) ≤ S.card * 2 ^ (2 * m) + (2 ^ (2 * m + δ) + 2 ^ (2 * m + δ)) := by
      refine le_trans (Finset.sum_le_sum hterm) ?_
      rw [Finset.sum_add_distrib, Finset.sum_const, Nat.nsmul_eq_mul, Finset.sum_add_distrib]
      refine Nat.add_le_add_left (Nat.add_le_add ?_ ?_) _
      · rw [Finset.sum_ite_eq' S]; split; exacts [le_rfl, Nat.zero_le _]
      · rw [Finset.sum_ite_eq' S]; split; exacts [le_rfl, Nat.zero_le _]
    obtain ⟨k', rfl⟩ : ∃ k', k = k' + 1 := ⟨k - 1, by omega⟩
    have hcard : S.card ≤ 2 ^ k' := by rw [hK, pow_succ] at hIJ; omega
    rw [hsub]
    refine le_trans hsum ?_
    have hb1 : S.card * 2 ^ (2 * m) ≤ 2 ^ (2 * m + k') := by
      rw [pow_add, Nat.mul_comm]; exact Nat.mul_le_mul_left _ hcard
    have e3 : 2 ^ (2 * m + δ + 1) = 2 ^ (2 * m + δ) + 2 ^ (2 * m + δ) := by rw [pow_succ]; omega
    rcases Nat.lt_or_ge k' (δ + 1) with h | h
    · have g1 : 2 ^ (2 * m + k') ≤ 2 ^ (2 * m + δ) := Nat.pow_le_pow_right (by norm_num) (by omega)
      have g2 : 2 ^ (2 * m + δ + 2) ≤ 2 ^ n1 := Nat.pow_le_pow_right (by norm_num) (by omega)
      rw [show 2 * m + δ + 2 = 2 * m + δ + 1 + 1 by omega, pow_succ] at g2
      omega
    · have g1 : 2 ^ (2 * m + δ + 1) ≤ 2 ^ (2 * m + k') := Nat.pow_le_pow_right (by norm_num) (by omega)
      have g2 : 2 ^ (2 * m + k' + 1) ≤ 2 ^ n1 := Nat.pow_le_pow_right (by norm_num) (by omega)
      rw [pow_succ] at g2
      omega

end AF
