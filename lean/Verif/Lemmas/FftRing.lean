import Mathlib.Algebra.BigOperators.Ring.Finset
import Mathlib.Algebra.BigOperators.Intervals
import Mathlib.Tactic.Ring
import Mathlib.Tactic.IntervalCases
import Mathlib.Tactic.LinearCombination
/-!
# The transform over a ring

`g` is an element with `g ^ 2^(k-1) = -1`. The forward transform leaves the values in bit-reversed order and
the reverse transform reads them in this order.
-/

namespace AF

/-- The lowest `k` bits of a number in reverse order. -/
def revBits : Nat → Nat → Nat
  | 0, _ => 0
  | k + 1, i => revBits k (i / 2) + (if i % 2 = 0 then 0 else 2 ^ k)

theorem revBits_even (k i : Nat) : revBits (k + 1) (2 * i) = revBits k i := by
  rw [revBits, if_pos (by omega), Nat.mul_div_cancel_left _ (by omega), Nat.add_zero]

theorem revBits_odd (k i : Nat) : revBits (k + 1) (2 * i + 1) = revBits k i + 2 ^ k := by
  rw [revBits, if_neg (by omega), show (2 * i + 1) / 2 = i by omega]

theorem revBits_low (k i : Nat) (h : i < 2 ^ k) :
    revBits (k + 1) i = 2 * revBits k i ∧ revBits (k + 1) (i + 2 ^ k) = 2 * revBits k i + 1 := by
  induction k generalizing i with
  | zero =>
    have : i = 0 := by simpa using h
    subst this
    simp [revBits]
  | succ k ih =>
    rw [pow_succ] at h
    obtain ⟨a, b⟩ := ih (i / 2) (by omega)
    obtain ⟨c, hc⟩ : ∃ c, c = i / 2 := ⟨_, rfl⟩
    rw [← hc] at a b
    rcases Nat.mod_two_eq_zero_or_one i with h0 | h0
    · obtain rfl : i = 2 * c := by omega
      rw [show 2 * c + 2 ^ (k + 1) = 2 * (c + 2 ^ k) by rw [pow_succ]; omega, revBits_even, revBits_even,
        revBits_even, a, b]
      exact ⟨rfl, rfl⟩
    · obtain rfl : i = 2 * c + 1 := by omega
      rw [show 2 * c + 1 + 2 ^ (k + 1) = 2 * (c + 2 ^ k) + 1 by rw [pow_succ]; omega, revBits_odd, revBits_odd,
        revBits_odd, a, b]
      constructor <;> ring

variable {R : Type*} [CommRing R]

theorem sum_even_odd (n : Nat) (f : Nat → R) :
    ∑ j ∈ Finset.range (2 * n), f j =
      ∑ j ∈ Finset.range n, f (2 * j) + ∑ j ∈ Finset.range n, f (2 * j + 1) := by
  induction n with
  | zero => simp
  | succ n ih =>
    rw [show 2 * (n + 1) = 2 * n + 1 + 1 by omega, Finset.sum_range_succ, Finset.sum_range_succ, ih,
      Finset.sum_range_succ, Finset.sum_range_succ]
    ring

theorem sum_revBits (k : Nat) (f : Nat → R) :
    ∑ i ∈ Finset.range (2 ^ k), f (revBits k i) = ∑ i ∈ Finset.range (2 ^ k), f i := by
  induction k generalizing f with
  | zero => simp [revBits]
  | succ k ih =>
    rw [pow_succ, Nat.mul_comm, sum_even_odd]
    simp_rw [revBits_even, revBits_odd]
    rw [ih, ih (fun i => f (i + 2 ^ k)), two_mul, Finset.sum_range_add]
    congr 1
    exact Finset.sum_congr rfl fun i _ => by rw [Nat.add_comm]

/-- Orthogonality. -/
theorem sum_pow (k : Nat) (g : R) (hg : ∀ k', k = k' + 1 → g ^ 2 ^ k' = -1) (d : Nat) :
    ∑ r ∈ Finset.range (2 ^ k), g ^ (d * r) = if 2 ^ k ∣ d then 2 ^ k else 0 := by
  induction k generalizing g with
  | zero => simp
  | succ k ih =>
    have hk := hg k rfl
    have i := ih (g ^ 2) (by
      intro k' hk'
      rw [← pow_mul, ← pow_succ', ← hk', hk])
    rw [pow_succ, Nat.mul_comm, sum_even_odd]
    have e1 : ∀ r, g ^ (d * (2 * r)) = (g ^ 2) ^ (d * r) := fun r => by rw [← pow_mul]; congr 1; ring
    have e2 : ∀ r, g ^ (d * (2 * r + 1)) = g ^ d * (g ^ 2) ^ (d * r) := fun r => by
      rw [← pow_mul, ← pow_add]; congr 1; ring
    simp_rw [e1, e2]
    rw [← Finset.mul_sum, i]
    by_cases h : 2 ^ k ∣ d
    · rw [if_pos h]
      obtain ⟨c, rfl⟩ := h
      rw [pow_mul, hk]
      rcases Nat.even_or_odd' c with ⟨c', rfl | rfl⟩
      · rw [if_pos (Dvd.intro c' (by ring)), pow_mul]
        simp; ring
      · rw [if_neg (by
          rintro ⟨e, he⟩
          have : 2 * c' + 1 = 2 * e := by
            refine Nat.eq_of_mul_eq_mul_left (Nat.two_pow_pos k) ?_
            rw [he]; ring
          omega), pow_succ, pow_mul]
        simp
    · rw [if_neg h, if_neg (fun h' => h (dvd_trans (Dvd.intro_left 2 rfl) h'))]
      simp

/-- What `fft_forward` computes. -/
def fwdSum (g : R) (k : Nat) (x : Nat → R) (i : Nat) : R :=
  ∑ j ∈ Finset.range (2 ^ k), x j * g ^ (j * revBits k i)

/-- What `fft_reverse` computes. -/
def revSum (g : R) (k : Nat) (y : Nat → R) (n : Nat) : R :=
  ∑ i ∈ Finset.range (2 ^ k), y i * g ^ ((2 ^ k - n) * revBits k i)

theorem fwdSum_step (g : R) (k : Nat) (hg : g ^ 2 ^ k = -1) (x : Nat → R) (i : Nat) :
    fwdSum g (k + 1) x (2 * i) =
      fwdSum (g ^ 2) k (fun j => x (2 * j)) i + fwdSum (g ^ 2) k (fun j => x (2 * j + 1)) i * g ^ revBits k i ∧
    fwdSum g (k + 1) x (2 * i + 1) =
      fwdSum (g ^ 2) k (fun j => x (2 * j)) i - fwdSum (g ^ 2) k (fun j => x (2 * j + 1)) i * g ^ revBits k i := by
  unfold fwdSum
  rw [pow_succ, Nat.mul_comm, sum_even_odd, sum_even_odd, revBits_even, revBits_odd]
  generalize revBits k i = r
  constructor
  · rw [Finset.sum_mul]
    congr 1 <;> refine Finset.sum_congr rfl fun j _ => ?_
    · rw [← pow_mul, Nat.mul_assoc]
    · rw [← pow_mul, mul_assoc, ← pow_add]; congr 2; ring
  · rw [Finset.sum_mul, sub_eq_add_neg, ← Finset.sum_neg_distrib]
    congr 1 <;> refine Finset.sum_congr rfl fun j _ => ?_
    · rw [← pow_mul, show 2 * j * (r + 2 ^ k) = 2 * (j * r) + 2 ^ k * (2 * j) by ring, pow_add,
        pow_mul g (2 ^ k), hg, pow_mul (-1)]
      simp
    · rw [← pow_mul, show (2 * j + 1) * (r + 2 ^ k) = (2 * (j * r) + r) + 2 ^ k * (2 * j + 1) by ring, pow_add,
        pow_mul g (2 ^ k), hg, pow_succ (-1), pow_mul (-1), pow_add]
      simp; ring

theorem revSum_step (g : R) (k : Nat) (hg : g ^ 2 ^ k = -1) (y : Nat → R) (n : Nat) (hn : n < 2 ^ k) :
    revSum g (k + 1) y n =
      revSum (g ^ 2) k y n + revSum (g ^ 2) k (fun i => y (i + 2 ^ k)) n * g ^ (2 ^ (k + 1) - n) ∧
    revSum g (k + 1) y (n + 2 ^ k) =
      revSum (g ^ 2) k y n - revSum (g ^ 2) k (fun i => y (i + 2 ^ k)) n * g ^ (2 ^ (k + 1) - n) := by
  have h1 : g ^ 2 ^ (k + 1) = 1 := by rw [pow_succ, pow_mul, hg]; simp
  have split : ∀ N, revSum g (k + 1) y N =
      ∑ i ∈ Finset.range (2 ^ k), y i * g ^ ((2 ^ (k + 1) - N) * (2 * revBits k i)) +
      ∑ i ∈ Finset.range (2 ^ k), y (i + 2 ^ k) * g ^ ((2 ^ (k + 1) - N) * (2 * revBits k i + 1)) := by
    intro N
    unfold revSum
    rw [show 2 ^ (k + 1) = 2 ^ k + 2 ^ k by rw [pow_succ]; omega, Finset.sum_range_add]
    congr 1 <;> refine Finset.sum_congr rfl fun i hi => ?_
    · rw [(revBits_low k i (Finset.mem_range.1 hi)).1]
    · rw [Nat.add_comm (2 ^ k) i, (revBits_low k i (Finset.mem_range.1 hi)).2]
  rw [split, split]
  unfold revSum
  obtain ⟨d, hd⟩ : ∃ d, 2 ^ k = n + d := ⟨2 ^ k - n, by omega⟩
  have e0 : 2 ^ k - n = d := by omega
  have e1 : 2 ^ (k + 1) - n = 2 ^ k + d := by rw [pow_succ]; omega
  have e2 : 2 ^ (k + 1) - (n + 2 ^ k) = d := by rw [pow_succ]; omega
  rw [e0, e1, e2]
  have t1 : ∀ r, g ^ ((2 ^ k + d) * (2 * r)) = (g ^ 2) ^ (d * r) := fun r => by
    rw [show (2 ^ k + d) * (2 * r) = 2 ^ (k + 1) * r + 2 * (d * r) by rw [pow_succ]; ring, pow_add, pow_mul,
      h1, one_pow, one_mul, pow_mul]
  have t2 : ∀ r, g ^ (d * (2 * r)) = (g ^ 2) ^ (d * r) := fun r => by
    rw [← pow_mul]; congr 1; ring
  constructor
  · rw [Finset.sum_mul]
    congr 1 <;> refine Finset.sum_congr rfl fun i _ => ?_
    · rw [t1]
    · rw [Nat.mul_add, pow_add, t1, Nat.mul_one]; ring
  · rw [Finset.sum_mul, sub_eq_add_neg, ← Finset.sum_neg_distrib]
    congr 1 <;> refine Finset.sum_congr rfl fun i _ => ?_
    · rw [t2]
    · rw [Nat.mul_add, pow_add, t2, Nat.mul_one, pow_add g (2 ^ k), hg]; ring

/-- The weighted convolution: with `h ^ 2^k = -1` and no coefficients of degree `2^k` or more, the pipeline
returns the coefficients of the product, multiplied by `2^k h^n`. -/
theorem fft_conv (k : Nat) (h : R) (hh : h ^ 2 ^ k = -1) (p q : Nat → R) {I J : Nat}
    (hp : ∀ a, I ≤ a → p a = 0) (hq : ∀ b, J ≤ b → q b = 0) (hIJ : I + J ≤ 2 ^ k + 1) (n : Nat) (hn : n < 2 ^ k) :
    revSum (h ^ 2) k (fun i => fwdSum (h ^ 2) k (fun a => p a * h ^ a) i *
      fwdSum (h ^ 2) k (fun b => q b * h ^ b) i) n =
    2 ^ k * h ^ n * ∑ a ∈ Finset.range (2 ^ k), ∑ b ∈ Finset.range (2 ^ k), if a + b = n then p a * q b else 0 := by
  have hg : ∀ k', k = k' + 1 → (h ^ 2) ^ 2 ^ k' = -1 := by
    intro k' hk'
    rw [← pow_mul, ← pow_succ', ← hk', hh]
  unfold revSum fwdSum
  rw [sum_revBits k (fun r => (∑ j ∈ Finset.range (2 ^ k), p j * h ^ j * (h ^ 2) ^ (j * r)) *
    (∑ j ∈ Finset.range (2 ^ k), q j * h ^ j * (h ^ 2) ^ (j * r)) * (h ^ 2) ^ ((2 ^ k - n) * r))]
  simp_rw [Finset.sum_mul_sum, Finset.sum_mul]
  rw [Finset.sum_comm]
  simp_rw [Finset.mul_sum]
  refine Finset.sum_congr rfl fun a ha => ?_
  rw [Finset.sum_comm]
  refine Finset.sum_congr rfl fun b hb => ?_
  have e : ∀ r, p a * h ^ a * (h ^ 2) ^ (a * r) * (q b * h ^ b * (h ^ 2) ^ (b * r)) * (h ^ 2) ^ ((2 ^ k - n) * r) =
      p a * q b * h ^ (a + b) * (h ^ 2) ^ ((a + b + (2 ^ k - n)) * r) := by
    intro r
    rw [show (a + b + (2 ^ k - n)) * r = a * r + b * r + (2 ^ k - n) * r by ring, pow_add (h ^ 2), pow_add (h ^ 2),
      pow_add h]
    ring
  simp_rw [e]
  rw [← Finset.mul_sum, sum_pow k (h ^ 2) hg]
  by_cases ha' : I ≤ a
  · rw [hp a ha']; simp
  by_cases hb' : J ≤ b
  · rw [hq b hb']; simp
  have hk := Nat.two_pow_pos k
  by_cases hab : a + b = n
  · rw [if_pos (by rw [hab]; exact ⟨1, by omega⟩), if_pos hab, hab]; ring
  · rw [if_neg (by
      rintro ⟨c, hc⟩
      have h1 : c < 2 := by
        refine Nat.lt_of_mul_lt_mul_left (a := 2 ^ k) ?_
        omega
      interval_cases c <;> omega), if_neg hab]
    simp

/-- The product of two numbers given by their parts. -/
theorem conv_eval (K : Nat) (p q : Nat → Nat) (X : Nat) {I J : Nat} (hp : ∀ a, I ≤ a → p a = 0)
    (hq : ∀ b, J ≤ b → q b = 0) (hIJ : I + J ≤ K + 1) :
    ∑ n ∈ Finset.range K, (∑ a ∈ Finset.range K, ∑ b ∈ Finset.range K, if a + b = n then p a * q b else 0) * X ^ n =
      (∑ a ∈ Finset.range K, p a * X ^ a) * ∑ b ∈ Finset.range K, q b * X ^ b := by
  simp_rw [Finset.sum_mul_sum, Finset.sum_mul]
  rw [Finset.sum_comm]
  refine Finset.sum_congr rfl fun a _ => ?_
  rw [Finset.sum_comm]
  refine Finset.sum_congr rfl fun b _ => ?_
  by_cases ha : I ≤ a
  · rw [hp a ha]; simp
  by_cases hb : J ≤ b
  · rw [hq b hb]; simp
  rw [Finset.sum_eq_single (a + b)]
  · rw [if_pos rfl, pow_add]; ring
  · intro n _ hne
    rw [if_neg (fun h => hne h.symm), zero_mul]
  · intro h
    rw [Finset.mem_range] at h
    omega

end AF
