import Mathlib.Analysis.SpecialFunctions.Log.Deriv
import Mathlib.Analysis.SpecificLimits.Basic
import Mathlib.NumberTheory.Bertrand
import Verif.Lemmas.ConstE
/-!
# The series of the logarithms: `1 + sum (u/s)^j / (2j+1)`
-/

namespace AF

set_option linter.unusedSectionVars false

/-- Product of `(2j+1) * s` over `a+1 .. a+n`. -/
def lnQ (s a n : Nat) : Nat := serQ (fun j => (2 * j + 1) * s) a n

/-- Numerator of the sum over the terms `a+1 .. a+n`. -/
def lnP (u s a n : Nat) : Nat := serP (fun _ => u) (fun j => (2 * j + 1) * s) (fun j => (2 * j + 1) * u) a n

/-- The state for the terms `a+1 .. a+n`. -/
structure LnRep (u s : Nat) (t : Num × Num × Num) (a n : Nat) : Prop where
  pos : 0 < n
  p : IsNat t.1 (lnP u s a n)
  q : IsNat t.2.1 (lnQ s a n)
  r : IsNat t.2.2 (lnQ u a n)

variable {u s : Nat}

theorem lnQ_pos (hs : 0 < s) (a n : Nat) : 0 < lnQ s a n :=
  serQ_pos (q := fun j => (2 * j + 1) * s) (fun _ => Nat.mul_pos (Nat.succ_pos _) hs) a n

theorem lnP_pos (hu : 0 < u) (a n : Nat) (h : 0 < n) : 0 < lnP u s a n := by
  obtain ⟨m, rfl⟩ : ∃ m, n = m + 1 := ⟨n - 1, by omega⟩
  exact serP_pos (p := fun _ => u) (q := fun j => (2 * j + 1) * s) (r := fun j => (2 * j + 1) * u) (fun _ => hu)
    (fun j => Nat.mul_pos (Nat.succ_pos _) hu) a m

theorem lnQ_zero_succ (n : Nat) : lnQ s 0 (n + 1) = lnQ s 0 n * ((2 * (n + 1) + 1) * s) := by
  unfold lnQ
  rw [serQ, Nat.zero_add]

theorem lnP_zero_succ (n : Nat) : lnP u s 0 (n + 1) = lnP u s 0 n * ((2 * (n + 1) + 1) * s) + lnQ u 0 n * u := by
  unfold lnP lnQ
  rw [serP, Nat.zero_add]

/-- Values in range up to the term `bmax`. -/
theorem ln_fits (hus : u ≤ s) {c bmax : Nat} (hs : (2 * bmax + 1) * s ≤ 2 ^ c) (hb : bmax < 2 ^ 28)
    (hc : 28 + c * bmax < 2 ^ 31) {a n : Nat} (h : a + n ≤ bmax) :
    (lnQ s a n : ℝ) < 2 ^ EMAX ∧ (lnP u s a n : ℝ) < 2 ^ EMAX ∧ lnQ u a n ≤ lnQ s a n := by
  have h1 : lnQ s a n ≤ (2 ^ c) ^ n :=
    serQ_le (fun j hj => le_trans (Nat.mul_le_mul_right s (show 2 * (a + j + 1) + 1 ≤ 2 * bmax + 1 by omega)) hs)
  have h2 := serP_le (p := fun _ => u) (q := fun j => (2 * j + 1) * s) (r := fun j => (2 * j + 1) * u)
    (fun j => le_trans hus (Nat.le_mul_of_pos_left _ (by omega))) (fun j => Nat.mul_le_mul_left _ hus) a n
  rw [← pow_mul] at h1
  have h3 : n < 2 ^ 28 := by omega
  have hcn : 28 + c * n < 2 ^ 31 := by
    have := Nat.mul_le_mul_left c (show n ≤ bmax by omega)
    omega
  have h4 : lnP u s a n < 2 ^ (1 * (28 + c * n)) := by
    rw [one_mul, pow_add]
    calc lnP u s a n ≤ n * lnQ s a n := h2.2
      _ < 2 ^ 28 * 2 ^ (c * n) := Nat.mul_lt_mul_of_lt_of_le h3 h1 (by positivity)
  have h5 : lnQ s a n < 2 ^ (1 * (28 + c * n)) := by
    refine lt_of_le_of_lt h1 ?_
    exact (Nat.pow_lt_pow_iff_right (by norm_num)).2 (by omega)
  exact ⟨lt_emax_of_pow (by omega) h5, lt_emax_of_pow (by omega) h4, h2.1⟩

theorem lnQ_ge_factorial : ∀ n, s ^ n * (2 ^ n * n.factorial) ≤ lnQ s 0 n
  | 0 => by simp [lnQ, serQ]
  | n + 1 => by
    rw [lnQ_zero_succ, Nat.factorial_succ]
    have h := lnQ_ge_factorial n
    calc s ^ (n + 1) * (2 ^ (n + 1) * ((n + 1) * n.factorial)) =
        (s ^ n * (2 ^ n * n.factorial)) * ((2 * (n + 1)) * s) := by ring
      _ ≤ lnQ s 0 n * ((2 * (n + 1) + 1) * s) := Nat.mul_le_mul h (Nat.mul_le_mul_right _ (by omega))

theorem lnQ_mono (hs : 0 < s) (m : Nat) : ∀ n, lnQ s 0 m ≤ lnQ s 0 (m + n)
  | 0 => le_refl _
  | n + 1 => by
    rw [← Nat.add_assoc, lnQ_zero_succ]
    exact le_trans (lnQ_mono hs m n) (Nat.le_mul_of_pos_right _ (Nat.mul_pos (by omega) hs))

theorem ln_large (hs : 0 < s) {c M n : Nat} (h1 : 3 * 2 ^ c ≤ 2 * s * M) (h2 : 2 ^ 31 ≤ c * M) (h : M ≤ n) :
    (2 : ℝ) ^ EMAX ≤ (lnQ s 0 n : ℕ) := by
  have h3 : lnQ s 0 M ≤ lnQ s 0 n := by
    obtain ⟨k, rfl⟩ : ∃ k, n = M + k := ⟨n - M, by omega⟩
    exact lnQ_mono hs M k
  refine emax_le_of_pow h2 (le_trans (le_trans ?_ (lnQ_ge_factorial M)) h3)
  have h5 := pow_self_le M
  have h6 : 2 ^ (c * M) * 3 ^ M ≤ (s ^ M * (2 ^ M * M.factorial)) * 3 ^ M := by
    calc 2 ^ (c * M) * 3 ^ M = (3 * 2 ^ c) ^ M := by rw [Nat.mul_pow, pow_mul, Nat.mul_comm]
      _ ≤ (2 * s * M) ^ M := Nat.pow_le_pow_left h1 M
      _ = s ^ M * 2 ^ M * M ^ M := by rw [Nat.mul_pow, Nat.mul_pow]; ring
      _ ≤ s ^ M * 2 ^ M * (M.factorial * 3 ^ M) := Nat.mul_le_mul_left _ h5
      _ = _ := by ring
  exact Nat.le_of_mul_le_mul_right h6 (by positivity)

theorem lnSeries (leaf : Nat → Except Err (Num × Num × Num)) (hu : 0 < u) (hus : u ≤ s) {bmax nmax c c' : Nat}
    (hleaf : ∀ a, a < 2 ^ 40 → ∃ t, leaf (a + 1) = .ok t ∧ IsNat t.1 u ∧ IsNat t.2.1 ((2 * (a + 1) + 1) * s) ∧
      IsNat t.2.2 ((2 * (a + 1) + 1) * u))
    (hs : (2 * bmax + 1) * s ≤ 2 ^ c) (hb : bmax < 2 ^ 28) (hc : 28 + c * bmax < 2 ^ 31)
    (h1 : 3 * 2 ^ c' ≤ 2 * s * nmax) (h2 : 2 ^ 31 ≤ c' * nmax) (hn : nmax ≤ 2 ^ 31) :
    SeriesOk leaf lnMerge (LnRep u s) bmax nmax where
  leaf := by
    intro a ha
    obtain ⟨t, g1, g2, g3, g4⟩ := hleaf a ha
    refine ⟨t, g1, by norm_num, ?_, ?_, ?_⟩
    · have : lnP u s a 1 = u := by simp [lnP, serP, serQ]
      rw [this]; exact g2
    · have : lnQ s a 1 = (2 * (a + 1) + 1) * s := by simp [lnQ, serQ]
      rw [this]; exact g3
    · have : lnQ u a 1 = (2 * (a + 1) + 1) * u := by simp [lnQ, serQ]
      rw [this]; exact g4
  merge := by
    rintro ta tb a m n ha hb' hle
    have hQ : lnQ s a (m + n) = lnQ s a m * lnQ s (a + m) n := serQ_add _ _ _ _
    have hR : lnQ u a (m + n) = lnQ u a m * lnQ u (a + m) n := serQ_add _ _ _ _
    have hP : lnP u s a (m + n) = lnP u s a m * lnQ s (a + m) n + lnP u s (a + m) n * lnQ u a m := by
      unfold lnP lnQ
      rw [serP_add, Nat.mul_comm (serP _ _ _ (a + m) n)]
    unfold lnMerge
    have hfit := fun h : a + (m + n) ≤ bmax => ln_fits hus hs hb hc h
    have hP0 : (0 : ℝ) ≤ (lnP u s (a + m) n * lnQ u a m : ℕ) := by positivity
    have hP1 : (0 : ℝ) ≤ (lnP u s a m * lnQ s (a + m) n : ℕ) := by positivity
    have hPc : (lnP u s a (m + n) : ℝ) = (lnP u s a m * lnQ s (a + m) n : ℕ) + (lnP u s (a + m) n * lnQ u a m : ℕ) := by
      rw [hP, Nat.cast_add]
    rcases ha.p.mul hb'.q with ⟨⟨pq, g1, g2⟩, -⟩ | ⟨g1, g2⟩
    · rw [g1]
      dsimp only
      rcases hb'.p.mul ha.r with ⟨⟨pr, g3, g4⟩, -⟩ | ⟨g3, g4⟩
      · rw [g3]
        dsimp only
        rcases g2.add g4 with ⟨⟨p, g5, g6⟩, -⟩ | ⟨g5, g6⟩
        · rw [g5]
          dsimp only
          rcases ha.q.mul hb'.q with ⟨⟨q, g7, g8⟩, -⟩ | ⟨g7, g8⟩
          · rw [g7]
            dsimp only
            rcases ha.r.mul hb'.r with ⟨⟨r, g9, g10⟩, -⟩ | ⟨g9, g10⟩
            · left
              rw [g9]
              refine ⟨(p, q, r), rfl, by have := ha.pos; omega, ?_, ?_, ?_⟩
              · rw [hP]; exact g6
              · rw [hQ]; exact g8
              · rw [hR]; exact g10
            · right
              rw [g9]
              refine ⟨rfl, ?_⟩
              by_contra hcc
              obtain ⟨k1, k2, k3⟩ := hfit (by omega)
              rw [← hR] at g10
              have : (lnQ u a (m + n) : ℝ) ≤ lnQ s a (m + n) := by exact_mod_cast k3
              exact absurd g10 (not_le.2 (lt_of_le_of_lt this k1))
          · right
            rw [g7]
            refine ⟨rfl, ?_⟩
            by_contra hcc
            obtain ⟨k1, k2, k3⟩ := hfit (by omega)
            rw [← hQ] at g8
            exact absurd g8 (not_le.2 k1)
        · right
          rw [g5]
          refine ⟨rfl, ?_⟩
          by_contra hcc
          obtain ⟨k1, k2, k3⟩ := hfit (by omega)
          rw [← hP] at g6
          exact absurd g6 (not_le.2 k2)
      · right
        rw [g3]
        refine ⟨rfl, ?_⟩
        by_contra hcc
        obtain ⟨k1, k2, k3⟩ := hfit (by omega)
        rw [hPc] at k2
        linarith
    · right
      rw [g1]
      refine ⟨rfl, ?_⟩
      by_contra hcc
      obtain ⟨k1, k2, k3⟩ := hfit (by omega)
      rw [hPc] at k2
      linarith
  bound := by
    intro t n h
    by_contra hcc
    push Not at hcc
    exact absurd (ln_large (by omega) h1 h2 hcc) (not_le.2 h.q.lt)
  nmax_le := hn

/-! ## The sum -/

theorem lnR_div (hu : 0 < u) (hs : 0 < s) : ∀ n, (lnQ u 0 n : ℝ) / lnQ s 0 n = ((u : ℝ) / s) ^ n
  | 0 => by simp [lnQ, serQ]
  | n + 1 => by
    have h := lnR_div hu hs n
    have h1 : (0 : ℝ) < lnQ s 0 n := by exact_mod_cast lnQ_pos hs 0 n
    have h2 : (0 : ℝ) < s := by exact_mod_cast hs
    rw [lnQ_zero_succ, lnQ_zero_succ, pow_succ, ← h]
    push_cast
    have h3 : (0 : ℝ) < 2 * ((n : ℝ) + 1) + 1 := by positivity
    field_simp

theorem lnP_div (hu : 0 < u) (hs : 0 < s) : ∀ n, 1 + (lnP u s 0 n : ℝ) / lnQ s 0 n =
    ∑ j ∈ Finset.range (n + 1), ((u : ℝ) / s) ^ j / (2 * j + 1)
  | 0 => by simp [lnP, serP]
  | n + 1 => by
    rw [Finset.sum_range_succ, ← lnP_div hu hs n, lnP_zero_succ, lnQ_zero_succ, pow_succ, ← lnR_div hu hs n]
    have h1 : (0 : ℝ) < lnQ s 0 n := by exact_mod_cast lnQ_pos hs 0 n
    have h2 : (0 : ℝ) < s := by exact_mod_cast hs
    push_cast
    have h3 : (0 : ℝ) < 2 * ((n : ℝ) + 1) + 1 := by positivity
    field_simp
    ring

/-- The sum of the series between its partial sums and the tail bound. -/
theorem ln_bounds (hu : 0 < u) (hus : u < s) {T : ℝ}
    (hT : HasSum (fun j : ℕ => ((u : ℝ) / s) ^ j / (2 * j + 1)) T) (n : Nat) :
    1 + (lnP u s 0 n : ℝ) / lnQ s 0 n ≤ T ∧
    T ≤ 1 + (lnP u s 0 n : ℝ) / lnQ s 0 n + ((u : ℝ) / s) ^ n * (u / (s - u) / (2 * n + 3)) := by
  have hs0 : (0 : ℝ) < s := by exact_mod_cast (show 0 < s by omega)
  have hu0 : (0 : ℝ) < u := by exact_mod_cast hu
  have hx0 : (0 : ℝ) ≤ (u : ℝ) / s := by positivity
  have hx1 : (u : ℝ) / s < 1 := by rw [div_lt_one hs0]; exact_mod_cast hus
  rw [lnP_div hu (by omega)]
  refine ⟨sum_le_hasSum _ (fun i _ => by positivity) hT, ?_⟩
  have h1 := (hasSum_nat_add_iff' (n + 1)).2 hT
  have h2 := (hasSum_geometric_of_lt_one hx0 hx1).mul_left (((u : ℝ) / s) ^ (n + 1) / (2 * n + 3))
  have h3 := hasSum_le (fun i => ?_) h1 h2
  · have h4 : ((u : ℝ) / s) ^ (n + 1) / (2 * n + 3) * (1 - (u : ℝ) / s)⁻¹ =
        ((u : ℝ) / s) ^ n * (u / (s - u) / (2 * n + 3)) := by
      have h5 : (0 : ℝ) < s - u := by
        have : (u : ℝ) < s := by exact_mod_cast hus
        linarith
      have h6 : (1 - (u : ℝ) / s) = (s - u) / s := by field_simp
      rw [h6, pow_succ]
      have h7 : (0 : ℝ) < 2 * (n : ℝ) + 3 := by positivity
      field_simp
    rw [h4] at h3
    linarith
  · rw [pow_add, div_mul_eq_mul_div, mul_comm]
    refine div_le_div_of_nonneg_left (by positivity) (by positivity) ?_
    push_cast
    have : (0 : ℝ) ≤ i := by positivity
    linarith

/-! ## The sum is not a dyadic fraction -/

theorem not_dvd_serQ {q : Nat → Nat} {l : Nat} (hl : l.Prime) {a : Nat} : ∀ {n}, (∀ j < n, ¬ l ∣ q (a + j + 1)) →
    ¬ l ∣ serQ q a n
  | 0, _ => by rw [serQ]; exact hl.one_lt.ne' ∘ Nat.dvd_one.1
  | n + 1, h => by
    rw [serQ, hl.dvd_mul]
    rintro (h1 | h1)
    · exact not_dvd_serQ hl (fun j hj => h j (by omega)) h1
    · exact h n (by omega) h1

theorem ln_prime {n : Nat} (h0 : 2 ≤ n) (hu : ∀ l : Nat, l.Prime → n < l → ¬ l ∣ u) (hs : ∀ l : Nat, l.Prime → n < l → ¬ l ∣ s) :
    ∃ l : Nat, l.Prime ∧ l ≠ 2 ∧ l ∣ lnQ s 0 n ∧ ¬ l ∣ lnP u s 0 n := by
  obtain ⟨l, hl, h1, h2⟩ := Nat.exists_prime_lt_and_le_two_mul n (by omega)
  have hl2 : l ≠ 2 := by omega
  have hodd := hl.eq_two_or_odd.resolve_left hl2
  obtain ⟨m, hm⟩ : ∃ m, l = 2 * (m + 1) + 1 := ⟨l / 2 - 1, by omega⟩
  obtain ⟨r, hr⟩ : ∃ r, n = m + 1 + r := ⟨n - (m + 1), by omega⟩
  have hnd : ∀ j, j ≠ m + 1 → j ≤ n → ¬ l ∣ 2 * j + 1 := by
    intro j hj hjn hd
    obtain ⟨k, hk⟩ := hd
    have hk2 : k < 2 := by
      by_contra hc
      have := Nat.mul_le_mul_left l (show 2 ≤ k by omega)
      omega
    interval_cases k <;> omega
  refine ⟨l, hl, hl2, ?_, ?_⟩
  · rw [hr]
    unfold lnQ
    rw [serQ_add, serQ, Nat.zero_add]
    exact Dvd.dvd.mul_right (Dvd.dvd.mul_left (Dvd.dvd.mul_right (by rw [hm]) _) _) _
  · rw [hr]
    have h3 : l ∣ lnQ u 0 (m + 1) := by
      rw [lnQ_zero_succ, ← hm]
      exact Dvd.dvd.mul_left (Dvd.dvd.mul_right (dvd_refl _) _) _
    have h4 : l ∣ lnP u s 0 m * ((2 * (m + 1) + 1) * s) := by
      rw [← hm]
      exact Dvd.dvd.mul_left (Dvd.dvd.mul_right (dvd_refl _) _) _
    have h5 : lnP u s 0 (m + 1 + r) = lnP u s 0 (m + 1) * lnQ s (0 + (m + 1)) r +
        lnQ u 0 (m + 1) * lnP u s (0 + (m + 1)) r := serP_add _ _ _ _ _ _
    rw [h5, lnP_zero_succ]
    intro hd
    have h6 := (Nat.dvd_add_iff_left (Dvd.dvd.mul_right h3 _)).2 hd
    rw [Nat.add_mul] at h6
    have h7 := (Nat.dvd_add_iff_right (Dvd.dvd.mul_right h4 _)).2 h6
    rw [hl.dvd_mul, hl.dvd_mul] at h7
    rcases h7 with (h8 | h8) | h8
    · refine not_dvd_serQ hl (fun j hj => ?_) h8
      rw [hl.dvd_mul]
      rintro (h9 | h9)
      · exact hnd _ (by omega) (by omega) h9
      · exact hu l hl h1 h9
    · exact hu l hl h1 h8
    · refine not_dvd_serQ hl (fun j hj => ?_) h8
      rw [hl.dvd_mul]
      rintro (h9 | h9)
      · exact hnd _ (by omega) (by omega) h9
      · exact hs l hl h1 h9

theorem lnQ_odd (hs : s % 2 = 1) (n : Nat) : ¬ 2 ∣ lnQ s 0 n := by
  refine not_dvd_serQ Nat.prime_two (fun j _ => ?_)
  rw [Nat.prime_two.dvd_mul]
  omega

theorem lnQ_ge_pow : ∀ n, s ^ n ≤ lnQ s 0 n
  | 0 => by simp [lnQ, serQ]
  | n + 1 => by
    rw [lnQ_zero_succ, pow_succ]
    exact Nat.mul_le_mul (lnQ_ge_pow n) (Nat.le_mul_of_pos_left _ (by omega))

/-! ## The value `1 + p / q` -/

theorem IsNat.len64 {x : Num} {N : Nat} (h : IsNat x N) : 64 * x.m.m.length ≤ 2 ^ 31 + 62 ∧ 0 < x.m.m.length := by
  have h1 := h.len
  have h2 := h.wf.emax
  unfold EMAX at h2
  refine ⟨by omega, ?_⟩
  by_contra hc
  have h3 : x.m.m = [] := List.length_eq_zero_iff.1 (by omega)
  have h4 : (x.toK : ℝ) = 0 := by unfold Num.toK; rw [h3]; simp [val]
  rw [h.eq] at h4
  have := h.pos
  norm_cast at h4; omega

theorem roundP_small {L : Nat} (h : 64 * L ≤ 2 ^ 31 + 62) : roundP (64 * L) = 64 * L ∧ 64 * L < PMAX := by
  unfold roundP USIZE_MAX PMAX; omega

theorem ln_quot (hu : 0 < u) (hus : u < s) (hs256 : s ≤ 256) (hodd : s % 2 = 1)
    (hnd : ∀ l : Nat, l.Prime → 64 < l → ¬ l ∣ u ∧ ¬ l ∣ s) {T : ℝ}
    (hT : HasSum (fun j : ℕ => ((u : ℝ) / s) ^ j / (2 * j + 1)) T) (hT4 : T ≤ 4)
    {t : Num × Num × Num} {n : Nat} (h : LnRep u s t 0 n) :
    ∃ (L : Nat) (f v : Num), max t.1.m.maxBitLen t.2.1.m.maxBitLen = 64 * L ∧ 0 < L ∧ roundP (64 * L) = 64 * L ∧
      64 * L < PMAX ∧ t.1.div t.2.1 (64 * L) .none = .ok f ∧ f.add Num.ONE (64 * L) .none = .ok v ∧ v.WF ∧
      v.toK ≤ T ∧ (1 + (lnP u s 0 n : ℝ) / lnQ s 0 n) * (1 - 2 * 2 ^ (1 - ((64 * L : ℕ) : ℤ))) ≤ v.toK ∧
      (1 / 2 : ℝ) ≤ v.toK ∧ (64 ≤ n → v.inexact = true) ∧ s ^ n < 2 ^ (64 * L + 1) := by
  have hn0 := h.pos
  have hs0 : (0 : ℝ) < s := by exact_mod_cast (show 0 < s by omega)
  have hu1 : (1 : ℝ) ≤ u := by exact_mod_cast hu
  have hs1 : (s : ℝ) ≤ 256 := by exact_mod_cast hs256
  obtain ⟨L, hL⟩ : ∃ L, L = max t.1.m.m.length t.2.1.m.m.length := ⟨_, rfl⟩
  have hprec : max t.1.m.maxBitLen t.2.1.m.maxBitLen = 64 * L := by
    unfold Mantissa.maxBitLen; omega
  obtain ⟨hp1, hp2⟩ := h.p.len64
  obtain ⟨hq1, hq2⟩ := h.q.len64
  have hL1 : 64 * L ≤ 2 ^ 31 + 62 := by omega
  have hL0 : 0 < L := by omega
  obtain ⟨hrp, hpm⟩ := roundP_small hL1
  have hpm' : roundP (64 * L) < PMAX := by rw [hrp]; exact hpm
  obtain ⟨S, hS⟩ : ∃ S : ℝ, S = (lnP u s 0 n : ℝ) / lnQ s 0 n := ⟨_, rfl⟩
  have hST := (ln_bounds hu hus hT n).1
  rw [← hS] at hST
  have hS0 : (1 / 768 : ℝ) ≤ S := by
    have h1 := lnP_div hu (show 0 < s by omega) n
    rw [← hS] at h1
    have h2 : ∑ j ∈ Finset.range 2, ((u : ℝ) / s) ^ j / (2 * j + 1) ≤
        ∑ j ∈ Finset.range (n + 1), ((u : ℝ) / s) ^ j / (2 * j + 1) := by
      refine Finset.sum_le_sum_of_subset_of_nonneg ?_ (fun i _ _ => by positivity)
      intro i hi
      rw [Finset.mem_range] at hi ⊢
      omega
    rw [Finset.sum_range_succ, Finset.sum_range_one] at h2
    norm_num at h2
    have h3 : (1 / 256 : ℝ) ≤ u / s := by
      rw [div_le_div_iff₀ (by norm_num) hs0]
      linarith
    linarith
  have hd := div_spec (K := ℝ) h.p.wf h.q.wf h.q.nz (p := 64 * L) (by omega) hpm' .none
  rw [h.p.eq, h.q.eq, hrp, ← hS] at hd
  obtain ⟨f0, g1, g2, g3, g4, g5, g6⟩ := none_step (le_trans (by norm_num) hS0)
    (show S ≤ 2 ^ 64 from le_trans (show S ≤ 3 by linarith) (by norm_num)) hd
  obtain ⟨δ, hδ⟩ : ∃ δ : ℝ, δ = 2 ^ (1 - ((64 * L : ℕ) : ℤ)) := ⟨_, rfl⟩
  have hδ0 : 0 < δ := by rw [hδ]; positivity
  have hδ1 : δ ≤ 1 / 8 := by
    rw [hδ, show (1 / 8 : ℝ) = 2 ^ (-3 : ℤ) by norm_num]
    exact zpow_le_zpow_right₀ (by norm_num) (by push_cast; omega)
  rw [← hδ] at g5
  have hf1 : (0 : ℝ) < f0.toK := by nlinarith
  have hf0 : f0.isZero = false := by
    rw [← Bool.not_eq_true, ← g2.toK_eq_zero (K := ℝ)]
    exact hf1.ne'
  have ha := addSub_spec (K := ℝ) g2 ONE_WF (p := 64 * L) (by omega) hpm' true .none
  rw [if_pos rfl, ONE_toK, hrp] at ha
  obtain ⟨v, k1, k2, k3, k4, k5, k6⟩ := none_step (by norm_num; linarith)
    (show (f0.toK : ℝ) + 1 ≤ 2 ^ 64 from le_trans (show (f0.toK : ℝ) + 1 ≤ 4 by linarith) (by norm_num)) ha
  rw [← hδ] at k5
  refine ⟨L, f0, v, hprec, hL0, hrp, hpm, g1, k1, k2, by linarith, by rw [← hδ, ← hS]; nlinarith, by nlinarith, fun h64 => ?_, ?_⟩
  · rw [k6]
    left
    unfold addIx
    rw [if_neg (by rw [hf0]; simp), if_neg (by rw [ONE_nz]; simp)]
    have : f0.inexact = true := by
      rw [g6]
      right
      rw [hS]
      obtain ⟨l, l1, l2, l3, l4⟩ := ln_prime (u := u) (s := s) (n := n) (by omega)
        (fun l hl hln => (hnd l hl (by omega)).1) (fun l hl hln => (hnd l hl (by omega)).2)
      exact not_dyadic l1 l2 (lnQ_pos (by omega) 0 n) l3 l4
    rw [this]; rfl
  · have h1 := h.q.lt_len (s := 1) (by rw [pow_one]; exact lnQ_odd hodd n)
    refine lt_of_le_of_lt (lnQ_ge_pow n) (lt_of_lt_of_le h1 (Nat.pow_le_pow_right (by norm_num) (by omega)))

/-- The accuracy of a cached value for `b` terms of the series of `y`. -/
def LnValOk (u s e0 : Nat) (y : ℝ) (b : Nat) (v : Num) : Prop := 64 ≤ b → v.WF ∧ v.inexact = true ∧
  e0 * b ≤ 64 * v.m.m.length ∧
  ∃ c : ℝ, v.toK = y * c ∧ |c - 1| ≤ ((u : ℝ) / s) ^ b / 64 + 4 * 2 ^ (1 - ((64 * v.m.m.length : ℕ) : ℤ))

/-- The last step to the accuracy of the value. -/
theorem ln_value_bound (hu : 0 < u) (hus : u < s) (h64us : u * 64 ≤ (s - u) * 131) {T : ℝ}
    (hT : HasSum (fun j : ℕ => ((u : ℝ) / s) ^ j / (2 * j + 1)) T) {n : Nat} (hn : 64 ≤ n) {δ A x : ℝ} (hA : 0 < A)
    (hδ0 : 0 < δ) (hδ1 : δ ≤ 1 / 8) (h1 : A * ((1 + (lnP u s 0 n : ℝ) / lnQ s 0 n) * (1 - 4 * δ)) ≤ x)
    (h2 : x ≤ A * T) : ∃ c : ℝ, x = A * T * c ∧ |c - 1| ≤ ((u : ℝ) / s) ^ n / 64 + 4 * δ := by
  have hs0 : (0 : ℝ) < s := by exact_mod_cast (show 0 < s by omega)
  have hu0 : (0 : ℝ) < u := by exact_mod_cast hu
  obtain ⟨b1, b2⟩ := ln_bounds hu hus hT n
  have hT1 : 1 ≤ T := by
    have : (0 : ℝ) ≤ (lnP u s 0 n : ℝ) / lnQ s 0 n := by positivity
    linarith
  refine apx_of_bounds (by positivity) ?_ h2
  refine le_trans ?_ h1
  rw [mul_assoc]
  refine mul_le_mul_of_nonneg_left ?_ hA.le
  obtain ⟨S, hS⟩ : ∃ S : ℝ, S = (lnP u s 0 n : ℝ) / lnQ s 0 n := ⟨_, rfl⟩
  obtain ⟨ξ, hξ⟩ : ∃ ξ : ℝ, ξ = ((u : ℝ) / s) ^ n := ⟨_, rfl⟩
  have hξ0 : 0 ≤ ξ := by rw [hξ]; positivity
  rw [← hS, ← hξ] at b2 ⊢
  have h3 : (u : ℝ) / (s - u) / (2 * n + 3) ≤ 1 / 64 := by
    have h4 : (0 : ℝ) < s - u := by
      have : (u : ℝ) < s := by exact_mod_cast hus
      linarith
    rw [div_div, div_le_div_iff₀ (by positivity) (by norm_num), one_mul]
    have h5 : (u : ℝ) * 64 ≤ (s - u) * 131 := by
      have h6 : ((s - u : ℕ) : ℝ) = (s : ℝ) - u := by rw [Nat.cast_sub hus.le]
      rw [← h6]
      exact_mod_cast h64us
    have h7 : (64 : ℝ) ≤ n := by exact_mod_cast hn
    nlinarith
  have h4 : ξ * ((u : ℝ) / (s - u) / (2 * n + 3)) ≤ ξ * (1 / 64) := mul_le_mul_of_nonneg_left h3 hξ0
  have h5 : T * (1 - ξ / 64) ≤ 1 + S := by nlinarith
  have h6 : T * (1 - ξ / 64) * (1 - 4 * δ) ≤ (1 + S) * (1 - 4 * δ) := mul_le_mul_of_nonneg_right h5 (by linarith)
  have h7 : 0 ≤ T * (ξ / 64 * (4 * δ)) := by positivity
  nlinarith

/-- The sum of the series for the argument `x`. -/
theorem hasSum_ln {x X A : ℝ} (hx : 0 < x) (hx1 : x < 1) (hX : x * x = X) (hA : A * (2 * x) = 1) :
    HasSum (fun j : ℕ => X ^ j / (2 * j + 1)) (A * (Real.log (1 + x) - Real.log (1 - x))) := by
  have h := (Real.hasSum_log_sub_log_of_abs_lt_one (x := x) (by rw [abs_of_pos hx]; exact hx1)).mul_left A
  refine h.congr_fun ?_
  intro j
  rw [pow_succ, pow_mul, ← hX, pow_two, show A * (2 * (1 / (2 * (j : ℝ) + 1)) * ((x * x) ^ j * x)) =
    (A * (2 * x)) * ((x * x) ^ j / (2 * j + 1)) by ring, hA, one_mul]

end AF
