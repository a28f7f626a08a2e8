import Mathlib.Data.Nat.Multiplicity
import Mathlib.Data.Nat.Prime.Factorial
import Verif.Lemmas.ConstVal
import Verif.Lemmas.ExtDiv
/-!
# Euler's number
-/

namespace AF

set_option linter.unusedSectionVars false

/-! ## log2_floor and b_factor -/

theorem log2FloorLoop_le : ∀ (f n : Nat), 0 < n → 2 ^ log2FloorLoop f n ≤ n
  | 0, n, h => by rw [log2FloorLoop, pow_zero]; exact h
  | f + 1, n, h => by
    rw [log2FloorLoop]
    split
    · have := log2FloorLoop_le f (n / 2) (by omega)
      rw [pow_succ]; omega
    · rw [pow_zero]; exact h

theorem log2FloorLoop_le_fuel : ∀ (f n : Nat), log2FloorLoop f n ≤ f
  | 0, n => by simp [log2FloorLoop]
  | f + 1, n => by
    rw [log2FloorLoop]
    have := log2FloorLoop_le_fuel f (n / 2)
    split <;> omega

theorem le_log2FloorLoop : ∀ (f n i : Nat), i ≤ f → 2 ^ i ≤ n → i ≤ log2FloorLoop f n
  | _, _, 0, _, _ => Nat.zero_le _
  | 0, _, i + 1, h, _ => absurd h (by omega)
  | f + 1, n, i + 1, h, h1 => by
    rw [log2FloorLoop]
    rw [pow_succ] at h1
    have h0 : 0 < 2 ^ i := by positivity
    rw [if_pos (by omega)]
    have := le_log2FloorLoop f (n / 2) i (by omega) (by omega)
    omega

theorem log2Floor_eq {n i : Nat} (h1 : 2 ^ i ≤ n) (h2 : n < 2 ^ (i + 1)) (h : i ≤ 64) : log2Floor n = i := by
  have h3 := le_log2FloorLoop 64 n i h h1
  have h4 := log2FloorLoop_le 64 n (lt_of_lt_of_le (by positivity) h1)
  have h5 := (Nat.pow_lt_pow_iff_right (by norm_num : 1 < 2)).1 (lt_of_le_of_lt h4 h2)
  unfold log2Floor
  omega

theorem bFactor_spec {w : Nat} (hw : 128 ≤ w) : ∃ d, 0 < d ∧ bFactor w = w / d ∧
    ∀ j, w < 2 ^ j * d → d + 3 ≤ j := by
  obtain ⟨ln, hln⟩ : ∃ ln, ln = log2Floor w := ⟨_, rfl⟩
  obtain ⟨lln, hlln⟩ : ∃ lln, lln = log2Floor ln := ⟨_, rfl⟩
  have h1 : 2 ^ ln ≤ w := by rw [hln]; exact log2FloorLoop_le _ _ (by omega)
  have h2 : ln ≤ 64 := by rw [hln]; exact log2FloorLoop_le_fuel _ _
  have h3 : 7 ≤ ln := by rw [hln]; exact le_log2FloorLoop 64 w 7 (by omega) hw
  have h4 : 2 ^ lln ≤ ln := by rw [hlln]; exact log2FloorLoop_le _ _ (by omega)
  have h5 : ln < 2 ^ (lln + 1) := by
    by_contra hc
    push Not at hc
    have hl : lln ≤ 6 := by
      by_contra hc'
      have : 2 ^ 7 ≤ 2 ^ lln := Nat.pow_le_pow_right (by norm_num) (by omega)
      omega
    have := le_log2FloorLoop 64 ln (lln + 1) (by omega) hc
    change lln + 1 ≤ log2Floor ln at this
    omega
  have h6 : lln + 4 ≤ ln := by
    have hl : lln ≤ 6 := by
      by_contra hc'
      have : 2 ^ 7 ≤ 2 ^ lln := Nat.pow_le_pow_right (by norm_num) (by omega)
      omega
    interval_cases lln <;> omega
  refine ⟨ln - lln - 3, by omega, by unfold bFactor; rw [hln, hlln, hln], fun j hj => ?_⟩
  by_contra hc
  push Not at hc
  have h7 : 2 ^ j * (ln - lln - 3) < 2 ^ j * 2 ^ (lln + 1) :=
    Nat.mul_lt_mul_of_pos_left (by omega) (by positivity)
  rw [← pow_add] at h7
  have h8 : 2 ^ ln < 2 ^ (j + (lln + 1)) := by omega
  have := (Nat.pow_lt_pow_iff_right (by norm_num : 1 < 2)).1 h8
  omega

theorem bFactor_le {w : Nat} (h1 : 128 ≤ w) (h2 : w ≤ 2 ^ 29) : 2 * bFactor w ≤ 2 ^ 26 := by
  obtain ⟨ln, hln⟩ : ∃ ln, ln = log2Floor w := ⟨_, rfl⟩
  have g1 : 2 ^ ln ≤ w := by rw [hln]; exact log2FloorLoop_le _ _ (by omega)
  have g2 : 7 ≤ ln := by rw [hln]; exact le_log2FloorLoop 64 w 7 (by omega) h1
  have g3 : 2 ^ 26 ≤ w → 26 ≤ ln := by intro h; rw [hln]; exact le_log2FloorLoop 64 w 26 (by omega) h
  have g4 : ln ≤ 29 := by
    by_contra hc
    have : 2 ^ 30 ≤ 2 ^ ln := Nat.pow_le_pow_right (by norm_num) (by omega)
    omega
  unfold bFactor
  dsimp only
  rw [← hln]
  by_cases h : 26 ≤ ln
  · have : log2Floor ln = 4 := log2Floor_eq (by omega) (by omega) (by norm_num)
    rw [this]
    interval_cases ln <;> omega
  · have hw : w < 2 ^ 26 := by omega
    have : log2Floor ln = 2 ∨ log2Floor ln = 3 ∧ 8 ≤ ln ∨ log2Floor ln = 4 ∧ 16 ≤ ln := by
      by_cases a : ln < 8
      · exact Or.inl (log2Floor_eq (by omega) (by omega) (by norm_num))
      · by_cases b : ln < 16
        · exact Or.inr (Or.inl ⟨log2Floor_eq (by omega) (by omega) (by norm_num), by omega⟩)
        · exact Or.inr (Or.inr ⟨log2Floor_eq (by omega) (by omega) (by norm_num), by omega⟩)
    have hd : 2 ≤ ln - log2Floor ln - 3 := by omega
    have := Nat.div_le_div_left (a := w) hd (by norm_num)
    omega

theorem bFactor_ge {w : Nat} (h1 : 2 ^ 32 ≤ w) : 2 ^ 27 ≤ bFactor w := by
  obtain ⟨ln, hln⟩ : ∃ ln, ln = log2Floor w := ⟨_, rfl⟩
  have g1 : 2 ^ ln ≤ w := by rw [hln]; exact log2FloorLoop_le _ _ (by omega)
  have g2 : 32 ≤ ln := by rw [hln]; exact le_log2FloorLoop 64 w 32 (by omega) h1
  have g3 : ln ≤ 64 := by rw [hln]; exact log2FloorLoop_le_fuel _ _
  have g4 : 5 ≤ log2Floor ln := le_log2FloorLoop 64 ln 5 (by omega) (by omega)
  have g5 : log2Floor ln ≤ 6 := by
    by_contra hc
    have h4 : 2 ^ log2Floor ln ≤ ln := log2FloorLoop_le 64 ln (by omega)
    have : 2 ^ 7 ≤ 2 ^ log2Floor ln := Nat.pow_le_pow_right (by norm_num) (by omega)
    omega
  unfold bFactor
  dsimp only
  rw [← hln, Nat.le_div_iff_mul_le (by omega)]
  refine le_trans ?_ g1
  refine le_trans (Nat.mul_le_mul_left _ (show ln - log2Floor ln - 3 ≤ ln - 8 by omega)) ?_
  clear g5 g4 g1 hln
  interval_cases ln <;> norm_num

/-- Enough terms for `w` bits. -/
theorem bFactor_enough {w j : Nat} (hw : 128 ≤ w) (h : bFactor w < 2 ^ j) : 2 ^ (w + 2 ^ j) ≤ (2 ^ j).factorial := by
  obtain ⟨d, h1, h2, h3⟩ := bFactor_spec hw
  rw [h2, Nat.div_lt_iff_lt_mul h1] at h
  have h4 := h3 j h
  have h5 := pow_self_le (2 ^ j)
  have h6 : (3 : ℕ) ^ 2 ^ j ≤ 2 ^ (2 * 2 ^ j) := by
    rw [pow_mul]; exact Nat.pow_le_pow_left (by norm_num) _
  have h7 : 2 ^ (w + 2 ^ j) * 2 ^ (2 * 2 ^ j) ≤ (2 ^ j) ^ 2 ^ j := by
    rw [← pow_mul, ← pow_add]
    refine Nat.pow_le_pow_right (by norm_num) ?_
    have := Nat.mul_le_mul_right (2 ^ j) h4
    nlinarith
  have h8 : 2 ^ (w + 2 ^ j) * 2 ^ (2 * 2 ^ j) ≤ (2 ^ j).factorial * 2 ^ (2 * 2 ^ j) :=
    le_trans h7 (le_trans h5 (Nat.mul_le_mul_left _ h6))
  exact Nat.le_of_mul_le_mul_right h8 (by positivity)

/-! ## The integers -/

/-- Numerator of `1/(a+1) + 1/((a+1)(a+2)) + ..`, `n` terms. -/
def eP (a n : Nat) : Nat := serP (fun _ => 1) (fun j => j) (fun _ => 1) a n

/-- `(a+1) * .. * (a+n)`. -/
def eQ (a n : Nat) : Nat := serQ (fun j => j) a n

theorem serQ_one (a : Nat) : ∀ n, serQ (fun _ => 1) a n = 1
  | 0 => rfl
  | n + 1 => by rw [serQ, serQ_one a n]

theorem eQ_zero : ∀ n, eQ 0 n = n.factorial
  | 0 => rfl
  | n + 1 => by
    have := eQ_zero n
    unfold eQ at *
    rw [serQ, this, Nat.factorial_succ, Nat.zero_add, Nat.mul_comm]

theorem eP_succ (n : Nat) : eP 0 (n + 1) = eP 0 n * (n + 1) + 1 := by
  unfold eP
  rw [serP, serQ_one, Nat.zero_add]

theorem eQ_pos (a n : Nat) : 0 < eQ a n := serQ_pos (fun j => Nat.succ_pos j) a n
theorem eP_pos (a n : Nat) (h : 0 < n) : 0 < eP a n := by
  obtain ⟨m, rfl⟩ : ∃ m, n = m + 1 := ⟨n - 1, by omega⟩
  exact serP_pos (fun _ => Nat.one_pos) (fun _ => Nat.one_pos) a m

/-- The state for the terms `a+1 .. a+n`. -/
structure ERep (t : Num × Num) (a n : Nat) : Prop where
  pos : 0 < n
  p : IsNat t.1 (eP a n)
  q : IsNat t.2 (eQ a n)

theorem e_fits {a n : Nat} (h : a + n ≤ 2 ^ 26) : (eQ a n : ℝ) < 2 ^ EMAX ∧ (eP a n : ℝ) < 2 ^ EMAX := by
  have h1 : eQ a n ≤ (2 ^ 26) ^ n := serQ_le (fun j hj => by omega)
  have h2 : eP a n ≤ n * eQ a n := (serP_le (fun j => by omega) (fun j => by omega) a n).2
  rw [← pow_mul] at h1
  have h3 : n < 2 ^ 28 := by omega
  have h4 : eP a n < 2 ^ (1 * (28 + 26 * n)) := by
    rw [one_mul, pow_add]
    calc eP a n ≤ n * eQ a n := h2
      _ < 2 ^ 28 * 2 ^ (26 * n) := Nat.mul_lt_mul_of_lt_of_le h3 h1 (by positivity)
  have h5 : eQ a n < 2 ^ (1 * (28 + 26 * n)) := by
    refine lt_of_le_of_lt h1 ?_
    exact (Nat.pow_lt_pow_iff_right (by norm_num)).2 (by omega)
  exact ⟨lt_emax_of_pow (by omega) h5, lt_emax_of_pow (by omega) h4⟩

theorem e_large {n : Nat} (h : 2 ^ 27 ≤ n) : (2 : ℝ) ^ EMAX ≤ (eQ 0 n : ℕ) := by
  rw [eQ_zero]
  have h1 : (2 ^ 27).factorial ≤ n.factorial := Nat.factorial_le h
  refine emax_le_of_pow (c := 25) (n := 2 ^ 27) (by norm_num) (le_trans ?_ h1)
  obtain ⟨m, hm⟩ : ∃ m : Nat, m = 2 ^ 27 := ⟨_, rfl⟩
  have h5 := pow_self_le m
  have h6 : (3 : ℕ) ^ m ≤ 2 ^ (2 * m) := by
    rw [pow_mul]; exact Nat.pow_le_pow_left (by norm_num) _
  have h7 : 2 ^ (25 * m) * 2 ^ (2 * m) = m ^ m := by
    rw [← pow_add, show 25 * m + 2 * m = 27 * m by ring, pow_mul, ← hm]
  rw [← hm]
  have h8 : 2 ^ (25 * m) * 2 ^ (2 * m) ≤ m.factorial * 2 ^ (2 * m) := by
    rw [h7]; exact le_trans h5 (Nat.mul_le_mul_left _ h6)
  exact Nat.le_of_mul_le_mul_right h8 (by positivity)

theorem eSeries : SeriesOk eLeaf eMerge ERep (2 ^ 26) (2 ^ 27) where
  leaf := by
    intro a ha
    obtain ⟨v, h1, h2⟩ := IsNat.fromWord (d := 1) (by norm_num) (by norm_num [B])
    refine ⟨(v, Num.fromUsize (a + 1)), ?_, by norm_num, ?_, ?_⟩
    · unfold eLeaf; rw [h1]
    · have : eP a 1 = 1 := by simp [eP, serP, serQ]
      rw [this]; exact h2
    · have : eQ a 1 = a + 1 := by simp [eQ, serQ]
      rw [this]; exact IsNat.fromUsize (by omega) (by unfold B; omega)
  merge := by
    rintro ta tb a m n ha hb hle
    have hQ : eQ a (m + n) = eQ a m * eQ (a + m) n := serQ_add _ _ _ _
    have hP : eP a (m + n) = eP a m * eQ (a + m) n + eP (a + m) n := by
      unfold eP eQ
      rw [serP_add, serQ_one, one_mul]
    unfold eMerge
    have hfit : a + m + n ≤ 2 ^ 26 → (eQ a (m + n) : ℝ) < 2 ^ EMAX ∧ (eP a (m + n) : ℝ) < 2 ^ EMAX :=
      fun h => e_fits (by omega)
    rcases ha.q.mul hb.q with ⟨⟨q, h1, h2⟩, -⟩ | ⟨h1, h2⟩
    · rw [h1]
      dsimp only
      rcases ha.p.mul hb.q with ⟨⟨n0, h3, h4⟩, -⟩ | ⟨h3, h4⟩
      · rw [h3]
        dsimp only
        rcases h4.add hb.p with ⟨⟨p, h5, h6⟩, -⟩ | ⟨h5, h6⟩
        · left
          rw [h5]
          refine ⟨(p, q), rfl, by have := ha.pos; omega, ?_, ?_⟩
          · rw [hP]; exact h6
          · rw [hQ]; exact h2
        · right
          rw [h5]
          refine ⟨rfl, ?_⟩
          by_contra hc
          have := (hfit (by omega)).2
          rw [hP] at this
          exact absurd h6 (not_le.2 this)
      · right
        rw [h3]
        refine ⟨rfl, ?_⟩
        by_contra hc
        have := (hfit (by omega)).2
        rw [hP, Nat.cast_add] at this
        have h0 : (0 : ℝ) ≤ (eP (a + m) n : ℕ) := by positivity
        linarith
    · right
      rw [h1]
      refine ⟨rfl, ?_⟩
      by_contra hc
      have := (hfit (by omega)).1
      rw [hQ] at this
      exact absurd h2 (not_le.2 this)
  bound := by
    intro t n h
    by_contra hc
    push Not at hc
    exact absurd (e_large hc) (not_le.2 h.q.lt)
  nmax_le := by norm_num

/-! ## The value -/

theorem eP_div : ∀ n, (eP 0 n : ℝ) / n.factorial + 1 = ∑ m ∈ Finset.range (n + 1), (1 : ℝ) ^ m / m.factorial
  | 0 => by simp [eP, serP]
  | n + 1 => by
    rw [Finset.sum_range_succ, ← eP_div n, eP_succ, Nat.factorial_succ]
    push_cast
    have : (n.factorial : ℝ) ≠ 0 := by positivity
    have : ((n : ℝ) + 1) ≠ 0 := by positivity
    field_simp
    ring

theorem e_bounds {n : Nat} (h : 0 < n) : (eP 0 n : ℝ) / n.factorial + 1 ≤ Real.exp 1 ∧
    Real.exp 1 ≤ (eP 0 n : ℝ) / n.factorial + 1 + 1 / n.factorial := by
  rw [eP_div]
  refine ⟨Real.sum_le_exp_of_nonneg (by norm_num) _, ?_⟩
  have h1 := Real.exp_bound' (x := 1) (by norm_num) (le_refl _) (n := n + 1) (by omega)
  refine le_trans h1 (add_le_add_right ?_ _)
  rw [one_pow, one_mul, Nat.factorial_succ]
  push_cast
  have h2 : (0 : ℝ) < n.factorial := by positivity
  have h3 : (1 : ℝ) ≤ n := by exact_mod_cast h
  rw [div_le_div_iff₀ (by positivity) h2]
  have : (n + 1 + 1 : ℝ) ≤ (n + 1) * (n + 1) := by nlinarith
  nlinarith

theorem eP_mod {n : Nat} (h : 3 < n) (h3 : n % 3 ≠ 0) : eP 0 n % 3 = 2 := by
  obtain ⟨k, hk⟩ : ∃ k, n = 3 * (k + 1) + 1 ∨ n = 3 * (k + 1) + 2 := ⟨n / 3 - 1, by omega⟩
  have h1 : eP 0 (3 * (k + 1)) % 3 = 1 := by
    rw [show 3 * (k + 1) = (3 * k + 2) + 1 by ring, eP_succ,
      show eP 0 (3 * k + 2) * (3 * k + 2 + 1) = 3 * (eP 0 (3 * k + 2) * (k + 1)) by ring]
    omega
  have h2 : eP 0 (3 * (k + 1) + 1) % 3 = 2 := by
    rw [eP_succ, Nat.add_mod, Nat.mul_mod, h1]
    have : (3 * (k + 1) + 1) % 3 = 1 := by omega
    rw [this]
  rcases hk with rfl | rfl
  · exact h2
  · rw [eP_succ (3 * (k + 1) + 1), Nat.add_mod, Nat.mul_mod, h2]
    have : (3 * (k + 1) + 1 + 1) % 3 = 2 := by omega
    rw [this]

/-- What is known of the value kept for `b` terms. -/
def EValOk (b : Nat) (v : Num) : Prop := 64 ≤ b → v.WF ∧ v.inexact = true ∧
  ∀ w : Nat, 64 ∣ w → 2 ^ (w + b) ≤ b.factorial → w ≤ 64 * v.m.m.length ∧
    ∃ c : ℝ, v.toK = Real.exp 1 * c ∧ |c - 1| ≤ 2 ^ (-(w : ℤ) - 2)

theorem ONE_nz : Num.ONE.isZero = false := by decide

theorem eP_ge : ∀ n, (n + 1).factorial ≤ eP 0 (n + 1)
  | 0 => by simp [eP, serP, serQ]
  | n + 1 => by
    rw [eP_succ, Nat.factorial_succ, Nat.mul_comm]
    have := Nat.mul_le_mul_right (n + 1 + 1) (eP_ge n)
    omega

theorem e_value {t : Num × Num} {i : Nat} (h : ERep t 0 (2 ^ i)) : ∃ v, eCalc t = .ok v ∧ EValOk (2 ^ i) v := by
  obtain ⟨n, hn⟩ : ∃ n, n = 2 ^ i := ⟨_, rfl⟩
  have hi : n % 3 ≠ 0 := by
    intro h0
    have h1 : 3 ∣ 2 ^ i := by rw [← hn]; exact Nat.dvd_of_mod_eq_zero h0
    exact absurd (Nat.prime_three.dvd_of_dvd_pow h1) (by norm_num)
  rw [← hn] at h ⊢
  have hn0 := h.pos
  have hq := h.q
  rw [eQ_zero] at hq
  obtain ⟨L, hL⟩ : ∃ L, L = max t.1.m.m.length t.2.m.m.length := ⟨_, rfl⟩
  have hprec : max t.1.m.maxBitLen t.2.m.maxBitLen = 64 * L := by
    unfold Mantissa.maxBitLen; omega
  have hlen : ∀ {x : Num} {N : Nat}, IsNat x N → 64 * x.m.m.length ≤ 2 ^ 31 + 62 := by
    intro x N hx
    have h1 := hx.len
    have h2 := hx.wf.emax
    unfold EMAX at h2
    omega
  have hL1 : 64 * L ≤ 2 ^ 31 + 62 := by
    have := hlen h.p
    have := hlen h.q
    omega
  have hL0 : 0 < L := by
    have h1 : 0 < t.2.m.m.length := by
      by_contra hc
      have h2 := h.q.nz
      have h3 : t.2.m.m = [] := List.length_eq_zero_iff.1 (by omega)
      have h4 : (t.2.toK : ℝ) = 0 := by unfold Num.toK; rw [h3]; simp [val]
      rw [h.q.eq] at h4
      have := eQ_pos 0 n
      norm_cast at h4; omega
    omega
  have hrp : roundP (64 * L) = 64 * L := by
    unfold roundP USIZE_MAX; omega
  have hpm : roundP (64 * L) < PMAX := by rw [hrp]; unfold PMAX; omega
  unfold eCalc
  dsimp only
  rw [hprec]
  -- the quotient
  have hS0 : (1 : ℝ) ≤ (eP 0 n : ℝ) / n.factorial := by
    rw [le_div_iff₀ (by positivity), one_mul]
    obtain ⟨m, rfl⟩ : ∃ m, n = m + 1 := ⟨n - 1, by omega⟩
    exact_mod_cast eP_ge m
  have hS1 : (eP 0 n : ℝ) / n.factorial ≤ 2 := by
    have := (e_bounds hn0).1
    have := Real.exp_one_lt_three
    linarith
  obtain ⟨S, hS⟩ : ∃ S : ℝ, S = (eP 0 n : ℝ) / n.factorial := ⟨_, rfl⟩
  have hd := div_spec (K := ℝ) h.p.wf h.q.wf h.q.nz (p := 64 * L) (by omega) hpm .none
  rw [h.p.eq, hq.eq, hrp, ← hS] at hd
  rw [← hS] at hS0 hS1
  obtain ⟨f0, g1, g2, g3, g4, g5, g6⟩ := none_step (le_trans (by norm_num) hS0) (le_trans hS1 (by norm_num)) hd
  rw [g1]
  dsimp only
  obtain ⟨δ, hδ⟩ : ∃ δ : ℝ, δ = 2 ^ (1 - ((64 * L : ℕ) : ℤ)) := ⟨_, rfl⟩
  have hδ0 : 0 < δ := by rw [hδ]; positivity
  have hδ1 : δ ≤ 1 / 4 := by
    rw [hδ, show (1 / 4 : ℝ) = 2 ^ (-2 : ℤ) by norm_num]
    exact zpow_le_zpow_right₀ (by norm_num) (by push_cast; omega)
  rw [← hδ] at g5
  have hf0 : f0.isZero = false := by
    rw [← Bool.not_eq_true, ← g2.toK_eq_zero (K := ℝ)]
    nlinarith
  have ha := addSub_spec (K := ℝ) g2 ONE_WF (p := 64 * L) (by omega) hpm true .none
  rw [if_pos rfl, ONE_toK, hrp] at ha
  obtain ⟨v, k1, k2, k3, k4, k5, k6⟩ := none_step (by norm_num; nlinarith) (by norm_num; linarith) ha
  refine ⟨v, k1, fun h64 => ⟨k2, ?_, fun w hw hgood => ?_⟩⟩
  · rw [k6]
    left
    unfold addIx
    rw [if_neg (by rw [hf0]; simp), if_neg (by rw [ONE_nz]; simp)]
    have : f0.inexact = true := by
      rw [g6]
      right
      rw [hS]
      exact not_dyadic Nat.prime_three (by norm_num) (Nat.factorial_pos n)
        ((Nat.Prime.dvd_factorial Nat.prime_three).2 (by omega)) (by have := eP_mod (by omega) hi; omega)
    rw [this]; rfl
  · have hlw : w < 64 * L := by
      have h1 := hq.lt_len (s := n) (by
        rw [pow_dvd_iff_le_emultiplicity]
        exact not_le.2 (Nat.emultiplicity_two_factorial_lt (by omega)))
      have h2 := lt_of_le_of_lt hgood h1
      have := (Nat.pow_lt_pow_iff_right (by norm_num : 1 < 2)).1 h2
      omega
    refine ⟨by omega, apx_of_bounds (Real.exp_pos 1) ?_ ?_⟩
    · obtain ⟨b1, b2⟩ := e_bounds hn0
      rw [← hS] at b1 b2
      rw [← hδ] at k5
      obtain ⟨η, hη⟩ : ∃ η : ℝ, η = 2 ^ (-(w : ℤ) - 2) := ⟨_, rfl⟩
      obtain ⟨ν, hν⟩ : ∃ ν : ℝ, ν = 1 / n.factorial := ⟨_, rfl⟩
      rw [← hν] at b2
      rw [← hη]
      have e1 : δ ≤ η / 8 := by
        rw [hη, hδ, show (8 : ℝ) = 2 ^ (3 : ℤ) by norm_num, ← zpow_sub₀ (by norm_num)]
        exact zpow_le_zpow_right₀ (by norm_num) (by push_cast; omega)
      have e2 : ν ≤ η / 4 := by
        rw [hη, hν, show (4 : ℝ) = 2 ^ (2 : ℤ) by norm_num, ← zpow_sub₀ (by norm_num), one_div]
        have q1 : (2 : ℝ) ^ (w + n) ≤ n.factorial := by exact_mod_cast hgood
        have q2 := inv_anti₀ (by positivity) q1
        refine le_trans q2 ?_
        rw [← zpow_natCast, ← zpow_neg]
        exact zpow_le_zpow_right₀ (by norm_num) (by push_cast; omega)
      have e3 := Real.exp_one_gt_two
      have e4 := Real.exp_one_lt_three
      have e5 : (S + 1) * (1 - 2 * δ) ≤ v.toK := by nlinarith
      nlinarith
    · have := (e_bounds hn0).1
      rw [← hS] at this
      linarith

/-! ## The loop -/

theorem exp_one_binade : (2 : ℝ) ^ ((2 : ℤ) - 1) ≤ Real.exp 1 * (7 / 8) ∧ Real.exp 1 * (9 / 8) ≤ (2 : ℝ) ^ (2 : ℤ) := by
  have h1 := Real.exp_one_gt_d9
  have h2 := Real.exp_one_lt_d9
  constructor <;> norm_num <;> norm_num at h1 h2 <;> linarith

theorem roundP_dvd (x : Nat) : 64 ∣ roundP x := by unfold roundP; omega

theorem e_loop {pw : Nat} (hp : 0 < pw) (hpm : 64 * pw < PMAX) (rm : RM) :
    LoopOk eCalc ERep bFactor (64 * pw) rm EValOk (fun i w _ => 64 ∣ i ∧ 64 ∣ w ∧ 64 * pw + 64 ≤ w)
      (fun v => DecOk rm (64 * pw) (Real.exp 1) v ∧ v.inexact = true)
      (rm = .none ∨ rm.directed = true ∧ ¬ NearGrid (64 * pw) 63 (Real.exp 1)) where
  value := fun h => e_value h
  test := by
    rintro i w j v ⟨-, hw, hwp⟩ hk hv
    have hgood := bFactor_enough (by omega) hk
    have h64 : 64 ≤ 2 ^ j := by
      obtain ⟨d, h1, h2, h3⟩ := bFactor_spec (w := w) (by omega)
      rw [h2, Nat.div_lt_iff_lt_mul h1] at hk
      have h4 := h3 j hk
      by_contra hc
      have hj : j ≤ 5 := by
        by_contra hj
        have : 2 ^ 6 ≤ 2 ^ j := Nat.pow_le_pow_right (by norm_num) (by omega)
        omega
      have h5 : d ≤ 2 := by omega
      have := Nat.mul_le_mul (show 2 ^ j ≤ 63 by omega) h5
      omega
    obtain ⟨v1, v2, v3⟩ := hv h64
    obtain ⟨v4, c, v5, v6⟩ := v3 w hw hgood
    exact apx_test v1 v2 (q := 2) (by norm_num) exp_one_binade.1 exp_one_binade.2 v5 v6 hp hpm hwp hw v4 rm
  fail := by
    rintro i w j j' ⟨hi, hw, hwp⟩ - -
    exact ⟨roundP_dvd _, by omega, by omega⟩
  grow := by
    rintro i w j j' h - -
    exact h

theorem e_new : ∃ c, eNew = .ok c ∧ CacheOk ERep EValOk c := by
  unfold eNew
  rcases eSeries.split 63 0 64 (by norm_num) (by norm_num) (by norm_num) with ⟨t, h1, h2⟩ | ⟨h1, h2⟩
  · rw [Nat.zero_add] at h1
    rw [h1]
    dsimp only
    obtain ⟨v, h3, h4⟩ := e_value (i := 6) h2
    rw [h3]
    exact ⟨_, rfl, h2, ⟨6, rfl⟩, h4⟩
  · exact absurd h2 (by norm_num)

end AF
