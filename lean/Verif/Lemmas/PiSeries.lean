import Verif.Lemmas.ConstVal
import Verif.Lemmas.PiLoop
import Verif.Model.Pi
/-!
# The integers of the Chudnovsky series
-/

namespace AF

set_option linter.unusedSectionVars false

/-- The number `x` is the integer `z`, not zero, without trailing zero words. -/
structure IsInt (x : Num) (z : ℤ) : Prop where
  wf : x.WF
  eq : (x.toK : ℝ) = z
  exact : x.inexact = false
  len : (64 * x.m.m.length : ℤ) ≤ x.e + 63
  ne : z ≠ 0

theorem IsInt.nz {x : Num} {z : ℤ} (h : IsInt x z) : x.isZero = false := by
  rw [← Bool.not_eq_true, ← h.wf.toK_eq_zero (K := ℝ), h.eq]
  exact_mod_cast h.ne

theorem IsNat.toInt {x : Num} {N : Nat} (h : IsNat x N) : IsInt x N :=
  ⟨h.wf, by rw [h.eq]; simp, h.exact, h.len, by have := h.pos; omega⟩

theorem IsInt.toNat {x : Num} {N : Nat} (h : IsInt x N) : IsNat x N :=
  ⟨h.wf, by rw [h.eq]; simp, h.exact, h.len, by have := h.ne; omega⟩

/-- The result of an exact operation on integers. -/
theorem FullDelivers.isInt {z : ℤ} (hz : z ≠ 0) {r : Except Err Num} (h : FullDelivers (z : ℝ) false r) :
    (∃ v, r = .ok v ∧ IsInt v z) ∧ |(z : ℝ)| < 2 ^ EMAX ∨ IsOvf r ∧ (2 : ℝ) ^ EMAX ≤ |(z : ℝ)| := by
  obtain ⟨-, h2, h3⟩ := h
  have hp : (1 : ℝ) ≤ |(z : ℝ)| := by exact_mod_cast Int.one_le_abs hz
  rcases lt_or_ge |(z : ℝ)| (2 ^ EMAX) with h | h
  · left
    refine ⟨?_, h⟩
    obtain ⟨v, h4, h5, h6, h7, h8, h9, h10, h11⟩ := h2 (le_trans (zpow_le_one_of_nonpos₀ (by norm_num)
      (by unfold EMIN; norm_num)) hp) h
    have hl : (64 * v.m.m.length : ℤ) ≤ v.e + 63 := by
      refine len_of_low h7.1 h7.2.1 (N := z.natAbs) h11 ?_
      rw [Nat.cast_natAbs, Int.cast_abs, ← h5]
      unfold Num.toK
      rw [mul_assoc, abs_toK, abs_of_nonneg (by positivity)]
    refine ⟨v, h4, ⟨h7.1, ?_, h9, h10, fun _ hlt => absurd hlt (by omega), ?_⟩, h5, h6, hl, hz⟩
    · rw [h8, h7.size]
    · unfold EMAX at h10; omega
  · right
    refine ⟨?_, h⟩
    rcases h3 h with h4 | h4
    · exact ⟨_, h4.1⟩
    · exact ⟨_, h4.1⟩

theorem IsInt.mul {x y : Num} {M N : ℤ} (hx : IsInt x M) (hy : IsInt y N) :
    (∃ v, x.mulFullPrec y = .ok v ∧ IsInt v (M * N)) ∧ |((M * N : ℤ) : ℝ)| < 2 ^ EMAX ∨
      IsOvf (x.mulFullPrec y) ∧ (2 : ℝ) ^ EMAX ≤ |((M * N : ℤ) : ℝ)| := by
  have h := mulGeneral_full (K := ℝ) hx.wf hy.wf .none
  have hi : mulIx x y = false := by unfold mulIx; rw [hx.exact, hy.exact]; simp
  rw [hx.eq, hy.eq, hi, ← Int.cast_mul] at h
  exact h.isInt (mul_ne_zero hx.ne hy.ne)

theorem IsInt.add {x y : Num} {M N : ℤ} (hx : IsInt x M) (hy : IsInt y N) (h0 : M + N ≠ 0) :
    (∃ v, x.addFullPrec y = .ok v ∧ IsInt v (M + N)) ∧ |((M + N : ℤ) : ℝ)| < 2 ^ EMAX ∨
      IsOvf (x.addFullPrec y) ∧ (2 : ℝ) ^ EMAX ≤ |((M + N : ℤ) : ℝ)| := by
  have h := addSub_full (K := ℝ) hx.wf hy.wf hx.nz hy.nz true .none
  rw [if_pos rfl, hx.eq, hy.eq, hx.exact, hy.exact, ← Int.cast_add] at h
  exact h.isInt h0

theorem IsInt.invSign {x : Num} {z : ℤ} (h : IsInt x z) : IsInt x.invSign (-z) := by
  have hm : x.invSign.m = x.m ∧ x.invSign.e = x.e ∧ x.invSign.inexact = x.inexact ∧
      (Sign.toK x.invSign.s : ℝ) = -Sign.toK x.s := by
    unfold Num.invSign Num.isNegative Num.setSign
    cases hs : x.s <;> simp [Sign.toK, Sign.isPos, hs]
  obtain ⟨h1, h2, h3, h4⟩ := hm
  refine ⟨⟨?_, ?_, ?_, ?_, ?_, ?_⟩, ?_, ?_, ?_, neg_ne_zero.2 h.ne⟩
  · rw [h1]; exact h.wf.wf
  · rw [h1]; exact h.wf.bits
  · rw [h2]; exact h.wf.emin
  · rw [h2]; exact h.wf.emax
  · rw [h1, h2]; exact h.wf.norm
  · rw [h1]; exact h.wf.sized
  · have := h.eq
    unfold Num.toK at this ⊢
    rw [h1, h2, h4]
    push_cast at this ⊢
    rw [← this]; ring
  · rw [h3]; exact h.exact
  · rw [h1, h2]; exact h.len

/-! ## The integers -/

/-- The factor of the denominator. -/
def chQ (j : Nat) : Nat := 10939058860032000 * (j * j * j)

/-- The factor of the numerator. -/
def chR (j : Nat) : Nat := (6 * j - 5) * (2 * j - 1) * (6 * j - 1)

/-- The linear factor. -/
def chA (j : Nat) : Nat := 13591409 + 545140134 * j

/-- One numerator, with its sign. -/
def chS (j : Nat) : ℤ := if j % 2 ≠ 0 then -(chR j * chA j : ℕ) else (chR j * chA j : ℕ)

def piQ (a n : Nat) : Nat := serQ chQ a n
def piR (a n : Nat) : Nat := serQ chR a n

/-- The numerator of the sum over the terms `a+1 .. a+n`. -/
def piP (a : Nat) : Nat → ℤ
  | 0 => 0
  | n + 1 => piP a n * chQ (a + n + 1) + piR a n * chS (a + n + 1)

theorem chR_succ (i : Nat) : chR (i + 1) = (6 * i + 1) * (2 * i + 1) * (6 * i + 5) := by
  unfold chR
  rw [show 6 * (i + 1) - 5 = 6 * i + 1 by omega, show 2 * (i + 1) - 1 = 2 * i + 1 by omega,
    show 6 * (i + 1) - 1 = 6 * i + 5 by omega]

theorem chQ_pos (i : Nat) : 0 < chQ (i + 1) := by unfold chQ; positivity
theorem chR_pos (i : Nat) : 0 < chR (i + 1) := by rw [chR_succ]; positivity
theorem chA_pos (i : Nat) : 0 < chA i := by unfold chA; positivity

theorem chR_le (i : Nat) : 2 ^ 47 * chR (i + 1) ≤ chQ (i + 1) := by
  have h : chR (i + 1) ≤ 72 * ((i + 1) * (i + 1) * (i + 1)) := by
    rw [chR_succ]
    have : (6 * i + 1) * (2 * i + 1) * (6 * i + 5) ≤ (6 * (i + 1)) * (2 * (i + 1)) * (6 * (i + 1)) :=
      Nat.mul_le_mul (Nat.mul_le_mul (by omega) (by omega)) (by omega)
    linarith
  unfold chQ
  calc 2 ^ 47 * chR (i + 1) ≤ 2 ^ 47 * (72 * ((i + 1) * (i + 1) * (i + 1))) := Nat.mul_le_mul_left _ h
    _ = (2 ^ 47 * 72) * ((i + 1) * (i + 1) * (i + 1)) := by ring
    _ ≤ _ := Nat.mul_le_mul_right _ (by norm_num)

theorem piQ_pos (a n : Nat) : 0 < piQ a n := serQ_pos chQ_pos a n
theorem piR_pos (a n : Nat) : 0 < piR a n := serQ_pos chR_pos a n

theorem piR_le (a : Nat) : ∀ n, 2 ^ (47 * n) * piR a n ≤ piQ a n
  | 0 => by simp [piR, piQ, serQ]
  | n + 1 => by
    have h := piR_le a n
    unfold piR piQ at *
    rw [serQ, serQ]
    calc 2 ^ (47 * (n + 1)) * (serQ chR a n * chR (a + n + 1))
        = (2 ^ (47 * n) * serQ chR a n) * (2 ^ 47 * chR (a + n + 1)) := by ring
      _ ≤ _ := Nat.mul_le_mul h (chR_le _)

theorem piP_add (a m : Nat) : ∀ n, piP a (m + n) = piP a m * piQ (a + m) n + piR a m * piP (a + m) n
  | 0 => by simp [piP, piQ, serQ]
  | n + 1 => by
    have hr : piR a (m + n) = piR a m * piR (a + m) n := serQ_add _ _ _ _
    have hq : piQ (a + m) (n + 1) = piQ (a + m) n * chQ (a + m + n + 1) := rfl
    rw [← Nat.add_assoc, piP, piP, piP_add a m n, hr, hq, show a + (m + n) + 1 = a + m + n + 1 by omega]
    push_cast
    ring

theorem chS_abs (j : Nat) : |chS j| = (chR j * chA j : ℕ) := by
  unfold chS
  split
  · rw [abs_neg, abs_of_nonneg (by positivity)]
  · rw [abs_of_nonneg (by positivity)]

theorem piP_one (a : Nat) : piP a 1 = chS (a + 1) := by
  simp [piP, piR, serQ]

/-- The numerator is smaller than the term before the range, and not zero. -/
theorem piP_lt : ∀ n a, |piP a n| < chA a * piQ a n ∧ (0 < n → piP a n ≠ 0)
  | 0, a => by
    refine ⟨?_, fun h => absurd h (by omega)⟩
    simp only [piP, piQ, serQ, abs_zero]
    have := chA_pos a
    push_cast; omega
  | n + 1, a => by
    obtain ⟨h1, -⟩ := piP_lt n (a + 1)
    have hP : piP a (n + 1) = chS (a + 1) * piQ (a + 1) n + piR a 1 * piP (a + 1) n := by
      rw [Nat.add_comm n 1, piP_add, piP_one]
    have hR : piR a 1 = chR (a + 1) := by simp [piR, serQ]
    have hQ : piQ a (n + 1) = chQ (a + 1) * piQ (a + 1) n := by
      unfold piQ
      rw [Nat.add_comm n 1, serQ_add]
      simp [serQ]
    have hq := piQ_pos (a + 1) n
    have hr := chR_pos a
    have hA := chA_pos (a + 1)
    have hle := chR_le a
    have hAA : chA (a + 1) ≤ 42 * chA a := by unfold chA; omega
    have hs := chS_abs (a + 1)
    obtain ⟨Q, hQ'⟩ : ∃ Q : ℕ, Q = piQ (a + 1) n := ⟨_, rfl⟩
    obtain ⟨r, hr'⟩ : ∃ r : ℕ, r = chR (a + 1) := ⟨_, rfl⟩
    obtain ⟨A, hA'⟩ : ∃ A : ℕ, A = chA (a + 1) := ⟨_, rfl⟩
    rw [hR] at hP
    rw [← hQ'] at h1 hP hQ hq
    rw [← hr'] at hP hr hle hs
    rw [← hA'] at h1 hA hAA hs
    push_cast at hs
    have e1 : |chS (a + 1) * Q| = (r * A * Q : ℤ) := by
      rw [abs_mul, hs, abs_of_nonneg (show (0 : ℤ) ≤ Q by positivity)]
    have e2 : |(r : ℤ) * piP (a + 1) n| < r * (A * Q) := by
      rw [abs_mul, abs_of_nonneg (show (0 : ℤ) ≤ r by positivity)]
      exact mul_lt_mul_of_pos_left h1 (by exact_mod_cast hr)
    refine ⟨?_, fun _ h0 => ?_⟩
    · have e3 := abs_add_le (chS (a + 1) * Q) ((r : ℤ) * piP (a + 1) n)
      rw [← hP] at e3
      have e4 : |piP a (n + 1)| < 2 * (r * A * Q) := by linarith
      refine lt_of_lt_of_le e4 ?_
      rw [hQ]
      have e5 : 2 * (r * A * Q) ≤ chA a * (chQ (a + 1) * Q) := by
        calc 2 * (r * A * Q) ≤ 2 * (r * (42 * chA a) * Q) :=
              Nat.mul_le_mul_left _ (Nat.mul_le_mul_right _ (Nat.mul_le_mul_left _ hAA))
          _ = chA a * ((84 * r) * Q) := by ring
          _ ≤ chA a * (chQ (a + 1) * Q) := Nat.mul_le_mul_left _ (Nat.mul_le_mul_right _ (by omega))
      exact_mod_cast e5
    · rw [hP] at h0
      have e3 : chS (a + 1) * Q = -((r : ℤ) * piP (a + 1) n) := by linarith
      rw [e3, abs_neg] at e1
      rw [e1] at e2
      exact absurd e2 (by rw [mul_assoc]; exact lt_irrefl _)

/-- The state for the terms `a+1 .. a+n`. -/
structure PiRep (t : Num × Num × Num × Nat) (a n : Nat) : Prop where
  pos : 0 < n
  p : IsInt t.1 (piP a n)
  q : IsInt t.2.1 (piQ a n)
  r : IsInt t.2.2.1 (piR a n)
  n : t.2.2.2 = n

/-- The values are in range up to the term `2^24`. -/
theorem pi_fits {a n : Nat} (h : a + n ≤ 2 ^ 24) :
    ((2 ^ 64 * piQ a n : ℕ) : ℝ) < 2 ^ EMAX ∧ (|piP a n| : ℝ) < ((2 ^ 64 * piQ a n : ℕ) : ℝ) ∧
      (piR a n : ℝ) ≤ ((2 ^ 64 * piQ a n : ℕ) : ℝ) := by
  have h1 : piQ a n ≤ (2 ^ 126) ^ n := by
    refine serQ_le (fun j hj => ?_)
    unfold chQ
    have : a + j + 1 ≤ 2 ^ 24 := by omega
    calc _ ≤ 10939058860032000 * (2 ^ 24 * 2 ^ 24 * 2 ^ 24) :=
          Nat.mul_le_mul_left _ (Nat.mul_le_mul (Nat.mul_le_mul this this) this)
      _ ≤ 2 ^ 126 := by norm_num
  rw [← pow_mul] at h1
  refine ⟨?_, ?_, ?_⟩
  · refine lt_emax_of_pow (c := 1) (n := 65 + 126 * n) (by omega) ?_
    rw [one_mul]
    calc 2 ^ 64 * piQ a n ≤ 2 ^ 64 * 2 ^ (126 * n) := Nat.mul_le_mul_left _ h1
      _ = 2 ^ (64 + 126 * n) := by rw [pow_add]
      _ < _ := Nat.pow_lt_pow_right (by norm_num) (by omega)
  · have h2 := (piP_lt n a).1
    have h3 : (chA a * piQ a n : ℤ) ≤ ((2 ^ 64 * piQ a n : ℕ) : ℤ) := by
      have : chA a ≤ 2 ^ 64 := by unfold chA; omega
      exact_mod_cast Nat.mul_le_mul_right _ this
    have h4 := lt_of_lt_of_le h2 h3
    rw [← Int.cast_abs]
    exact_mod_cast h4
  · have h2 := piR_le a n
    have h3 : piR a n ≤ piQ a n := le_trans (Nat.le_mul_of_pos_left _ (by positivity)) h2
    exact_mod_cast le_trans h3 (Nat.le_mul_of_pos_left _ (by positivity))

theorem pi_large {n : Nat} (h : 9 * 2 ^ 21 ≤ n) : (2 : ℝ) ^ EMAX ≤ (piQ 0 n : ℕ) := by
  have h0 : ∀ n, 2 ^ (53 * n) * n.factorial ^ 3 ≤ piQ 0 n := by
    intro n
    induction n with
    | zero => simp [piQ, serQ]
    | succ n ih =>
      unfold piQ at *
      rw [serQ, Nat.factorial_succ, Nat.zero_add]
      calc 2 ^ (53 * (n + 1)) * ((n + 1) * n.factorial) ^ 3
          = (2 ^ (53 * n) * n.factorial ^ 3) * (2 ^ 53 * ((n + 1) * (n + 1) * (n + 1))) := by ring
        _ ≤ _ := Nat.mul_le_mul ih (by unfold chQ; exact Nat.mul_le_mul_right _ (by norm_num))
  obtain ⟨M, hM⟩ : ∃ M : Nat, M = 9 * 2 ^ 21 := ⟨_, rfl⟩
  have hmono : piQ 0 M ≤ piQ 0 n := by
    obtain ⟨k, rfl⟩ : ∃ k, n = M + k := ⟨n - M, by omega⟩
    have : piQ 0 (M + k) = piQ 0 M * piQ (0 + M) k := serQ_add _ _ _ _
    rw [this]
    exact Nat.le_mul_of_pos_right _ (piQ_pos _ _)
  refine emax_le_of_pow (c := 119) (n := M) (by omega) (le_trans (le_trans ?_ (h0 M)) hmono)
  have h5 := pow_self_le M
  have h6 : 2 ^ (22 * M) ≤ M.factorial := by
    refine Nat.le_of_mul_le_mul_right (c := 3 ^ M) ?_ (by positivity)
    refine le_trans ?_ h5
    rw [pow_mul, ← Nat.mul_pow]
    exact Nat.pow_le_pow_left (by omega) M
  calc 2 ^ (119 * M) = 2 ^ (53 * M) * (2 ^ (22 * M)) ^ 3 := by
        rw [← pow_mul, ← pow_add]; congr 1; ring
    _ ≤ _ := Nat.mul_le_mul_left _ (Nat.pow_le_pow_left h6 3)

end AF
