import Verif.Lemmas.Mono
import Verif.Lemmas.Num
/-!
# Consequences of `Delivers`
-/

set_option linter.unusedSectionVars false

namespace AF

variable {K : Type*} [Field K] [LinearOrder K] [IsStrictOrderedRing K]

theorem Num.WF.abs_lt_zpow {x : Num} (h : x.WF) : |(x.toK : K)| < 2 ^ x.e := by
  rw [Num.abs_val]
  have h1 : (val x.m.m : K) < 2 ^ (64 * x.m.m.length) := by exact_mod_cast val_lt_two_pow h.wf
  calc (val x.m.m : K) * 2 ^ (x.e - (64 * x.m.m.length : ℕ)) <
      2 ^ (64 * x.m.m.length) * 2 ^ (x.e - (64 * x.m.m.length : ℕ)) :=
        mul_lt_mul_of_pos_right h1 (two_zpow_pos _)
    _ = 2 ^ x.e := by rw [← zpow_natCast, two_zpow_mul]; congr 1; ring

theorem Num.WF.abs_lt_emax {x : Num} (h : x.WF) : |(x.toK : K)| < 2 ^ EMAX :=
  lt_of_lt_of_le h.abs_lt_zpow (zpow_le_zpow_right₀ (by norm_num) h.emax)

theorem RoundsFmt.toPrec {rm : RM} {P : Nat} {X r : K} (h : RoundsFmt rm P X r)
    (hn : (2 : K) ^ (EMIN - 1) ≤ |X|) : RoundsPrec rm P X r := by
  rcases h with h | ⟨q, h1, h2, h3⟩
  · exact Or.inl h
  · right
    refine ⟨q, h1, h2, ?_⟩
    have : EMIN ≤ q := by
      by_contra hc
      push Not at hc
      have : (2 : K) ^ q ≤ 2 ^ (EMIN - 1) := zpow_le_zpow_right₀ (by norm_num) (by omega)
      linarith
    rwa [max_eq_left this] at h3

theorem RoundsPrec.self_zpow (rm : RM) {P : Nat} (hP : 0 < P) (a : ℤ) :
    RoundsPrec rm P ((2 : K) ^ a) (2 ^ a) := by
  right
  refine ⟨a + 1, ?_, ?_, ?_⟩
  · rw [abs_of_pos (two_zpow_pos _)]; apply le_of_eq; congr 1; ring
  · rw [abs_of_pos (two_zpow_pos _)]; exact zpow_lt_zpow_right₀ (by norm_num) (by omega)
  · exact zpow_grid rm (by omega)

theorem RoundsPrec.self_neg_zpow (rm : RM) {P : Nat} (hP : 0 < P) (a : ℤ) :
    RoundsPrec rm P (-(2 : K) ^ a) (-2 ^ a) := by
  right
  refine ⟨a + 1, ?_, ?_, ?_⟩
  · rw [abs_neg, abs_of_pos (two_zpow_pos _)]; apply le_of_eq; congr 1; ring
  · rw [abs_neg, abs_of_pos (two_zpow_pos _)]; exact zpow_lt_zpow_right₀ (by norm_num) (by omega)
  · exact neg_zpow_grid rm (by omega)

theorem RoundsPrec.abs_le {rm : RM} {P : Nat} (hP : 0 < P) {X t : K} (h : RoundsPrec rm P X t)
    {a : ℤ} (hX : |X| ≤ 2 ^ a) : |t| ≤ 2 ^ a := by
  rw [_root_.abs_le] at hX ⊢
  exact ⟨(RoundsPrec.self_neg_zpow rm hP a).mono hP h hX.1,
    h.mono hP (RoundsPrec.self_zpow rm hP a) hX.2⟩

/-- In the normal range a delivered number is the exact value correctly rounded to `P` bits. -/
theorem Delivers.normal {rm : RM} {P : Nat} {X : K} {ix : Bool} {v : Num}
    (h : Delivers rm P X ix (.ok v)) (hn : (2 : K) ^ (EMIN - 1) ≤ |X|) :
    RoundsPrec rm P X v.toK := by
  obtain ⟨_, _, _, _, _, h | ⟨_, h, _⟩⟩ := h
  · exact h.toPrec hn
  · exact absurd h (not_lt.2 hn)

theorem EMIN_lt_EMAX : EMIN < EMAX := by unfold EMIN EMAX; norm_num

/-- Overflow is reported exactly when the rounded exact value is out of range. -/
theorem Delivers.error_iff {rm : RM} {P : Nat} (hP : 0 < P) {X : K} {ix : Bool}
    {r : Except Err Num} (h : Delivers rm P X ix r) :
    (∃ er, r = .error er) ↔ ∃ t : K, RoundsPrec rm P X t ∧ (2 : K) ^ EMAX ≤ |t| := by
  constructor
  · rintro ⟨er, rfl⟩
    exact h.2
  · rintro ⟨t, h1, h2⟩
    cases r with
    | error e => exact ⟨e, rfl⟩
    | ok v =>
      exfalso
      have hn : (2 : K) ^ (EMIN - 1) ≤ |X| := by
        by_contra hc
        push Not at hc
        have h3 := h1.abs_le hP hc.le
        have h4 : (2 : K) ^ (EMIN - 1) < 2 ^ EMAX :=
          zpow_lt_zpow_right₀ (by norm_num) (by have := EMIN_lt_EMAX; omega)
        linarith
      have h3 := (h.normal hn).unique hP h1
      have h4 := h.1.abs_lt_emax (K := K)
      rw [h3] at h4
      linarith

theorem RoundsFmt.rounds {rm : RM} {P : Nat} {X r : K} (h : RoundsFmt rm P X r) :
    ∃ u : K, 0 < u ∧ Rounds rm X u r := by
  rcases h with ⟨h, h'⟩ | ⟨q, h1, h2, h3⟩
  · refine ⟨1, one_pos, ?_⟩
    rw [h, h']
    simpa using Rounds.self (K := K) rm one_pos 0
  · exact ⟨_, two_zpow_pos _, h3⟩

theorem Delivers.directed {rm : RM} {P : Nat} {X : K} {ix : Bool} {v : Num}
    (h : Delivers rm P X ix (.ok v)) (hn : rm.nearest = false) : RoundsFmt rm P X v.toK := by
  obtain ⟨_, _, _, _, _, h | ⟨h, _⟩⟩ := h
  · exact h
  · rw [hn] at h; simp at h

end AF
