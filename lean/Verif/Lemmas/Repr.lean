import Verif.Lemmas.SetPrec
import Verif.Lemmas.Mono
import Verif.Lemmas.Ext
/-!
# A value that fits the precision is delivered unchanged
-/

set_option linter.unusedSectionVars false

namespace AF

variable {K : Type*} [Field K] [LinearOrder K] [IsStrictOrderedRing K]

theorem Num.rounds_self (x : Num) (rm : RM) {a : ℤ} (h : a ≤ x.e - (64 * x.m.m.length : ℕ)) :
    Rounds rm (x.toK : K) ((2 : K) ^ a) x.toK := by
  obtain ⟨n, hn⟩ : ∃ n : ℕ, x.e - (64 * x.m.m.length : ℕ) = a + n := ⟨(x.e - (64 * x.m.m.length : ℕ) - a).toNat, by omega⟩
  have e1 : (x.toK : K) = ((x.s.toInt * (val x.m.m * 2 ^ n : ℕ) : ℤ) : K) * 2 ^ a := by
    unfold Num.toK
    rw [hn, two_zpow_add, zpow_natCast]
    cases x.s <;> simp [Sign.toK, Sign.toInt] <;> ring
  rw [e1]
  exact Rounds.self rm (two_zpow_pos _) _

theorem Num.WF.roundsFmt_self {x : Num} (hx : x.WF) {P : Nat} (hP : 64 * x.m.m.length ≤ P) (rm : RM) :
    RoundsFmt rm P (x.toK : K) x.toK := by
  by_cases hz : x.isZero = true
  · have := (hx.toK_eq_zero (K := K)).2 hz
    exact Or.inl ⟨this, this⟩
  · obtain ⟨q, h1, h2, h3, _⟩ := hx.mag (K := K) (by simpa using hz)
    refine Or.inr ⟨q, h1, h2, x.rounds_self rm ?_⟩
    rw [h3]; push_cast; omega

theorem Num.WF.roundsPrec_self {x : Num} (hx : x.WF) {P : Nat} (hP : 64 * x.m.m.length ≤ P) (rm : RM) :
    RoundsPrec rm P (x.toK : K) x.toK := by
  by_cases hz : x.isZero = true
  · have := (hx.toK_eq_zero (K := K)).2 hz
    exact Or.inl ⟨this, this⟩
  · obtain ⟨q, h1, h2, h3, _⟩ := hx.mag (K := K) (by simpa using hz)
    refine Or.inr ⟨q, h1, h2, x.rounds_self rm ?_⟩
    have := le_max_left q EMIN
    rw [h3] at this; push_cast; omega

theorem Delivers.rep {rm : RM} {P : Nat} {x : Num} (hx : x.WF) (hP0 : 0 < P) (hP : 64 * x.m.m.length ≤ P)
    {r : Except Err Num} {ix : Bool} (h : Delivers rm P (x.toK : K) ix r) :
    ∃ v, r = .ok v ∧ v.WF ∧ 64 * v.m.m.length = P ∧ (v.toK : K) = x.toK ∧ v.inexact = ix ∧
      (x.isZero = false → v.s = x.s) := by
  cases r with
  | error e =>
    exfalso
    obtain ⟨_, t, h1, h2⟩ := h
    have := h1.unique hP0 (hx.roundsPrec_self hP rm)
    rw [this] at h2
    exact absurd (hx.abs_lt_emax (K := K)) (not_lt.2 h2)
  | ok v =>
    obtain ⟨h1, h2, h3, h4, h5, h6⟩ := h
    have hv : (v.toK : K) = x.toK := by
      rcases h6 with h6 | ⟨_, h7, t, h8, _, h9⟩
      · exact h6.unique hP0 (hx.roundsFmt_self hP rm)
      · have ht := h8.unique hP0 (hx.roundsPrec_self hP rm)
        rw [ht] at h9
        unfold RoundsSub at h9
        split at h9
        · rename_i hc
          exfalso
          obtain ⟨_, hc1, hc2⟩ := hc
          by_cases hz : x.isZero = true
          · rw [(hx.toK_eq_zero (K := K)).2 hz, abs_zero] at hc1
            have := two_zpow_pos (K := K) (EMIN - (P : ℤ))
            linarith
          · have hz' : x.isZero = false := by simpa using hz
            have h10 : (2 : K) ^ (EMIN - (P : ℤ)) ≤ |(x.toK : K)| := by
              rw [x.abs_val]
              have : (1 : K) ≤ val x.m.m := by
                have := hx.val_ne hz'
                exact_mod_cast Nat.one_le_iff_ne_zero.2 this
              calc (2 : K) ^ (EMIN - (P : ℤ)) ≤ 2 ^ (x.e - (64 * x.m.m.length : ℕ)) := by
                    apply zpow_mono_two
                    have := hx.emin
                    push_cast; omega
                _ = 1 * 2 ^ (x.e - (64 * x.m.m.length : ℕ)) := by ring
                _ ≤ _ := mul_le_mul_of_nonneg_right this (two_zpow_pos _).le
            linarith
        · refine h9.unique (two_zpow_pos _) (x.rounds_self rm ?_)
          have := hx.emin
          push_cast; omega
    refine ⟨v, rfl, h1, h2, hv, ?_, ?_⟩
    · rw [hv] at h5
      cases hi : v.inexact <;> cases ix <;> simp_all
    · intro hz
      have hne : (x.toK : K) ≠ 0 := fun h => by
        rw [(hx.toK_eq_zero (K := K)).1 h] at hz; cases hz
      rcases lt_or_gt_of_ne hne with hlt | hgt
      · rw [h4 hlt]
        cases hs : x.s
        · rfl
        · exfalso
          rw [x.toK_eq, hs] at hlt
          simp only [Sign.toK, one_mul] at hlt
          exact absurd (abs_nonneg (x.toK : K)) (not_le.2 hlt)
      · rw [h3 hgt]
        cases hs : x.s
        · exfalso
          rw [x.toK_eq, hs] at hgt
          simp only [Sign.toK] at hgt
          have := abs_nonneg (x.toK : K); linarith
        · rfl

theorem DeliversBF.rep {rm : RM} {P : Nat} {x : Num} (hx : x.WF) (hP0 : 0 < P) (hP : 64 * x.m.m.length ≤ P)
    {r : BF} {ix : Bool} (h : DeliversBF rm P (x.toK : K) ix r) :
    ∃ v, r = .num v ∧ v.WF ∧ 64 * v.m.m.length = P ∧ (v.toK : K) = x.toK ∧ v.inexact = ix ∧
      (x.isZero = false → v.s = x.s) := by
  cases r with
  | num v =>
    obtain ⟨w, h1, h2⟩ := Delivers.rep hx hP0 hP (show Delivers rm P (x.toK : K) ix (.ok v) from h)
    cases h1
    exact ⟨v, rfl, h2⟩
  | inf s =>
    exfalso
    obtain ⟨_, t, h1, h2⟩ := h
    have := h1.unique hP0 (hx.roundsPrec_self hP rm)
    rw [this] at h2
    exact absurd (hx.abs_lt_emax (K := K)) (not_lt.2 h2)
  | nan e => exact h.elim

end AF
