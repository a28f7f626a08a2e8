import Verif.Lemmas.Conv
/-!
# C23: raw parts and word constructors

`from_raw_parts (as_raw_parts x)` is `x`, every field the same; the only exception is that the
exponent of a zero becomes `0` (a zero with another exponent only exists at precision `0`).
-/

namespace AF

theorem raw_ok {m : List Nat} {n : Nat} {s : Sign} {e : ℤ} {ix : Bool} (hm : Wf m)
    (hl : 64 * m.length < PMAX) (hn : n = Nat.size (val m)) (he : 0 < n → n < 64 * m.length → e ≤ EMIN) :
    BF.fromRawParts m n s e ix =
      .num { e := if n = 0 then 0 else e, s := s, m := ⟨m, n⟩, inexact := ix } := by
  have hwl : wordLen (m.length * 64) = m.length := by unfold wordLen; omega
  have hn' : n ≤ 64 * m.length := by rw [hn, Nat.size_le]; exact val_lt_two_pow hm
  unfold BF.fromRawParts Num.fromRawParts
  dsimp only
  rw [if_neg (show ¬ m.length * 64 ≥ PMAX by omega), if_neg (show ¬ n > m.length * 64 by omega),
    mantFromWords_spec hm (by rw [hwl])]
  dsimp only
  rw [hwl, Nat.sub_self, List.replicate_zero, List.nil_append, ← hn, if_neg (show ¬ (n ≠ n) by simp)]
  rw [if_neg (show ¬ (n > 0 ∧ n < m.length * 64 ∧ e > EMIN) by
    rintro ⟨h1, h2, h3⟩; have := he h1 (by omega); omega)]
  rfl

theorem C23_raw_parts_round_trip (x : Num) (hx : x.WF) (hl : 64 * x.m.m.length < 2 ^ 62 - 2 ^ 31 - 1) :
    (BF.num x).asRawParts = some (x.m.m, x.m.n, x.s, x.e, x.inexact) ∧
    BF.fromRawParts x.m.m x.m.n x.s x.e x.inexact =
      .num { x with e := if (x.toK : ℚ) = 0 then 0 else x.e } := by
  refine ⟨rfl, ?_⟩
  rw [raw_ok hx.wf (by rw [PMAX_eq]; exact hl) hx.bits (fun h1 h2 => (hx.norm h1 h2).le)]
  have : (x.m.n = 0) ↔ (x.toK : ℚ) = 0 := by
    rw [hx.toK_eq_zero, hx.isZero_iff, hx.bits, Nat.size_eq_zero]
  simp only [this]

/-- A description is accepted exactly when it is consistent, and then taken over. -/
theorem C23_from_raw_parts_accepts (m : List Nat) (hm : Wf m) (n : Nat) (s : Sign) (e : ℤ) (ix : Bool)
    (he : EMIN ≤ e) (he' : e ≤ EMAX) :
    if 64 * m.length < 2 ^ 62 - 2 ^ 31 - 1 ∧ n = Nat.size (val m) ∧ (0 < n → n < 64 * m.length → e = EMIN)
    then ∃ v, BF.fromRawParts m n s e ix = .num v ∧ v.WF ∧ v.m.m = m ∧ v.s = s ∧ v.inexact = ix ∧
      (v.toK : ℚ) = s.toK * val m * 2 ^ (e - (64 * m.length : ℕ))
    else BF.fromRawParts m n s e ix = .nan (some .invalidArgument) := by
  split
  · rename_i h
    obtain ⟨h1, h2, h3⟩ := h
    refine ⟨_, raw_ok hm (by rw [PMAX_eq]; exact h1) h2 (fun a b => (h3 a b).le), ?_, rfl, rfl, rfl, ?_⟩
    · by_cases hn : n = 0
      · rw [if_pos hn]
        exact ⟨hm, h2, (by decide : EMIN ≤ 0), (by decide : 0 ≤ EMAX), fun h => absurd h (by dsimp only; omega), by dsimp only; omega⟩
      · rw [if_neg hn]
        exact ⟨hm, h2, he, he', h3, by dsimp only; omega⟩
    · by_cases hn : n = 0
      · have hv : val m = 0 := by rw [hn] at h2; exact Nat.size_eq_zero.1 h2.symm
        rw [Num.toK_of_zero (by exact hv), hv]; simp
      · rw [if_neg hn]; rfl
  · rename_i h
    rw [← PMAX_eq] at h
    have hwl : wordLen (m.length * 64) = m.length := by unfold wordLen; omega
    unfold BF.fromRawParts Num.fromRawParts
    dsimp only
    by_cases h1 : m.length * 64 ≥ PMAX
    · rw [if_pos h1]; rfl
    · rw [if_neg h1]
      by_cases h2 : n > m.length * 64
      · rw [if_pos h2]; rfl
      · rw [if_neg h2, mantFromWords_spec hm (by rw [hwl])]
        dsimp only
        rw [hwl, Nat.sub_self, List.replicate_zero, List.nil_append]
        by_cases h3 : Nat.size (val m) ≠ n
        · rw [if_pos h3]; rfl
        · rw [if_neg h3]
          push Not at h3
          by_cases h4 : n > 0 ∧ n < m.length * 64 ∧ e > EMIN
          · rw [if_pos h4]; rfl
          · exfalso
            apply h
            refine ⟨by omega, h3.symm, fun a b => ?_⟩
            by_contra hc
            exact h4 ⟨a, by omega, by omega⟩

/-- `from_words`: any words and exponent; leading zeros are shifted out as far as the exponent range
allows. -/
theorem C23_from_words (m : List Nat) (hm : Wf m) (s : Sign) (e : ℤ) (he : EMIN ≤ e) (he' : e ≤ EMAX)
    (hl : 64 * m.length < 2 ^ 62 - 2 ^ 31 - 1) :
    ∃ v, BF.fromWords m s e = .num v ∧ v.WF ∧ v.m.m.length = m.length ∧ v.s = s ∧ v.inexact = false ∧
      (v.toK : ℚ) = s.toK * val m * 2 ^ (e - (64 * m.length : ℕ)) := by
  have hwl : wordLen (m.length * 64) = m.length := by unfold wordLen; omega
  have hsz : Nat.size (val m) ≤ 64 * m.length := by rw [Nat.size_le]; exact val_lt_two_pow hm
  have h0iff : Nat.size (val m) = 0 ↔ val m = 0 := Nat.size_eq_zero
  rw [← PMAX_eq] at hl
  unfold BF.fromWords Num.fromWords
  dsimp only
  rw [if_neg (show ¬ m.length * 64 ≥ PMAX by omega), mantFromWords_spec hm (by rw [hwl])]
  dsimp only
  rw [hwl, Nat.sub_self, List.replicate_zero, List.nil_append]
  have hl2 : 64 * m.length ≤ 2 ^ 62 - 2 ^ 31 := by rw [PMAX_eq] at hl; omega
  by_cases hz : Nat.size (val m) = 0
  · rw [if_pos (by simp [Mantissa.isZero, hz])]
    refine ⟨_, rfl, ⟨hm, rfl, (by decide : EMIN ≤ 0), (by decide : 0 ≤ EMAX), fun h => absurd h (by dsimp only; omega), hl2⟩, rfl, rfl,
      rfl, ?_⟩
    rw [Num.toK_of_zero (by exact h0iff.1 hz), h0iff.1 hz]; simp
  · rw [if_neg (by simp [Mantissa.isZero, hz])]
    by_cases hb : Nat.size (val m) < m.length * 64
    · rw [if_pos hb]
      -- a shift by `k` bits within the leading zeros
      have key : ∀ (k : Nat) (e2 : ℤ), k ≤ 64 * m.length - Nat.size (val m) → e2 = e - k → EMIN ≤ e2 →
          (Nat.size (val m) + k < 64 * m.length → e2 = EMIN) →
          ∃ v, BF.resultToExt (.ok (Num.mk e2 s ⟨shiftLeft m k, Nat.size (val m) + k⟩ false)) false true = .num v ∧ v.WF ∧ v.m.m.length = m.length ∧ v.s = s ∧
            v.inexact = false ∧ (v.toK : ℚ) = s.toK * val m * 2 ^ (e - (64 * m.length : ℕ)) := by
        intro k e2 hk he2 hmin hnorm
        have hlt : val m * 2 ^ k < B ^ m.length := by
          calc val m * 2 ^ k < 2 ^ Nat.size (val m) * 2 ^ k :=
                Nat.mul_lt_mul_of_pos_right (Nat.lt_size_self _) (by positivity)
            _ ≤ 2 ^ (64 * m.length) := by
                rw [← pow_add]; exact Nat.pow_le_pow_right (by norm_num) (by omega)
            _ = B ^ m.length := (B_pow _).symm
        have hv : val (shiftLeft m k) = val m * 2 ^ k := by rw [val_shiftLeft hm, Nat.mod_eq_of_lt hlt]
        refine ⟨_, rfl, ⟨shiftLeft_wf hm _, ?_, hmin, by dsimp only; omega, ?_, ?_⟩, ?_, rfl, rfl, ?_⟩
        · dsimp only
          rw [hv, size_mul_two_pow (h0iff.not.1 hz)]
        · dsimp only
          rw [shiftLeft_length]
          intro _ h; exact hnorm h
        · dsimp only
          rw [shiftLeft_length]; exact hl2
        · dsimp only
          rw [shiftLeft_length]
        · unfold Num.toK
          dsimp only
          rw [hv, shiftLeft_length, he2]
          push_cast
          rw [show e - (k : ℤ) - 64 * (m.length : ℤ) = (e - 64 * (m.length : ℤ)) - k by ring,
            two_zpow_sub, zpow_natCast]
          field_simp
      by_cases hc : e < EMIN + ((m.length * 64 - Nat.size (val m) : ℕ) : ℤ)
      · rw [if_pos hc]
        exact key _ _ (by omega) (by omega) le_rfl (fun _ => rfl)
      · rw [if_neg hc]
        exact key _ _ (by omega) (by omega) (by omega) (fun h => by omega)
    · rw [if_neg hb]
      exact ⟨_, rfl, ⟨hm, rfl, he, he', fun _ h => absurd h (by dsimp only; omega), hl2⟩, rfl, rfl, rfl, rfl⟩

example : BF.fromRawParts exB.m.m exB.m.n exB.s exB.e exB.inexact =
    .num { exB with e := if (exB.toK : ℚ) = 0 then 0 else exB.e } :=
  (C23_raw_parts_round_trip exB exB_WF (by decide)).2

/-- A wrong bit count is rejected. -/
example : BF.fromRawParts [5] 4 .pos EMIN false = .nan (some .invalidArgument) := by
  have h := C23_from_raw_parts_accepts [5] (by unfold Wf; decide) 4 .pos EMIN false le_rfl (by decide)
  rw [if_neg (by decide)] at h
  exact h

example : ∃ v, BF.fromRawParts [5] 3 .pos EMIN false = .num v ∧ v.WF ∧ v.m.m = [5] := by
  have h := C23_from_raw_parts_accepts [5] (by unfold Wf; decide) 3 .pos EMIN false le_rfl (by decide)
  rw [if_pos (by decide)] at h
  obtain ⟨v, h1, h2, h3, _⟩ := h
  exact ⟨v, h1, h2, h3⟩

/-- Close to the lower exponent limit, where only some of the leading zeros can be shifted out. -/
example : ∃ v, BF.fromWords [7, 1] .neg (EMIN + 3) = .num v ∧ v.WF ∧ v.m.m.length = [7, 1].length ∧
    v.s = .neg ∧ v.inexact = false ∧
    (v.toK : ℚ) = Sign.neg.toK * val [7, 1] * 2 ^ (EMIN + 3 - (64 * [7, 1].length : ℕ)) :=
  C23_from_words [7, 1] (by unfold Wf; decide) .neg (EMIN + 3) (by decide) (by decide) (by decide)

end AF
