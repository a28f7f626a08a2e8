import Verif.Lemmas.Ext
/-!
# Commutativity of the model's operations
-/

namespace AF
set_option linter.unusedSectionVars false

theorem addCarry_comm (a b c : Nat) : addCarry a b c = addCarry b a c := by
  unfold addCarry; rw [Nat.add_right_comm c a b]

theorem addLoop_comm (a b : List Nat) (c : Nat) (h : a.length = b.length) :
    addLoop c a b = addLoop c b a := by
  induction a generalizing b c with
  | nil =>
    have : b = [] := List.eq_nil_of_length_eq_zero (by simpa using h.symm)
    subst this; rfl
  | cons x xs ih =>
    cases b with
    | nil => simp at h
    | cons y ys =>
      simp only [addLoop, addCarry_comm x y]
      rw [ih ys _ (by simpa using h)]

theorem RSS.take_length (n : Nat) (r : RSS) : (RSS.take n r).length = n := by
  induction n generalizing r with
  | zero => rfl
  | succ n ih => simp [RSS.take, ih]

theorem absAdd_comm (m1 m2 : List Nat) (p : Nat) (rm : RM) (pos full ix : Bool) :
    absAdd m1 m2 p 0 rm pos full ix = absAdd m2 m1 p 0 rm pos full ix := by
  unfold absAdd
  simp only [if_true, ne_eq, not_true_eq_false, decide_false, Bool.false_and, Nat.max_comm m1.length]
  rw [addLoop_comm _ _ _ (by rw [RSS.take_length, RSS.take_length])]

theorem Num.add_comm_of {x y : Num} (hx : x.WF) (hy : y.WF) (h : ¬ (x.isZero = true ∧ y.isZero = true))
    (p : Nat) (rm : RM) (full : Bool) : x.addSub y p true rm full = y.addSub x p true rm full := by
  unfold Num.addSub
  dsimp only
  by_cases hp : roundP p ≥ PMAX
  · rw [if_pos hp, if_pos hp]
  rw [if_neg hp, if_neg hp]
  by_cases hxz : x.isZero = true
  · have hyz : ¬ y.isZero = true := fun hh => h ⟨hxz, hh⟩
    rw [if_pos hxz, if_neg hyz, if_pos hxz]; rfl
  rw [if_neg hxz]
  by_cases hyz : y.isZero = true
  · rw [if_pos hyz, if_pos hyz]; rfl
  rw [if_neg hyz, if_neg hyz, if_neg hxz]
  rw [Bool.not_eq_true] at hxz hyz
  obtain ⟨e1, m1, hn1, -⟩ := normalize_spec (K := ℚ) hx hxz
  obtain ⟨e2, m2, hn2, -⟩ := normalize_spec (K := ℚ) hy hyz
  obtain ⟨a1, a2⟩ := absCmp_spec (K := ℚ) hx hy hxz hyz
  obtain ⟨b1, b2⟩ := absCmp_spec (K := ℚ) hy hx hyz hxz
  rw [hn1, hn2]
  simp only [Bool.and_true, Bool.not_true, Bool.false_and, Bool.or_false, if_true]
  rw [Bool.or_comm y.inexact x.inexact]
  by_cases hs : x.s = y.s
  · have hd : ¬ (decide (y.s ≠ y.s) = true) := by simp
    rw [hs, if_neg hd]
    rcases lt_trichotomy e1 e2 with he | he | he
    · rw [if_neg (show ¬ e1 ≥ e2 by omega), if_neg hd, if_pos (show e2 ≥ e1 by omega)]
    · subst he
      rw [if_neg hd, if_pos (le_refl e1 : e1 ≥ e1), if_pos (le_refl e1 : e1 ≥ e1), sub_self,
        Int.toNat_zero, absAdd_comm]
    · rw [if_pos (show e1 ≥ e2 by omega), if_neg hd, if_neg (show ¬ e2 ≥ e1 by omega)]
  · have hd : decide (x.s ≠ y.s) = true := by simpa using hs
    have hd' : decide (y.s ≠ x.s) = true := by rw [decide_eq_true_eq]; exact fun hh => hs hh.symm
    rw [if_pos hd, if_pos hd']
    rcases lt_trichotomy |(x.toK : ℚ)| |(y.toK : ℚ)| with hl | hl | hl
    · have c1 := a2.2 hl
      have c2 := b1.2 hl
      rw [if_neg (show ¬ x.absCmp y > 0 by omega), if_pos c1, if_pos (show y.absCmp x > 0 from c2)]
    · have c1 : ¬ x.absCmp y > 0 := fun hh => absurd (a1.1 hh) (by rw [hl]; exact lt_irrefl _)
      have c2 : ¬ x.absCmp y < 0 := fun hh => absurd (a2.1 hh) (by rw [hl]; exact lt_irrefl _)
      have c3 : ¬ y.absCmp x > 0 := fun hh => absurd (b1.1 hh) (by rw [hl]; exact lt_irrefl _)
      have c4 : ¬ y.absCmp x < 0 := fun hh => absurd (b2.1 hh) (by rw [hl]; exact lt_irrefl _)
      rw [if_neg c1, if_neg c2, if_neg c3, if_neg c4]
    · have c1 := a1.2 hl
      have c2 := b2.2 hl
      rw [if_pos (show x.absCmp y > 0 from c1), if_neg (show ¬ y.absCmp x > 0 by omega), if_pos c2]

theorem mulWords_comm {m1 m2 : List Nat} (h1 : Wf m1) (h2 : Wf m2) :
    mulWords m1 m2 (m1.length + m2.length) = mulWords m2 m1 (m2.length + m1.length) := by
  obtain ⟨a1, a2, a3⟩ := mulWords_spec h1 h2 (len := m1.length + m2.length) le_rfl
  obtain ⟨b1, b2, b3⟩ := mulWords_spec h2 h1 (len := m2.length + m1.length) le_rfl
  exact val_inj a2 b2 (by omega) (by rw [a3, b3, Nat.mul_comm])

theorem resultToExt_congr {r : Except Err Num} (hr : r ≠ .error .divisionByZero) (a b c d : Bool) :
    BF.resultToExt r a b = BF.resultToExt r c d := by
  cases r with
  | ok v => rfl
  | error e => cases e <;> first | rfl | exact absurd rfl hr

theorem finish_ne_div (m : Mantissa) (s : Sign) (e : Int) (rm : RM) (ix : Bool) :
    Num.finish m s e rm ix ≠ .error .divisionByZero := by
  unfold Num.finish
  by_cases h1 : e > EMAX
  · rw [if_pos h1]; simp
  · rw [if_neg h1]
    by_cases h2 : e < EMIN
    · rw [if_pos h2]; simp
    · rw [if_neg h2]; simp

theorem normalize_error {x : Num} {e : Err} (h : x.normalize = .error e) :
    e = .exponentOverflow x.s := by
  unfold Num.normalize at h
  dsimp only at h
  split at h
  · split at h
    · injection h with h; exact h.symm
    · simp at h
  · simp at h

theorem mulGeneral_ne_div (x y : Num) (p : Nat) (rm : RM) (full : Bool) :
    x.mulGeneral y p rm full ≠ .error .divisionByZero := by
  unfold Num.mulGeneral
  dsimp only
  generalize (x.isZero || y.isZero) = z
  by_cases hp : roundP p ≥ PMAX
  · rw [if_pos hp]; simp
  rw [if_neg hp]
  cases z
  · rw [if_neg (by simp)]
    cases h1 : x.normalize with
    | error e => rw [normalize_error h1]; simp
    | ok r => cases h2 : y.normalize with
      | error e => dsimp only; rw [normalize_error h2]; simp
      | ok t => exact finish_ne_div _ _ _ _ _
  · rw [if_pos rfl]; simp

theorem Num.mul_comm_of {x y : Num} (hx : x.WF) (hy : y.WF) (p : Nat) (rm : RM) (full : Bool) :
    x.mulGeneral y p rm full = y.mulGeneral x p rm full := by
  unfold Num.mulGeneral
  dsimp only
  by_cases hp : roundP p ≥ PMAX
  · rw [if_pos hp, if_pos hp]
  rw [if_neg hp, if_neg hp, Bool.or_comm y.isZero x.isZero]
  have hsgn : (if y.s = x.s then Sign.pos else .neg) = if x.s = y.s then .pos else .neg := by
    cases x.s <;> cases y.s <;> rfl
  rw [hsgn]
  by_cases hz : (x.isZero || y.isZero) = true
  · rw [if_pos hz, if_pos hz]
  rw [if_neg hz, if_neg hz]
  rw [Bool.not_eq_true, Bool.or_eq_false_iff] at hz
  obtain ⟨e1, m1, hn1, hm1, -⟩ := normalize_spec (K := ℚ) hx hz.1
  obtain ⟨e2, m2, hn2, hm2, -⟩ := normalize_spec (K := ℚ) hy hz.2
  rw [hn1, hn2]
  dsimp only
  have : mantMul m1.m m2.m = mantMul m2.m m1.m := by
    funext p rm pos full ix
    unfold mantMul
    rw [mulWords_comm hm1.1 hm2.1]
  rw [this, Bool.or_comm y.inexact, add_comm e2]

end AF
