import Mathlib.Algebra.Order.Archimedean.Basic
import Verif.Lemmas.SetPrec
/-!
# `try_set_precision`: the roundability check of `round_mantissa`
-/

namespace AF

set_option linter.unusedSectionVars false

variable {K : Type*} [Field K] [LinearOrder K] [IsStrictOrderedRing K]

theorem scanWords_rz (td : Nat) (l : List Nat) : ∀ (st : ScanSt),
    (scanWords td l st).remZero = (st.remZero && decide (val l = 0)) := by
  induction l with
  | nil => intro st; simp [scanWords]
  | cons v vs ih =>
    intro st
    have hB := B_pos
    unfold scanWords
    rw [ih]
    have h0 : val (v :: vs) = 0 ↔ v = 0 ∧ val vs = 0 := by
      rw [val_eq_zero_iff, val_eq_zero_iff]; simp
    have h1 : ∀ s1 : ScanSt, s1.remZero = st.remZero →
        ((if v ≠ 0 then { s1 with remZero := false } else s1 : ScanSt).remZero && decide (val vs = 0)) =
        (st.remZero && decide (val (v :: vs) = 0)) := by
      intro s1 hs
      simp only [h0]
      by_cases hv : v = 0
      · simp [hv, hs]
      · simp [hv]
    apply h1
    split
    · split <;> rfl
    · rfl

theorem scanWords_check (td : Nat) (l : List Nat) : ∀ (cc : Nat) (rz : Bool),
    (scanWords td l ⟨true, cc, rz⟩).check = true ↔ ∀ v ∈ l.take cc, v = td := by
  induction l with
  | nil => intro cc rz; simp [scanWords]
  | cons v vs ih =>
    intro cc rz
    cases cc with
    | zero =>
      have := ih 0
      simp only [List.take_zero, List.not_mem_nil, false_implies, implies_true, iff_true] at this ⊢
      unfold scanWords
      by_cases hv : v = 0
      · simp [hv, this]
      · simp [hv, this]
    | succ c =>
      have := ih c
      unfold scanWords
      simp only [List.take_succ_cons, List.mem_cons, forall_eq_or_imp]
      by_cases htd : v = td
      · subst htd
        by_cases hv : v = 0
        · subst hv
          simpa using this rz
        · simp [hv, this]
      · by_cases hv : v = 0
        · simp only [hv] at htd ⊢
          simp [htd, scanWords_false]
        · simp [hv, htd, scanWords_false]

theorem roundPrep_true_pos (m : List Nat) (i t cc : Nat) (h0 : 0 < t) (ht : t < 64) :
    roundPrep m i t cc true = (⟨true, cc, decide (wd m i % 2 ^ t = 0)⟩,
      (if wd m i % 2 ^ t = 0 then 0 else WMAX), i) := by
  unfold roundPrep
  rw [if_pos h0]
  dsimp only
  have hrb : (wd m i <<< (64 - t)) % B = 0 ↔ wd m i % 2 ^ t = 0 := by
    rw [shl_mod _ _ (by omega), show 64 - (64 - t) = t by omega]
    simp
  have hmsk : (wd m i <<< (64 - t)) % B &&& ((WMAX <<< (64 - t)) % B) = (wd m i <<< (64 - t)) % B := by
    rw [B_eq, show WMAX = 2 ^ 64 - 1 by decide]
    apply Nat.eq_of_testBit_eq
    intro j
    simp only [Nat.testBit_and, Nat.testBit_mod_two_pow, Nat.testBit_shiftLeft, Nat.testBit_two_pow_sub_one]
    by_cases h1 : j < 64
    · by_cases h2 : 64 - t ≤ j
      · have h3 : j - (64 - t) < 64 := by omega
        simp [h1, h2, h3]
      · simp [h1, h2]
    · simp [h1]
  rw [hmsk]
  by_cases h : wd m i % 2 ^ t = 0
  · rw [if_neg (by rw [ne_eq, not_not, hrb]; exact h)]
    simp [h]
  · rw [if_pos (by rw [ne_eq, hrb]; exact h), if_pos rfl, if_pos rfl]
    simp [h]

theorem val_all_max {l : List Nat} (h : Wf l) : val l + 1 = 2 ^ (64 * l.length) ↔ ∀ v ∈ l, v = WMAX := by
  induction l with
  | nil => simp [val]
  | cons v vs ih =>
    obtain ⟨hv, hvs⟩ := wf_cons.1 h
    have h1 := ih hvs
    have h2 := val_lt_two_pow hvs
    have hB := B_pos
    have hW : WMAX + 1 = B := by decide
    have hp : 2 ^ (64 * (vs.length + 1)) = B * 2 ^ (64 * vs.length) := by
      rw [B_eq, ← pow_add]; congr 1; ring
    simp only [List.mem_cons, forall_eq_or_imp, List.length_cons, hp]
    rw [← h1, val_cons]
    constructor
    · intro he
      have : val vs + 1 = 2 ^ (64 * vs.length) := by
        by_contra hc
        have h3 : val vs + 2 ≤ 2 ^ (64 * vs.length) := by omega
        have h4 := Nat.mul_le_mul_left B h3
        have h5 : B * (val vs + 2) = B * val vs + 2 * B := by ring
        omega
      refine ⟨?_, this⟩
      rw [← this] at he
      have h5 : B * (val vs + 1) = B * val vs + B := by ring
      omega
    · rintro ⟨rfl, h3⟩
      rw [← h3]
      have h5 : B * (val vs + 1) = B * val vs + B := by ring
      omega

/-- Bits that are neither all zero nor all one. -/
def Mixed (D w : Nat) : Prop := 1 ≤ D ∧ D + 2 ≤ 2 ^ w

theorem mixed_of {mid : List Nat} (hm : Wf mid) {h t : Nat} (ht0 : 0 < t) (hh : h < 2 ^ t)
    (hc : (h ≠ 0 ∧ h + 1 ≠ 2 ^ t) ∨ (h ≠ 0 ∧ ∃ v ∈ mid, v ≠ WMAX) ∨ (h = 0 ∧ ∃ v ∈ mid, v ≠ 0)) :
    Mixed (val mid + 2 ^ (64 * mid.length) * h) (64 * mid.length + t) := by
  have h1 := val_lt_two_pow hm
  have hmax := val_all_max hm
  have hzero := val_eq_zero_iff (m := mid)
  set P := 2 ^ (64 * mid.length) with hP
  have hP0 : 0 < P := by positivity
  unfold Mixed
  rw [pow_add, ← hP]
  have ht1 : 2 ≤ 2 ^ t := by
    calc 2 = 2 ^ 1 := rfl
      _ ≤ 2 ^ t := Nat.pow_le_pow_right (by norm_num) ht0
  rcases hc with ⟨a, b⟩ | ⟨a, v, b, c⟩ | ⟨a, v, b, c⟩
  · have g1 : P * 1 ≤ P * h := Nat.mul_le_mul_left P (by omega)
    have g2 : P * (h + 2) ≤ P * 2 ^ t := Nat.mul_le_mul_left P (by omega)
    have g3 : P * (h + 2) = P * h + 2 * P := by ring
    omega
  · have g1 : P * 1 ≤ P * h := Nat.mul_le_mul_left P (by omega)
    have g2 : P * (h + 1) ≤ P * 2 ^ t := Nat.mul_le_mul_left P (by omega)
    have g3 : P * (h + 1) = P * h + P := by ring
    have g4 : val mid + 1 ≠ P := fun e => c (hmax.1 e v b)
    omega
  · have g4 : val mid ≠ 0 := fun e => c (hzero.1 e v b)
    have g2 : P * 2 ≤ P * 2 ^ t := Nat.mul_le_mul_left P ht1
    rw [a]
    omega

/-- The accepted bits: `c` whole words below word `i` and the `t` low bits of word `i`. -/
theorem val_window {m : List Nat} (hm : Wf m) {i t g : Nat} (hi : i < m.length) (ht : t ≤ 64) (hg : g ≤ i) :
    val m % 2 ^ (64 * i + t) / 2 ^ (64 * g) =
      val ((m.take i).drop g) + 2 ^ (64 * ((m.take i).drop g).length) * (wd m i % 2 ^ t) := by
  rw [(val_div_mod hm hi ht).2]
  have hl : ((m.take i).drop g).length = i - g := by simp; omega
  rw [hl, ← B_pow, ← B_pow]
  have h1 : val (m.take i) = val ((m.take i).take g) + B ^ g * val ((m.take i).drop g) := by
    conv_lhs => rw [← List.take_append_drop g (m.take i)]
    rw [val_append]
    have : ((m.take i).take g).length = g := by simp; omega
    rw [this]
  have h2 : val ((m.take i).take g) < B ^ g := by
    have := val_lt ((hm.take i).take g)
    have hl2 : ((m.take i).take g).length = g := by simp; omega
    rwa [hl2] at this
  rw [h1, show B ^ i = B ^ g * B ^ (i - g) by rw [← pow_add]; congr 1; omega, add_assoc, mul_assoc, ← mul_add,
    Nat.add_mul_div_left _ _ (B_pow_pos g), Nat.div_eq_of_lt h2, zero_add]

theorem roundTail_append (a w : List Nat) (hw : w ≠ []) (c : Bool) (t : Nat) :
    roundTail (a ++ w) c a.length t = (a ++ (roundTail w c 0 t).1, (roundTail w c 0 t).2) := by
  obtain ⟨x, xs, rfl⟩ := List.exists_cons_of_ne_nil hw
  have h1 : wd (a ++ x :: xs) a.length = x := by simp [wd]
  have h2 : wd (x :: xs) 0 = x := by simp [wd]
  unfold roundTail
  rw [h1, h2]
  have hset : ∀ y, (a ++ x :: xs).set a.length y = a ++ y :: xs := by
    intro y; simp
  by_cases hc : c = true
  · rw [if_pos hc, if_pos hc]
    by_cases h3 : x >>> t + 1 < B >>> t
    · rw [if_pos ⟨by simp, h3⟩, if_pos ⟨by simp, h3⟩, hset]
      simp
    · rw [if_neg (show ¬ (a.length < (a ++ x :: xs).length ∧ x >>> t + 1 < B >>> t) from fun h => h3 h.2),
        if_neg (show ¬ (0 < (x :: xs).length ∧ x >>> t + 1 < B >>> t) from fun h => h3 h.2), hset]
      dsimp only
      have e1 : (a ++ 0 :: xs).drop (a.length + 1) = xs := by
        rw [List.drop_append]; simp
      have e2 : (a ++ 0 :: xs).take (a.length + 1) = a ++ [0] := by
        rw [List.take_append]; simp
      have e3 : ((x :: xs).set 0 0).drop (0 + 1) = xs := by simp
      have e4 : ((x :: xs).set 0 0).take (0 + 1) = [0] := by simp
      rw [e1, e2, e3, e4]
      by_cases h4 : (incWords xs).2 = true
      · rw [if_pos h4, if_pos h4]
        simp only [Prod.mk.injEq, and_true]
        rw [List.append_assoc, List.set_append_right _ _ (by simp)]
        congr 2
        simp
      · rw [if_neg h4, if_neg h4, List.append_assoc]
  · rw [if_neg hc, if_neg hc, hset]
    simp

/-- What the accepting nearest branch has established (all words of `m` are correct). -/
theorem nearest_accept {m : List Nat} (hm : Wf m) {n : Nat} (hn0 : 0 < n) (hn : n < 64 * m.length)
    (rm : RM) (ix : Bool) (h : (roundNearest m n rm true (n / 64) ix).check = false) :
    Mixed (val m % 2 ^ (n - 1)) (n - 1) ∧
    roundNearest m n rm true (n / 64) ix = roundNearest m n rm false (n / 64) ix := by
  set i := (n - 1) / 64 with hi
  set t := (n - 1) % 64 with ht
  have hil : i < m.length := by omega
  have ht64 : t < 64 := by omega
  have hnn : 64 * i + t = n - 1 := by omega
  set pr := roundPrep m i t (n / 64) true with hpr
  set st := scanWords pr.2.1 (m.take i) pr.1 with hst
  have hchk : st.check = false := by
    unfold roundNearest at h
    simp only [← hi, ← ht, ← hpr, ← hst] at h
    by_contra hc
    rw [if_pos (by simpa using hc)] at h
    simp at h
  -- the sticky flag does not depend on the check
  have hrz : st.remZero = (decide (wd m i % 2 ^ t = 0) && decide (val (m.take i) = 0)) := by
    rw [hst, scanWords_rz]
    rcases Nat.eq_zero_or_pos t with h0 | h0
    · rw [hpr, h0]
      unfold roundPrep
      rw [if_neg (by omega)]
      simp only [pow_zero, Nat.mod_one, decide_true, Bool.true_and]
      have hz : 0 < i → (wd m (i - 1) ≠ 0 → val (m.take i) ≠ 0) := by
        intro h1 h2 h3
        rw [val_eq_zero_iff] at h3
        apply h2
        apply h3
        have : wd m (i - 1) = m[i - 1]'(by omega) := by simp [wd, show i - 1 < m.length by omega]
        rw [this, List.mem_take_iff_getElem]
        exact ⟨i - 1, by omega, rfl⟩
      split
      · rename_i h1
        simp only [Bool.and_eq_true, decide_eq_true_eq] at h1
        split
        · rename_i h2
          have := hz h1.2 (by rw [h2]; decide)
          simp [this]
        · split
          · rename_i h2
            have := hz h1.2 h2
            simp [this]
          · simp
      · simp
    · rw [hpr, roundPrep_true_pos m i t _ h0 ht64]
  constructor
  · have hwin := val_window hm (g := 0) hil (le_of_lt ht64) (Nat.zero_le i)
    rw [hnn, mul_zero, pow_zero, Nat.div_one, List.drop_zero] at hwin
    rcases Nat.eq_zero_or_pos t with h0 | h0
    · -- the word below decides
      have hi0 : 0 < i := by
        by_contra hi0
        have hi0 : i = 0 := by omega
        have hcc : n / 64 = 0 := by omega
        rw [hst, hpr, h0] at hchk
        unfold roundPrep at hchk
        rw [if_neg (by omega), hcc] at hchk
        simp only [gt_iff_lt, lt_self_iff_false, decide_false, Bool.and_false, Bool.false_and,
          Bool.false_eq_true, if_false] at hchk
        rw [Bool.eq_false_iff] at hchk
        exact hchk ((scanWords_check _ _ _ _).2 (by simp))
      have hcc : n / 64 = i := by omega
      have hwin2 := val_window hm (g := 0) (i := i - 1) (t := 64) (by omega) (le_refl _) (Nat.zero_le _)
      rw [show 64 * (i - 1) + 64 = n - 1 by omega, mul_zero, pow_zero, Nat.div_one, List.drop_zero] at hwin2
      have hwz := wd_lt hm (show i - 1 < m.length by omega)
      rw [← B_eq, Nat.mod_eq_of_lt hwz] at hwin2
      have hl : (m.take (i - 1)).length = i - 1 := by simp; omega
      have key := mixed_of (hm.take (i - 1)) (h := wd m (i - 1)) (t := 64) (by norm_num)
        (by rw [← B_eq]; exact hwz)
      rw [← hwin2, hl, show 64 * (i - 1) + 64 = n - 1 by omega] at key
      apply key
      have htt : (m.take i).take (i - 1) = m.take (i - 1) := by
        rw [List.take_take]; congr 1; omega
      rw [hst, hpr, h0] at hchk
      unfold roundPrep at hchk
      rw [if_neg (by omega), hcc, if_pos (by simp [hi0])] at hchk
      dsimp only at hchk
      by_cases h1 : wd m (i - 1) = WMAX
      · rw [if_pos h1] at hchk
        dsimp only at hchk
        rw [Bool.eq_false_iff, ne_eq, scanWords_check, htt] at hchk
        push Not at hchk
        exact Or.inr (Or.inl ⟨by rw [h1]; decide, hchk⟩)
      · by_cases h2 : wd m (i - 1) ≠ 0
        · left
          refine ⟨h2, fun h3 => h1 ?_⟩
          have : WMAX + 1 = 2 ^ 64 := by decide
          omega
        · rw [if_neg h1, if_neg h2] at hchk
          dsimp only at hchk
          rw [Bool.eq_false_iff, ne_eq, scanWords_check, htt] at hchk
          push Not at hchk
          exact Or.inr (Or.inr ⟨by simpa using h2, hchk⟩)
    · have hl : (m.take i).length = i := by simp; omega
      have key := mixed_of (hm.take i) (h := wd m i % 2 ^ t) h0 (Nat.mod_lt _ (by positivity))
      rw [← hwin, hl, hnn] at key
      apply key
      have htt : (m.take i).take (n / 64) = m.take i := by
        apply List.take_of_length_le; rw [hl]; omega
      rw [hst, hpr, roundPrep_true_pos m i t _ h0 ht64] at hchk
      dsimp only at hchk
      rw [Bool.eq_false_iff, ne_eq, scanWords_check, htt] at hchk
      push Not at hchk
      by_cases h1 : wd m i % 2 ^ t = 0
      · rw [if_pos h1] at hchk
        exact Or.inr (Or.inr ⟨h1, hchk⟩)
      · rw [if_neg h1] at hchk
        exact Or.inr (Or.inl ⟨h1, hchk⟩)
  · unfold roundNearest
    simp only [← hi, ← ht, ← hpr, ← hst, hchk, Bool.false_eq_true, if_false]
    simp only [roundPrep_false m i t _ ht64, scanWords_false, ← hrz, Bool.false_eq_true, if_false]

/-- What the accepting directed branch has established; `g` words at the bottom are not correct. -/
theorem directed_accept {m : List Nat} (hm : Wf m) {n g : Nat} (hn0 : 0 < n) (hn : n < 64 * m.length)
    (hg : 64 * g ≤ n) (rm : RM) (pos : Bool) (ix : Bool)
    (h : (roundDirected m n rm pos true (n / 64 - g) ix).check = false) :
    Mixed (val m % 2 ^ n / 2 ^ (64 * g)) (n - 64 * g) ∧
    ∃ a b : List Nat, Wf a ∧ a.length = n / 64 ∧ b.length = n / 64 ∧ ∃ w,
      (roundDirected m n rm pos true (n / 64 - g) ix).m = a ++ w ∧
      (roundDirected m n rm pos false (n / 64 - g) ix).m = b ++ w ∧
      (roundDirected m n rm pos true (n / 64 - g) ix).ret =
        (roundDirected m n rm pos false (n / 64 - g) ix).ret := by
  set i := n / 64 with hi
  set t := n % 64 with ht
  have hil : i < m.length := by omega
  have ht64 : t < 64 := by omega
  have hnn : 64 * i + t = n := by omega
  have hgi : g ≤ i := by omega
  set pr := roundPrep m i t (i - g) true with hpr
  set st := scanWords pr.2.1 (m.take pr.2.2).reverse pr.1 with hst
  have hchk : st.check = false := by
    unfold roundDirected at h
    simp only [← hi, ← ht, ← hpr, ← hst] at h
    by_contra hc
    rw [if_pos (by simpa using hc)] at h
    simp at h
  have hrev : ∀ l : List Nat, val l.reverse = 0 ↔ val l = 0 := by
    intro l; rw [val_eq_zero_iff, val_eq_zero_iff]; simp
  have hne : m.drop i ≠ [] := by
    intro h0
    have := congrArg List.length h0
    simp at this; omega
  rcases Nat.eq_zero_or_pos t with h0 | h0
  · -- the word below decides
    have hcc : 0 < i - g := by
      by_contra hcc
      have hcc : i - g = 0 := by omega
      rw [hst, hpr, h0, hcc] at hchk
      unfold roundPrep at hchk
      rw [if_neg (by omega)] at hchk
      simp only [gt_iff_lt, lt_self_iff_false, decide_false, Bool.and_false, Bool.false_and,
        Bool.false_eq_true, if_false] at hchk
      rw [Bool.eq_false_iff] at hchk
      exact hchk ((scanWords_check _ _ _ _).2 (by simp))
    have hwz := wd_lt hm (show i - 1 < m.length by omega)
    have hwin2 := val_window hm (g := g) (i := i - 1) (t := 64) (by omega) (le_refl _) (by omega)
    rw [show 64 * (i - 1) + 64 = n by omega, ← B_eq, Nat.mod_eq_of_lt hwz] at hwin2
    have hl : ((m.take (i - 1)).drop g).length = i - 1 - g := by simp; omega
    have key := mixed_of ((hm.take (i - 1)).drop g) (h := wd m (i - 1)) (t := 64) (by norm_num)
      (by rw [← B_eq]; exact hwz)
    rw [← hwin2, hl, show 64 * (i - 1 - g) + 64 = n - 64 * g by omega] at key
    have htt : (m.take (i - 1)).reverse.take (i - g - 1) = ((m.take (i - 1)).drop g).reverse := by
      rw [List.take_reverse]
      congr 2
      simp; omega
    have hprz : pr.2.2 = i - 1 := by
      rw [hpr, h0]
      unfold roundPrep
      rw [if_neg (by omega), if_pos (by simp; omega)]
      dsimp only
      split
      · rfl
      · split <;> rfl
    have hprr : pr.1.remZero = decide (wd m (i - 1) = 0) := by
      rw [hpr, h0]
      unfold roundPrep
      rw [if_neg (by omega), if_pos (by simp; omega)]
      dsimp only
      split
      · rename_i h1
        rw [h1]; rfl
      · split
        · rename_i h1; simp [h1]
        · rename_i h1; simp at h1; simp [h1]
    have hsplit : val (m.take i) = 0 ↔ wd m (i - 1) = 0 ∧ val (m.take (i - 1)) = 0 := by
      have e : m.take i = m.take (i - 1) ++ [wd m (i - 1)] := by
        have h1 : wd m (i - 1) = m[i - 1]'(by omega) := by simp [wd, show i - 1 < m.length by omega]
        rw [h1, List.take_append_getElem, show i - 1 + 1 = i by omega]
      rw [e, val_eq_zero_iff, val_eq_zero_iff]
      simp only [List.mem_append, List.mem_singleton]
      constructor
      · intro h1; exact ⟨h1 _ (Or.inr rfl), fun x hx => h1 x (Or.inl hx)⟩
      · rintro ⟨h1, h2⟩ x (hx | hx)
        · exact h2 x hx
        · rw [hx, h1]
    have hrz : st.remZero = decide (val (m.take i) = 0) := by
      rw [hst, scanWords_rz, hprr, hprz, ← Bool.decide_and, decide_eq_decide, hrev, hsplit]
    refine ⟨key ?_, ?_⟩
    · have hex : ∀ td, (∃ v ∈ ((m.take (i - 1)).drop g).reverse, v ≠ td) →
          ∃ v ∈ (m.take (i - 1)).drop g, v ≠ td := by
        rintro td ⟨v, h1, h2⟩; exact ⟨v, List.mem_reverse.1 h1, h2⟩
      rw [hst, hprz, hpr, h0] at hchk
      unfold roundPrep at hchk
      rw [if_neg (by omega), if_pos (by simp; omega)] at hchk
      dsimp only at hchk
      by_cases h1 : wd m (i - 1) = WMAX
      · rw [if_pos h1] at hchk
        dsimp only at hchk
        rw [Bool.eq_false_iff, ne_eq, scanWords_check, htt] at hchk
        push Not at hchk
        exact Or.inr (Or.inl ⟨by rw [h1]; decide, hex _ hchk⟩)
      · by_cases h2 : wd m (i - 1) ≠ 0
        · left
          refine ⟨h2, fun h3 => h1 ?_⟩
          have : WMAX + 1 = 2 ^ 64 := by decide
          omega
        · rw [if_neg h1, if_neg h2] at hchk
          dsimp only at hchk
          rw [Bool.eq_false_iff, ne_eq, scanWords_check, htt] at hchk
          push Not at hchk
          exact Or.inr (Or.inr ⟨by simpa using h2, hex _ hchk⟩)
    · have hm1 : List.replicate (i - 1) 0 ++ m.drop (i - 1) =
          (List.replicate (i - 1) 0 ++ [wd m (i - 1)]) ++ m.drop i := by
        rw [List.drop_eq_getElem_cons (show i - 1 < m.length by omega), show i - 1 + 1 = i by omega,
          List.append_assoc]
        simp [wd, show i - 1 < m.length by omega]
      have hal : (List.replicate (i - 1) 0 ++ [wd m (i - 1)]).length = i := by simp; omega
      have hbl : (List.replicate i 0 : List Nat).length = i := by simp
      refine ⟨List.replicate (i - 1) 0 ++ [wd m (i - 1)], List.replicate i 0, ?_, hal, hbl,
        (roundTail (m.drop i) (directedAdd rm pos (decide (val (m.take i) = 0))) 0 t).1, ?_⟩
      · exact wf_append.2 ⟨wf_zeros _, Wf.cons hwz Wf.nil⟩
      unfold roundDirected
      simp only [← hi, ← ht, ← hpr, ← hst, hchk, Bool.false_eq_true, if_false, hrz]
      rw [hprz]
      simp only [roundPrep_false m i t _ ht64, scanWords_false, Bool.false_eq_true, if_false]
      have e1 := roundTail_append (List.replicate (i - 1) 0 ++ [wd m (i - 1)]) (m.drop i) hne
        (directedAdd rm pos (decide (val (m.take i) = 0))) t
      have e2 := roundTail_append (List.replicate i 0) (m.drop i) hne
        (directedAdd rm pos (decide (val (m.take i) = 0))) t
      rw [hal] at e1
      rw [hbl] at e2
      have e3 : (decide (wd m i % 2 ^ t = 0) && decide (val (m.take i).reverse = 0)) =
          decide (val (m.take i) = 0) := by
        rw [h0]; simp [Nat.mod_one, hrev]
      rw [hm1, e1, e3, e2]
      exact ⟨rfl, rfl, rfl⟩
  · have hprz : pr.2.2 = i := by rw [hpr, roundPrep_true_pos m i t _ h0 ht64]
    have hrz : st.remZero = (decide (wd m i % 2 ^ t = 0) && decide (val (m.take i).reverse = 0)) := by
      rw [hst, scanWords_rz, hprz, hpr, roundPrep_true_pos m i t _ h0 ht64]
    have hwin := val_window hm (g := g) hil (le_of_lt ht64) hgi
    rw [hnn] at hwin
    have hl : ((m.take i).drop g).length = i - g := by simp; omega
    have key := mixed_of ((hm.take i).drop g) (h := wd m i % 2 ^ t) h0 (Nat.mod_lt _ (by positivity))
    rw [← hwin, hl, show 64 * (i - g) + t = n - 64 * g by omega] at key
    have htt : (m.take i).reverse.take (i - g) = ((m.take i).drop g).reverse := by
      rw [List.take_reverse]
      congr 2
      simp; omega
    refine ⟨key ?_, ?_⟩
    · have hex : ∀ td, (∃ v ∈ ((m.take i).drop g).reverse, v ≠ td) →
          ∃ v ∈ (m.take i).drop g, v ≠ td := by
        rintro td ⟨v, h1, h2⟩; exact ⟨v, List.mem_reverse.1 h1, h2⟩
      rw [hst, hprz, hpr, roundPrep_true_pos m i t _ h0 ht64] at hchk
      dsimp only at hchk
      rw [Bool.eq_false_iff, ne_eq, scanWords_check, htt] at hchk
      push Not at hchk
      by_cases h1 : wd m i % 2 ^ t = 0
      · rw [if_pos h1] at hchk
        exact Or.inr (Or.inr ⟨h1, hex _ hchk⟩)
      · rw [if_neg h1] at hchk
        exact Or.inr (Or.inl ⟨h1, hex _ hchk⟩)
    · have hbl : (List.replicate i 0 : List Nat).length = i := by simp
      refine ⟨List.replicate i 0, List.replicate i 0, wf_zeros _, hbl, hbl,
        (roundTail (m.drop i) (directedAdd rm pos st.remZero) 0 t).1, ?_⟩
      unfold roundDirected
      simp only [← hi, ← ht, ← hpr, ← hst, hchk, Bool.false_eq_true, if_false]
      rw [hprz]
      simp only [roundPrep_false m i t _ ht64, scanWords_false, Bool.false_eq_true, if_false, ← hrz]
      have e2 := roundTail_append (List.replicate i 0) (m.drop i) hne
        (directedAdd rm pos st.remZero) t
      rw [hbl] at e2
      rw [e2]
      exact ⟨rfl, rfl, trivial⟩

/-- The value left by `set_precision`. -/
theorem setPrec_val {x v : Num} {p P k : Nat} (hPL : P ≤ 64 * x.m.m.length) (hP2 : P ≤ 64 * wordLen p)
    (hlen : v.m.m.length = wordLen p) (hs : v.s = x.s) (hwl : 0 < wordLen p)
    (hcase : ((v.e = x.e ∨ (val v.m.m = 0 ∧ v.e = 0)) ∧
        val v.m.m = k * 2 ^ (64 * wordLen p - P)) ∨
      (k = 2 ^ P ∧ v.e = x.e + 1 ∧ val v.m.m = 2 ^ (64 * wordLen p - 1))) :
    (v.toK : K) = x.s.toK * (k * 2 ^ (x.e - (P : ℤ))) := by
  unfold Num.toK
  rw [hs, hlen, mul_assoc]
  congr 1
  rcases hcase with ⟨h1, h2⟩ | ⟨h1, h2, h3⟩
  · rcases h1 with h1 | ⟨h1, _⟩
    · rw [h2, h1]; push_cast
      rw [mul_assoc, ← zpow_natCast, two_zpow_mul]
      congr 2; omega
    · have hk0 : k = 0 := by
        rw [h1] at h2
        rcases Nat.mul_eq_zero.1 h2.symm with h | h
        · exact h
        · exact absurd h (by positivity)
      rw [h1, hk0]; simp
  · rw [h3, h1, h2]; push_cast
    rw [← zpow_natCast, ← zpow_natCast, two_zpow_mul, two_zpow_mul]
    congr 1; omega

/-- The bits below the rounding position that must not be all equal. -/
def RoundableBits (rm : RM) (V n q : Nat) : Prop :=
  if rm.nearest = true then Mixed (V % 2 ^ (n - 1)) (n - 1) else Mixed (V % 2 ^ n / 2 ^ (n - q)) q

set_option maxHeartbeats 1000000 in
theorem tryPrec_accept {x : Num} (hx : x.WF) (hix : x.inexact = true) {p s : Nat} (hp : 0 < p)
    (hps : p < s) (hsL : s ≤ 64 * x.m.m.length) (h64 : 64 ∣ s) {rm : RM} (hrm : rm ≠ .none)
    (hnear : rm.nearest = true → s = 64 * x.m.m.length) {v : Num}
    (h : x.trySetPrecision p rm s = .ok (true, v)) :
    RoundableBits rm (val x.m.m) (64 * x.m.m.length - p) (s - p) ∧ v.WF ∧ v.m.m.length = wordLen p ∧
    v.s = x.s ∧ v.inexact = true ∧
    (v.toK : K) = x.s.toK *
      (rndN rm x.s.isPos (val x.m.m) (64 * x.m.m.length - p) * 2 ^ (x.e - (p : ℤ))) := by
  have hmb : x.m.maxBitLen = 64 * x.m.m.length := by unfold Mantissa.maxBitLen; ring
  have hpL : p < 64 * x.m.m.length := by omega
  have hpM : p < PMAX := by
    by_contra hc
    unfold Num.trySetPrecision Num.setPrecisionInternal at h
    rw [if_pos (by omega)] at h
    simp at h
  have hsz : 64 * wordLen p ≤ 2 ^ 62 - 2 ^ 31 := by unfold PMAX at hpM; unfold wordLen; omega
  have hwl : 0 < wordLen p := by unfold wordLen; omega
  have hpw : p ≤ 64 * wordLen p := by unfold wordLen; omega
  have hL : wordLen p ≤ x.m.m.length := by unfold wordLen; omega
  unfold Num.trySetPrecision Num.setPrecisionInternal at h
  rw [if_neg (by omega), if_pos ⟨by omega, hp⟩, hmb, if_neg (by omega), hix] at h
  simp only [Bool.true_or, Bool.and_true] at h
  obtain ⟨n, hn⟩ : ∃ n, n = 64 * x.m.m.length - p := ⟨_, rfl⟩
  rw [← hn] at h ⊢
  have hn0 : 0 < n := by omega
  have hnL : n < 64 * x.m.m.length := by omega
  have hpos : x.isPositive = x.s.isPos := rfl
  rw [hpos] at h
  obtain ⟨k, hk⟩ : ∃ k, k = rndN rm x.s.isPos (val x.m.m) n := ⟨_, rfl⟩
  rw [← hk]
  obtain ⟨R, hR⟩ : ∃ R, R = roundMantissa x.m.m n rm x.s.isPos true s true := ⟨_, rfl⟩
  rw [← hR] at h
  have hchk : R.check = false := by
    by_contra hc
    rw [if_pos (by simpa using hc)] at h
    simp at h
  rw [if_neg (by simp [hchk])] at h
  -- the contract of the rounded words, up to words that are cut off
  have hfacts : RoundableBits rm (val x.m.m) n (s - p) ∧ R.m.length = x.m.m.length ∧ Wf R.m ∧
      (k * 2 ^ n < 2 ^ (64 * x.m.m.length) → R.ret = false ∧
        val R.m / 2 ^ (64 * (n / 64)) = k * 2 ^ n / 2 ^ (64 * (n / 64))) ∧
      (2 ^ (64 * x.m.m.length) ≤ k * 2 ^ n → R.ret = true ∧
        val R.m / 2 ^ (64 * (n / 64)) = 2 ^ (64 * x.m.m.length - 1) / 2 ^ (64 * (n / 64))) := by
    have hspec := roundMantissa_spec hx.wf hn0 hnL hrm x.s.isPos s true
    rw [← hk] at hspec
    obtain ⟨_, _, q1, q2, q3, q4⟩ := hspec
    have hs0 : n - (x.m.m.length * 64 - s) = s - p := by omega
    obtain ⟨g, hg⟩ : ∃ g, 64 * g = 64 * x.m.m.length - s := by
      obtain ⟨c, rfl⟩ := h64
      exact ⟨x.m.m.length - c, by omega⟩
    have hcc : (s - p) / 64 = n / 64 - g := by omega
    unfold roundMantissa at hR q1 q2 q3 q4
    rw [if_neg hrm] at hR q1 q2 q3 q4
    rw [if_pos ⟨hn0, by omega⟩] at hR q1 q2 q3 q4
    rw [hs0, hcc] at hR q1 q2 q3 q4
    by_cases hnr : rm = .toEven ∨ rm = .toOdd
    · rw [if_pos hnr] at hR q1 q2 q3 q4
      have hnr' : rm.nearest = true := by rcases hnr with rfl | rfl <;> rfl
      have hg0 : g = 0 := by have := hnear hnr'; omega
      rw [hg0, Nat.sub_zero] at hR q1 q2 q3 q4
      rw [hR] at hchk
      obtain ⟨a1, a2⟩ := nearest_accept hx.wf hn0 hnL rm true hchk
      rw [a2] at hR
      rw [← hR] at q1 q2 q3 q4
      refine ⟨?_, q1, q2, fun hlt => ?_, fun hge => ?_⟩
      · unfold RoundableBits; rw [if_pos hnr']; exact a1
      · exact ⟨(q3 hlt).1, by rw [(q3 hlt).2]⟩
      · exact ⟨(q4 hge).1, by rw [(q4 hge).2]⟩
    · rw [if_neg hnr] at hR q1 q2 q3 q4
      have hnr' : ¬ rm.nearest = true := by
        cases rm <;> simp [RM.nearest] at hnr ⊢
      rw [hR] at hchk
      obtain ⟨a1, a, b, ha1, ha2, hb, w, w1, w2, w3⟩ :=
        directed_accept hx.wf hn0 hnL (g := g) (by omega) rm x.s.isPos true hchk
      rw [← hR] at w1 w3
      rw [w2] at q1 q2 q3 q4
      rw [← w3] at q3 q4
      have hdiv : ∀ l : List Nat, Wf l → l.length = n / 64 → val (l ++ w) / 2 ^ (64 * (n / 64)) = val w := by
        intro l hl hll
        rw [val_append, hll, ← B_pow, Nat.add_mul_div_left _ _ (B_pow_pos _),
          Nat.div_eq_of_lt (by rw [← hll]; exact val_lt hl), zero_add]
      have hbw := wf_append.1 q2
      have hsame : val R.m / 2 ^ (64 * (n / 64)) = val (b ++ w) / 2 ^ (64 * (n / 64)) := by
        rw [w1, hdiv a ha1 ha2, hdiv b hbw.1 hb]
      refine ⟨?_, ?_, ?_, fun hlt => ?_, fun hge => ?_⟩
      · unfold RoundableBits; rw [if_neg hnr']
        rw [show n - (s - p) = 64 * g by omega, show s - p = n - 64 * g by omega]
        exact a1
      · rw [w1, ← q1]; simp [ha2, hb]
      · rw [w1]; exact wf_append.2 ⟨ha1, hbw.2⟩
      · exact ⟨(q3 hlt).1, by rw [hsame, (q3 hlt).2]⟩
      · exact ⟨(q4 hge).1, by rw [hsame, (q4 hge).2]⟩
  obtain ⟨hbits, hl2, hwf2, hlt2, hge2⟩ := hfacts
  refine ⟨hbits, ?_⟩
  have hcut : 64 * (n / 64) = 64 * (x.m.m.length - wordLen p) := by unfold wordLen; omega
  have hpw2 : 2 ^ (64 * x.m.m.length) = 2 ^ p * 2 ^ n := by
    rw [← pow_add]; congr 1; omega
  -- from the final number
  have close : ∀ w : Num, w.m.m.length = wordLen p → Wf w.m.m → w.m.n = Nat.size (val w.m.m) → w.s = x.s →
      w.inexact = true →
      (((w.e = x.e ∨ (val w.m.m = 0 ∧ w.e = 0)) ∧ val w.m.m = k * 2 ^ (64 * wordLen p - p)) ∨
        (k = 2 ^ p ∧ x.e < EMAX ∧ w.e = x.e + 1 ∧ val w.m.m = 2 ^ (64 * wordLen p - 1))) →
      w.WF ∧ w.m.m.length = wordLen p ∧ w.s = x.s ∧ w.inexact = true ∧
        (w.toK : K) = x.s.toK * (k * 2 ^ (x.e - (p : ℤ))) := by
    intro w h1 h2 h3 h4 h5 h6
    have hkb : p = keptBits rm p := by unfold keptBits; rw [if_neg hrm]
    have hc := setPrec_close (K := K) hx hp hsz hkb (by omega) hpw hp h1 h2 h3 h4
      (by rw [← hn, ← hk]; exact h6) (by
        intro _
        rw [hix, h5]; simp)
    refine ⟨hc.1, h1, h4, h5, ?_⟩
    exact setPrec_val (by omega) hpw h1 h4 hwl (by
      rcases h6 with h6 | ⟨a, _, b, c⟩
      · exact Or.inl h6
      · exact Or.inr ⟨a, b, c⟩)
  rcases Nat.lt_or_ge (k * 2 ^ n) (2 ^ (64 * x.m.m.length)) with hkl | hkl
  · obtain ⟨e1, e2⟩ := hlt2 hkl
    rw [e1] at h
    simp only [Bool.false_eq_true, if_false] at h
    have hkcut : k * 2 ^ n / 2 ^ (64 * (n / 64)) = k * 2 ^ (64 * wordLen p - p) := by
      have : 2 ^ n = 2 ^ (64 * wordLen p - p) * 2 ^ (64 * (n / 64)) := by
        rw [← pow_add]; congr 1; omega
      rw [this, ← mul_assoc, Nat.mul_div_cancel _ (by positivity)]
    rw [hkcut, hcut] at e2
    by_cases h0 : (Mantissa.mk R.m x.m.n).isAllZero = true
    · rw [if_pos h0] at h
      injection h with h; injection h with _ h; subst h
      have hv0 := (isAllZero_iff _).1 h0
      dsimp only at hv0
      obtain ⟨a1, a2, a3, a4⟩ := setLength_down (x := Mantissa.mk R.m 0) hwf2
        (by dsimp only; rw [hv0]; simp) (p := p) (by dsimp only; rw [hl2]; exact hL)
      refine close _ a1 a2 a4 rfl rfl (Or.inl ⟨Or.inr ⟨?_, rfl⟩, ?_⟩)
      · dsimp only; rw [a3, hv0]; simp
      · dsimp only; rw [a3]; dsimp only; rw [hl2, e2]
    · rw [if_neg h0] at h
      by_cases hs : (Mantissa.mk R.m x.m.n).isSubnormal = true
      · rw [if_pos hs] at h
        injection h with h; injection h with _ h; subst h
        obtain ⟨a1, a2, a3, a4⟩ := setLength_down (x := (Mantissa.mk R.m x.m.n).updateBitLen)
          hwf2 (findBitLen_eq hwf2) (p := p) (by show wordLen p ≤ R.m.length; rw [hl2]; exact hL)
        refine close _ a1 a2 a4 rfl rfl (Or.inl ⟨Or.inl rfl, ?_⟩)
        dsimp only; rw [a3]
        show val R.m / 2 ^ (64 * (R.m.length - wordLen p)) = _
        rw [hl2, e2]
      · rw [if_neg hs] at h
        injection h with h; injection h with _ h; subst h
        have hnn : x.m.n = Nat.size (val R.m) := by
          have hs' : x.m.n = 64 * x.m.m.length := by
            unfold Mantissa.isSubnormal Mantissa.maxBitLen at hs
            simp only [decide_eq_true_eq] at hs
            rw [hl2] at hs
            have := hx.n_le
            omega
          have hlo : 2 ^ (64 * x.m.m.length - 1) ≤ val x.m.m := by
            rw [← Nat.lt_size, ← hx.bits]; omega
          have hk1 : 2 ^ (p - 1) ≤ k := by
            rw [hk]
            refine le_trans ?_ (rndN_ge rm x.s.isPos (val x.m.m) n)
            rw [Nat.le_div_iff_mul_le (by positivity), ← pow_add]
            exact le_trans (le_of_eq (by congr 1; omega)) hlo
          have hval : 2 ^ (64 * x.m.m.length - 1) ≤ val R.m := by
            have h1 : 2 ^ (64 * wordLen p - 1) ≤ val R.m / 2 ^ (64 * (x.m.m.length - wordLen p)) := by
              rw [e2]
              calc 2 ^ (64 * wordLen p - 1) = 2 ^ (p - 1) * 2 ^ (64 * wordLen p - p) := by
                    rw [← pow_add]; congr 1; omega
                _ ≤ _ := Nat.mul_le_mul_right _ hk1
            rw [Nat.le_div_iff_mul_le (by positivity), ← pow_add] at h1
            exact le_trans (le_of_eq (by congr 1; omega)) h1
          have : Normd R.m := ⟨hwf2, by omega, by rw [hl2]; exact hval⟩
          rw [this.size, hl2, hs']
        obtain ⟨a1, a2, a3, a4⟩ := setLength_down (x := (Mantissa.mk R.m x.m.n))
          hwf2 hnn (p := p) (by dsimp only; rw [hl2]; exact hL)
        refine close _ a1 a2 a4 rfl rfl (Or.inl ⟨Or.inl rfl, ?_⟩)
        dsimp only; rw [a3]; dsimp only; rw [hl2, e2]
  · obtain ⟨e1, e2⟩ := hge2 hkl
    rw [e1] at h
    simp only [if_true] at h
    by_cases hE : x.e = EMAX
    · rw [if_pos hE] at h; simp at h
    rw [if_neg hE] at h
    injection h with h; injection h with _ h; subst h
    have hk' := rndN_le rm x.s.isPos (val x.m.m) n
    rw [← hk] at hk'
    have hlt := val_lt_two_pow hx.wf
    have h2 : val x.m.m / 2 ^ n < 2 ^ p := by
      apply Nat.div_lt_of_lt_mul
      rw [mul_comm, ← hpw2]; exact hlt
    have h4 : 2 ^ p ≤ k := by
      by_contra hc
      rw [hpw2] at hkl
      have := Nat.mul_lt_mul_of_pos_right (show k < 2 ^ p by omega) (show 0 < 2 ^ n by positivity)
      omega
    have hkv : k = 2 ^ p := by omega
    have hVbig : 2 ^ (64 * x.m.m.length - 1) ≤ val x.m.m := by
      have h3 : 2 ^ p = 2 * 2 ^ (p - 1) := two_pow_split p hp
      have hp1 : 0 < 2 ^ (p - 1) := by positivity
      have h2 : 2 ^ (p - 1) ≤ val x.m.m / 2 ^ n := by omega
      rw [Nat.le_div_iff_mul_le (by positivity), ← pow_add] at h2
      exact le_trans (le_of_eq (by congr 1; omega)) h2
    have hn64 : x.m.n = 64 * x.m.m.length := by
      have := hx.n_le
      have h2 := Nat.lt_size.2 hVbig
      rw [← hx.bits] at h2; omega
    have hcut2 : 2 ^ (64 * x.m.m.length - 1) / 2 ^ (64 * (n / 64)) = 2 ^ (64 * wordLen p - 1) := by
      rw [Nat.pow_div (by omega) (by norm_num)]; congr 1; omega
    rw [hcut2, hcut] at e2
    have hnn : x.m.n = Nat.size (val R.m) := by
      have hval : 2 ^ (64 * x.m.m.length - 1) ≤ val R.m := by
        have h1 : 2 ^ (64 * wordLen p - 1) ≤ val R.m / 2 ^ (64 * (x.m.m.length - wordLen p)) := by
          rw [e2]
        rw [Nat.le_div_iff_mul_le (by positivity), ← pow_add] at h1
        exact le_trans (le_of_eq (by congr 1; omega)) h1
      have : Normd R.m := ⟨hwf2, by omega, by rw [hl2]; exact hval⟩
      rw [this.size, hl2, hn64]
    obtain ⟨a1, a2, a3, a4⟩ := setLength_down (x := (Mantissa.mk R.m x.m.n))
      hwf2 hnn (p := p) (by dsimp only; rw [hl2]; exact hL)
    have := hx.emax
    refine close _ a1 a2 a4 rfl rfl (Or.inr ⟨hkv, by omega, rfl, ?_⟩)
    dsimp only; rw [a3]; dsimp only; rw [hl2, e2]

/-- The rounding of `X` is the rounding of every `Y` in the same open cell (half cell for the nearest
modes). -/
theorem RMag.same_cell {rm : RM} {pos : Bool} {X Y : K} {k c : Nat} (h : RMag rm pos X k)
    (hX : (c : K) < X ∧ X < c + 1) (hY : (c : K) < Y ∧ Y < c + 1)
    (hn : rm.nearest = true → (X < c + 1 / 2 ∧ Y < c + 1 / 2) ∨ ((c : K) + 1 / 2 < X ∧ (c : K) + 1 / 2 < Y)) :
    RMag rm pos Y k := by
  have fl : ((k : K) ≤ X ∧ X < k + 1) → k = c := by
    rintro ⟨a, b⟩
    have h1 : (k : K) < c + 1 := by linarith
    have h2 : (c : K) < k + 1 := by linarith
    have h1 : k < c + 1 := by exact_mod_cast h1
    have h2 : c < k + 1 := by exact_mod_cast h2
    omega
  have ce : (X ≤ k ∧ (k : K) < X + 1) → k = c + 1 := by
    rintro ⟨a, b⟩
    have h1 : (k : K) < c + 2 := by linarith
    have h2 : (c : K) < k := by linarith
    have h1 : k < c + 2 := by exact_mod_cast h1
    have h2 : c < k := by exact_mod_cast h2
    omega
  have ne : |X - k| ≤ 1 / 2 → rm.nearest = true → |Y - k| < 1 / 2 := by
    intro a b
    rw [_root_.abs_le] at a
    rw [_root_.abs_lt]
    rcases hn b with ⟨g1, g2⟩ | ⟨g1, g2⟩
    · have h1 : (k : K) < c + 1 := by linarith
      have h2 : (c : K) < k + 1 := by linarith
      have h1 : k < c + 1 := by exact_mod_cast h1
      have h2 : c < k + 1 := by exact_mod_cast h2
      have : k = c := by omega
      subst this
      constructor <;> linarith
    · have h1 : (k : K) < c + 2 := by linarith
      have h2 : (c : K) < k := by linarith
      have h1 : k < c + 2 := by exact_mod_cast h1
      have h2 : c < k := by exact_mod_cast h2
      have : k = c + 1 := by omega
      subst this
      push_cast
      constructor <;> linarith
  cases rm <;> cases pos <;> simp only [RMag] at h ⊢ <;>
    first
    | (have := ne h.1 rfl; exact ⟨this.le, fun hh => absurd hh this.ne⟩)
    | (have := fl h; subst this; exact ⟨hY.1.le, hY.2⟩)
    | (have := ce h; subst this; push_cast; exact ⟨hY.2.le, by linarith [hY.1]⟩)

/-- Every number that agrees with an accepted `x` to `s` bits rounds to the same result. -/
theorem roundable_spec [Archimedean K] {x : Num} (hx : x.WF) {p s : Nat} (hp : 0 < p) (hps : p < s)
    (hsL : s ≤ 64 * x.m.m.length) {rm : RM} (hnear : rm.nearest = true → s = 64 * x.m.m.length)
    (hb : RoundableBits rm (val x.m.m) (64 * x.m.m.length - p) (s - p)) {y : K}
    (hy : |y - x.toK| < 2 ^ (x.e - (s : ℤ))) :
    RoundsFmt rm p y (x.s.toK *
      (rndN rm x.s.isPos (val x.m.m) (64 * x.m.m.length - p) * 2 ^ (x.e - (p : ℤ)))) := by
  obtain ⟨n, hn⟩ : ∃ n, n = 64 * x.m.m.length - p := ⟨_, rfl⟩
  rw [← hn] at hb ⊢
  set V := val x.m.m with hV
  set u : K := (2 : K) ^ (x.e - (p : ℤ)) with hu
  have hu0 : 0 < u := two_zpow_pos _
  have hmag := rndN_RMag (K := K) rm x.s.isPos V n
  set k := rndN rm x.s.isPos V n with hk
  have hXu : |(x.toK : K)| = (V : K) / 2 ^ n * u := by
    rw [Num.abs_val, div_mul_eq_mul_div, mul_div_assoc, hu, ← zpow_natCast, ← zpow_sub₀ (by norm_num)]
    congr 2; omega
  set Y : K := x.s.toK * y / u with hY
  have hyY : y = x.s.toK * (Y * u) := by
    rw [hY, div_mul_cancel₀ _ hu0.ne', ← mul_assoc, toK_mul_self, one_mul]
  have hdist : |Y - (V : K) / 2 ^ n| < 1 / 2 ^ (s - p) := by
    have h1 : y - x.toK = x.s.toK * ((Y - (V : K) / 2 ^ n) * u) := by
      rw [Num.toK_eq (x := x), hXu]
      conv_lhs => rw [hyY]
      ring
    rw [h1, abs_toK, abs_mul, abs_of_pos hu0] at hy
    have h2 : (2 : K) ^ (x.e - (s : ℤ)) = 1 / 2 ^ (s - p) * u := by
      rw [hu, one_div, ← zpow_natCast, ← zpow_neg, two_zpow_mul]; congr 1; omega
    rw [h2] at hy
    exact lt_of_mul_lt_mul_right hy hu0.le
  rw [_root_.abs_lt] at hdist
  obtain ⟨c, hc⟩ : ∃ c, c = V / 2 ^ n := ⟨_, rfl⟩
  have hVc : V = 2 ^ n * c + V % 2 ^ n := by rw [hc]; exact (Nat.div_add_mod V (2 ^ n)).symm
  have hP : (0 : K) < 2 ^ n := by positivity
  -- the cell
  have hcell : (((c : K) < (V : K) / 2 ^ n ∧ (V : K) / 2 ^ n < c + 1) ∧ ((c : K) < Y ∧ Y < c + 1)) ∧
      (rm.nearest = true → ((V : K) / 2 ^ n < c + 1 / 2 ∧ Y < c + 1 / 2) ∨
        ((c : K) + 1 / 2 < (V : K) / 2 ^ n ∧ (c : K) + 1 / 2 < Y)) := by
    unfold RoundableBits at hb
    by_cases hnr : rm.nearest = true
    · rw [if_pos hnr] at hb
      have hsn : s - p = n := by have := hnear hnr; omega
      rw [hsn] at hdist
      obtain ⟨b1, b2⟩ := hb
      have hn1 : 0 < n := by omega
      have hpow : 2 ^ n = 2 * 2 ^ (n - 1) := two_pow_split n hn1
      obtain ⟨H, hH⟩ : ∃ H, H = 2 ^ (n - 1) := ⟨_, rfl⟩
      rw [← hH] at b1 b2 hpow
      have hHK : (2 : K) ^ n = 2 * (H : K) := by exact_mod_cast hpow
      have hmodn : V % 2 ^ n = V % H + H * (V / H % 2) := by
        rw [hpow, mul_comm, Nat.mod_mul]
      have hH0 : (0 : K) < H := by rw [hHK] at hP; linarith
      obtain ⟨d, hd⟩ : ∃ d, d = V % H := ⟨_, rfl⟩
      obtain ⟨b, hb⟩ : ∃ b, b = V / H % 2 := ⟨_, rfl⟩
      rw [← hd, ← hb] at hmodn
      rw [← hd] at b1 b2
      rw [hmodn, hpow] at hVc
      have hVK : (V : K) / 2 ^ n = c + b / 2 + d / (2 * H) := by
        rw [hHK, hVc]; push_cast; field_simp; ring
      have hd1 : 1 / (2 * (H : K)) ≤ d / (2 * H) := by
        apply div_le_div_of_nonneg_right _ (by positivity)
        exact_mod_cast b1
      have hd2 : (d : K) / (2 * H) + 2 / (2 * H) ≤ 1 / 2 := by
        rw [← add_div, div_le_iff₀ (by positivity)]
        have : ((d + 2 : ℕ) : K) ≤ H := by exact_mod_cast b2
        push_cast at this
        linarith
      have h3 : (2 : K) / (2 * H) = 2 * (1 / (2 * H)) := by ring
      have h4 : (0 : K) < 1 / (2 * H) := by positivity
      rw [hVK] at hdist ⊢
      rw [hHK] at hdist
      have hb01 : b = 0 ∨ b = 1 := by omega
      rcases hb01 with hb0 | hb0
      · rw [hb0] at hdist ⊢
        push_cast at hdist ⊢
        refine ⟨⟨⟨by linarith, by linarith⟩, by linarith, by linarith⟩, fun _ => Or.inl ⟨by linarith, by linarith⟩⟩
      · rw [hb0] at hdist ⊢
        push_cast at hdist ⊢
        refine ⟨⟨⟨by linarith, by linarith⟩, by linarith, by linarith⟩, fun _ => Or.inr ⟨by linarith, by linarith⟩⟩
    · rw [if_neg hnr] at hb
      refine ⟨?_, fun h => absurd h hnr⟩
      obtain ⟨b1, b2⟩ := hb
      obtain ⟨G, hG⟩ : ∃ G, G = 2 ^ (n - (s - p)) := ⟨_, rfl⟩
      obtain ⟨W, hW⟩ : ∃ W, W = 2 ^ (s - p) := ⟨_, rfl⟩
      rw [← hG] at b1 b2
      rw [← hW] at b2
      have hpow : 2 ^ n = W * G := by rw [hW, hG, ← pow_add]; congr 1; omega
      have hG0 : 0 < G := by rw [hG]; positivity
      have hW0 : 0 < W := by rw [hW]; positivity
      obtain ⟨d, hd⟩ : ∃ d, d = V % 2 ^ n / G := ⟨_, rfl⟩
      obtain ⟨r, hr⟩ : ∃ r, r = V % 2 ^ n % G := ⟨_, rfl⟩
      have hrG : r < G := by rw [hr]; exact Nat.mod_lt _ hG0
      have hdr : V % 2 ^ n = G * d + r := by rw [hd, hr]; exact (Nat.div_add_mod _ _).symm
      rw [← hd] at b1 b2
      rw [hdr, hpow] at hVc
      have hGK : (0 : K) < G := by exact_mod_cast hG0
      have hWK : (0 : K) < W := by exact_mod_cast hW0
      have hPK : (2 : K) ^ n = W * G := by exact_mod_cast hpow
      have hWK2 : (2 : K) ^ (s - p) = W := by rw [hW]; push_cast; rfl
      have hVK : (V : K) / 2 ^ n = c + d / W + (r / G) / W := by
        rw [hPK, hVc]; push_cast; field_simp; ring
      have hr1 : (r : K) / G < 1 := by
        rw [div_lt_one hGK]; exact_mod_cast hrG
      have hr0 : (0 : K) ≤ (r : K) / G := by positivity
      have hr2 : ((r : K) / G) / W < 1 / W := div_lt_div_of_pos_right hr1 hWK
      have hr3 : (0 : K) ≤ ((r : K) / G) / W := by positivity
      have hd1 : 1 / (W : K) ≤ d / W := by
        apply div_le_div_of_nonneg_right _ hWK.le
        exact_mod_cast b1
      have hd2 : (d : K) / W + 2 / W ≤ 1 := by
        rw [← add_div, div_le_one hWK]
        exact_mod_cast b2
      have h3 : (2 : K) / W = 2 * (1 / W) := by ring
      have h4 : (0 : K) < 1 / W := by positivity
      rw [hVK] at hdist ⊢
      rw [hWK2] at hdist
      refine ⟨⟨by linarith, by linarith⟩, by linarith, by linarith⟩
  have hmagY := hmag.same_cell hcell.1.1 hcell.1.2 hcell.2
  have hY0 : 0 < Y := lt_of_le_of_lt (Nat.cast_nonneg c) hcell.1.2.1
  have habs : |y| = Y * u := by rw [hyY, abs_toK, abs_of_pos (mul_pos hY0 hu0)]
  -- the exponent of `y`
  have hcp : c + 1 ≤ 2 ^ p := by
    have hlt := val_lt_two_pow hx.wf
    have : c < 2 ^ p := by
      rw [hc, Nat.div_lt_iff_lt_mul (by positivity), ← pow_add]
      exact lt_of_lt_of_le hlt (Nat.pow_le_pow_right (by norm_num) (by omega))
    omega
  have hup : |y| < 2 ^ x.e := by
    rw [habs]
    have h1 : Y < 2 ^ p := by
      have h2 : ((c + 1 : ℕ) : K) ≤ ((2 ^ p : ℕ) : K) := by exact_mod_cast hcp
      push_cast at h2
      exact lt_of_lt_of_le hcell.1.2.2 h2
    calc Y * u < 2 ^ p * u := mul_lt_mul_of_pos_right h1 hu0
      _ = 2 ^ x.e := by rw [hu, ← zpow_natCast, two_zpow_mul]; congr 1; omega
  have hq : ∃ q : ℤ, (2 : K) ^ (q - 1) ≤ |y| ∧ |y| < 2 ^ q ∧ max q EMIN = x.e := by
    by_cases hsub : x.m.n < 64 * x.m.m.length
    · have hy0 : 0 < |y| := by rw [habs]; exact mul_pos hY0 hu0
      obtain ⟨q, h1, h2⟩ := exists_mem_Ico_zpow hy0 (show (1 : K) < 2 by norm_num)
      have hz : x.isZero = false := by
        by_contra hz
        rw [Bool.not_eq_false] at hz
        have hv0 := hx.isZero_iff.1 hz
        have h5 := hcell.1.1.1
        rw [hV, hv0] at h5
        simp only [Nat.cast_zero, zero_div] at h5
        exact absurd h5 (not_lt.2 (Nat.cast_nonneg c))
      have he := hx.norm (hx.n_pos hz) hsub
      refine ⟨q + 1, by rw [add_sub_cancel_right]; exact h1, h2, ?_⟩
      have h3 : q < EMIN := by
        rw [← he]
        exact (zpow_lt_zpow_iff_right₀ (show (1 : K) < 2 by norm_num)).1 (lt_of_le_of_lt h1 hup)
      rw [he]; omega
    · refine ⟨x.e, ?_, hup, max_eq_left hx.emin⟩
      have hnl := hx.n_le
      have h1 : 2 ^ (64 * x.m.m.length - 1) ≤ V := by
        rw [hV, ← Nat.lt_size, ← hx.bits]; omega
      have h2 : 2 ^ (p - 1) ≤ c := by
        rw [hc, Nat.le_div_iff_mul_le (by positivity), ← pow_add]
        exact le_trans (le_of_eq (by congr 1; omega)) h1
      have h3 : (2 : K) ^ (p - 1) ≤ Y := by
        have : ((2 ^ (p - 1) : ℕ) : K) ≤ c := by exact_mod_cast h2
        push_cast at this
        exact this.trans hcell.1.2.1.le
      rw [habs]
      calc (2 : K) ^ (x.e - 1) = 2 ^ (p - 1) * u := by
            rw [hu, ← zpow_natCast, two_zpow_mul]; congr 1; omega
        _ ≤ Y * u := mul_le_mul_of_nonneg_right h3 hu0.le
  obtain ⟨q, q1, q2, q3⟩ := hq
  refine Or.inr ⟨q, q1, q2, ?_⟩
  rw [q3, hyY]
  apply RMag.toRounds' (mul_pos hY0 hu0).le hu0
  rw [mul_div_assoc, div_self hu0.ne', mul_one]
  exact hmagY

end AF
