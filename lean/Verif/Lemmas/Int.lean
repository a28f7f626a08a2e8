import Verif.Model.Int
import Verif.Lemmas.Words
import Mathlib.Tactic.LinearCombination
/-!
# Signed word slices: values
-/

namespace AF

/-- Two numbers in `[0, M)` that differ by a multiple of `M` are equal. -/
theorem eq_of_congr {a b M : ℤ} (ha0 : 0 ≤ a) (ha : a < M) (hb0 : 0 ≤ b) (hb : b < M) {k : ℤ}
    (h : a = b + k * M) : a = b := by
  have h1 : k < 1 := by
    by_contra hc
    push Not at hc
    nlinarith
  have h2 : -1 < k := by
    by_contra hc
    push Not at hc
    nlinarith
  have : k = 0 := by omega
  rw [this] at h; simpa using h

@[simp] theorem fit_length (len : Nat) (m : List Nat) : (fit len m).length = len := by
  unfold fit; simp; omega

theorem fit_wf {m : List Nat} (hm : Wf m) (len : Nat) : Wf (fit len m) := by
  unfold fit; rw [wf_append]; exact ⟨hm.take _, wf_zeros _⟩

theorem val_fit {m : List Nat} (hm : Wf m) (len : Nat) : val (fit len m) = val m % B ^ len := by
  unfold fit; rw [val_append_zeros, val_take hm]

theorem addWords_spec (a b : List Nat) (c : Nat) (ha : Wf a) (hb : Wf b) (hc : c ≤ 1) :
    (addWords c a b).1.length = max a.length b.length ∧ Wf (addWords c a b).1 ∧
    (addWords c a b).2 ≤ 1 ∧
    val (addWords c a b).1 + B ^ max a.length b.length * (addWords c a b).2 = val a + val b + c := by
  induction a generalizing b c with
  | nil =>
    induction b generalizing c with
    | nil => simp [addWords, hc, Wf.nil]
    | cons b bs ih =>
      rw [wf_cons] at hb
      obtain ⟨h3, h1, h2⟩ := addCarry_spec B_pos hb.1 hc
      obtain ⟨i1, i2, i3, i4⟩ := ih (addCarry 0 b c).2 hb.2 h2
      simp only [addWords, List.length_nil, List.length_cons, Nat.zero_max] at *
      refine ⟨by rw [i1], Wf.cons h1 i2, i3, ?_⟩
      rw [val_cons, val_cons, val_nil, pow_succ]
      rw [val_nil] at i4
      nlinarith
  | cons a as ih =>
    rw [wf_cons] at ha
    cases b with
    | nil =>
      obtain ⟨h3, h1, h2⟩ := addCarry_spec ha.1 B_pos hc
      obtain ⟨i1, i2, i3, i4⟩ := ih [] (addCarry a 0 c).2 ha.2 Wf.nil h2
      simp only [addWords, List.length_nil, List.length_cons, Nat.max_zero] at *
      refine ⟨by rw [i1], Wf.cons h1 i2, i3, ?_⟩
      rw [val_cons, val_cons, val_nil, pow_succ]
      rw [val_nil] at i4
      nlinarith
    | cons b bs =>
      rw [wf_cons] at hb
      obtain ⟨h3, h1, h2⟩ := addCarry_spec ha.1 hb.1 hc
      obtain ⟨i1, i2, i3, i4⟩ := ih bs (addCarry a b c).2 ha.2 hb.2 h2
      simp only [addWords, List.length_cons]
      have e : max (as.length + 1) (bs.length + 1) = max as.length bs.length + 1 := by omega
      rw [e]
      refine ⟨by rw [i1], Wf.cons h1 i2, i3, ?_⟩
      rw [val_cons, val_cons, val_cons, pow_succ]
      nlinarith

theorem addSlice_spec {a b : List Nat} (ha : Wf a) (hb : Wf b) :
    ((addWords 0 a b).1 ++ [(addWords 0 a b).2]).length = max a.length b.length + 1 ∧
    Wf ((addWords 0 a b).1 ++ [(addWords 0 a b).2]) ∧
    val ((addWords 0 a b).1 ++ [(addWords 0 a b).2]) = val a + val b := by
  obtain ⟨h1, h2, h3, h4⟩ := addWords_spec a b 0 ha hb (by norm_num)
  refine ⟨by simp [h1], ?_, ?_⟩
  · rw [wf_append]; exact ⟨h2, Wf.cons (lt_of_le_of_lt h3 one_lt_B) Wf.nil⟩
  · rw [val_append, h1, val_cons, val_nil]; simpa using h4

theorem ssAbsAdd_spec {a b : List Nat} (ha : Wf a) (hb : Wf b) {len : Nat}
    (h : val a + val b < B ^ len) :
    (ssAbsAdd a b len).length = len ∧ Wf (ssAbsAdd a b len) ∧ val (ssAbsAdd a b len) = val a + val b := by
  obtain ⟨h1, h2, h3⟩ := addSlice_spec ha hb
  unfold ssAbsAdd
  refine ⟨fit_length _ _, fit_wf h2 _, ?_⟩
  dsimp only
  rw [val_fit h2, h3, Nat.mod_eq_of_lt h]

@[simp] theorem ssAddAssign_length (c : Nat) (a b : List Nat) : (ssAddAssign c a b).length = a.length := by
  induction a generalizing b c with
  | nil => simp [ssAddAssign]
  | cons a as ih => cases b <;> simp [ssAddAssign, ih]

theorem ssAddAssign_spec (a b : List Nat) (c : Nat) (ha : Wf a) (hb : Wf b) (hc : c ≤ 1) :
    Wf (ssAddAssign c a b) ∧
    ∃ k : ℤ, (val (ssAddAssign c a b) : ℤ) = val a + val b + c + k * (B ^ a.length : ℕ) := by
  induction a generalizing b c with
  | nil =>
    simp only [ssAddAssign]
    exact ⟨Wf.nil, -(val b + c), by simp⟩
  | cons a as ih =>
    rw [wf_cons] at ha
    cases b with
    | nil =>
      obtain ⟨h3, h1, h2⟩ := addCarry_spec ha.1 B_pos hc
      obtain ⟨i1, k, hk⟩ := ih [] (addCarry a 0 c).2 ha.2 Wf.nil h2
      simp only [ssAddAssign]
      refine ⟨Wf.cons h1 i1, k, ?_⟩
      have h3' : ((addCarry a 0 c).1 : ℤ) + B * (addCarry a 0 c).2 = a + 0 + c := by exact_mod_cast h3
      rw [val_cons, val_cons, val_nil, List.length_cons, pow_succ]
      rw [val_nil] at hk
      push_cast at hk ⊢
      rw [hk]
      linear_combination h3'
    | cons b bs =>
      rw [wf_cons] at hb
      obtain ⟨h3, h1, h2⟩ := addCarry_spec ha.1 hb.1 hc
      obtain ⟨i1, k, hk⟩ := ih bs (addCarry a b c).2 ha.2 hb.2 h2
      simp only [ssAddAssign]
      refine ⟨Wf.cons h1 i1, k, ?_⟩
      have h3' : ((addCarry a b c).1 : ℤ) + B * (addCarry a b c).2 = a + b + c := by exact_mod_cast h3
      rw [val_cons, val_cons, val_cons, List.length_cons, pow_succ]
      push_cast at hk ⊢
      rw [hk]
      linear_combination h3'

theorem ssAddAssign_exact {a b : List Nat} (ha : Wf a) (hb : Wf b)
    (h : val a + val b < B ^ a.length) :
    Wf (ssAddAssign 0 a b) ∧ val (ssAddAssign 0 a b) = val a + val b := by
  obtain ⟨h1, k, hk⟩ := ssAddAssign_spec a b 0 ha hb (by norm_num)
  refine ⟨h1, ?_⟩
  have hl := val_lt h1
  rw [ssAddAssign_length] at hl
  have : (val (ssAddAssign 0 a b) : ℤ) = ((val a + val b : ℕ) : ℤ) :=
    eq_of_congr (M := (B ^ a.length : ℕ)) (by positivity) (by exact_mod_cast hl) (by positivity)
      (by exact_mod_cast h) (k := k) (by rw [hk]; push_cast; ring)
  exact_mod_cast this

@[simp] theorem ssSubAssign1_length (c : Nat) (a b : List Nat) :
    (ssSubAssign1 c a b).length = a.length := by
  induction a generalizing b c with
  | nil => simp [ssSubAssign1]
  | cons a as ih => cases b <;> simp [ssSubAssign1, ih]

theorem ssSubAssign1_spec (a b : List Nat) (c : Nat) (ha : Wf a) (hb : Wf b) (hc : c ≤ 1) :
    Wf (ssSubAssign1 c a b) ∧
    ∃ k : ℤ, (val (ssSubAssign1 c a b) : ℤ) = val a - val b - c + k * (B ^ a.length : ℕ) := by
  induction a generalizing b c with
  | nil =>
    simp only [ssSubAssign1]
    exact ⟨Wf.nil, (val b + c), by simp⟩
  | cons a as ih =>
    rw [wf_cons] at ha
    cases b with
    | nil =>
      obtain ⟨h3, h1, h2⟩ := subBorrow_spec ha.1 B_pos hc
      obtain ⟨i1, k, hk⟩ := ih [] (subBorrow a 0 c).2 ha.2 Wf.nil h2
      simp only [ssSubAssign1]
      refine ⟨Wf.cons h1 i1, k, ?_⟩
      have h3' : ((subBorrow a 0 c).1 : ℤ) + 0 + c = a + B * (subBorrow a 0 c).2 := by exact_mod_cast h3
      rw [val_cons, val_cons, val_nil, List.length_cons, pow_succ]
      rw [val_nil] at hk
      push_cast at hk ⊢
      rw [hk]
      linear_combination h3'
    | cons b bs =>
      rw [wf_cons] at hb
      obtain ⟨h3, h1, h2⟩ := subBorrow_spec ha.1 hb.1 hc
      obtain ⟨i1, k, hk⟩ := ih bs (subBorrow a b c).2 ha.2 hb.2 h2
      simp only [ssSubAssign1]
      refine ⟨Wf.cons h1 i1, k, ?_⟩
      have h3' : ((subBorrow a b c).1 : ℤ) + b + c = a + B * (subBorrow a b c).2 := by exact_mod_cast h3
      rw [val_cons, val_cons, val_cons, List.length_cons, pow_succ]
      push_cast at hk ⊢
      rw [hk]
      linear_combination h3'

theorem ssSubAssign1_exact {a b : List Nat} (ha : Wf a) (hb : Wf b) (h : val b ≤ val a) :
    Wf (ssSubAssign1 0 a b) ∧ val (ssSubAssign1 0 a b) = val a - val b := by
  obtain ⟨h1, k, hk⟩ := ssSubAssign1_spec a b 0 ha hb (by norm_num)
  refine ⟨h1, ?_⟩
  have hl := val_lt h1
  rw [ssSubAssign1_length] at hl
  have hal := val_lt ha
  have : (val (ssSubAssign1 0 a b) : ℤ) = ((val a - val b : ℕ) : ℤ) :=
    eq_of_congr (M := (B ^ a.length : ℕ)) (by positivity) (by exact_mod_cast hl) (by positivity)
      (by rw [Nat.cast_lt]; omega) (k := k) (by rw [hk]; push_cast [Nat.cast_sub h]; ring)
  exact_mod_cast this

theorem ssAbsSub_spec {a b : List Nat} (ha : Wf a) (hb : Wf b) (h : val b ≤ val a) {len : Nat}
    (hl : val a - val b < B ^ len) :
    (ssAbsSub a b len).length = len ∧ Wf (ssAbsSub a b len) ∧ val (ssAbsSub a b len) = val a - val b := by
  obtain ⟨h1, h2⟩ := ssSubAssign1_exact ha hb h
  unfold ssAbsSub
  exact ⟨fit_length _ _, fit_wf h1 _, by rw [val_fit h1, h2, Nat.mod_eq_of_lt hl]⟩

@[simp] theorem ssSubAssign2_length (c : Nat) (a b : List Nat) :
    (ssSubAssign2 c a b).length = a.length := by
  induction a generalizing b c with
  | nil => simp [ssSubAssign2]
  | cons a as ih => cases b <;> simp [ssSubAssign2, ih]

theorem ssSubAssign2_spec (s1 s2 : List Nat) (c : Nat) (h1 : Wf s1) (h2 : Wf s2) (hc : c ≤ 1)
    (hl : s1.length ≤ s2.length) :
    Wf (ssSubAssign2 c s1 s2) ∧
    ∃ k : ℤ, (val (ssSubAssign2 c s1 s2) : ℤ) = val s2 - val s1 - c + k * (B ^ s1.length : ℕ) := by
  induction s1 generalizing s2 c with
  | nil =>
    simp only [ssSubAssign2]
    exact ⟨Wf.nil, (c - val s2), by simp⟩
  | cons b bs ih =>
    rw [wf_cons] at h1
    cases s2 with
    | nil => simp at hl
    | cons a as =>
      rw [wf_cons] at h2
      obtain ⟨g3, g1, g2⟩ := subBorrow_spec h2.1 h1.1 hc
      obtain ⟨i1, k, hk⟩ := ih as (subBorrow a b c).2 h1.2 h2.2 g2 (by simpa using hl)
      simp only [ssSubAssign2]
      refine ⟨Wf.cons g1 i1, k, ?_⟩
      have h3' : ((subBorrow a b c).1 : ℤ) + b + c = a + B * (subBorrow a b c).2 := by exact_mod_cast g3
      rw [val_cons, val_cons, val_cons, List.length_cons, pow_succ]
      push_cast at hk ⊢
      rw [hk]
      linear_combination h3'

theorem ssSubAssign2_long (s1 s2 : List Nat) (c : Nat) (hl : s2.length ≤ s1.length) :
    ssSubAssign2 c s1 s2 = ssSubAssign2 c (s1.take s2.length) s2 ++ s1.drop s2.length := by
  induction s2 generalizing s1 c with
  | nil => cases s1 <;> simp [ssSubAssign2]
  | cons a as ih =>
    cases s1 with
    | nil => simp at hl
    | cons b bs =>
      simp only [ssSubAssign2, List.length_cons, List.take_succ_cons, List.drop_succ_cons,
        List.cons_append]
      rw [ih bs _ (by simpa using hl)]

theorem ssSubAssign2_exact {s1 s2 : List Nat} (h1 : Wf s1) (h2 : Wf s2) (h : val s1 ≤ val s2)
    (hl : val s2 - val s1 < B ^ s1.length) :
    Wf (ssSubAssign2 0 s1 s2) ∧ val (ssSubAssign2 0 s1 s2) = val s2 - val s1 := by
  have key : ∀ t : List Nat, Wf t → t.length ≤ s2.length → val t ≤ val s2 →
      val s2 - val t < B ^ t.length →
      Wf (ssSubAssign2 0 t s2) ∧ val (ssSubAssign2 0 t s2) = val s2 - val t := by
    intro t ht hlt hle hlt2
    obtain ⟨g1, k, hk⟩ := ssSubAssign2_spec t s2 0 ht h2 (by norm_num) hlt
    refine ⟨g1, ?_⟩
    have hl2 := val_lt g1
    rw [ssSubAssign2_length] at hl2
    have : (val (ssSubAssign2 0 t s2) : ℤ) = ((val s2 - val t : ℕ) : ℤ) :=
      eq_of_congr (M := (B ^ t.length : ℕ)) (by positivity) (by exact_mod_cast hl2) (by positivity)
        (by rw [Nat.cast_lt]; omega) (k := k) (by rw [hk]; push_cast [Nat.cast_sub hle]; ring)
    exact_mod_cast this
  by_cases hc : s1.length ≤ s2.length
  · exact key s1 h1 hc h hl
  · have hc' : s2.length ≤ s1.length := by omega
    rw [ssSubAssign2_long _ _ _ hc']
    have hv2 := val_lt h2
    have hd : val (s1.drop s2.length) = 0 := by
      rw [val_drop h1]; exact Nat.div_eq_of_lt (by omega)
    have ht : val (s1.take s2.length) = val s1 := by
      rw [val_take h1]; exact Nat.mod_eq_of_lt (by omega)
    have htl : (s1.take s2.length).length = s2.length := by simp; omega
    obtain ⟨k1, k2⟩ := key (s1.take s2.length) (h1.take _) (by omega) (by omega) (by rw [htl]; omega)
    refine ⟨wf_append.2 ⟨k1, h1.drop _⟩, ?_⟩
    rw [val_append, hd, k2, ht]; simp

theorem cmpRev_spec (a b : List Nat) (ha : Wf a) (hb : Wf b) (hl : a.length = b.length) :
    (0 < cmpRev a b ↔ val b.reverse < val a.reverse) ∧
    (cmpRev a b < 0 ↔ val a.reverse < val b.reverse) := by
  induction a generalizing b with
  | nil =>
    cases b with
    | nil => simp [cmpRev]
    | cons => simp at hl
  | cons a as ih =>
    cases b with
    | nil => simp at hl
    | cons b bs =>
      rw [wf_cons] at ha hb
      simp only [List.length_cons, Nat.add_right_cancel_iff] at hl
      obtain ⟨i1, i2⟩ := ih bs ha.2 hb.2 hl
      have la := val_lt (wf_reverse.2 ha.2)
      have lb := val_lt (wf_reverse.2 hb.2)
      simp only [List.length_reverse] at la lb
      rw [← hl] at lb
      simp only [cmpRev, List.reverse_cons]
      rw [val_append, val_append, val_cons, val_cons, val_nil, List.length_reverse,
        List.length_reverse, ← hl]
      simp only [mul_zero, add_zero]
      by_cases hd : a = b
      · subst hd
        simp only [sub_self, ne_eq, not_true_eq_false, if_false]
        rw [i1, i2]
        omega
      · have hne : (a : ℤ) - b ≠ 0 := by omega
        rw [if_pos hne]
        rcases Nat.lt_or_gt_of_ne hd with h | h
        · have : B ^ as.length * a + B ^ as.length ≤ B ^ as.length * b := by
            rw [← Nat.mul_succ]; exact Nat.mul_le_mul_left _ h
          constructor
          · constructor
            · intro; omega
            · intro; omega
          · constructor
            · intro; omega
            · intro; omega
        · have : B ^ as.length * b + B ^ as.length ≤ B ^ as.length * a := by
            rw [← Nat.mul_succ]; exact Nat.mul_le_mul_left _ h
          constructor
          · constructor
            · intro; omega
            · intro; omega
          · constructor
            · intro; omega
            · intro; omega

theorem any_ne_zero_iff (m : List Nat) : m.any (· ≠ 0) = true ↔ val m ≠ 0 := by
  rw [ne_eq, val_eq_zero_iff]
  simp

theorem ssAbsCmp_spec {a b : List Nat} (ha : Wf a) (hb : Wf b) :
    (0 < ssAbsCmp a b ↔ val b < val a) ∧ (ssAbsCmp a b < 0 ↔ val a < val b) := by
  unfold ssAbsCmp
  dsimp only
  set len := min a.length b.length with hlen
  have ea := val_take_drop a len (by omega)
  have eb := val_take_drop b len (by omega)
  have la := val_lt (ha.take len)
  have lb := val_lt (hb.take len)
  have hla : (a.take len).length = len := by simp; omega
  have hlb : (b.take len).length = len := by simp; omega
  rw [hla] at la
  rw [hlb] at lb
  have hone : a.drop len = [] ∨ b.drop len = [] := by
    rcases Nat.le_total a.length b.length with h | h
    · left; apply List.drop_eq_nil_of_le; omega
    · right; apply List.drop_eq_nil_of_le; omega
  have hB := B_pow_pos len
  by_cases h1 : (a.drop len).any (· ≠ 0) = true
  · rw [if_pos h1]
    have hn := (any_ne_zero_iff _).1 h1
    have hbn : val (b.drop len) = 0 := by
      rcases hone with h | h
      · rw [h] at hn; simp at hn
      · rw [h]; rfl
    have : B ^ len * 1 ≤ B ^ len * val (a.drop len) := Nat.mul_le_mul_left _ (by omega)
    rw [hbn] at eb
    constructor <;> constructor <;> intro <;> omega
  · rw [if_neg h1]
    have hn : val (a.drop len) = 0 := by
      by_contra hc; exact h1 ((any_ne_zero_iff _).2 hc)
    rw [hn] at ea
    by_cases h2 : (b.drop len).any (· ≠ 0) = true
    · rw [if_pos h2]
      have hbn := (any_ne_zero_iff _).1 h2
      have : B ^ len * 1 ≤ B ^ len * val (b.drop len) := Nat.mul_le_mul_left _ (by omega)
      constructor <;> constructor <;> intro <;> omega
    · rw [if_neg h2]
      have hbn : val (b.drop len) = 0 := by
        by_contra hc; exact h2 ((any_ne_zero_iff _).2 hc)
      rw [hbn] at eb
      obtain ⟨i1, i2⟩ := cmpRev_spec (a.take len).reverse (b.take len).reverse
        (wf_reverse.2 (ha.take _)) (wf_reverse.2 (hb.take _)) (by simp [hla, hlb])
      rw [List.reverse_reverse, List.reverse_reverse] at i1 i2
      rw [i1, i2]
      constructor <;> constructor <;> intro <;> omega

/-- The integer denoted by a signed slice. -/
def SS.toZ (s : SS) : ℤ := if s.neg then -(val s.m : ℤ) else val s.m

theorem SS.abs_toZ (s : SS) : |s.toZ| = val s.m := by
  unfold SS.toZ; split <;> simp

theorem SS.addSub_spec {s1 s2 : SS} (h1 : Wf s1.m) (h2 : Wf s2.m) (dneg : Bool) {len : Nat}
    (op : Bool) {r : ℤ} (hr : r = s1.toZ + (if op then s2.toZ else -s2.toZ))
    (hb : |r| < (B ^ len : ℕ)) :
    (s1.addSub s2 dneg len op).m.length = len ∧ Wf (s1.addSub s2 dneg len op).m ∧
    (s1.addSub s2 dneg len op).toZ = r := by
  obtain ⟨c1, c2⟩ := ssAbsCmp_spec h1 h2
  unfold SS.addSub
  dsimp only
  obtain ⟨t, ht⟩ : ∃ t, t = (if op then s2.neg else !s2.neg) := ⟨_, rfl⟩
  have hcond : (s1.neg != s2.neg && op || !op && s1.neg == s2.neg) = (s1.neg != t) := by
    rw [ht]; cases op <;> cases s1.neg <;> cases s2.neg <;> rfl
  have hs2 : (if op then s2.toZ else -s2.toZ) = if t then -(val s2.m : ℤ) else val s2.m := by
    rw [ht]; unfold SS.toZ; cases op <;> cases s2.neg <;> simp
  rw [hs2] at hr
  rw [hcond, ← ht]
  have hs1 : s1.toZ = if s1.neg then -(val s1.m : ℤ) else val s1.m := rfl
  rw [hs1] at hr
  have habs : ∀ n : ℕ, |r| = n → n < B ^ len := by
    intro n hn; rw [hn] at hb; exact_mod_cast hb
  by_cases hst : s1.neg = t
  · rw [if_neg (by simp [hst])]
    have e : |r| = (val s1.m + val s2.m : ℕ) := by
      rw [hr, hst]
      cases t
      · simp only [Bool.false_eq_true, if_false]; rw [abs_of_nonneg (by positivity)]; push_cast; ring
      · simp only [if_true]; rw [abs_of_nonpos (by linarith [Nat.cast_nonneg (α := ℤ) (val s1.m), Nat.cast_nonneg (α := ℤ) (val s2.m)])]; push_cast; ring
    obtain ⟨a1, a2, a3⟩ := ssAbsAdd_spec h1 h2 (habs _ e)
    refine ⟨a1, a2, ?_⟩
    unfold SS.toZ
    dsimp only
    rw [a3, hr, hst]
    cases t <;> simp; ring
  · rw [if_pos (by simpa using hst)]
    have hr' : r = if s1.neg then (val s2.m : ℤ) - val s1.m else (val s1.m : ℤ) - val s2.m := by
      rw [hr]
      cases hh : s1.neg <;> cases hh2 : t <;> simp_all <;> ring
    by_cases g1 : ssAbsCmp s1.m s2.m > 0
    · rw [if_pos g1]
      have hlt := c1.1 g1
      have e : |r| = (val s1.m - val s2.m : ℕ) := by
        rw [hr', Nat.cast_sub hlt.le]
        split
        · rw [abs_of_nonpos (by omega)]; ring
        · rw [abs_of_nonneg (by omega)]
      obtain ⟨a1, a2, a3⟩ := ssAbsSub_spec h1 h2 hlt.le (habs _ e)
      refine ⟨a1, a2, ?_⟩
      unfold SS.toZ
      dsimp only
      rw [a3, hr', Nat.cast_sub hlt.le]
      split <;> ring
    · rw [if_neg g1]
      by_cases g2 : ssAbsCmp s1.m s2.m < 0
      · rw [if_pos g2]
        have hlt := c2.1 g2
        have e : |r| = (val s2.m - val s1.m : ℕ) := by
          rw [hr', Nat.cast_sub hlt.le]
          split
          · rw [abs_of_nonneg (by omega)]
          · rw [abs_of_nonpos (by omega)]; ring
        obtain ⟨a1, a2, a3⟩ := ssAbsSub_spec h2 h1 hlt.le (habs _ e)
        refine ⟨a1, a2, ?_⟩
        unfold SS.toZ
        dsimp only
        rw [a3, hr', Nat.cast_sub hlt.le]
        have : t = !s1.neg := by cases hh : s1.neg <;> cases hh2 : t <;> simp_all
        rw [this]
        cases s1.neg <;> simp
      · rw [if_neg g2]
        have heq : val s1.m = val s2.m := by
          have := fun h => g1 (c1.2 h)
          have := fun h => g2 (c2.2 h)
          omega
        refine ⟨by simp, wf_zeros _, ?_⟩
        unfold SS.toZ
        dsimp only
        rw [hr', heq]
        simp

theorem SS.addSubAssign_spec {s1 s2 : SS} (h1 : Wf s1.m) (h2 : Wf s2.m)
    (op : Bool) {r : ℤ} (hr : r = s1.toZ + (if op then s2.toZ else -s2.toZ))
    (hb : |r| < (B ^ s1.m.length : ℕ)) :
    (s1.addSubAssign s2 op).m.length = s1.m.length ∧ Wf (s1.addSubAssign s2 op).m ∧
    (s1.addSubAssign s2 op).toZ = r := by
  obtain ⟨c1, c2⟩ := ssAbsCmp_spec h1 h2
  unfold SS.addSubAssign
  dsimp only
  obtain ⟨t, ht⟩ : ∃ t, t = (if op then s2.neg else !s2.neg) := ⟨_, rfl⟩
  have hcond : (s1.neg != s2.neg && op || !op && s1.neg == s2.neg) = (s1.neg != t) := by
    rw [ht]; cases op <;> cases s1.neg <;> cases s2.neg <;> rfl
  have hs2 : (if op then s2.toZ else -s2.toZ) = if t then -(val s2.m : ℤ) else val s2.m := by
    rw [ht]; unfold SS.toZ; cases op <;> cases s2.neg <;> simp
  rw [hs2] at hr
  rw [hcond, ← ht]
  have hs1 : s1.toZ = if s1.neg then -(val s1.m : ℤ) else val s1.m := rfl
  rw [hs1] at hr
  have habs : ∀ n : ℕ, |r| = n → n < B ^ s1.m.length := by
    intro n hn; rw [hn] at hb; exact_mod_cast hb
  by_cases hst : s1.neg = t
  · rw [if_neg (by simp [hst])]
    have e : |r| = (val s1.m + val s2.m : ℕ) := by
      rw [hr, hst]
      cases t
      · simp only [Bool.false_eq_true, if_false]; rw [abs_of_nonneg (by positivity)]; push_cast; ring
      · simp only [if_true]; rw [abs_of_nonpos (by linarith [Nat.cast_nonneg (α := ℤ) (val s1.m), Nat.cast_nonneg (α := ℤ) (val s2.m)])]; push_cast; ring
    obtain ⟨a2, a3⟩ := ssAddAssign_exact h1 h2 (habs _ e)
    refine ⟨by simp, a2, ?_⟩
    unfold SS.toZ
    dsimp only
    rw [a3, hr, hst]
    cases t <;> simp; ring
  · rw [if_pos (by simpa using hst)]
    have hr' : r = if s1.neg then (val s2.m : ℤ) - val s1.m else (val s1.m : ℤ) - val s2.m := by
      rw [hr]
      cases hh : s1.neg <;> cases hh2 : t <;> simp_all <;> ring
    by_cases g1 : ssAbsCmp s1.m s2.m > 0
    · rw [if_pos g1]
      have hlt := c1.1 g1
      obtain ⟨a2, a3⟩ := ssSubAssign1_exact h1 h2 hlt.le
      refine ⟨by simp, a2, ?_⟩
      unfold SS.toZ
      dsimp only
      rw [a3, hr', Nat.cast_sub hlt.le]
      split <;> ring
    · rw [if_neg g1]
      by_cases g2 : ssAbsCmp s1.m s2.m < 0
      · rw [if_pos g2]
        have hlt := c2.1 g2
        have e : |r| = (val s2.m - val s1.m : ℕ) := by
          rw [hr', Nat.cast_sub hlt.le]
          split
          · rw [abs_of_nonneg (by omega)]
          · rw [abs_of_nonpos (by omega)]; ring
        obtain ⟨a2, a3⟩ := ssSubAssign2_exact h1 h2 hlt.le (habs _ e)
        refine ⟨by simp, a2, ?_⟩
        unfold SS.toZ
        dsimp only
        rw [a3, hr', Nat.cast_sub hlt.le]
        have : t = !s1.neg := by cases hh : s1.neg <;> cases hh2 : t <;> simp_all
        rw [this]
        cases s1.neg <;> simp
      · rw [if_neg g2]
        have heq : val s1.m = val s2.m := by
          have := fun h => g1 (c1.2 h)
          have := fun h => g2 (c2.2 h)
          omega
        refine ⟨by simp, wf_zeros _, ?_⟩
        unfold SS.toZ
        dsimp only
        rw [hr', heq]
        simp

theorem divWordLoop_spec (d : Nat) (hd0 : 0 < d) (hd : d ≤ B) (rh : Nat) (hrh : rh < d)
    (m : List Nat) (hm : Wf m) :
    (divWordLoop d rh m).1.length = m.length ∧ Wf (divWordLoop d rh m).1 ∧
    (divWordLoop d rh m).2 < d ∧
    rh * B ^ m.length + val m.reverse = d * val (divWordLoop d rh m).1.reverse + (divWordLoop d rh m).2 := by
  induction m generalizing rh with
  | nil => simp [divWordLoop, Wf.nil, hrh]
  | cons v vs ih =>
    rw [wf_cons] at hm
    have hq : (rh * B + v) / d < B := by
      rw [Nat.div_lt_iff_lt_mul hd0]
      have : (rh + 1) * B ≤ d * B := Nat.mul_le_mul_right _ hrh
      have := hm.1
      nlinarith
    obtain ⟨i1, i2, i3, i4⟩ := ih ((rh * B + v) % d) (Nat.mod_lt _ hd0) hm.2
    simp only [divWordLoop, List.length_cons, List.reverse_cons]
    rw [Nat.mod_eq_of_lt hq]
    refine ⟨by rw [i1], Wf.cons hq i2, i3, ?_⟩
    rw [val_append, val_append, List.length_reverse, List.length_reverse, i1, val_cons, val_nil,
      val_cons, val_nil]
    have hdm := Nat.div_add_mod (rh * B + v) d
    have : rh * B ^ (vs.length + 1) + B ^ vs.length * v =
        (d * ((rh * B + v) / d) + (rh * B + v) % d) * B ^ vs.length := by
      rw [hdm, pow_succ]; ring
    nlinarith

theorem divByWord_full {m : List Nat} (hm : Wf m) {d : Nat} (hd0 : 0 < d) (hd : d ≤ B) :
    (divByWord m d).length = m.length ∧ Wf (divByWord m d) ∧ val (divByWord m d) = val m / d := by
  unfold divByWord
  have hr := wf_reverse.2 hm
  have hlen : m.reverse.length = m.length := by simp
  have hrr : m = m.reverse.reverse := by simp
  generalize m.reverse = r at *
  subst hrr
  cases r with
  | nil => simp [Wf.nil]
  | cons v vs =>
    dsimp only
    rw [wf_cons] at hr
    by_cases hv : v < d
    · rw [if_pos hv]
      obtain ⟨i1, i2, i3, i4⟩ := divWordLoop_spec d hd0 hd v hv vs hr.2
      refine ⟨by simp [i1], wf_reverse.2 (Wf.cons B_pos i2), ?_⟩
      rw [List.reverse_cons, List.reverse_cons, val_append, val_append, val_cons, val_nil, val_cons,
        val_nil, List.length_reverse, List.length_reverse]
      have e : val vs.reverse + B ^ vs.length * (v + B * 0) =
          (divWordLoop d v vs).2 + d * val (divWordLoop d v vs).1.reverse := by linarith
      rw [e, Nat.add_mul_div_left _ _ hd0, Nat.div_eq_of_lt i3]
      simp
    · rw [if_neg hv]
      obtain ⟨i1, i2, i3, i4⟩ := divWordLoop_spec d hd0 hd 0 hd0 (v :: vs) (Wf.cons hr.1 hr.2)
      refine ⟨by simp [i1], wf_reverse.2 i2, ?_⟩
      have e : val (v :: vs).reverse =
          (divWordLoop d 0 (v :: vs)).2 + d * val (divWordLoop d 0 (v :: vs)).1.reverse := by linarith
      rw [e, Nat.add_mul_div_left _ _ hd0, Nat.div_eq_of_lt i3]
      simp

theorem decrementAbs_spec {m : List Nat} (hm : Wf m) (h : val m ≠ 0) :
    (decrementAbs m).length = m.length ∧ Wf (decrementAbs m) ∧ val (decrementAbs m) + 1 = val m := by
  induction m with
  | nil => simp at h
  | cons v vs ih =>
    rw [wf_cons] at hm
    unfold decrementAbs
    by_cases hv : v = 0
    · rw [if_pos hv]
      subst hv
      have h' : val vs ≠ 0 := by
        intro hc; apply h; rw [val_cons, hc]; simp
      obtain ⟨i1, i2, i3⟩ := ih hm.2 h'
      refine ⟨by simp [i1], Wf.cons (by rw [WMAX_eq]; have := B_pos; omega) i2, ?_⟩
      rw [val_cons, val_cons, ← i3, WMAX_eq]
      have := B_pos
      have e : B * (val (decrementAbs vs) + 1) = B * val (decrementAbs vs) + B := by ring
      omega
    · rw [if_neg hv]
      refine ⟨by simp, Wf.cons (by omega) hm.2, ?_⟩
      rw [val_cons, val_cons]; omega

theorem shiftLeftCopy_spec {m : List Nat} (hm : Wf m) (len : Nat) {n : Nat} (hn : n < 64) :
    (shiftLeftCopy m len n).length = len ∧ Wf (shiftLeftCopy m len n) ∧
    val (shiftLeftCopy m len n) = val m * 2 ^ n % B ^ len := by
  unfold shiftLeftCopy
  have e1 : n / 64 = 0 := by omega
  have e2 : n % 64 = n := by omega
  rw [e1, e2]
  dsimp only
  by_cases hl : 0 ≥ len
  · rw [if_pos hl]
    have : len = 0 := by omega
    subst this
    simp [Wf.nil, Nat.mod_one]
  · rw [if_neg hl]
    have hm0 : Wf (m ++ [0]) := wf_append.2 ⟨hm, Wf.cons B_pos Wf.nil⟩
    by_cases hs : n > 0
    · rw [if_pos hs]
      have hw := shlBits_wf (s := n) (p := 0) B_pos hm0
      have hv := val_shlBits (s := n) (p := 0) (by omega) B_pos hm0
      simp only [List.replicate_zero, List.nil_append]
      refine ⟨fit_length _ _, fit_wf hw _, ?_⟩
      rw [val_fit hw]
      have hv0 : val (m ++ [0]) = val m := by rw [val_append]; simp
      have hb : val m * 2 ^ n < B ^ (m ++ [0]).length := by
        have h1 := val_lt hm
        have h2 : 2 ^ n < B := by rw [B_eq]; exact Nat.pow_lt_pow_right (by norm_num) hn
        simp only [List.length_append, List.length_cons, List.length_nil, pow_succ, zero_add]
        exact Nat.mul_lt_mul_of_lt_of_lt h1 h2
      rw [hv, hv0, Nat.zero_shiftRight, Nat.add_zero, Nat.mod_eq_of_lt hb]
    · rw [if_neg hs]
      have : n = 0 := by omega
      subst this
      simp only [List.replicate_zero, List.nil_append]
      exact ⟨fit_length _ _, fit_wf hm _, by rw [val_fit hm]; simp⟩

end AF
