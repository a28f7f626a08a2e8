import Verif.Lemmas.DecScale
import Verif.Lemmas.DecInt
/-!
# Rounding of decimal digits

`round_dec` in terms of the number the digits approximate.
-/

namespace AF

theorem incDec_spec : ∀ l : List Nat, (∀ d ∈ l, d ≤ 9) →
    (incDec l).1.length = l.length ∧ (∀ d ∈ (incDec l).1, d ≤ 9) ∧
    lev (incDec l).1 + (if (incDec l).2 then 10 ^ l.length else 0) = lev l + 1 := by
  intro l
  induction l with
  | nil => intro _; simp [incDec, lev]
  | cons v vs ih =>
    intro h
    have hv := h v (List.mem_cons_self ..)
    obtain ⟨h1, h2, h3⟩ := ih (fun d hd => h d (List.mem_cons_of_mem _ hd))
    unfold incDec
    split
    · refine ⟨by simp, ?_, ?_⟩
      · intro d hd
        rcases List.mem_cons.1 hd with rfl | hd
        · omega
        · exact h d (List.mem_cons_of_mem _ hd)
      · simp [lev]; omega
    · refine ⟨by simp [h1], ?_, ?_⟩
      · intro d hd
        rcases List.mem_cons.1 hd with rfl | hd
        · omega
        · exact h2 d hd
      · simp only [lev, List.length_cons, pow_succ]
        split_ifs at h3 ⊢ <;> omega

theorem lev_lt {l : List Nat} (h : ∀ d ∈ l, d ≤ 9) : lev l < 10 ^ l.length := by
  have h1 := digNat_lt (b := 10) (ds := l.reverse) (by norm_num)
    (fun d hd => by have := h d (List.mem_reverse.1 hd); omega)
  rw [← lev_reverse, List.reverse_reverse, List.length_reverse] at h1
  exact h1

theorem digNat_nines {ds : List Nat} (h : ∀ d ∈ ds, d ≤ 9) :
    digNat 10 ds + 1 = 10 ^ ds.length ↔ ∀ d ∈ ds, d = 9 := by
  induction ds with
  | nil => simp
  | cons d ds ih =>
    have h1 := h d (List.mem_cons_self ..)
    have h2 := ih (fun x hx => h x (List.mem_cons_of_mem _ hx))
    have h3 := digNat_lt (b := 10) (ds := ds) (by norm_num)
      (fun x hx => by have := h x (List.mem_cons_of_mem _ hx); omega)
    rw [digNat_cons, List.length_cons, pow_succ]
    generalize 10 ^ ds.length = t at *
    constructor
    · intro h4
      have hd : d = 9 := by
        by_contra hne
        have : d * t ≤ 8 * t := Nat.mul_le_mul_right _ (by omega)
        omega
      subst hd
      intro x hx
      rcases List.mem_cons.1 hx with rfl | hx
      · rfl
      · exact h2.1 (by omega) x hx
    · intro h4
      have hd := h4 d (List.mem_cons_self ..)
      have := h2.2 (fun x hx => h4 x (List.mem_cons_of_mem _ hx))
      subst hd
      omega

theorem roundDecC_none {ds : List Nat} {n : Nat} {rm : RM} {pos check : Bool} (h : roundDecC ds n rm pos check = none) :
    check = true := by
  unfold roundDecC at h
  cases check with
  | true => rfl
  | false =>
    dsimp only at h
    split_ifs at h <;> simp_all

/-- The decimal digits kept by an accepted rounding: `n` digits with the value of the first `n` digits, plus
one if the rounding is away from zero; the flag tells that the exponent grows. -/
theorem roundDec_digits {ds : List Nat} {n : Nat} {rm : RM} {pos check : Bool} (hd : ∀ d ∈ ds, d ≤ 9)
    (hn0 : 0 < n) (hn : n < ds.length) (hrm : rm ≠ .none) {ds' : List Nat} {fl : Bool}
    (h : roundDec ds n rm pos check = (ds', fl, false)) :
    ∃ c, roundDecC ds n rm pos check = some c ∧ (ds'.take n).length = n ∧ (∀ d ∈ ds'.take n, d ≤ 9) ∧
      (digNat 10 (ds'.take n)) * (if fl then 10 else 1) = digNat 10 (ds.take n) + (if c then 1 else 0) := by
  unfold roundDec at h
  rw [if_neg hrm, if_pos ⟨hn0, hn⟩] at h
  have hl : (ds.take n).length = n := by rw [List.length_take]; omega
  have hdt : ∀ d ∈ ds.take n, d ≤ 9 := fun d h => hd d (List.mem_of_mem_take h)
  cases hc : roundDecC ds n rm pos check with
  | none =>
    rw [hc] at h
    simp only [Prod.mk.injEq] at h
    exact absurd (roundDecC_none hc) (by simp [h.2.2])
  | some c =>
    rw [hc] at h
    refine ⟨c, rfl, ?_⟩
    dsimp only at h
    cases c with
    | false =>
      simp only [Bool.false_eq_true, if_false, Prod.mk.injEq] at h
      obtain ⟨h1, h2, _⟩ := h
      subst h1 h2
      rw [List.take_append_of_le_length (by omega), List.take_of_length_le (by omega)]
      exact ⟨hl, hdt, by simp⟩
    | true =>
      obtain ⟨i1, i2, i3⟩ := incDec_spec (ds.take n).reverse (fun d h => hdt d (List.mem_reverse.1 h))
      rw [lev_reverse] at i3
      rw [List.length_reverse, hl] at i1 i3
      have ilt := lev_lt i2
      rw [if_pos rfl] at h
      generalize hr : incDec (ds.take n).reverse = r at *
      rcases r with ⟨r1, r2⟩
      dsimp only at *
      have hlev : lev r1 = digNat 10 r1.reverse := by rw [← lev_reverse, List.reverse_reverse]
      have hlr : r1.reverse.length = n := by rw [List.length_reverse, i1]
      cases r2 with
      | false =>
        simp only [Bool.false_eq_true, if_false, Prod.mk.injEq] at h i3
        obtain ⟨h1, h2, _⟩ := h
        subst h1 h2
        rw [List.take_append_of_le_length (by omega), List.take_of_length_le (by omega)]
        refine ⟨hlr, fun d h => i2 d (List.mem_reverse.1 h), ?_⟩
        simp only [Bool.false_eq_true, if_false, if_true]
        omega
      | true =>
        simp only [if_true, Prod.mk.injEq] at h i3
        obtain ⟨h1, h2, _⟩ := h
        subst h1 h2
        have hklt : digNat 10 (ds.take n) < 10 ^ n := by
          have := digNat_lt (b := 10) (ds := ds.take n) (by norm_num) (fun d h => by have := hdt d h; omega)
          rwa [hl] at this
        have hz : lev r1 = 0 := by omega
        rw [hlev, digNat_eq_zero (by norm_num)] at hz
        have hlt : (1 :: r1.reverse.tail).length = n := by
          rw [List.length_cons, List.length_tail, hlr]; omega
        rw [List.take_append_of_le_length (by omega), List.take_of_length_le (by omega)]
        have hz' : ∀ d ∈ r1.reverse.tail, d = 0 := fun d h => hz d (List.mem_of_mem_tail h)
        refine ⟨hlt, ?_, ?_⟩
        · intro d hd
          rcases List.mem_cons.1 hd with rfl | hd
          · omega
          · have := hz' d hd; omega
        · rw [digNat_cons, (digNat_eq_zero (by norm_num)).2 hz', List.length_tail, hlr]
          simp only [if_true]
          have : 10 ^ n = 10 ^ (n - 1) * 10 := by rw [← pow_succ]; congr 1; omega
          have h0 := (digNat_eq_zero (b := 10) (by norm_num)).2 hz
          omega

/-- A refused rounding: the digits after the rounding digit are all zeros or all nines. -/
theorem roundDec_refused {ds : List Nat} {n : Nat} {rm : RM} {pos check : Bool} (hd : ∀ d ∈ ds, d ≤ 9)
    (hn0 : 0 < n) (hn : n < ds.length) (hrm : rm ≠ .none) {ds' : List Nat} {fl : Bool}
    (h : roundDec ds n rm pos check = (ds', fl, true)) : check = true ∧
      (digNat 10 (ds.drop (n + 1)) = 0 ∨ digNat 10 (ds.drop (n + 1)) + 1 = 10 ^ (ds.drop (n + 1)).length) := by
  unfold roundDec at h
  rw [if_neg hrm, if_pos ⟨hn0, hn⟩] at h
  cases hc : roundDecC ds n rm pos check with
  | some c =>
    rw [hc] at h
    dsimp only at h
    split_ifs at h <;> simp at h
  | none =>
    refine ⟨roundDecC_none hc, ?_⟩
    have hdd : ∀ d ∈ ds.drop (n + 1), d ≤ 9 := fun d h => hd d (List.mem_of_mem_drop h)
    rw [digNat_nines hdd, digNat_eq_zero (by norm_num)]
    have hsub : ∀ d ∈ ds.drop (n + 1), d ∈ ds.drop n := by
      intro d h
      rw [← List.drop_drop] at h
      exact List.mem_of_mem_drop h
    unfold roundDecC at hc
    dsimp only at hc
    by_cases hnear : rm = .toEven ∨ rm = .toOdd
    · rw [if_pos hnear] at hc
      split_ifs at hc with h1
      simp only [Bool.and_eq_true, Bool.or_eq_true, List.all_eq_true, decide_eq_true_eq] at h1
      exact h1.2
    · rw [if_neg hnear] at hc
      split_ifs at hc with h1
      simp only [Bool.and_eq_true, Bool.or_eq_true, List.all_eq_true, decide_eq_true_eq] at h1
      rcases h1.2 with h2 | h2
      · exact Or.inl fun d h => h2 d (hsub d h)
      · exact Or.inr fun d h => h2 d (hsub d h)

/-- What `round_dec` knows about the number: with `check` it is within one unit below and two units above the digits,
without it is at the digits or less than a unit above, and at the digits when all those after the rounding digit
are zero. -/
def DecNear (ds : List Nat) (n : Nat) (check : Bool) (Y : ℚ) : Prop :=
  if check then (digNat 10 ds : ℚ) - 1 < Y ∧ Y < digNat 10 ds + 2
  else (digNat 10 ds : ℚ) ≤ Y ∧ Y < digNat 10 ds + 1 ∧ (digNat 10 (ds.drop (n + 1)) = 0 → Y = digNat 10 ds)

theorem all_zero_iff {ds : List Nat} : ds.all (· = 0) = true ↔ digNat 10 ds = 0 := by
  rw [digNat_eq_zero (by norm_num)]; simp

theorem all_nine_iff {ds : List Nat} (h : ∀ d ∈ ds, d ≤ 9) : ds.all (· = 9) = true ↔ digNat 10 ds + 1 = 10 ^ ds.length := by
  rw [digNat_nines h]; simp

/-- Rounding in a directed mode, from the position between two multiples. -/
theorem rounds_directed {rm : RM} {s : Sign} {K : Nat} {W Y : ℚ} {z c : Bool} (hW : 0 < W) (h1 : K * W ≤ Y)
    (h2 : Y < (K + 1) * W) (hz : z = true ↔ Y = K * W)
    (hc : c = match rm with
      | .fromZero => !z
      | .up => !z && s.isPos
      | .down => !z && !s.isPos
      | _ => false) (hrm : rm ≠ .none ∧ rm ≠ .toEven ∧ rm ≠ .toOdd) :
    Rounds rm (s.toK * Y) W (s.toK * (((K + (if c then 1 else 0) : ℕ) : ℚ) * W)) := by
  subst hc
  have hK : (0 : ℚ) ≤ K * W := by positivity
  have hY : 0 ≤ Y := by linarith
  have hK1 : (0 : ℚ) ≤ (K + 1) * W := by positivity
  have hYK : 0 ≤ Y * (K * W) := by positivity
  have hYK1 : 0 ≤ Y * ((K + 1) * W) := by positivity
  have hlt : z = false → K * W < Y := by
    intro h
    rcases lt_or_eq_of_le h1 with h3 | h3
    · exact h3
    · rw [hz.2 h3.symm] at h; cases h
  unfold Rounds
  cases rm <;> cases s <;> cases z <;>
    simp only [ne_eq, reduceCtorEq, not_true_eq_false, not_false_eq_true, and_self, and_true, and_false, false_and,
      Bool.not_false, Bool.not_true, Bool.and_self, Bool.and_false, Bool.and_true, Bool.true_and, Bool.false_and,
      show Sign.pos.isPos = true from rfl, show Sign.neg.isPos = false from rfl, Bool.false_eq_true, if_true, if_false, Sign.toK, true_iff, false_iff,
      forall_const, IsEmpty.forall_iff] at hrm hz hlt ⊢
  all_goals first
    | refine ⟨(K : ℤ), by push_cast; ring1, ?_⟩
      push_cast
      simp only [add_zero, one_mul, neg_mul, abs_neg, abs_of_nonneg hK, abs_of_nonneg hY, neg_mul_neg]
      refine ⟨?_, ?_, ?_⟩ <;> linarith
    | refine ⟨((K + 1 : ℕ) : ℤ), by push_cast; ring1, ?_⟩
      push_cast
      simp only [add_zero, one_mul, neg_mul, abs_neg, abs_of_nonneg hK1, abs_of_nonneg hY, neg_mul_neg]
      refine ⟨?_, ?_, ?_⟩ <;> linarith
    | refine ⟨(K : ℤ), by push_cast; ring1, ?_⟩
      push_cast
      refine ⟨?_, ?_⟩ <;> linarith
    | refine ⟨-(K : ℤ), by push_cast; ring1, ?_⟩
      push_cast
      simp only [add_zero, one_mul, neg_mul, abs_neg, abs_of_nonneg hK, abs_of_nonneg hY, neg_mul_neg]
      refine ⟨?_, ?_, ?_⟩ <;> linarith
    | refine ⟨-((K + 1 : ℕ) : ℤ), by push_cast; ring1, ?_⟩
      push_cast
      simp only [add_zero, one_mul, neg_mul, abs_neg, abs_of_nonneg hK1, abs_of_nonneg hY, neg_mul_neg]
      refine ⟨?_, ?_, ?_⟩ <;> linarith
    | refine ⟨-(K : ℤ), by push_cast; ring1, ?_⟩
      push_cast
      refine ⟨?_, ?_⟩ <;> linarith
    | refine ⟨((K + 1 : ℕ) : ℤ), by push_cast; ring1, ?_⟩
      push_cast
      refine ⟨?_, ?_⟩ <;> linarith
    | refine ⟨-((K + 1 : ℕ) : ℤ), by push_cast; ring1, ?_⟩
      push_cast
      refine ⟨?_, ?_⟩ <;> linarith

/-- Rounding to nearest from a bound and the case of a tie. -/
theorem rounds_nearest {rm : RM} {s : Sign} {k : Nat} {W Y : ℚ} (hrm : rm = .toEven ∨ rm = .toOdd)
    (h1 : |Y - k * W| ≤ W / 2) (h2 : |Y - k * W| = W / 2 → if rm = .toEven then Even k else Odd k) :
    Rounds rm (s.toK * Y) W (s.toK * ((k : ℚ) * W)) := by
  unfold Rounds
  have hab : |(s.toK : ℚ) * Y - s.toK * (k * W)| = |Y - k * W| := by
    cases s
    swap
    · simp only [Sign.toK, one_mul]
    · simp only [Sign.toK]
      rw [show (-1 : ℚ) * Y - -1 * (k * W) = -(Y - k * W) by ring, abs_neg]
  refine ⟨(match s with | .pos => (k : ℤ) | .neg => -(k : ℤ)), ?_, ?_⟩
  · cases s <;> simp only [Sign.toK] <;> push_cast <;> ring
  · rcases hrm with rfl | rfl
    · dsimp only
      rw [hab]
      refine ⟨h1, fun h => ?_⟩
      have := h2 h
      simp only [if_true] at this
      cases s <;> simpa using this
    · dsimp only
      rw [hab]
      refine ⟨h1, fun h => ?_⟩
      have := h2 h
      simp only [reduceCtorEq, if_false] at this
      cases s <;> simpa using this

/-- The number lies between consecutive digit strings of the length `m`. -/
theorem decNear_between {ds : List Nat} {n m : Nat} {check : Bool} (hd : ∀ d ∈ ds, d ≤ 9) (hm : m ≤ n + 1) {Y : ℚ}
    (hY : DecNear ds n check Y)
    (hc : ¬ (check && ((ds.drop m).all (· = 0) || (ds.drop m).all (· = 9))) = true) (hmn : m = n ∨ m = n + 1) :
    (digNat 10 (ds.take m) : ℚ) * 10 ^ (ds.drop m).length ≤ Y ∧
    Y < (digNat 10 (ds.take m) + 1 : ℚ) * 10 ^ (ds.drop m).length ∧
    ((ds.drop m).all (· = 0) = true ↔ Y = (digNat 10 (ds.take m) : ℚ) * 10 ^ (ds.drop m).length) := by
  have hdd : ∀ d ∈ ds.drop m, d ≤ 9 := fun d h => hd d (List.mem_of_mem_drop h)
  have hN : digNat 10 ds = digNat 10 (ds.take m) * 10 ^ (ds.drop m).length + digNat 10 (ds.drop m) := by
    conv_lhs => rw [← List.take_append_drop m ds]
    rw [digNat_append]
  have hlt := digNat_lt (b := 10) (ds := ds.drop m) (by norm_num) (fun d h => by have := hdd d h; omega)
  have h0 := all_zero_iff (ds := ds.drop m)
  have h9 := all_nine_iff hdd
  have himp : digNat 10 (ds.drop m) = 0 → digNat 10 (ds.drop (n + 1)) = 0 := by
    rw [digNat_eq_zero (by norm_num), digNat_eq_zero (by norm_num)]
    intro h d hd'
    refine h d ?_
    rcases hmn with rfl | rfl
    · rw [show m + 1 = m + 1 from rfl, ← List.drop_drop] at hd'
      exact List.mem_of_mem_drop hd'
    · exact hd'
  have hNq : (digNat 10 ds : ℚ) = digNat 10 (ds.take m) * 10 ^ (ds.drop m).length + digNat 10 (ds.drop m) := by
    exact_mod_cast hN
  have hltq : (digNat 10 (ds.drop m) : ℚ) + 1 ≤ 10 ^ (ds.drop m).length := by exact_mod_cast hlt
  unfold DecNear at hY
  rw [h0]
  cases check with
  | true =>
    simp only [if_true, Bool.true_and, Bool.or_eq_true, not_or, h0, h9] at hY hc
    have h1 : (1 : ℚ) ≤ digNat 10 (ds.drop m) := by exact_mod_cast Nat.one_le_iff_ne_zero.2 hc.1
    have h2 : (digNat 10 (ds.drop m) : ℚ) + 2 ≤ 10 ^ (ds.drop m).length := by
      have : digNat 10 (ds.drop m) + 2 ≤ 10 ^ (ds.drop m).length := by omega
      exact_mod_cast this
    refine ⟨by linarith [hY.1], by linarith [hY.2], fun h => absurd h hc.1, fun h => ?_⟩
    linarith [hY.1]
  | false =>
    simp only [Bool.false_eq_true, if_false] at hY
    have h1 : (0 : ℚ) ≤ digNat 10 (ds.drop m) := by positivity
    refine ⟨by linarith [hY.1], by linarith [hY.2.1], fun h => ?_, fun h => ?_⟩
    · rw [hY.2.2 (himp h), hNq, h]; simp
    · have : (digNat 10 (ds.drop m) : ℚ) ≤ 0 := by linarith [hY.1]
      have : (digNat 10 (ds.drop m) : ℚ) = 0 := le_antisymm this h1
      exact_mod_cast this

/-- The decision of `round_dec` rounds the number. -/
theorem roundDecC_spec {ds : List Nat} {n : Nat} {rm : RM} {s : Sign} {check : Bool} (hd : ∀ d ∈ ds, d ≤ 9)
    (hn0 : 0 < n) (hn : n < ds.length) (hrm : rm ≠ .none) {c : Bool} (h : roundDecC ds n rm s.isPos check = some c) {Y : ℚ}
    (hY : DecNear ds n check Y) :
    Rounds rm (s.toK * Y) ((10 : ℚ) ^ (ds.length - n)) (s.toK * (((digNat 10 (ds.take n) + (if c then 1 else 0) : ℕ) : ℚ) *
      10 ^ (ds.length - n))) ∧
    (digNat 10 (ds.take n) : ℚ) * 10 ^ (ds.length - n) ≤ Y ∧
    Y < (digNat 10 (ds.take n) + 1 : ℚ) * 10 ^ (ds.length - n) := by
  have hlen : (ds.drop n).length = ds.length - n := List.length_drop ..
  have hW : (0 : ℚ) < 10 ^ (ds.length - n) := by positivity
  by_cases hnear : rm = .toEven ∨ rm = .toOdd
  · unfold roundDecC at h
    rw [if_pos hnear] at h
    dsimp only at h
    have h1 : ¬ (check && ((ds.drop (n + 1)).all (· = 0) || (ds.drop (n + 1)).all (· = 9))) = true := by
      intro h1
      rw [if_pos h1] at h; cases h
    rw [if_neg h1] at h
    obtain ⟨b1, b2, b3⟩ := decNear_between hd le_rfl hY h1 (Or.inr rfl)
    have hlen1 : (ds.drop (n + 1)).length = ds.length - n - 1 := by rw [List.length_drop]; omega
    have hWu : (10 : ℚ) ^ (ds.length - n) = 10 * 10 ^ (ds.length - n - 1) := by
      rw [← pow_succ']; congr 1; omega
    have hM : digNat 10 (ds.take (n + 1)) = digNat 10 (ds.take n) * 10 + ds.getD n 0 := by
      rw [List.take_add_one, List.getElem?_eq_getElem hn, Option.toList_some, digNat_snoc,
        List.getD_eq_getElem?_getD, List.getElem?_eq_getElem hn, Option.getD_some]
    have hMq : (digNat 10 (ds.take (n + 1)) : ℚ) = digNat 10 (ds.take n) * 10 + ds.getD n 0 := by exact_mod_cast hM
    have hpar : digNat 10 (ds.take n) % 2 = ds.getD (n - 1) 0 % 2 := by
      obtain ⟨k, rfl⟩ : ∃ k, n = k + 1 := ⟨n - 1, by omega⟩
      rw [List.take_add_one, List.getElem?_eq_getElem (by omega : k < ds.length), Option.toList_some, digNat_snoc,
        List.getD_eq_getElem?_getD, Nat.add_sub_cancel, List.getElem?_eq_getElem (by omega : k < ds.length), Option.getD_some]
      omega
    have hdn : ds.getD n 0 ≤ 9 := by
      rw [List.getD_eq_getElem?_getD, List.getElem?_eq_getElem hn, Option.getD_some]
      exact hd _ (List.getElem_mem hn)
    rw [hlen1, hMq] at b1 b2 b3
    rw [hWu]
    have hu : (0 : ℚ) < 10 ^ (ds.length - n - 1) := by positivity
    generalize (10 : ℚ) ^ (ds.length - n - 1) = u at *
    generalize digNat 10 (ds.take n) = K at *
    generalize ds.getD n 0 = dn at *
    generalize ds.getD (n - 1) 0 = dk at *
    generalize (ds.drop (n + 1)).all (· = 0) = z at *
    have hdn' : (dn : ℚ) ≤ 9 := by exact_mod_cast hdn
    have hdn0 : (0 : ℚ) ≤ dn := by positivity
    refine ⟨?_, by nlinarith, by nlinarith⟩
    rcases lt_trichotomy dn 5 with h5 | h5 | h5
    · rw [if_neg (by omega)] at h
      have hc : c = false := by rw [← Option.some.inj h]; simp; omega
      subst hc
      have h5' : (dn : ℚ) ≤ 4 := by exact_mod_cast (by omega : dn ≤ 4)
      have e1 : Y - ((K + 0 : ℕ) : ℚ) * (10 * u) < 10 * u / 2 := by push_cast; nlinarith
      have e2 : 0 ≤ Y - ((K + 0 : ℕ) : ℚ) * (10 * u) := by push_cast; nlinarith
      simp only [Bool.false_eq_true, if_false]
      refine rounds_nearest hnear ?_ ?_
      · rw [abs_of_nonneg e2]; exact e1.le
      · rw [abs_of_nonneg e2]
        intro h; exact absurd h e1.ne
    · rw [if_pos h5] at h
      subst h5
      have hc := Option.some.inj h
      push_cast at b1 b2 b3
      cases z with
      | false =>
        have hlt : (K * 10 + 5) * u < Y := lt_of_le_of_ne b1 (fun h => by have := b3.2 h.symm; cases this)
        simp only [Bool.not_false, Bool.or_true] at hc
        subst hc
        simp only [if_true]
        have e1 : Y - ((K + 1 : ℕ) : ℚ) * (10 * u) ≤ 0 := by push_cast; nlinarith
        have e2 : -(Y - ((K + 1 : ℕ) : ℚ) * (10 * u)) < 10 * u / 2 := by push_cast; nlinarith
        refine rounds_nearest hnear ?_ ?_
        · rw [abs_of_nonpos e1]; exact e2.le
        · rw [abs_of_nonpos e1]
          intro h; exact absurd h e2.ne
      | true =>
        have hY' := b3.1 rfl
        simp only [Bool.not_true, Bool.or_false] at hc
        have e0 : ∀ k : ℕ, (k = K ∨ k = K + 1) → |Y - (k : ℚ) * (10 * u)| = 10 * u / 2 := by
          rintro k (rfl | rfl)
          · rw [hY', show ((k : ℚ) * 10 + 5) * u - k * (10 * u) = 10 * u / 2 by ring, abs_of_pos (by linarith)]
          · rw [hY', show ((K : ℚ) * 10 + 5) * u - ((K + 1 : ℕ) : ℚ) * (10 * u) = -(10 * u / 2) by push_cast; ring, abs_neg,
              abs_of_pos (by linarith)]
        refine rounds_nearest hnear (e0 _ ?_).le (fun _ => ?_)
        · cases c <;> simp
        · have hne : (if RM.toOdd = RM.toEven then true else false) = false := by decide
          rcases hnear with rfl | rfl
          · simp only [if_true] at hc ⊢
            rw [Nat.even_iff]
            cases c
            · simp at hc ⊢; omega
            · simp at hc ⊢; omega
          · simp only [reduceCtorEq, if_false] at hc ⊢
            rw [Nat.odd_iff]
            cases c
            · simp at hc ⊢; omega
            · simp at hc ⊢; omega
    · rw [if_neg (by omega)] at h
      have hc : c = true := by rw [← Option.some.inj h]; simp; omega
      subst hc
      have h5' : (6 : ℚ) ≤ dn := by exact_mod_cast h5
      simp only [if_true]
      have e1 : Y - ((K + 1 : ℕ) : ℚ) * (10 * u) ≤ 0 := by push_cast; nlinarith
      have e2 : -(Y - ((K + 1 : ℕ) : ℚ) * (10 * u)) < 10 * u / 2 := by push_cast; nlinarith
      refine rounds_nearest hnear ?_ ?_
      · rw [abs_of_nonpos e1]; exact e2.le
      · rw [abs_of_nonpos e1]
        intro h; exact absurd h e2.ne
  · unfold roundDecC at h
    rw [if_neg hnear] at h
    dsimp only at h
    split_ifs at h with h1
    obtain ⟨b1, b2, b3⟩ := decNear_between hd (Nat.le_succ n) hY h1 (Or.inl rfl)
    rw [hlen] at b1 b2 b3
    refine ⟨?_, b1, b2⟩
    push Not at hnear
    exact rounds_directed hW b1 b2 b3 (Option.some.inj h).symm ⟨hrm, hnear⟩

end AF
