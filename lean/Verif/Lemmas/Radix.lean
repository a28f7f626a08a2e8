import Mathlib.Algebra.Order.Field.Rat
import Mathlib.Tactic.FieldSimp
import Mathlib.Tactic.IntervalCases
import Verif.SpecRadix
import Verif.Lemmas.SetPrec
/-!
# Digits in radix 2, 8 and 16
-/

namespace AF

set_option linter.unusedSectionVars false

variable {K : Type*} [Field K] [LinearOrder K] [IsStrictOrderedRing K]

theorem digFold (b a : Nat) (ds : List Nat) :
    ds.foldl (fun a d => a * b + d) a = a * b ^ ds.length + digNat b ds := by
  unfold digNat
  induction ds generalizing a with
  | nil => simp
  | cons d ds ih =>
    simp only [List.foldl_cons, List.length_cons]
    rw [ih, ih (0 * b + d)]; ring

@[simp] theorem digNat_nil (b : Nat) : digNat b [] = 0 := rfl

theorem digNat_cons (b d : Nat) (ds : List Nat) :
    digNat b (d :: ds) = d * b ^ ds.length + digNat b ds := by
  have := digFold b (0 * b + d) ds
  unfold digNat at this ⊢
  rw [List.foldl_cons, this]; ring

theorem digNat_append (b : Nat) (xs ys : List Nat) :
    digNat b (xs ++ ys) = digNat b xs * b ^ ys.length + digNat b ys := by
  have := digFold b (digNat b xs) ys
  conv_lhs => unfold digNat
  rw [List.foldl_append]
  exact this

@[simp] theorem digNat_zeros (b n : Nat) : digNat b (List.replicate n 0) = 0 := by
  induction n with
  | zero => rfl
  | succ n ih => rw [List.replicate_succ, digNat_cons, ih]; simp

theorem digNat_snoc (b d : Nat) (xs : List Nat) : digNat b (xs ++ [d]) = digNat b xs * b + d := by
  rw [digNat_append, digNat_cons]; simp

theorem digNat_lt {b : Nat} {ds : List Nat} (hb : 0 < b) (h : ∀ d ∈ ds, d < b) :
    digNat b ds < b ^ ds.length := by
  induction ds with
  | nil => simp
  | cons d ds ih =>
    rw [digNat_cons, List.length_cons, pow_succ]
    have h1 := ih (fun x hx => h x (List.mem_cons_of_mem _ hx))
    have h2 := h d (List.mem_cons_self ..)
    have : (d + 1) * b ^ ds.length ≤ b * b ^ ds.length := Nat.mul_le_mul_right _ h2
    nlinarith

theorem digNat_eq_zero {b : Nat} (hb : 0 < b) {ds : List Nat} : digNat b ds = 0 ↔ ∀ d ∈ ds, d = 0 := by
  induction ds with
  | nil => simp
  | cons d ds ih =>
    rw [digNat_cons]
    have : 0 < b ^ ds.length := by positivity
    constructor
    · intro h
      have h1 : d * b ^ ds.length = 0 := by omega
      have h2 : d = 0 := by
        rcases Nat.mul_eq_zero.1 h1 with h | h
        · exact h
        · omega
      intro x hx
      rcases List.mem_cons.1 hx with rfl | hx
      · exact h2
      · exact ih.1 (by omega) x hx
    · intro h
      rw [h d (List.mem_cons_self ..), ih.2 (fun x hx => h x (List.mem_cons_of_mem _ hx))]; simp

/-! ## Trailing zeros -/

theorem trailCnt_append (xs ys : List Nat) (c : Nat) :
    trailCnt (xs ++ ys) c = trailCnt ys (trailCnt xs c) := by
  induction xs generalizing c with
  | nil => rfl
  | cons x xs ih => simp only [List.cons_append, trailCnt, ih]

theorem trailCnt_spec (ds : List Nat) :
    ∃ xs, ds = xs ++ List.replicate (trailCnt ds 0) 0 ∧ (∀ h : xs ≠ [], xs.getLast h ≠ 0) := by
  induction ds using List.reverseRecOn with
  | nil => exact ⟨[], by simp [trailCnt], fun h => absurd rfl h⟩
  | append_singleton ds d ih =>
    obtain ⟨xs, h1, h2⟩ := ih
    rw [trailCnt_append]
    simp only [trailCnt]
    by_cases hd : d = 0
    · refine ⟨xs, ?_, h2⟩
      rw [if_pos hd, List.replicate_succ', ← List.append_assoc, ← h1, hd]
    · refine ⟨ds ++ [d], by rw [if_neg hd]; simp, ?_⟩
      intro h; simpa using hd

theorem cutTrail_spec (ds : List Nat) :
    ∃ c, ds = cutTrail ds ++ List.replicate c 0 ∧ (∀ h : cutTrail ds ≠ [], (cutTrail ds).getLast h ≠ 0) := by
  obtain ⟨xs, h1, h2⟩ := trailCnt_spec ds
  have hc : cutTrail ds = xs := by
    unfold cutTrail
    have hl : ds.length - trailCnt ds 0 = xs.length := by
      conv_lhs => rw [h1]
      rw [← h1]
      have := congrArg List.length h1
      rw [List.length_append, List.length_replicate] at this
      omega
    rw [hl]
    conv_lhs => rw [h1]
    simp
  rw [hc]
  exact ⟨_, h1, h2⟩

/-- Trailing zero digits do not change the value. -/
theorem radixVal_zeros {b : Nat} (hb : 0 < b) (s : Sign) (ds : List Nat) (c : Nat) (e : Int) :
    (radixVal b (s, ds ++ List.replicate c 0, e) : K) = radixVal b (s, ds, e) := by
  have hb' : (b : K) ≠ 0 := by exact_mod_cast hb.ne'
  unfold radixVal
  simp only [digNat_append, digNat_zeros, List.length_append, List.length_replicate, add_zero]
  rw [Nat.cast_mul, Nat.cast_pow, mul_assoc, mul_assoc, mul_assoc]
  congr 2
  rw [← zpow_natCast, ← zpow_add₀ hb']
  congr 1
  push_cast; ring

theorem radixVal_cut {b : Nat} (hb : 0 < b) (s : Sign) (ds : List Nat) (e : Int) :
    (radixVal b (s, cutTrail ds, e) : K) = radixVal b (s, ds, e) := by
  obtain ⟨c, h, _⟩ := cutTrail_spec ds
  conv_rhs => rw [h]
  rw [radixVal_zeros hb]

/-! ## To binary -/

theorem wordBits_length (v i : Nat) : (wordBits v i).length = i := by
  induction i with
  | zero => rfl
  | succ i ih => simp [wordBits, ih]

theorem wordBits_lt (v i : Nat) : ∀ d ∈ wordBits v i, d < 2 := by
  induction i with
  | zero => simp [wordBits]
  | succ i ih =>
    intro d hd
    rcases List.mem_cons.1 hd with rfl | hd
    · rw [Nat.and_one_is_mod]; omega
    · exact ih d hd

theorem digNat_wordBits (v i : Nat) : digNat 2 (wordBits v i) = v % 2 ^ i := by
  induction i with
  | zero => simp [wordBits, Nat.mod_one]
  | succ i ih =>
    rw [wordBits, digNat_cons, wordBits_length, ih, Nat.and_one_is_mod, Nat.shiftRight_eq_div_pow,
      Nat.pow_succ, Nat.mod_mul]
    ring

theorem digNat_flat {l : List Nat} (h : Wf l) :
    digNat 2 (l.flatMap (fun v => wordBits v 64)) = val l.reverse ∧
      (l.flatMap (fun v => wordBits v 64)).length = 64 * l.length := by
  induction l with
  | nil => simp
  | cons v l ih =>
    obtain ⟨h1, h2⟩ := ih (wf_cons.1 h).2
    rw [List.flatMap_cons]
    refine ⟨?_, ?_⟩
    · rw [digNat_append, h1, h2, digNat_wordBits, List.reverse_cons, val_append, List.length_reverse, B_pow]
      have : v % 2 ^ 64 = v := Nat.mod_eq_of_lt (by rw [← B_eq]; exact (wf_cons.1 h).1)
      rw [this]; simp; ring
    · rw [List.length_append, wordBits_length, h2, List.length_cons]; ring

theorem convToBinary_spec {x : Num} (hw : Wf x.m.m) :
    (radixVal 2 x.convToBinary : K) = x.toK ∧ (∀ d ∈ x.convToBinary.2.1, d < 2) ∧
      x.convToBinary.1 = x.s := by
  unfold Num.convToBinary
  refine ⟨?_, ?_, rfl⟩
  · rw [radixVal_cut (by norm_num)]
    obtain ⟨h1, h2⟩ := digNat_flat (wf_reverse.2 hw)
    unfold radixVal Num.toK
    simp only [h1, h2, List.reverse_reverse, List.length_reverse, Nat.cast_ofNat]
  · intro d hd
    have : d ∈ x.m.m.reverse.flatMap (fun v => wordBits v 64) := List.mem_of_mem_take hd
    obtain ⟨v, _, hv⟩ := List.mem_flatMap.1 this
    exact wordBits_lt v 64 d hv

/-! ## To radix 8 and 16 -/

theorem toComLoop_spec {s : Nat} (hs : 0 < s) (hs2 : s ≤ 64) :
    ∀ (f : Nat) (it : List Nat) (d done : Nat), Wf it → 64 * it.length + done < f → done ≤ 64 →
      let r := toComLoop s f it d done
      ∃ q : Nat, q < 2 ^ r.2.2 ∧ r.2.2 < s ∧ r.2.1 % 2 ^ (64 + r.2.2) = q * 2 ^ 64 ∧
        digNat (2 ^ s) r.1 * 2 ^ r.2.2 + q = (d % 2 ^ (done + s)) * B ^ it.length + val it.reverse ∧
        r.1.length * s + r.2.2 = done + s + 64 * it.length ∧ (∀ d ∈ r.1, d < 2 ^ s) := by
  intro f
  induction f with
  | zero => intro it d done _ h; omega
  | succ f ih =>
    intro it d done hit hf hd
    have hmask : WMAX >>> (64 - s) = 2 ^ s - 1 := by
      have e : WMAX = 2 ^ 64 - 1 := by rw [WMAX_eq, B_eq]
      rw [e, Nat.shiftRight_eq_div_pow]
      have e2 : 2 ^ 64 = 2 ^ (64 - s) * 2 ^ s := by rw [← pow_add]; congr 1; omega
      have h1 : 0 < 2 ^ (64 - s) := by positivity
      have h2 : 0 < 2 ^ s := by positivity
      rw [e2]
      generalize 2 ^ (64 - s) = u at *
      generalize 2 ^ s = w at *
      rw [Nat.div_eq_iff h1]
      obtain ⟨w', rfl⟩ : ∃ w', w = w' + 1 := ⟨w - 1, by omega⟩
      simp only [Nat.add_sub_cancel]
      constructor
      · rw [Nat.mul_add, Nat.mul_comm]; omega
      · rw [Nat.mul_add, Nat.mul_comm]; omega
    have hdig : (d >>> done) &&& (WMAX >>> (64 - s)) = d / 2 ^ done % 2 ^ s := by
      rw [hmask, Nat.and_two_pow_sub_one_eq_mod, Nat.shiftRight_eq_div_pow]
    have hlt : d / 2 ^ done % 2 ^ s < 2 ^ s := Nat.mod_lt _ (by positivity)
    have hsplit : d % 2 ^ (done + s) = d / 2 ^ done % 2 ^ s * 2 ^ done + d % 2 ^ done := by
      rw [pow_add, Nat.mod_mul]; ring
    simp only [toComLoop, hdig]
    by_cases hc : done < s
    · rw [if_pos hc]
      cases it with
      | nil =>
        refine ⟨d % 2 ^ done, Nat.mod_lt _ (by positivity), hc, ?_, ?_, ?_, ?_⟩
        · have : 2 ^ 128 = 2 ^ (64 + done) * 2 ^ (64 - done) := by rw [← pow_add]; congr 1; omega
          simp only [Nat.shiftLeft_eq]
          rw [this, Nat.mod_mul_right_mod, pow_add, Nat.mul_comm (2 ^ 64), Nat.mul_mod_mul_right]
        · simp [digNat_cons, hsplit]
        · simp; omega
        · intro x hx; simp only [List.mem_singleton] at hx; rw [hx]; exact hlt
      | cons v vs =>
        have hv := (wf_cons.1 hit).1
        obtain ⟨q, h1, h2, h3, h4, h5, h6⟩ := ih vs ((d <<< 64) % 2 ^ 128 ||| v) (done + 64 - s)
          (wf_cons.1 hit).2 (by simp only [List.length_cons] at hf; omega) (by omega)
        refine ⟨q, h1, h2, h3, ?_, ?_, ?_⟩
        · simp only
          rw [digNat_cons, Nat.add_mul, Nat.add_assoc]
          have hor : (d <<< 64) % 2 ^ 128 ||| v = (d % 2 ^ 64) * 2 ^ 64 + v := by
            have : (2:ℕ) ^ 128 = 2 ^ 64 * 2 ^ 64 := by norm_num
            rw [Nat.shiftLeft_eq, this, Nat.mul_mod_mul_right]
            apply or_eq_add (s := 64)
            · simp
            · rw [← B_eq]; exact hv
          have hmod : ((d % 2 ^ 64) * 2 ^ 64 + v) % 2 ^ (done + 64 - s + s) = d % 2 ^ done * 2 ^ 64 + v := by
            rw [show done + 64 - s + s = 64 + done by omega, pow_add, Nat.mod_mul]
            have hvd : ((d % 2 ^ 64) * 2 ^ 64 + v) / 2 ^ 64 = d % 2 ^ 64 := by
              rw [Nat.mul_comm, Nat.mul_add_div (by positivity), Nat.div_eq_of_lt (by rw [← B_eq]; exact hv)]
              simp
            have hvm : ((d % 2 ^ 64) * 2 ^ 64 + v) % 2 ^ 64 = v := by
              rw [Nat.mul_comm, Nat.mul_add_mod, Nat.mod_eq_of_lt (by rw [← B_eq]; exact hv)]
            rw [hvd, hvm]
            have : (2:ℕ) ^ 64 = 2 ^ done * 2 ^ (64 - done) := by rw [← pow_add]; congr 1; omega
            have hm : d % 2 ^ 64 % 2 ^ done = d % 2 ^ done := by rw [this, Nat.mod_mul_right_mod]
            rw [hm]; ring
          rw [hor] at h5 h4 ⊢
          rw [h4, hmod, hsplit, List.reverse_cons, val_append, List.length_reverse, List.length_cons]
          generalize toComLoop s f vs (d % 2 ^ 64 * 2 ^ 64 + v) (done + 64 - s) = t at *
          rw [← pow_mul, Nat.mul_assoc, ← pow_add,
            show s * t.1.length + t.2.2 = done + 64 * (vs.length + 1) by
              rw [Nat.mul_comm s, h5]; omega, pow_add, ← B_pow, pow_succ]
          have hB : (2:ℕ) ^ 64 = B := B_eq.symm
          rw [hB]
          simp only [val_cons, val_nil, Nat.mul_zero, Nat.add_zero]
          ring
        · simp only [List.length_cons]; rw [Nat.add_mul]; omega
        · intro x hx
          rcases List.mem_cons.1 hx with rfl | hx
          · exact hlt
          · exact h6 x hx
    · rw [if_neg hc]
      obtain ⟨q, h1, h2, h3, h4, h5, h6⟩ := ih it d (done - s) hit (by omega) (by omega)
      refine ⟨q, h1, h2, h3, ?_, ?_, ?_⟩
      · simp only
        rw [digNat_cons, Nat.add_mul, Nat.add_assoc, h4, hsplit, show done - s + s = done by omega,
          ← pow_mul, Nat.mul_assoc, ← pow_add,
          show s * (toComLoop s f it d (done - s)).1.length + (toComLoop s f it d (done - s)).2.2 =
            done + 64 * it.length by rw [Nat.mul_comm s, h5]; omega, pow_add, ← B_pow]
        ring
      · simp only [List.length_cons]; rw [Nat.add_mul]; omega
      · intro x hx
        rcases List.mem_cons.1 hx with rfl | hx
        · exact hlt
        · exact h6 x hx

/-- The exponent of the digits, and the number of zero bits put in front of the mantissa. -/
theorem comExp {e : Int} {s : Nat} (hs : 0 < s) :
    let r := e.natAbs % s
    let es := if r ≠ 0 ∧ e > 0 then s - r else r
    (Int.tdiv e s + (if r ≠ 0 ∧ e > 0 then 1 else 0)) * s = e + es ∧ es < s := by
  intro r es
  have hr : r < s := Nat.mod_lt _ hs
  have hd := Nat.div_add_mod e.natAbs s
  have hes : es = if r ≠ 0 ∧ e > 0 then s - r else r := rfl
  change s * (e.natAbs / s) + r = e.natAbs at hd
  have hdz : (s : Int) * ((e.natAbs / s : ℕ) : Int) + r = e.natAbs := by exact_mod_cast hd
  rcases lt_or_ge 0 e with he | he
  · have ht : Int.tdiv e s = ((e.natAbs / s : ℕ) : Int) := by
      rw [Int.tdiv_eq_ediv_of_nonneg he.le]
      have : e = (e.natAbs : Int) := by omega
      conv_lhs => rw [this]
      exact (Int.natCast_div _ _).symm
    rw [ht]
    generalize ((e.natAbs / s : ℕ) : Int) = q at *
    by_cases h0 : r ≠ 0
    · rw [if_pos ⟨h0, he⟩] at hes ⊢
      refine ⟨?_, by omega⟩
      rw [add_mul, mul_comm q, hes]; push_cast [hr.le]; omega
    · have hne : ¬(r ≠ 0 ∧ e > 0) := fun h => h0 h.1
      rw [if_neg hne] at hes ⊢
      refine ⟨?_, by omega⟩
      rw [add_mul, mul_comm q]; omega
  · have hne : ¬(r ≠ 0 ∧ e > 0) := fun h => absurd h.2 (not_lt.2 he)
    rw [if_neg hne] at hes ⊢
    have ht : Int.tdiv e s = -((e.natAbs / s : ℕ) : Int) := by
      have : e = -(e.natAbs : Int) := by omega
      conv_lhs => rw [this]
      rw [Int.neg_tdiv, Int.tdiv_eq_ediv_of_nonneg (by positivity)]
      congr 1
      
    rw [ht]
    generalize ((e.natAbs / s : ℕ) : Int) = q at *
    refine ⟨?_, by omega⟩
    rw [add_mul, neg_mul, mul_comm q]; omega

theorem zpow_pow_two {s : Nat} (a : Int) : ((2 ^ s : ℕ) : K) ^ a = 2 ^ (a * s) := by
  push_cast
  rw [← zpow_natCast, ← zpow_mul, mul_comm]

theorem convToCommensurable_spec {x : Num} (hw : Wf x.m.m) (hne : x.m.m ≠ []) {s : Nat} (hs : 0 < s)
    (hs2 : s ≤ 32) :
    ∃ D, x.convToCommensurable s = .ok D ∧ (radixVal (2 ^ s) D : K) = x.toK ∧
      (∀ d ∈ D.2.1, d < 2 ^ s) ∧ D.1 = x.s ∧ x.e ≤ D.2.2 * s ∧ D.2.2 * s < x.e + s ∧
      (∀ h : D.2.1 ≠ [], D.2.1.getLast h ≠ 0) := by
  have hw' := wf_reverse.2 hw
  unfold Num.convToCommensurable
  obtain ⟨d, it, hrev⟩ : ∃ d it, x.m.m.reverse = d :: it := by
    cases h : x.m.m.reverse with
    | nil => exact absurd (List.reverse_eq_nil_iff.1 h) hne
    | cons d it => exact ⟨d, it, rfl⟩
  obtain ⟨hexp, hes⟩ := comExp (e := x.e) hs
  rw [hrev] at hw' ⊢
  simp only
  set r := x.e.natAbs % s
  set es := if r ≠ 0 ∧ x.e > 0 then s - r else r
  set e' := Int.tdiv x.e s + (if r ≠ 0 ∧ x.e > 0 then 1 else 0)
  have hlen : x.m.m.length = it.length + 1 := by
    have := congrArg List.length hrev
    simpa using this
  have hval : val x.m.m = d * B ^ it.length + val it.reverse := by
    have : x.m.m = it.reverse ++ [d] := by
      rw [← List.reverse_reverse x.m.m, hrev, List.reverse_cons]
    rw [this, val_append]; simp; ring
  obtain ⟨q, h1, h2, h3, h4, h5, h6⟩ := toComLoop_spec hs (by omega) (64 * x.m.m.length + 1) it d
    (64 - s + es) (wf_cons.1 hw').2 (by omega) (by omega)
  set t := toComLoop s (64 * x.m.m.length + 1) it d (64 - s + es)
  have hdm : d % 2 ^ (64 - s + es + s) = d := by
    apply Nat.mod_eq_of_lt
    have : d < 2 ^ 64 := by rw [← B_eq]; exact (wf_cons.1 hw').1
    exact lt_of_lt_of_le this (Nat.pow_le_pow_right (by norm_num) (by omega))
  rw [hdm, ← hval] at h4
  have hmask : WMAX >>> (64 - s) = 2 ^ s - 1 := by
    have e : WMAX = 2 ^ 64 - 1 := by rw [WMAX_eq, B_eq]
    rw [e, Nat.shiftRight_eq_div_pow]
    have e2 : 2 ^ 64 = 2 ^ (64 - s) * 2 ^ s := by rw [← pow_add]; congr 1; omega
    have h1 : 0 < 2 ^ (64 - s) := by positivity
    have h2 : 0 < 2 ^ s := by positivity
    rw [e2]
    generalize 2 ^ (64 - s) = u at *
    generalize 2 ^ s = w at *
    rw [Nat.div_eq_iff h1]
    obtain ⟨w', rfl⟩ : ∃ w', w = w' + 1 := ⟨w - 1, by omega⟩
    simp only [Nat.add_sub_cancel]
    constructor
    · rw [Nat.mul_add, Nat.mul_comm]; omega
    · rw [Nat.mul_add, Nat.mul_comm]; omega
  -- the digits with the last, partial one in place
  have hmain : ∃ ds ext c, ds = t.1 ++ ext ++ List.replicate c 0 ∧
      ext = (if t.2.2 > 0 then
        let done := if t.2.2 < s then t.2.2 + (64 - s) else t.2.2
        let digit := (t.2.1 >>> done) &&& (WMAX >>> (64 - s))
        if digit > 0 then [digit] else []
      else []) ∧ (∀ d ∈ ext, d < 2 ^ s) ∧
      (radixVal (2 ^ s) (x.s, ds, e') : K) = x.toK := by
    by_cases hd0 : t.2.2 > 0
    · have hdig : (t.2.1 >>> (t.2.2 + (64 - s))) &&& (WMAX >>> (64 - s)) = q * 2 ^ (s - t.2.2) := by
        rw [hmask, Nat.and_two_pow_sub_one_eq_mod, Nat.shiftRight_eq_div_pow, ← Nat.mod_mul_right_div_self,
          ← pow_add, show t.2.2 + (64 - s) + s = 64 + t.2.2 by omega, h3,
          show (2:ℕ) ^ 64 = 2 ^ (s - t.2.2) * 2 ^ (t.2.2 + (64 - s)) by rw [← pow_add]; congr 1; omega,
          ← Nat.mul_assoc, Nat.mul_div_cancel _ (by positivity)]
      have hqlt : q * 2 ^ (s - t.2.2) < 2 ^ s := by
        calc q * 2 ^ (s - t.2.2) < 2 ^ t.2.2 * 2 ^ (s - t.2.2) := Nat.mul_lt_mul_of_pos_right h1 (by positivity)
          _ = 2 ^ s := by rw [← pow_add]; congr 1; omega
      have hv : (radixVal (2 ^ s) (x.s, t.1 ++ [q * 2 ^ (s - t.2.2)], e') : K) = x.toK := by
        unfold radixVal Num.toK
        simp only [digNat_snoc, List.length_append, List.length_singleton]
        have hN : digNat (2 ^ s) t.1 * 2 ^ s + q * 2 ^ (s - t.2.2) = val x.m.m * 2 ^ (s - t.2.2) := by
          rw [← h4, Nat.add_mul, Nat.mul_assoc, ← pow_add]
          congr 3; omega
        rw [hN, zpow_pow_two, mul_assoc, mul_assoc, Nat.cast_mul, mul_assoc]
        congr 2
        rw [Nat.cast_pow, Nat.cast_ofNat, ← zpow_natCast, ← two_zpow_add]
        congr 1
        have h5' : (t.1.length : ℤ) * s + t.2.2 = 64 - s + es + s + 64 * it.length := by
          have : ((t.1.length * s + t.2.2 : ℕ) : ℤ) = ((64 - s + es + s + 64 * it.length : ℕ) : ℤ) := by rw [h5]
          push_cast [show s ≤ 64 by omega] at this
          linarith
        push_cast [h2.le]
        rw [hlen, sub_mul, hexp]
        push_cast
        linarith
      rw [if_pos hd0]
      simp only [if_pos h2, hdig]
      by_cases hz : q * 2 ^ (s - t.2.2) > 0
      · refine ⟨_, _, 0, rfl, by rw [if_pos hz], ?_, ?_⟩
        · intro y hy; simp only [List.mem_singleton] at hy; rw [hy]; exact hqlt
        · simpa using hv
      · refine ⟨_, _, 1, rfl, by rw [if_neg hz], ?_, ?_⟩
        · simp
        · have hz' : q * 2 ^ (s - t.2.2) = 0 := by omega
          rw [hz'] at hv
          simpa using hv
    · rw [if_neg hd0]
      refine ⟨_, _, 0, rfl, rfl, by simp, ?_⟩
      have hd0 : t.2.2 = 0 := by omega
      rw [hd0] at h1 h4 h5
      have hq : q = 0 := by simpa using h1
      rw [hq] at h4
      simp only [pow_zero, mul_one, add_zero] at h4 h5
      unfold radixVal Num.toK
      simp only [List.append_nil, List.replicate_zero]
      rw [h4, zpow_pow_two]
      congr 2
      have h5' : (t.1.length : ℤ) * s = 64 - s + es + s + 64 * it.length := by
        have : ((t.1.length * s : ℕ) : ℤ) = ((64 - s + es + s + 64 * it.length : ℕ) : ℤ) := by rw [h5]
        push_cast [show s ≤ 64 by omega] at this
        linarith
      rw [hlen, sub_mul, hexp]
      push_cast
      linarith
  obtain ⟨ds, ext, c, hds, hext, hlt, hvv⟩ := hmain
  refine ⟨_, rfl, ?_, ?_, rfl, ?_, ?_, ?_⟩
  · rw [radixVal_cut (by positivity), ← hvv, hds, radixVal_zeros (by positivity), hext]
  · intro y hy
    have hy : y ∈ t.1 ++ ext := by rw [hext]; exact List.mem_of_mem_take hy
    rcases List.mem_append.1 hy with h | h
    · exact h6 y h
    · exact hlt y h
  · simp only; rw [hexp]; omega
  · simp only; rw [hexp]; omega
  · exact (cutTrail_spec _).choose_spec.2

end AF
