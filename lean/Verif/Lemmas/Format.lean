import Verif.Lemmas.Text
import Mathlib.Tactic.IntervalCases
/-!
# The text of numbers: digits and exponents
-/

namespace AF

theorem digitChar_spec {rdx : Radix} {d : Nat} (h : d < rdx.num) :
    IsDig rdx (digitChar d) ∧ charDigit (digitChar d) = some d := by
  have h16 : d < 16 := lt_of_lt_of_le h (by cases rdx <;> decide)
  have key : charDigit (digitChar d) = some d := by
    revert h16; revert d; intro d _ h16
    interval_cases d <;> decide
  exact ⟨⟨d, key, h⟩, key⟩

theorem digs_map {rdx : Radix} {ds : List Nat} (h : ∀ d ∈ ds, d < rdx.num) : digs (ds.map digitChar) = ds := by
  induction ds with
  | nil => rfl
  | cons d ds ih =>
    have h1 := digitChar_spec (h d (by simp))
    rw [List.map_cons]
    unfold digs
    rw [List.filterMap_cons, h1.2]
    simp only
    congr 1
    exact ih (fun d hd => h d (by simp [hd]))

theorem natChars_spec {rdx : Radix} (f : Nat) : ∀ (v : Nat) (acc : List Char), v < rdx.num ^ (f + 1) →
    ∃ cs, natChars rdx.num (f + 1) v acc = cs ++ acc ∧ cs ≠ [] ∧ (∀ c ∈ cs, IsDig rdx c) ∧
      digNat rdx.num (digs cs) = v := by
  have hb : 1 < rdx.num := by cases rdx <;> decide
  have hch : ∀ d, d < rdx.num → charDigit (if d < 10 then Char.ofNat (48 + d) else Char.ofNat (87 + d)) = some d := by
    intro d h
    have h16 : d < 16 := lt_of_lt_of_le h (by cases rdx <;> decide)
    clear h
    interval_cases d <;> decide
  induction f with
  | zero =>
    intro v acc hv
    rw [Nat.zero_add, pow_one] at hv
    refine ⟨[if v % rdx.num < 10 then Char.ofNat (48 + v % rdx.num) else Char.ofNat (87 + v % rdx.num)], ?_, by simp, ?_, ?_⟩
    · unfold natChars
      rw [Nat.div_eq_of_lt hv]; simp
    · intro c hc
      rw [List.mem_singleton] at hc
      rw [hc]
      exact ⟨_, hch _ (Nat.mod_lt _ (by omega)), Nat.mod_lt _ (by omega)⟩
    · unfold digs
      rw [List.filterMap_cons, hch _ (Nat.mod_lt _ (by omega))]
      simp [digNat, Nat.mod_eq_of_lt hv]
  | succ f ih =>
    intro v acc hv
    unfold natChars
    simp only
    by_cases h0 : v / rdx.num = 0
    · rw [if_pos h0]
      have hv' : v < rdx.num := by
        rcases Nat.div_eq_zero_iff.1 h0 with h | h
        · omega
        · exact h
      refine ⟨[if v % rdx.num < 10 then Char.ofNat (48 + v % rdx.num) else Char.ofNat (87 + v % rdx.num)], rfl, by simp, ?_, ?_⟩
      · intro c hc
        rw [List.mem_singleton] at hc
        rw [hc]
        exact ⟨_, hch _ (Nat.mod_lt _ (by omega)), Nat.mod_lt _ (by omega)⟩
      · unfold digs
        rw [List.filterMap_cons, hch _ (Nat.mod_lt _ (by omega))]
        simp [digNat, Nat.mod_eq_of_lt hv']
    · rw [if_neg h0]
      obtain ⟨cs, h1, h2, h3, h4⟩ := ih (v / rdx.num)
        ((if v % rdx.num < 10 then Char.ofNat (48 + v % rdx.num) else Char.ofNat (87 + v % rdx.num)) :: acc)
        (by rw [Nat.div_lt_iff_lt_mul (by omega)]; rw [pow_succ] at hv; exact hv)
      refine ⟨cs ++ [if v % rdx.num < 10 then Char.ofNat (48 + v % rdx.num) else Char.ofNat (87 + v % rdx.num)], ?_, by simp, ?_, ?_⟩
      · rw [h1]; simp
      · intro c hc
        rcases List.mem_append.1 hc with hc | hc
        · exact h3 c hc
        · rw [List.mem_singleton] at hc
          rw [hc]
          exact ⟨_, hch _ (Nat.mod_lt _ (by omega)), Nat.mod_lt _ (by omega)⟩
      · rw [digs_append]
        have : digs [if v % rdx.num < 10 then Char.ofNat (48 + v % rdx.num) else Char.ofNat (87 + v % rdx.num)] =
            [v % rdx.num] := by
          unfold digs
          rw [List.filterMap_cons, hch _ (Nat.mod_lt _ (by omega))]; rfl
        rw [this]
        unfold digNat at h4 ⊢
        rw [List.foldl_append, h4]
        simp only [List.foldl_cons, List.foldl_nil]
        exact Nat.div_add_mod' v rdx.num

/-- The exponent as written after the digits. -/
theorem exp_chars {rdx : Radix} (v : Nat) (h : v < 2 ^ 64) :
    natChars rdx.base 64 v [] ≠ [] ∧ (∀ c ∈ natChars rdx.base 64 v [], IsDig rdx c) ∧
      digNat rdx.num (digs (natChars rdx.base 64 v [])) = v := by
  rw [Radix.base_eq]
  obtain ⟨cs, h1, h2, h3, h4⟩ := natChars_spec (rdx := rdx) 63 v []
    (lt_of_lt_of_le h (Nat.pow_le_pow_left (by cases rdx <;> decide) 64))
  rw [h1, List.append_nil]
  exact ⟨h2, h3, h4⟩

/-- The text made from digits, as a literal. -/
def litOf (sub : Bool) (rdx : Radix) (s : Sign) (d0 : Nat) (ds : List Nat) (e : Int) : Lit where
  sgn := if s = .neg then ['-'] else []
  int := if sub then ['0'] else [digitChar d0]
  point := true
  frac := if sub then digitChar d0 :: ds.map digitChar else ds.map digitChar
  exp := some ('e', if e < 1 then ['-'] else ['+'],
    natChars rdx.base 64 (if e < 1 then (if sub then e.natAbs else (e - 1).natAbs) else (e - 1).toNat) [])

theorem litOf_text (x : Num) (rdx : Radix) (s : Sign) (d0 : Nat) (ds : List Nat) (e : Int) :
    x.digitsText rdx (s, d0 :: ds, e) = (litOf x.isSubnormal rdx s d0 ds e).text rdx := by
  unfold Num.digitsText Lit.text litOf
  cases x.isSubnormal <;> by_cases he : e < 1 <;> simp [he, List.append_assoc]

theorem litOf_valid {sub : Bool} {rdx : Radix} {s : Sign} {d0 : Nat} {ds : List Nat} {e : Int} (h0 : d0 < rdx.num)
    (hd : ∀ d ∈ ds, d < rdx.num) (hlo : EMIN ≤ e) (hhi : e ≤ EMAX) : (litOf sub rdx s d0 ds e).Valid rdx := by
  have hds : ∀ c ∈ ds.map digitChar, IsDig rdx c := by
    intro c hc
    obtain ⟨d, hd1, rfl⟩ := List.mem_map.1 hc
    exact (digitChar_spec (hd d hd1)).1
  refine ⟨?_, ?_, ?_, ?_, ?_, ?_⟩
  · unfold litOf; cases s <;> simp [IsSign]
  · unfold litOf
    intro c hc
    cases sub
    · simp at hc; rw [hc]; exact (digitChar_spec h0).1
    · simp at hc; rw [hc]; exact ⟨0, by decide, rdx.num_pos⟩
  · unfold litOf
    intro c hc
    cases sub
    · exact hds c hc
    · simp only [if_true, List.mem_cons] at hc
      rcases hc with rfl | hc
      · exact (digitChar_spec h0).1
      · exact hds c hc
  · intro h; cases h
  · unfold litOf; cases sub <;> simp
  · intro c sg es h
    unfold litOf at h
    simp only [Option.some.injEq, Prod.mk.injEq] at h
    obtain ⟨rfl, rfl, rfl⟩ := h
    have := exp_chars (rdx := rdx) (if e < 1 then (if sub then e.natAbs else (e - 1).natAbs) else (e - 1).toNat) (by
      unfold EMIN at hlo; unfold EMAX at hhi
      split
      · split <;> omega
      · omega)
    exact ⟨Or.inl rfl, by split <;> simp [IsSign], this.1, this.2.1⟩

/-- The text made from digits is read back to the same digits. -/
theorem digitsText_read {x : Num} {rdx : Radix} {s : Sign} {d0 : Nat} {ds : List Nat} {e : Int} (h0 : d0 < rdx.num)
    (hd : ∀ d ∈ ds, d < rdx.num) (hlo : EMIN ≤ e) (hhi : e ≤ EMAX) (hsub : x.isSubnormal = true → e < 1)
    (hnorm : x.isSubnormal = false → d0 ≠ 0) :
    let r := parseText (x.digitsText rdx (s, d0 :: ds, e)) rdx
    r.sign = s ∧ r.nan = false ∧ r.inf = false ∧ r.mant = d0 :: ds ∧ r.e = e := by
  have hv := litOf_valid (sub := x.isSubnormal) (s := s) h0 hd hlo hhi
  have hex := exp_chars (rdx := rdx) (if e < 1 then (if x.isSubnormal then e.natAbs else (e - 1).natAbs) else (e - 1).toNat) (by
      unfold EMIN at hlo; unfold EMAX at hhi
      split
      · split <;> omega
      · omega)
  have habs : (litOf x.isSubnormal rdx s d0 ds e).expAbs rdx =
      if e < 1 then (if x.isSubnormal then e.natAbs else (e - 1).natAbs) else (e - 1).toNat := by
    unfold Lit.expAbs litOf; exact hex.2.2
  have hval : (litOf x.isSubnormal rdx s d0 ds e).expVal rdx = if x.isSubnormal then e else e - 1 := by
    unfold Lit.expVal
    rw [habs]
    unfold litOf
    simp only
    by_cases he : e < 1
    · simp only [if_pos he]
      cases x.isSubnormal <;> simp only [Bool.false_eq_true, if_false, if_true] <;> omega
    · have hs : x.isSubnormal = false := by
        cases hs : x.isSubnormal
        · rfl
        · exact absurd (hsub hs) he
      simp only [if_neg he, hs]
      simp; omega
  have hdrop : (litOf x.isSubnormal rdx s d0 ds e).int.dropWhile (fun c => charDigit c = some 0) =
      if x.isSubnormal then [] else [digitChar d0] := by
    unfold litOf
    cases hs : x.isSubnormal
    · simp only [Bool.false_eq_true, if_false]
      rw [List.dropWhile_cons_of_neg]
      rw [(digitChar_spec h0).2]; simpa using hnorm hs
    · rfl
  have hil : ((litOf x.isSubnormal rdx s d0 ds e).intLen : ℤ) = if x.isSubnormal then 0 else 1 := by
    unfold Lit.intLen; rw [hdrop]; cases x.isSubnormal <;> rfl
  have hsum : (litOf x.isSubnormal rdx s d0 ds e).expVal rdx + (litOf x.isSubnormal rdx s d0 ds e).intLen = e := by
    rw [hval, hil]; cases x.isSubnormal <;> simp
  have hb : 2 ≤ rdx.num := by cases rdx <;> decide
  have hne : ¬ ((litOf x.isSubnormal rdx s d0 ds e).intLen = 0 ∧ (litOf x.isSubnormal rdx s d0 ds e).frac = []) := by
    rintro ⟨h1, h2⟩
    rw [h1] at hil
    unfold litOf at h2
    cases hs : x.isSubnormal
    · rw [hs] at hil; simp at hil
    · rw [hs] at h2; simp at h2
  obtain ⟨a1, a2, a3, a4, a5⟩ := parseText_spec hv (by
    rw [habs]
    have : 2 * 2147483649 ≤ rdx.num * 2147483649 := Nat.mul_le_mul_right _ hb
    unfold EMIN at hlo; unfold EMAX at hhi
    split
    · split <;> omega
    · omega) (Or.inr (by rw [hsum]; exact ⟨hlo, hhi⟩))
  rw [litOf_text]
  refine ⟨?_, a2, a3, ?_, ?_⟩
  · rw [a1]; unfold Lit.sign litOf; cases s <;> simp
  · rw [a4, hdrop]
    unfold litOf
    cases x.isSubnormal
    · simp only [Bool.false_eq_true, if_false]
      rw [digs_map hd, show [digitChar d0] = [d0].map digitChar from rfl, digs_map (by simpa using h0)]
      rfl
    · simp only [if_true]
      rw [show digitChar d0 :: ds.map digitChar = (d0 :: ds).map digitChar from rfl, digs_map (by
        intro d hd'; rcases List.mem_cons.1 hd' with rfl | hd'
        · exact h0
        · exact hd d hd')]
      rfl
  · rw [a5, if_neg hne]; exact hsum

theorem zeroText_read (x : Num) (rdx : Radix) (s : Sign) (e : Int) :
    let r := parseText (x.digitsText rdx (s, [], e)) rdx
    r.sign = s ∧ r.nan = false ∧ r.inf = false ∧ r.mant = [0] ∧ r.e = 0 := by
  have h : x.digitsText rdx (s, [], e) = (if s = .neg then ['-'] else []) ++ ['0', '.', '0'] := rfl
  rw [h]
  clear h
  cases s <;> cases rdx <;> decide

end AF
