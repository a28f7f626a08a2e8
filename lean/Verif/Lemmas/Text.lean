import Verif.SpecText
import Verif.Model.Text
import Verif.Lemmas.Radix
import Mathlib.Tactic.IntervalCases
/-!
# The parser on number literals
-/

set_option linter.unusedSectionVars false

namespace AF

theorem Radix.base_eq (rdx : Radix) : rdx.base = rdx.num := by cases rdx <;> rfl

theorem Radix.num_pos (rdx : Radix) : 0 < rdx.num := by cases rdx <;> decide

theorem toNat_ofNat' {n : Nat} (h : n.isValidChar) : (Char.ofNat n).toNat = n := by
  unfold Char.ofNat
  rw [dif_pos h]
  rfl

theorem lower_toNat (c : Char) :
    (lowerAscii c).toNat = if 65 ≤ c.toNat ∧ c.toNat ≤ 90 then c.toNat + 32 else c.toNat := by
  unfold lowerAscii
  split
  · rename_i h
    rw [toNat_ofNat']
    left; omega
  · rfl

theorem isRadixDigit_iff (c : Char) (rdx : Radix) :
    isRadixDigit c rdx = true ↔
      (48 ≤ c.toNat ∧ c.toNat ≤ 57 ∧ c.toNat - 48 < rdx.num) ∨ (97 ≤ c.toNat ∧ c.toNat ≤ 102 ∧ rdx = .hex) := by
  have hc : ∀ n, (h : n.isValidChar) → (c = Char.ofNat n ↔ c.toNat = n) := by
    intro n h
    constructor
    · intro hh; rw [hh, toNat_ofNat' h]
    · intro hh; rw [← hh, Char.ofNat_toNat]
  cases rdx
  · simp only [isRadixDigit, Bool.or_eq_true, decide_eq_true_eq, Radix.num]
    have h0 := hc 48 (by decide)
    have h1 := hc 49 (by decide)
    rw [show Char.ofNat 48 = '0' from rfl] at h0
    rw [show Char.ofNat 49 = '1' from rfl] at h1
    rw [h0, h1]
    constructor
    · intro h; left; omega
    · rintro (h | ⟨_, _, h⟩)
      · omega
      · cases h
  · simp only [isRadixDigit, decide_eq_true_eq, Radix.num]
    constructor
    · intro h; left; omega
    · rintro (h | ⟨_, _, h⟩)
      · omega
      · cases h
  · simp only [isRadixDigit, decide_eq_true_eq, Radix.num]
    constructor
    · intro h; left; omega
    · rintro (h | ⟨_, _, h⟩)
      · omega
      · cases h
  · simp only [isRadixDigit, Bool.or_eq_true, decide_eq_true_eq, Radix.num]
    constructor
    · rintro (h | h)
      · left; omega
      · right; exact ⟨h.1, h.2, trivial⟩
    · rintro (h | h)
      · left; omega
      · right; omega

/-- A character is a digit for the parser exactly when it is one in the specification. -/
theorem isDig_iff (rdx : Radix) (c : Char) : isRadixDigit (lowerAscii c) rdx = true ↔ IsDig rdx c := by
  rw [isRadixDigit_iff, lower_toNat]
  unfold IsDig charDigit
  have hn : rdx.num ≤ 10 ∨ rdx = .hex := by cases rdx <;> simp [Radix.num]
  have hn2 : rdx = .hex → rdx.num = 16 := by rintro rfl; rfl
  by_cases h1 : 48 ≤ c.toNat ∧ c.toNat ≤ 57
  · rw [if_neg (by omega), if_pos h1]
    constructor
    · rintro (h | h)
      · exact ⟨_, rfl, h.2.2⟩
      · omega
    · rintro ⟨d, hd, hlt⟩
      simp only [Option.some.injEq] at hd
      left; omega
  · rw [if_neg h1]
    by_cases h2 : 97 ≤ c.toNat ∧ c.toNat ≤ 102
    · rw [if_neg (by omega), if_pos h2]
      constructor
      · rintro (h | ⟨_, _, h⟩)
        · omega
        · exact ⟨_, rfl, by rw [hn2 h]; omega⟩
      · rintro ⟨d, hd, hlt⟩
        simp only [Option.some.injEq] at hd
        right
        refine ⟨h2.1, h2.2, ?_⟩
        rcases hn with hn | hn
        · omega
        · exact hn
    · rw [if_neg h2]
      by_cases h3 : 65 ≤ c.toNat ∧ c.toNat ≤ 70
      · rw [if_pos (by omega), if_pos h3]
        constructor
        · rintro (h | ⟨_, _, h⟩)
          · omega
          · exact ⟨_, rfl, by rw [hn2 h]; omega⟩
        · rintro ⟨d, hd, hlt⟩
          simp only [Option.some.injEq] at hd
          right
          refine ⟨by omega, by omega, ?_⟩
          rcases hn with hn | hn
          · omega
          · exact hn
      · rw [if_neg h3]
        constructor
        · intro h
          split at h <;> omega
        · rintro ⟨d, hd, _⟩; cases hd

theorem toDigit_lower {rdx : Radix} {c : Char} (h : IsDig rdx c) : charDigit c = some (toDigit (lowerAscii c)) := by
  obtain ⟨d, hd, _⟩ := h
  unfold toDigit
  rw [lower_toNat]
  unfold charDigit at hd ⊢
  by_cases h1 : 48 ≤ c.toNat ∧ c.toNat ≤ 57
  · rw [if_pos h1, if_neg (show ¬ (65 ≤ c.toNat ∧ c.toNat ≤ 90) by omega), if_pos (by omega)]
  · rw [if_neg h1] at hd ⊢
    by_cases h2 : 97 ≤ c.toNat ∧ c.toNat ≤ 102
    · rw [if_pos h2, if_neg (show ¬ (65 ≤ c.toNat ∧ c.toNat ≤ 90) by omega), if_neg (by omega)]
    · rw [if_neg h2] at hd ⊢
      by_cases h3 : 65 ≤ c.toNat ∧ c.toNat ≤ 70
      · rw [if_pos h3, if_pos (show 65 ≤ c.toNat ∧ c.toNat ≤ 90 by omega), if_neg (by omega)]
        congr 1
      · rw [if_neg h3] at hd; cases hd

theorem digs_cons {rdx : Radix} {c : Char} {cs : List Char} (h : IsDig rdx c) :
    digs (c :: cs) = toDigit (lowerAscii c) :: digs cs := by
  unfold digs; rw [List.filterMap_cons, toDigit_lower h]

theorem digs_append (a b : List Char) : digs (a ++ b) = digs a ++ digs b := by
  unfold digs; rw [List.filterMap_append]

theorem digs_length {rdx : Radix} {cs : List Char} (h : ∀ c ∈ cs, IsDig rdx c) : (digs cs).length = cs.length := by
  induction cs with
  | nil => rfl
  | cons c cs ih =>
    rw [digs_cons (h c (by simp)), List.length_cons, List.length_cons, ih (fun c hc => h c (by simp [hc]))]

theorem digs_lt {rdx : Radix} {cs : List Char} (h : ∀ c ∈ cs, IsDig rdx c) : ∀ d ∈ digs cs, d < rdx.num := by
  intro d hd
  unfold digs at hd
  rw [List.mem_filterMap] at hd
  obtain ⟨c, hc, hcd⟩ := hd
  obtain ⟨d', hd', hlt⟩ := h c hc
  rw [hcd] at hd'
  cases hd'
  exact hlt

/-- The text that follows does not continue the digits. -/
def Stops (rdx : Radix) (cs : List Char) : Prop := ∀ c, cs.head? = some c → isRadixDigit c rdx = false

theorem takeDigits_spec {rdx : Radix} {cs : List Char} (h : ∀ c ∈ cs, IsDig rdx c) {rest : List Char}
    (hr : Stops rdx rest) : takeDigits rdx (cs.map lowerAscii ++ rest) = (digs cs, rest) := by
  induction cs with
  | nil =>
    rw [List.map_nil, List.nil_append]
    cases rest with
    | nil => rfl
    | cons c cs =>
      unfold takeDigits
      rw [hr c rfl]
      rfl
  | cons c cs ih =>
    have hc := h c (by simp)
    rw [List.map_cons, List.cons_append]
    unfold takeDigits
    rw [if_pos ((isDig_iff rdx c).2 hc), ih (fun c hc => h c (by simp [hc])), digs_cons hc]

theorem skipZeroes_spec {rdx : Radix} {cs : List Char} (h : ∀ c ∈ cs, IsDig rdx c) {rest : List Char}
    (hr : Stops rdx rest) :
    skipZeroes rdx (cs.map lowerAscii ++ rest) =
      (cs.length - (cs.dropWhile (fun c => charDigit c = some 0)).length,
        (cs.dropWhile (fun c => charDigit c = some 0)).map lowerAscii ++ rest) := by
  induction cs with
  | nil =>
    rw [List.map_nil, List.nil_append]
    cases rest with
    | nil => rfl
    | cons c cs =>
      unfold skipZeroes
      rw [hr c rfl]
      rfl
  | cons c cs ih =>
    have hc := h c (by simp)
    rw [List.map_cons, List.cons_append]
    unfold skipZeroes
    rw [(isDig_iff rdx c).2 hc]
    by_cases h0 : toDigit (lowerAscii c) = 0
    · have h1 : charDigit c = some 0 := by rw [toDigit_lower hc, h0]
      have hl : (cs.dropWhile (fun c => charDigit c = some 0)).length ≤ cs.length :=
        (List.dropWhile_sublist _).length_le
      rw [if_pos (by simp [h0]), ih (fun c hc => h c (by simp [hc])), List.dropWhile_cons_of_pos (by simp [h1])]
      simp only [List.length_cons]
      congr 1
      omega
    · have h1 : charDigit c ≠ some 0 := by rw [toDigit_lower hc]; simp [h0]
      rw [if_neg (by simp [h0]), List.dropWhile_cons_of_neg (by simp [h1])]
      simp

theorem digNat_dropZeros (b : Nat) (cs : List Char) (ds : List Nat) :
    digNat b (digs (cs.dropWhile (fun c => charDigit c = some 0)) ++ ds) = digNat b (digs cs ++ ds) := by
  induction cs with
  | nil => rfl
  | cons c cs ih =>
    by_cases h : charDigit c = some 0
    · rw [List.dropWhile_cons_of_pos (by simp [h]), ih]
      have : digs (c :: cs) = 0 :: digs cs := by unfold digs; rw [List.filterMap_cons, h]
      rw [this, List.cons_append, digNat_cons]; simp
    · rw [List.dropWhile_cons_of_neg (by simp [h])]

theorem satI_id {x : Int} (h1 : -9223372036854775808 ≤ x) (h2 : x ≤ 9223372036854775807) : satI x = x := by
  unfold satI; omega

theorem expLoop_spec {rdx : Radix} {cs : List Char} (h : ∀ c ∈ cs, IsDig rdx c) : ∀ (e : Nat),
    e * rdx.num ^ cs.length + digNat rdx.num (digs cs) < rdx.num * 2147483649 →
    expLoop rdx (cs.map lowerAscii) e = ((e * rdx.num ^ cs.length + digNat rdx.num (digs cs) : ℕ) : ℤ) := by
  induction cs with
  | nil => intro e _; simp [expLoop, digs]
  | cons c cs ih =>
    intro e he
    have hc := h c (by simp)
    have hcs : ∀ c ∈ cs, IsDig rdx c := fun c hc => h c (by simp [hc])
    rw [digs_cons hc, digNat_cons, digs_length hcs, List.length_cons, pow_succ] at he
    rw [List.map_cons]
    unfold expLoop
    have hb := rdx.num_pos
    have hpw : 1 ≤ rdx.num ^ cs.length := Nat.one_le_pow _ _ hb
    have e1 : (e * rdx.num + toDigit (lowerAscii c)) * rdx.num ^ cs.length + digNat rdx.num (digs cs) =
        e * (rdx.num ^ cs.length * rdx.num) + (toDigit (lowerAscii c) * rdx.num ^ cs.length + digNat rdx.num (digs cs)) := by
      ring
    have h1 : e * rdx.num + toDigit (lowerAscii c) < rdx.num * 2147483649 := by
      have : (e * rdx.num + toDigit (lowerAscii c)) * 1 ≤ (e * rdx.num + toDigit (lowerAscii c)) * rdx.num ^ cs.length :=
        Nat.mul_le_mul_left _ hpw
      omega
    have h2 : e < 2147483649 := by
      apply Nat.lt_of_mul_lt_mul_right (a := rdx.num)
      rw [Nat.mul_comm 2147483649]; omega
    have hb16 : rdx.num ≤ 16 := by cases rdx <;> decide
    have h5 : rdx.num * 2147483649 ≤ 16 * 2147483649 := Nat.mul_le_mul_right _ hb16
    rw [if_pos ((isDig_iff rdx c).2 hc), if_neg (by omega), rdx.base_eq]
    have h3 : satI (satI ((e : ℤ) * (rdx.num : ℤ)) + (toDigit (lowerAscii c) : ℤ)) =
        ((e * rdx.num + toDigit (lowerAscii c) : ℕ) : ℤ) := by
      have h4 : ((e : ℤ) * (rdx.num : ℤ)) = ((e * rdx.num : ℕ) : ℤ) := by push_cast; ring
      rw [h4]
      generalize e * rdx.num = q at *
      generalize toDigit (lowerAscii c) = t at *
      rw [satI_id (x := (q : ℤ)) (by omega) (by omega), satI_id (by omega) (by omega)]
      push_cast; ring
    rw [h3, ih hcs _ (by rw [e1]; exact he), e1, digs_cons hc, digNat_cons, digs_length hcs, List.length_cons, pow_succ]

/-- The lower-case text of the exponent part. -/
def Lit.expText (l : Lit) (rdx : Radix) : List Char :=
  match l.exp with
  | none => []
  | some (_, sg, ds) => (if rdx = .hex then ['_'] else []) ++ 'e' :: sg ++ ds.map lowerAscii

theorem expText_stops {l : Lit} {rdx : Radix} : Stops rdx (l.expText rdx) := by
  intro c hc
  unfold Lit.expText at hc
  cases h : l.exp with
  | none => rw [h] at hc; simp at hc
  | some t =>
    obtain ⟨c', sg, ds⟩ := t
    rw [h] at hc
    cases rdx <;> simp at hc <;> subst hc <;> rfl

theorem expText_point {l : Lit} {rdx : Radix} : (l.expText rdx).head? ≠ some '.' := by
  intro hc
  unfold Lit.expText at hc
  cases h : l.exp with
  | none => rw [h] at hc; simp at hc
  | some t =>
    obtain ⟨c', sg, ds⟩ := t
    rw [h] at hc
    cases rdx <;> simp at hc

theorem isSign_lower {cs : List Char} (h : IsSign cs) : cs.map lowerAscii = cs := by
  rcases h with rfl | rfl | rfl <;> decide

theorem text_lower {l : Lit} {rdx : Radix} (h : l.Valid rdx) : (l.text rdx).map lowerAscii =
    l.sgn ++ (l.int.map lowerAscii ++ ((if l.point then ['.'] else []) ++ (l.frac.map lowerAscii ++ l.expText rdx))) := by
  unfold Lit.text
  simp only [List.map_append, List.append_assoc]
  rw [isSign_lower h.sgn]
  have h1 : List.map lowerAscii (if l.point = true then ['.'] else []) = (if l.point = true then ['.'] else []) := by
    split <;> decide
  rw [h1]
  congr 4
  unfold Lit.expText
  cases he : l.exp with
  | none => rfl
  | some t =>
    obtain ⟨c, sg, ds⟩ := t
    obtain ⟨h2, h3, _⟩ := h.exp c sg ds he
    have h4 : lowerAscii c = 'e' := by rcases h2 with rfl | rfl <;> decide
    have h5 : List.map lowerAscii (if rdx = .hex then ['_'] else []) = (if rdx = .hex then ['_'] else []) := by
      split <;> decide
    simp only [List.map_append, List.map_cons, h4, isSign_lower h3, h5, List.cons_append, List.append_assoc]

theorem digit_ne_sign {rdx : Radix} {c : Char} (h : IsDig rdx c) :
    lowerAscii c ≠ '+' ∧ lowerAscii c ≠ '-' ∧ lowerAscii c ≠ '.' ∧ lowerAscii c ≠ 'i' ∧ lowerAscii c ≠ 'n' := by
  have h1 := (isDig_iff rdx c).2 h
  refine ⟨?_, ?_, ?_, ?_, ?_⟩ <;> · intro h2; rw [h2] at h1; revert h1; cases rdx <;> decide

theorem parseExp_spec {rdx : Radix} {sg ds : List Char} (hs : IsSign sg) (hd : ∀ d ∈ ds, IsDig rdx d) {st : PState}
    (he : st.e = 0) (hcs : st.cs = sg ++ ds.map lowerAscii) (hlim : digNat rdx.num (digs ds) < rdx.num * 2147483649) :
    parseExp st rdx =
      { st with e := if sg = ['-'] then -(digNat rdx.num (digs ds) : ℤ) else (digNat rdx.num (digs ds) : ℤ) } := by
  have key : expLoop rdx (ds.map lowerAscii) st.e = (digNat rdx.num (digs ds) : ℤ) := by
    have := expLoop_spec hd 0 (by simpa using hlim)
    rw [he]
    simpa using this
  unfold parseExp
  rw [hcs]
  rcases hs with rfl | rfl | rfl
  · cases ds with
    | nil => simp only [List.map_nil, List.append_nil, List.nil_append]; rw [List.map_nil] at key; rw [key]; simp
    | cons c cs =>
      obtain ⟨h1, h2, _⟩ := digit_ne_sign (hd c (by simp))
      simp only [List.map_cons, List.nil_append]
      rw [List.map_cons] at key
      split
      · rename_i h; simp only [List.cons.injEq] at h; exact absurd h.1 h1
      · rename_i h; simp only [List.cons.injEq] at h; exact absurd h.1 h2
      · rw [key]; simp
  · simp only [List.cons_append, List.nil_append, key]; simp
  · simp only [List.cons_append, List.nil_append, key, if_true]

theorem parseExpPart_spec {l : Lit} {rdx : Radix} (h : l.Valid rdx) {st : PState} (he : st.e = 0)
    (hcs : st.cs = l.expText rdx) (hlim : l.expAbs rdx < rdx.num * 2147483649) :
    ∃ cs, parseExpPart st rdx = { st with e := l.expVal rdx, cs := cs } := by
  unfold Lit.expText at hcs
  unfold Lit.expAbs at hlim
  cases hex : l.exp with
  | none =>
    rw [hex] at hcs
    have hv : l.expVal rdx = 0 := by unfold Lit.expVal Lit.expAbs; simp [hex]
    refine ⟨st.cs, ?_⟩
    unfold parseExpPart
    simp only at hcs
    rw [hcs, hv, ← he]
    cases st
    simp only at hcs
    subst hcs
    split <;> rfl
  | some t =>
    obtain ⟨c, sg, ds⟩ := t
    obtain ⟨_, h3, _, h5⟩ := h.exp c sg ds hex
    rw [hex] at hcs hlim
    simp only at hcs hlim
    have hv : l.expVal rdx =
        if sg = ['-'] then -(digNat rdx.num (digs ds) : ℤ) else (digNat rdx.num (digs ds) : ℤ) := by
      unfold Lit.expVal Lit.expAbs
      rw [hex]
      rcases h3 with rfl | rfl | rfl <;> simp
    refine ⟨sg ++ ds.map lowerAscii, ?_⟩
    unfold parseExpPart
    by_cases hx : rdx = .hex
    · rw [if_pos hx] at hcs ⊢
      rw [hcs]
      simp only [List.cons_append, List.nil_append]
      rw [parseExp_spec h3 h5 (st := { st with cs := sg ++ ds.map lowerAscii }) he rfl hlim, hv]
    · rw [if_neg hx] at hcs ⊢
      rw [hcs]
      simp only [List.cons_append, List.nil_append]
      rw [parseExp_spec h3 h5 (st := { st with cs := sg ++ ds.map lowerAscii }) he rfl hlim, hv]

theorem parseNum_spec {l : Lit} {rdx : Radix} (h : l.Valid rdx) {st : PState} (hm : st.mant = []) (he : st.e = 0)
    (hcs : st.cs = l.int.map lowerAscii ++ ((if l.point then ['.'] else []) ++ (l.frac.map lowerAscii ++ l.expText rdx)))
    (hlim : l.expAbs rdx < rdx.num * 2147483649)
    (hrange : (l.intLen = 0 ∧ l.frac = []) ∨ (EMIN ≤ l.expVal rdx + l.intLen ∧ l.expVal rdx + l.intLen ≤ EMAX)) :
    (parseNum st rdx).sign = st.sign ∧ (parseNum st rdx).nan = false ∧ (parseNum st rdx).inf = st.inf ∧
    (parseNum st rdx).mant = digs (l.int.dropWhile (fun c => charDigit c = some 0)) ++ digs l.frac ∧
    (parseNum st rdx).e = if l.intLen = 0 ∧ l.frac = [] then 0 else l.expVal rdx + l.intLen := by
  set I' := l.int.dropWhile (fun c => charDigit c = some 0) with hI'
  have hIlen : l.intLen = I'.length := rfl
  have hIsub : ∀ c ∈ I', IsDig rdx c := fun c hc => h.int c ((List.dropWhile_sublist _).mem hc)
  set R := (if l.point then ['.'] else []) ++ (l.frac.map lowerAscii ++ l.expText rdx) with hR
  have hRs : Stops rdx R := by
    rw [hR]
    by_cases hp : l.point = true
    · rw [if_pos hp]; intro c hc; simp at hc; subst hc; cases rdx <;> rfl
    · rw [if_neg hp, h.point (by simpa using hp)]; exact expText_stops
  have ha : parseDigits st true true rdx =
      ({ st with cs := R, mant := digs I' }, I'.length, l.int.length - I'.length) := by
    unfold parseDigits
    rw [hcs]
    simp only [if_true]
    rw [skipZeroes_spec h.int hRs]
    simp only
    rw [takeDigits_spec hIsub hRs, hm]
    simp [digs_length hIsub, ← hI']
  have hst1 : dropPoint R = l.frac.map lowerAscii ++ l.expText rdx := by
    rw [hR]
    by_cases hp : l.point = true
    · rw [if_pos hp]; rfl
    · rw [if_neg hp, h.point (by simpa using hp)]
      simp only [List.map_nil, List.nil_append]
      have := expText_point (l := l) (rdx := rdx)
      unfold dropPoint
      split
      · rename_i hh; rw [hh] at this; simp at this
      · rfl
  have hb : parseDigits ⟨l.frac.map lowerAscii ++ l.expText rdx, st.sign, digs I', st.e, st.inf, st.nan⟩ false false rdx =
      (⟨l.expText rdx, st.sign, digs I' ++ digs l.frac, st.e, st.inf, st.nan⟩, l.frac.length, 0) := by
    unfold parseDigits
    simp only [Bool.false_eq_true, if_false]
    rw [takeDigits_spec h.frac expText_stops]
    simp only [digs_length h.frac, Nat.zero_add]
    by_cases h0 : l.frac.length = 0 <;> simp [h0, eq_comm]
  unfold parseNum
  simp only [ha, hst1, hb]
  by_cases hd : l.frac.length > 0 ∨ I'.length > 0
  · rw [if_pos hd]
    obtain ⟨cs, hpe⟩ := parseExpPart_spec h (st := ⟨l.expText rdx, st.sign, digs I' ++ digs l.frac, st.e, st.inf, false⟩)
      he rfl hlim
    rw [hpe]
    have hne : ¬ (l.intLen = 0 ∧ l.frac = []) := by
      rw [hIlen]; rintro ⟨h1, h2⟩; rw [h2, List.length_nil] at hd; omega
    rw [if_neg hne]
    have hr := hrange.resolve_left hne
    rw [hIlen] at hr ⊢
    have hst3 : (if I'.length ≠ 0 then
        PState.mk cs st.sign (digs I' ++ digs l.frac) (satI (l.expVal rdx + (I'.length : ℤ))) st.inf false
        else PState.mk cs st.sign (digs I' ++ digs l.frac) (l.expVal rdx) st.inf false) =
        PState.mk cs st.sign (digs I' ++ digs l.frac) (l.expVal rdx + (I'.length : ℤ)) st.inf false := by
      split
      · rw [satI_id]
        · unfold EMIN at hr; omega
        · unfold EMAX at hr; omega
      · rename_i h0; have : I'.length = 0 := by omega
        rw [this]; simp
    simp only [hst3]
    rw [if_neg (by omega), if_neg (by omega)]
    exact ⟨rfl, rfl, rfl, rfl, rfl⟩
  · rw [if_neg hd]
    have hf : l.frac = [] := by
      have : l.frac.length = 0 := by omega
      exact List.length_eq_zero_iff.1 this
    have hI0 : I'.length = 0 := by omega
    have hint : l.int ≠ [] := by have := h.some_digit; rw [hf, List.append_nil] at this; exact this
    have hl : 0 < l.int.length := List.length_pos_iff.2 hint
    rw [if_pos (by omega)]
    rw [if_pos ⟨by rw [hIlen]; exact hI0, hf⟩]
    exact ⟨rfl, rfl, rfl, rfl, he⟩

/-- The parser on a number literal. -/
theorem parseText_spec {l : Lit} {rdx : Radix} (h : l.Valid rdx) (hlim : l.expAbs rdx < rdx.num * 2147483649)
    (hrange : (l.intLen = 0 ∧ l.frac = []) ∨ (EMIN ≤ l.expVal rdx + l.intLen ∧ l.expVal rdx + l.intLen ≤ EMAX)) :
    let r := parseText (l.text rdx) rdx
    r.sign = l.sign ∧ r.nan = false ∧ r.inf = false ∧
    r.mant = digs (l.int.dropWhile (fun c => charDigit c = some 0)) ++ digs l.frac ∧
    r.e = if l.intLen = 0 ∧ l.frac = [] then 0 else l.expVal rdx + l.intLen := by
  intro r
  set body := l.int.map lowerAscii ++ ((if l.point then ['.'] else []) ++ (l.frac.map lowerAscii ++ l.expText rdx)) with hbody
  -- the first character of the body
  obtain ⟨c, cs, hc, hc2⟩ : ∃ c cs, body = c :: cs ∧ (c = '.' ∨ ∃ c', IsDig rdx c' ∧ c = lowerAscii c') := by
    rw [hbody]
    cases hi : l.int with
    | cons c cs => exact ⟨_, _, rfl, Or.inr ⟨c, h.int c (by rw [hi]; simp), rfl⟩⟩
    | nil =>
      have hf : l.frac ≠ [] := by have := h.some_digit; rw [hi] at this; simpa using this
      have hp : l.point = true := by
        by_contra hp; exact hf (h.point (by simpa using hp))
      rw [hp]
      exact ⟨_, _, rfl, Or.inl rfl⟩
  have hne : c ≠ '+' ∧ c ≠ '-' ∧ c ≠ 'i' ∧ c ≠ 'n' ∧ (c = '.' || isRadixDigit c rdx) = true := by
    rcases hc2 with rfl | ⟨c', h1, rfl⟩
    · exact ⟨by decide, by decide, by decide, by decide, rfl⟩
    · obtain ⟨a1, a2, a3, a4, a5⟩ := digit_ne_sign h1
      exact ⟨a1, a2, a4, a5, by rw [(isDig_iff rdx c').2 h1]; simp⟩
  have hmain : ∀ s : Sign, parseBody (PState.mk body s [] 0 false true) rdx =
      parseNum (PState.mk body s [] 0 false true) rdx := by
    intro s
    unfold parseBody
    simp only [hc]
    rw [if_neg hne.2.2.1, if_neg hne.2.2.2.1, if_pos hne.2.2.2.2]
  have hr : r = parseNum (PState.mk body l.sign [] 0 false true) rdx := by
    show parseText (l.text rdx) rdx = _
    unfold parseText
    rw [text_lower h, ← hbody]
    unfold Lit.sign
    rcases h.sgn with h1 | h1 | h1
    · rw [h1]
      simp only [List.nil_append]
      have h2 : takeSign body = ⟨body, .pos, [], 0, false, true⟩ := by
        rw [hc]
        unfold takeSign
        split
        · rename_i hh; simp only [List.cons.injEq] at hh; exact absurd hh.1 hne.1
        · rename_i hh; simp only [List.cons.injEq] at hh; exact absurd hh.1 hne.2.1
        · rfl
      rw [h2]
      exact hmain .pos
    · rw [h1]
      exact hmain .pos
    · rw [h1]
      exact hmain .neg
  obtain ⟨b1, b2, b3, b4, b5⟩ := parseNum_spec h (st := PState.mk body l.sign [] 0 false true) rfl rfl rfl hlim hrange
  rw [hr]
  exact ⟨b1, b2, b3, b4, b5⟩

end AF
