import Verif.Props.C35
/-!
# C36: malformed number strings are rejected

Refuted: characters after a number are ignored (`C36_trailing_refuted`). What holds is: the result is NaN exactly
when no beginning of the text is a number literal or a spelling of infinity.
-/

namespace AF

/-- A spelling of an infinity. -/
def IsInfText (w : List Char) : Prop := ∃ sg, IsSign sg ∧ w.map lowerAscii = sg ++ ['i', 'n', 'f']

/-- The text begins with a number literal or a spelling of infinity. -/
def BeginsNumber (rdx : Radix) (s : List Char) : Prop :=
  (∃ l : Lit, l.Valid rdx ∧ l.text rdx <+: s) ∨ ∃ w, IsInfText w ∧ w <+: s

theorem lower_eq {c k : Char} (hk : ¬ (97 ≤ k.toNat ∧ k.toNat ≤ 122)) (h : lowerAscii c = k) : c = k := by
  unfold lowerAscii at h
  split at h
  · rename_i hc
    exfalso; apply hk
    rw [← h, toNat_ofNat' (by left; omega)]
    omega
  · exact h

theorem takeSign_spec (s : List Char) : ∃ sg rest g, IsSign sg ∧ s = sg ++ rest ∧
    takeSign (s.map lowerAscii) = ⟨rest.map lowerAscii, g, [], 0, false, true⟩ := by
  cases s with
  | nil => exact ⟨[], [], .pos, Or.inl rfl, rfl, rfl⟩
  | cons c cs =>
    by_cases h1 : lowerAscii c = '+'
    · refine ⟨['+'], cs, .pos, Or.inr (Or.inl rfl), ?_, ?_⟩
      · rw [lower_eq (by decide) h1]; rfl
      · rw [List.map_cons, h1]; rfl
    · by_cases h2 : lowerAscii c = '-'
      · refine ⟨['-'], cs, .neg, Or.inr (Or.inr rfl), ?_, ?_⟩
        · rw [lower_eq (by decide) h2]; rfl
        · rw [List.map_cons, h2]; rfl
      · refine ⟨[], c :: cs, .pos, Or.inl rfl, rfl, ?_⟩
        rw [List.map_cons]
        unfold takeSign
        split
        · rename_i h; exact absurd (List.cons.inj h).1 h1
        · rename_i h; exact absurd (List.cons.inj h).1 h2
        · rfl

theorem parseExpPart_nan (st : PState) (rdx : Radix) : (parseExpPart st rdx).nan = st.nan := by
  unfold parseExpPart parseExp
  split
  · split
    · simp only; split <;> rfl
    · rfl
  · split
    · simp only; split <;> rfl
    · rfl

theorem parseNum_nan (st : PState) (rdx : Radix) (h : st.nan = true) :
    (parseNum st rdx).nan = false ↔
      0 < (parseDigits { (parseDigits st true true rdx).1 with cs := dropPoint (parseDigits st true true rdx).1.cs }
        false false rdx).2.1 ∨ 0 < (parseDigits st true true rdx).2.1 ∨ 0 < (parseDigits st true true rdx).2.2 := by
  unfold parseNum
  simp only
  split
  · rename_i hc
    refine ⟨fun _ => by omega, fun _ => ?_⟩
    have : ∀ (c : Prop) [Decidable c] (a b : PState), a.nan = false → b.nan = false → (if c then a else b).nan = false := by
      intro c _ a b ha hb; split <;> assumption
    have h0 : ∀ st : PState, (parseExpPart { st with nan := false } rdx).nan = false := fun st => parseExpPart_nan _ _
    apply this
    · exact this _ _ _ (h0 _) (h0 _)
    apply this
    · exact this _ _ _ (h0 _) (h0 _)
    · exact this _ _ _ (h0 _) (h0 _)
  · rename_i hc
    split
    · rename_i h2
      exact ⟨fun _ => Or.inr (Or.inr h2), fun _ => rfl⟩
    · rename_i h2
      refine ⟨fun h3 => ?_, fun h3 => by omega⟩
      exfalso
      revert h3
      show st.nan ≠ false
      rw [h]; simp

/-- The acceptance condition on the lower-case text after the sign. -/
def AccB (rdx : Radix) (body : List Char) : Prop :=
  (∃ c t, body = c :: t ∧ isRadixDigit c rdx = true) ∨
  (∃ d t, body = '.' :: d :: t ∧ isRadixDigit d rdx = true) ∨ ∃ t, body = 'i' :: 'n' :: 'f' :: t

theorem takeDigits_pos (rdx : Radix) (cs : List Char) :
    0 < (takeDigits rdx cs).1.length ↔ ∃ c t, cs = c :: t ∧ isRadixDigit c rdx = true := by
  cases cs with
  | nil => simp [takeDigits]
  | cons c t =>
    unfold takeDigits
    by_cases h : isRadixDigit c rdx = true
    · rw [if_pos h]; simp [h]
    · rw [if_neg h]; simp [h]

theorem parseBody_nan (rdx : Radix) (body : List Char) (g : Sign) :
    (parseBody ⟨body, g, [], 0, false, true⟩ rdx).nan = false ↔ AccB rdx body := by
  unfold parseBody
  cases body with
  | nil => simp [AccB]
  | cons c t =>
    simp only
    by_cases hi : c = 'i'
    · subst hi
      rw [if_pos rfl]
      have hd : isRadixDigit 'i' rdx = false := by cases rdx <;> decide
      split
      · rename_i cs
        exact ⟨fun _ => Or.inr (Or.inr ⟨cs, rfl⟩), fun _ => rfl⟩
      · rename_i hne
        refine ⟨fun h => by simp at h, ?_⟩
        rintro (⟨c, t', h1, h2⟩ | ⟨d, t', h1, h2⟩ | ⟨t', h1⟩)
        · simp only [List.cons.injEq] at h1; rw [← h1.1, hd] at h2; simp at h2
        · simp at h1
        · simp only [List.cons.injEq, true_and] at h1; exact absurd h1 (hne t')
    rw [if_neg hi]
    by_cases hn : c = 'n'
    · subst hn
      rw [if_pos rfl]
      have hd : isRadixDigit 'n' rdx = false := by cases rdx <;> decide
      refine ⟨fun h => by simp at h, ?_⟩
      rintro (⟨c, t', h1, h2⟩ | ⟨d, t', h1, h2⟩ | ⟨t', h1⟩)
      · simp only [List.cons.injEq] at h1; rw [← h1.1, hd] at h2; simp at h2
      · simp at h1
      · simp at h1
    rw [if_neg hn]
    by_cases hdig : isRadixDigit c rdx = true
    · rw [if_pos (by simp [hdig]), parseNum_nan _ _ rfl]
      refine ⟨fun _ => Or.inl ⟨c, t, rfl, hdig⟩, fun _ => Or.inr ?_⟩
      unfold parseDigits
      simp only [if_true, Bool.not_true, Bool.false_and, Bool.false_eq_true, if_false, Nat.zero_add]
      unfold skipZeroes
      by_cases h0 : toDigit c = 0
      · rw [if_pos (by simp [hdig, h0])]
        right; simp
      · rw [if_neg (by simp [h0])]
        left
        exact (takeDigits_pos _ _).2 ⟨c, t, rfl, hdig⟩
    · by_cases hp : c = '.'
      · subst hp
        rw [if_pos (by simp), parseNum_nan _ _ rfl]
        have ha : parseDigits ⟨'.' :: t, g, [], 0, false, true⟩ true true rdx = (⟨'.' :: t, g, [], 0, false, true⟩, 0, 0) := by
          unfold parseDigits skipZeroes
          simp only [if_true, Bool.not_true, Bool.false_and, Bool.false_eq_true, if_false, Nat.zero_add]
          rw [if_neg (by simp [hdig])]
          unfold takeDigits
          simp [hdig]
        rw [ha]
        simp only [dropPoint, lt_irrefl, or_false]
        unfold parseDigits
        simp only [Bool.false_eq_true, if_false, Nat.zero_add, Bool.not_false, Bool.true_and]
        have hl : (if decide (0 = (takeDigits rdx t).1.length) = true then 0 else (takeDigits rdx t).1.length) =
            (takeDigits rdx t).1.length := by
          split
          · rename_i h; simpa using h
          · rfl
        rw [hl, takeDigits_pos]
        constructor
        · rintro ⟨c, t', h1, h2⟩
          exact Or.inr (Or.inl ⟨c, t', by rw [h1], h2⟩)
        · rintro (⟨c, t', h1, h2⟩ | ⟨d, t', h1, h2⟩ | ⟨t', h1⟩)
          · simp only [List.cons.injEq] at h1; rw [← h1.1] at h2; exact absurd h2 hdig
          · simp only [List.cons.injEq, true_and] at h1; exact ⟨d, t', h1, h2⟩
          · simp at h1
      · rw [if_neg (by simp [hdig, hp])]
        refine ⟨fun h => by simp at h, ?_⟩
        rintro (⟨c', t', h1, h2⟩ | ⟨d, t', h1, h2⟩ | ⟨t', h1⟩)
        · simp only [List.cons.injEq] at h1; rw [← h1.1] at h2; exact absurd h2 hdig
        · simp only [List.cons.injEq] at h1; exact absurd h1.1 hp
        · simp only [List.cons.injEq] at h1; exact absurd h1.1 hi

theorem AccB.append {rdx : Radix} {a : List Char} (h : AccB rdx a) (b : List Char) : AccB rdx (a ++ b) := by
  rcases h with ⟨c, t, rfl, h⟩ | ⟨d, t, rfl, h⟩ | ⟨t, rfl⟩
  · exact Or.inl ⟨c, t ++ b, rfl, h⟩
  · exact Or.inr (Or.inl ⟨d, t ++ b, rfl, h⟩)
  · exact Or.inr (Or.inr ⟨t ++ b, rfl⟩)

theorem takeSign_acc {rdx : Radix} {sg body : List Char} (hs : IsSign sg) (h : AccB rdx body) :
    ∃ g, takeSign (sg ++ body) = ⟨body, g, [], 0, false, true⟩ := by
  rcases hs with rfl | rfl | rfl
  · rcases h with ⟨c, t, rfl, h⟩ | ⟨d, t, rfl, h⟩ | ⟨t, rfl⟩
    · refine ⟨.pos, ?_⟩
      rw [List.nil_append]
      unfold takeSign
      split
      · rename_i h1; rw [(List.cons.inj h1).1] at h; exfalso; revert h; cases rdx <;> decide
      · rename_i h1; rw [(List.cons.inj h1).1] at h; exfalso; revert h; cases rdx <;> decide
      · rfl
    · exact ⟨.pos, rfl⟩
    · exact ⟨.pos, rfl⟩
  · exact ⟨.pos, rfl⟩
  · exact ⟨.neg, rfl⟩

/-- The parser accepts exactly the texts that begin with a literal or a spelling of infinity. -/
theorem parseText_nan (rdx : Radix) (s : List Char) :
    (parseText s rdx).nan = false ↔ BeginsNumber rdx s := by
  constructor
  · intro h
    obtain ⟨sg, rest, g, h1, h2, h3⟩ := takeSign_spec s
    unfold parseText at h
    rw [h3, parseBody_nan] at h
    rcases h with ⟨c, t, h4, h5⟩ | ⟨d, t, h4, h5⟩ | ⟨t, h4⟩
    · obtain ⟨c', t', rfl, rfl, rfl⟩ := List.map_eq_cons_iff.1 h4
      refine Or.inl ⟨⟨sg, [c'], false, [], none⟩, ⟨h1, ?_, by simp, by simp, by simp, by simp⟩, ?_⟩
      · intro c hc
        simp only [List.mem_singleton] at hc
        subst hc
        exact (isDig_iff _ _).1 h5
      · rw [h2]; simp [Lit.text]
    · obtain ⟨c', t', rfl, h6, h7⟩ := List.map_eq_cons_iff.1 h4
      obtain ⟨d', t'', rfl, rfl, rfl⟩ := List.map_eq_cons_iff.1 h7
      have := lower_eq (by decide) h6
      subst this
      refine Or.inl ⟨⟨sg, [], true, [d'], none⟩, ⟨h1, by simp, ?_, by simp, by simp, by simp⟩, ?_⟩
      · intro c hc
        simp only [List.mem_singleton] at hc
        subst hc
        exact (isDig_iff _ _).1 h5
      · rw [h2]; simp [Lit.text]
    · refine Or.inr ⟨sg ++ rest.take 3, ⟨sg, h1, ?_⟩, ?_⟩
      · rw [List.map_append, isSign_lower h1, List.map_take, h4]; rfl
      · rw [h2]; exact (List.prefix_append_right_inj _).2 (List.take_prefix _ _)
  · intro h
    have key : ∀ sg body tl, IsSign sg → AccB rdx body → s.map lowerAscii = sg ++ (body ++ tl) →
        (parseText s rdx).nan = false := by
      intro sg body tl h1 h2 h3
      obtain ⟨g, h4⟩ := takeSign_acc h1 (h2.append tl)
      unfold parseText
      rw [h3, h4, parseBody_nan]
      exact h2.append tl
    rcases h with ⟨l, hl, t, rfl⟩ | ⟨w, ⟨sg, h1, h2⟩, t, rfl⟩
    · have h1 : (l.text rdx ++ t).map lowerAscii = l.sgn ++ ((l.int.map lowerAscii ++
          ((if l.point then ['.'] else []) ++ (l.frac.map lowerAscii ++ l.expText rdx))) ++ t.map lowerAscii) := by
        rw [List.map_append, text_lower hl, List.append_assoc]
      refine key _ _ _ hl.sgn ?_ h1
      cases hi : l.int with
      | cons c cs =>
        exact Or.inl ⟨_, _, rfl, (isDig_iff _ _).2 (hl.int c (by rw [hi]; simp))⟩
      | nil =>
        cases hf : l.frac with
        | nil => exact absurd hl.some_digit (by rw [hi, hf]; simp)
        | cons d ds =>
          have hp : l.point = true := by
            by_contra hp; rw [hl.point (by simpa using hp)] at hf; cases hf
          rw [hp]
          exact Or.inr (Or.inl ⟨_, _, rfl, (isDig_iff _ _).2 (hl.frac d (by rw [hf]; simp))⟩)
    · refine key sg ['i', 'n', 'f'] (t.map lowerAscii) h1 (Or.inr (Or.inr ⟨[], rfl⟩)) ?_
      rw [List.map_append, h2, List.append_assoc]

theorem parseBody_inf (st : PState) (rdx : Radix) (h : st.inf = false) (hn : (parseBody st rdx).nan = true) :
    (parseBody st rdx).inf = false := by
  have hnum : (parseNum st rdx).nan = true → (parseNum st rdx).inf = false := by
    intro hn
    unfold parseNum at hn ⊢
    simp only at hn ⊢
    split
    · rename_i hc
      exfalso
      rw [if_pos hc] at hn
      have : ∀ (c : Prop) [Decidable c] (a b : PState), a.nan = false → b.nan = false → (if c then a else b).nan = false := by
        intro c _ a b ha hb; split <;> assumption
      have h0 : ∀ st : PState, (parseExpPart { st with nan := false } rdx).nan = false := fun st => parseExpPart_nan _ _
      refine Bool.false_ne_true (Eq.trans (Eq.symm ?_) hn)
      apply this
      · exact this _ _ _ (h0 _) (h0 _)
      apply this
      · exact this _ _ _ (h0 _) (h0 _)
      · exact this _ _ _ (h0 _) (h0 _)
    · rename_i hc
      rw [if_neg hc] at hn
      split
      · rename_i h2; rw [if_pos h2] at hn; simp at hn
      · exact h
  revert hn
  unfold parseBody
  split
  · exact fun _ => h
  · split
    · split
      · intro hn; simp at hn
      · exact fun _ => h
    · split
      · exact fun _ => h
      · split
        · exact hnum
        · exact fun _ => h

/-- Full statement: a text that is not a literal gives NaN. Missing here: texts with something after a literal. -/
theorem C36_partial (rdx : Radix) (s : List Char) (h : ¬ BeginsNumber rdx s) (p : Nat) (rm : RM) (tp : List TenPow) :
    BF.parse s rdx p rm tp = (.nan none, tp) := by
  have h1 : (parseText s rdx).nan = true := by
    by_contra h1
    exact h ((parseText_nan rdx s).1 (by simpa using h1))
  have h2 : (parseText s rdx).inf = false := by
    obtain ⟨sg, rest, g, _, _, h3⟩ := takeSign_spec s
    have h4 := h1
    unfold parseText at h4 ⊢
    rw [h3] at h4 ⊢
    exact parseBody_inf _ rdx rfl h4
  unfold BF.parse
  simp only [h1, h2, Bool.false_eq_true, if_false, if_true]
  rfl

/-- Texts that begin with a literal or a spelling of infinity are taken by the parser as such. -/
theorem C36_accepted (rdx : Radix) (s : List Char) : (parseText s rdx).nan = false ↔ BeginsNumber rdx s :=
  parseText_nan rdx s

/-! ### Cases -/

theorem abc_not_number : ¬ BeginsNumber .dec "+.e5".toList :=
  fun h => absurd ((parseText_nan _ _).2 h) (by decide)

example (rm : RM) : BF.parse "+.e5".toList .dec 64 rm [] = (.nan none, []) :=
  C36_partial .dec _ abc_not_number 64 rm []

theorem Lit.text_chars {rdx : Radix} {l : Lit} (h : l.Valid rdx) :
    ∀ c ∈ l.text rdx, IsDig rdx c ∨ c ∈ ['+', '-', '.', '_', 'e', 'E'] := by
  have hs : ∀ sg, IsSign sg → ∀ c ∈ sg, c ∈ ['+', '-', '.', '_', 'e', 'E'] := by
    rintro sg (rfl | rfl | rfl) c hc <;> simp at hc ⊢ <;> simp [hc]
  intro c hc
  unfold Lit.text at hc
  simp only [List.mem_append] at hc
  rcases hc with (((hc | hc) | hc) | hc) | hc
  · exact Or.inr (hs _ h.sgn c hc)
  · exact Or.inl (h.int c hc)
  · right; split at hc <;> simp at hc; simp [hc]
  · exact Or.inl (h.frac c hc)
  · cases he : l.exp with
    | none => rw [he] at hc; simp at hc
    | some t =>
      obtain ⟨k, sg, ds⟩ := t
      obtain ⟨h1, h2, _, h4⟩ := h.exp k sg ds he
      rw [he] at hc
      simp only [List.mem_append, List.mem_cons] at hc
      rcases hc with (hc | hc | hc) | hc
      · right; split at hc <;> simp at hc; simp [hc]
      · right; rcases h1 with rfl | rfl <;> simp [hc]
      · exact Or.inr (hs _ h2 c hc)
      · exact Or.inl (h4 c hc)

/-- Witness against the full statement: `1.1xyz` is not a binary number, and is read as `1.1`. -/
theorem C36_trailing_refuted :
    (¬ ∃ l : Lit, l.Valid .bin ∧ l.text .bin = "1.1xyz".toList) ∧
    (BF.parse "1.1xyz".toList .bin 64 .toEven []).1 = .num (Num.mk 1 .pos ⟨[3 * 2 ^ 62], 64⟩ false) := by
  refine ⟨?_, by decide +kernel⟩
  rintro ⟨l, hl, ht⟩
  have h1 : 'x' ∈ l.text .bin := by rw [ht]; decide
  rcases Lit.text_chars hl 'x' h1 with ⟨d, h2, _⟩ | h2
  · rw [show charDigit 'x' = none by decide] at h2; cases h2
  · exact absurd h2 (by decide)

end AF
