import Verif.Lemmas.ConstLn2
import Verif.Lemmas.Ext
/-!
# C59: the constant ln 2

The full claim: for every precision, every rounding mode and whatever was asked of the cache before, `Consts::ln_2`
returns the natural logarithm of 2 correctly rounded, as a number marked inexact.

In the four directed modes the number returned is correctly rounded, and so does not depend on the history of the
cache (`C59_directed_partial`, `C59_history_partial`); the other modes are within the bounds of `ConstRounded`
(`C59_outcomes_partial`). The function always ends. It returns a number for precisions below `2^26` bits in mode
`None`, and in the directed modes unless the 63 bits of `ln 2` after the first `P` are all equal
(`C59_number_partial`).

The claim is false for large precisions: from `2^28` bits on the answer is NaN with `ExponentOverflow`, in every
mode and for every cache (`C59_overflow`, `C59_refuted`), since the common denominator of the series is larger than
any number.

Missing: correct rounding in the nearest modes.
-/

namespace AF

/-- The caches that exist after `Ln2Cache::new` and any number of calls with valid precisions. -/
inductive Ln2Hist : ConstCache (Num × Num × Num) → Prop
  | new {c} : ln2New = .ok c → Ln2Hist c
  | call {c c' p rm r} : Ln2Hist c → ValidP p → constLn2 p rm c = some (r, c') → Ln2Hist c'

theorem constLn2_spec {p : Nat} (hp : ValidP p) (rm : RM) {c : ConstCache (Num × Num × Num)} (hc : CacheOk (LnRep 1 9) (LnValOk 1 9 3 (Real.log 2)) c) :
    ∃ r c', constLn2 p rm c = some (r, c') ∧ CacheOk (LnRep 1 9) (LnValOk 1 9 3 (Real.log 2)) c' ∧
      ((∃ v, r = .num v ∧ ConstRounded rm (precBits p) (Real.log 2) v) ∨
        r = .nan (some (.exponentOverflow .pos))) ∧
      (rm = .none ∨ rm.directed = true ∧ ¬ NearGrid (precBits p) 63 (Real.log 2) →
        2 * (precBits p / 2 + 4) ≤ 2 ^ 26 → ∃ v, r = .num v) ∧
      (2 ^ 27 ≤ precBits p / 2 + 4 → r = .nan (some (.exponentOverflow .pos))) := by
  have hp0 := hp.pos
  have hp1 := hp.lt
  obtain ⟨pw, hpw⟩ : ∃ pw, precBits p = 64 * pw := ⟨(p + 63) / 64, rfl⟩
  have hpw0 : 0 < pw := by unfold precBits at hpw; omega
  have hr2 : roundP (precBits p) = precBits p := by rw [hpw]; unfold roundP USIZE_MAX; omega
  have hpm : 64 * pw < PMAX := by unfold PMAX; omega
  obtain ⟨r, c', h1, h2, h3, h4, h5⟩ := (ln2_loop hpw0 hpm rm).forPrec ln2Series hc (by
      rw [← hpw, hr2, hpw]
      obtain ⟨j, hj⟩ := hc.pow
      rw [hj]
      exact ln2_inv_start hpw0)
  rw [← hpw] at h1 h3 h4 h5
  unfold constLn2 ln2ForPrec
  rw [hp.roundP, h1]
  refine ⟨constToBF r, c', rfl, h2, ?_, ?_, ?_⟩
  · rcases h3 with ⟨v, rfl, h6, h7⟩ | rfl
    · exact Or.inl ⟨v, rfl, h6.rounded (by have := log_two_small.1; linarith) h7⟩
    · exact Or.inr rfl
  · intro hs hb
    obtain ⟨v, rfl⟩ := h4 hs hb
    exact ⟨v, rfl⟩
  · intro hb
    rw [h5 hb]; rfl

theorem Ln2Hist.ok {c : ConstCache (Num × Num × Num)} (h : Ln2Hist c) : CacheOk (LnRep 1 9) (LnValOk 1 9 3 (Real.log 2)) c := by
  induction h with
  | new h =>
    obtain ⟨c', h1, h2⟩ := ln_new ln2Series (by norm_num) ln2_value
    rw [show lnNew ln2Leaf ln2Calc = ln2New from rfl] at h1
    rw [h] at h1
    injection h1 with h1
    rw [h1]; exact h2
  | call h hp hc ih =>
    obtain ⟨r, c', h1, h2, -⟩ := constLn2_spec hp _ ih
    rw [h1] at hc
    injection hc with hc
    injection hc with _ hc
    rw [← hc]; exact h2

/-- A cache can be made. -/
theorem C59_new : ∃ c, ln2New = .ok c ∧ Ln2Hist c := by
  obtain ⟨c, h, _⟩ := ln_new ln2Series (by norm_num) ln2_value
  exact ⟨c, h, .new h⟩

/-- Every call ends, with the logarithm of 2 as described by `ConstRounded` or with NaN for an exponent overflow. -/
theorem C59_outcomes_partial {p : Nat} (hp : ValidP p) (rm : RM) {c : ConstCache (Num × Num × Num)} (hc : Ln2Hist c) :
    ∃ r c', constLn2 p rm c = some (r, c') ∧ Ln2Hist c' ∧
      ((∃ v, r = .num v ∧ ConstRounded rm (precBits p) (Real.log 2) v) ∨
        r = .nan (some (.exponentOverflow .pos))) := by
  obtain ⟨r, c', h1, -, h3, -⟩ := constLn2_spec hp rm hc.ok
  exact ⟨r, c', h1, hc.call hp h1, h3⟩

/-- In the directed modes a number returned is the logarithm of 2 correctly rounded. -/
theorem C59_directed_partial {p : Nat} (hp : ValidP p) {rm : RM}
    (hd : rm = .up ∨ rm = .down ∨ rm = .toZero ∨ rm = .fromZero) {c c' : ConstCache (Num × Num × Num)} (hc : Ln2Hist c)
    {v : Num} (h : constLn2 p rm c = some (.num v, c')) :
    RoundsFmt rm (precBits p) (Real.log 2) v.toK ∧ 64 * v.m.m.length = precBits p ∧ v.inexact = true := by
  obtain ⟨r, c'', h1, -, h3, -⟩ := constLn2_spec hp rm hc.ok
  rw [h1] at h
  injection h with h
  injection h with h _
  rcases h3 with ⟨v', rfl, h4⟩ | rfl
  · injection h with h
    rw [← h]
    exact ⟨h4.directed hd, h4.prec, h4.inexact⟩
  · cases h

/-- In the directed modes the number does not depend on what the cache was used for before. -/
theorem C59_history_partial {p : Nat} (hp : ValidP p) {rm : RM}
    (hd : rm = .up ∨ rm = .down ∨ rm = .toZero ∨ rm = .fromZero) {c₁ c₂ c₁' c₂' : ConstCache (Num × Num × Num)}
    (hc₁ : Ln2Hist c₁) (hc₂ : Ln2Hist c₂) {v₁ v₂ : Num} (h₁ : constLn2 p rm c₁ = some (.num v₁, c₁'))
    (h₂ : constLn2 p rm c₂ = some (.num v₂, c₂')) : v₁ = v₂ := by
  have key : ∀ {c c' : ConstCache (Num × Num × Num)} {v : Num}, Ln2Hist c → constLn2 p rm c = some (.num v, c') →
      ConstRounded rm (precBits p) (Real.log 2) v := by
    intro c c' v hc h
    obtain ⟨r, c'', h1, -, h3, -⟩ := constLn2_spec hp rm hc.ok
    rw [h1] at h
    injection h with h
    injection h with h _
    rcases h3 with ⟨v', rfl, h4⟩ | rfl
    · injection h with h
      rw [← h]; exact h4
    · cases h
  have hP : 64 ≤ precBits p := by have := hp.pos; unfold precBits; omega
  exact (key hc₁ h₁).unique hd hP (by have := log_two_small.1; linarith) (key hc₂ h₂)

/-- Below `2^26` bits the answer is a number in mode `None`, and in the directed modes unless the digits of `ln 2` at
that place are exceptional. -/
theorem C59_number_partial {p : Nat} (hp : 0 < p) (hp26 : p + 71 ≤ 2 ^ 26) {rm : RM}
    (hs : rm = .none ∨ (rm = .up ∨ rm = .down ∨ rm = .toZero ∨ rm = .fromZero) ∧ ¬ NearGrid (precBits p) 63 (Real.log 2))
    {c : ConstCache (Num × Num × Num)} (hc : Ln2Hist c) : ∃ v c', constLn2 p rm c = some (.num v, c') := by
  have hP : precBits p ≤ p + 63 ∧ 64 ≤ precBits p := by unfold precBits; omega
  obtain ⟨r, c', h1, -, -, h4, -⟩ := constLn2_spec (p := p) ⟨hp, by omega⟩ rm hc.ok
  obtain ⟨v, rfl⟩ := h4 (by
    rcases hs with h | ⟨h, h'⟩
    · exact Or.inl h
    · exact Or.inr ⟨by rcases h with rfl | rfl | rfl | rfl <;> rfl, h'⟩) (by omega)
  exact ⟨v, c', h1⟩

/-- From `2^28` bits on the answer is NaN, whatever the mode and the cache. -/
theorem C59_overflow {p : Nat} (hp : ValidP p) (h28 : 2 ^ 28 ≤ p) (rm : RM) {c : ConstCache (Num × Num × Num)}
    (hc : Ln2Hist c) : ∃ c', constLn2 p rm c = some (.nan (some (.exponentOverflow .pos)), c') := by
  obtain ⟨r, c', h1, -, -, -, h5⟩ := constLn2_spec hp rm hc.ok
  rw [h5 (by unfold precBits; omega)] at h1
  exact ⟨c', h1⟩

/-- So the full claim fails: at a valid precision no number is returned. -/
theorem C59_refuted : ¬ ∀ (p : Nat) (rm : RM) (c : ConstCache (Num × Num × Num)), ValidP p → Ln2Hist c →
    ∃ v c', constLn2 p rm c = some (.num v, c') := by
  intro h
  have hp : ValidP (2 ^ 28) := ⟨by norm_num, by decide⟩
  obtain ⟨c, -, hc⟩ := C59_new
  obtain ⟨v, c', h1⟩ := h _ .up c hp hc
  obtain ⟨c'', h2⟩ := C59_overflow hp (le_refl _) .up hc
  rw [h1] at h2
  injection h2 with h2
  injection h2 with h2 _
  cases h2

/-! ## Concrete cases -/

set_option maxRecDepth 100000 in
/-- `ln 2` with 64 bits, rounded up, from a new cache, and once more from the cache left behind. -/
example : ∃ c v c' c'', Ln2Hist c ∧ ValidP 64 ∧ constLn2 64 .up c = some (.num v, c') ∧
    constLn2 64 .up c' = some (.num v, c'') ∧ v.m.m = [12786308645202655660] ∧ v.e = 0 := by
  obtain ⟨c, h1, hc⟩ := C59_new
  have hp : ValidP 64 := ⟨by norm_num, by decide⟩
  have h2 : (match ln2New with
    | .ok c => match constLn2 64 .up c with
      | some (.num v, c') => v.m.m == [12786308645202655660] && v.e == 0 && (constLn2 64 .up c').any fun r =>
          match r.1 with
          | .num _ => true
          | _ => false
      | _ => false
    | _ => false) = true := by decide +kernel
  rw [h1] at h2
  dsimp only at h2
  obtain ⟨r, c', h3, hc', h4⟩ := C59_outcomes_partial hp .up hc
  rw [h3] at h2
  rcases h4 with ⟨v, rfl, h5⟩ | rfl
  · obtain ⟨r', c'', h6, -, h7⟩ := C59_outcomes_partial hp .up hc'
    dsimp only at h2
    rw [h6] at h2
    rcases h7 with ⟨v', rfl, h8⟩ | rfl
    · simp at h2
      have : v' = v := C59_history_partial hp (Or.inl rfl) hc' hc h6 h3
      rw [this] at h6
      exact ⟨c, v, c', c'', hc, hp, h3, h6, h2.1, h2.2⟩
    · simp at h2
  · simp at h2

/-- A precision at which the answer is NaN, and one below the limit of `C59_number_partial`. -/
example : ValidP (2 ^ 28) ∧ 2 ^ 28 ≤ 2 ^ 28 ∧ 0 < 2 ^ 25 ∧ 2 ^ 25 + 71 ≤ 2 ^ 26 :=
  ⟨⟨by norm_num, by decide⟩, by norm_num, by norm_num, by norm_num⟩

end AF
