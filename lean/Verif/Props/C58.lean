import Verif.Lemmas.ConstE
import Verif.Lemmas.Ext
/-!
# C58: the constant e

The full claim: for every precision, every rounding mode and whatever was asked of the cache before, `Consts::e`
returns Euler's number correctly rounded, as a number marked inexact.

In the four directed modes the number returned is correctly rounded, and so does not depend on the history of the
cache (`C58_directed_partial`, `C58_history_partial`); the other modes are within the bounds of `ConstRounded`
(`C58_outcomes_partial`). The function always ends. It returns a number for precisions below `2^29` bits in mode
`None`, and in the directed modes unless the 63 bits of `e` after the first `P` are all equal
(`C58_number_partial`).

The claim is false for large precisions: from `2^32` bits on the answer is NaN with `ExponentOverflow`, in every
mode and for every cache (`C58_overflow`, `C58_refuted`), since the denominator `b!` of the series is larger than
any number.

Missing: correct rounding in the nearest modes.
-/

namespace AF

/-- The caches that exist after `ECache::new` and any number of calls with valid precisions. -/
inductive EHist : ConstCache (Num × Num) → Prop
  | new {c} : eNew = .ok c → EHist c
  | call {c c' p rm r} : EHist c → ValidP p → constE p rm c = some (r, c') → EHist c'

theorem constE_spec {p : Nat} (hp : ValidP p) (rm : RM) {c : ConstCache (Num × Num)} (hc : CacheOk ERep EValOk c) :
    ∃ r c', constE p rm c = some (r, c') ∧ CacheOk ERep EValOk c' ∧
      ((∃ v, r = .num v ∧ ConstRounded rm (precBits p) (Real.exp 1) v) ∨
        r = .nan (some (.exponentOverflow .pos))) ∧
      (rm = .none ∨ rm.directed = true ∧ ¬ NearGrid (precBits p) 63 (Real.exp 1) →
        2 * bFactor (precBits p + 64) ≤ 2 ^ 26 → ∃ v, r = .num v) ∧
      (2 ^ 27 ≤ bFactor (precBits p + 64) → r = .nan (some (.exponentOverflow .pos))) := by
  have hp0 := hp.pos
  have hp1 := hp.lt
  obtain ⟨pw, hpw⟩ : ∃ pw, precBits p = 64 * pw := ⟨(p + 63) / 64, rfl⟩
  have hpw0 : 0 < pw := by unfold precBits at hpw; omega
  have hr2 : roundP (precBits p) = precBits p := by rw [hpw]; unfold roundP USIZE_MAX; omega
  have hpm : 64 * pw < PMAX := by unfold PMAX; omega
  obtain ⟨r, c', h1, h2, h3, h4, h5⟩ := (e_loop hpw0 hpm rm).forPrec eSeries hc
    ⟨by norm_num, by rw [← hpw, hr2]; omega, by rw [← hpw, hr2]⟩
  rw [← hpw] at h1 h3 h4 h5
  rw [hr2] at h4 h5
  unfold constE eForPrec
  rw [hp.roundP, h1]
  refine ⟨constToBF r, c', rfl, h2, ?_, ?_, ?_⟩
  · rcases h3 with ⟨v, rfl, h6, h7⟩ | rfl
    · exact Or.inl ⟨v, rfl, h6.rounded (Real.exp_pos 1) h7⟩
    · exact Or.inr rfl
  · intro hs hb
    obtain ⟨v, rfl⟩ := h4 hs hb
    exact ⟨v, rfl⟩
  · intro hb
    rw [h5 hb]; rfl

theorem EHist.ok {c : ConstCache (Num × Num)} (h : EHist c) : CacheOk ERep EValOk c := by
  induction h with
  | new h =>
    obtain ⟨c', h1, h2⟩ := e_new
    rw [h] at h1
    injection h1 with h1
    rw [h1]; exact h2
  | call h hp hc ih =>
    obtain ⟨r, c', h1, h2, -⟩ := constE_spec hp _ ih
    rw [h1] at hc
    injection hc with hc
    injection hc with _ hc
    rw [← hc]; exact h2

/-- A cache can be made. -/
theorem C58_new : ∃ c, eNew = .ok c ∧ EHist c := by
  obtain ⟨c, h, _⟩ := e_new
  exact ⟨c, h, .new h⟩

/-- Every call ends, with Euler's number as described by `ConstRounded` or with NaN for an exponent overflow. -/
theorem C58_outcomes_partial {p : Nat} (hp : ValidP p) (rm : RM) {c : ConstCache (Num × Num)} (hc : EHist c) :
    ∃ r c', constE p rm c = some (r, c') ∧ EHist c' ∧
      ((∃ v, r = .num v ∧ ConstRounded rm (precBits p) (Real.exp 1) v) ∨
        r = .nan (some (.exponentOverflow .pos))) := by
  obtain ⟨r, c', h1, -, h3, -⟩ := constE_spec hp rm hc.ok
  exact ⟨r, c', h1, hc.call hp h1, h3⟩

/-- In the directed modes a number returned is Euler's number correctly rounded. -/
theorem C58_directed_partial {p : Nat} (hp : ValidP p) {rm : RM}
    (hd : rm = .up ∨ rm = .down ∨ rm = .toZero ∨ rm = .fromZero) {c c' : ConstCache (Num × Num)} (hc : EHist c)
    {v : Num} (h : constE p rm c = some (.num v, c')) :
    RoundsFmt rm (precBits p) (Real.exp 1) v.toK ∧ 64 * v.m.m.length = precBits p ∧ v.inexact = true := by
  obtain ⟨r, c'', h1, -, h3, -⟩ := constE_spec hp rm hc.ok
  rw [h1] at h
  injection h with h
  injection h with h _
  rcases h3 with ⟨v', rfl, h4⟩ | rfl
  · injection h with h
    rw [← h]
    exact ⟨h4.directed hd, h4.prec, h4.inexact⟩
  · cases h

/-- In the directed modes the number does not depend on what the cache was used for before. -/
theorem C58_history_partial {p : Nat} (hp : ValidP p) {rm : RM}
    (hd : rm = .up ∨ rm = .down ∨ rm = .toZero ∨ rm = .fromZero) {c₁ c₂ c₁' c₂' : ConstCache (Num × Num)}
    (hc₁ : EHist c₁) (hc₂ : EHist c₂) {v₁ v₂ : Num} (h₁ : constE p rm c₁ = some (.num v₁, c₁'))
    (h₂ : constE p rm c₂ = some (.num v₂, c₂')) : v₁ = v₂ := by
  have key : ∀ {c c' : ConstCache (Num × Num)} {v : Num}, EHist c → constE p rm c = some (.num v, c') →
      ConstRounded rm (precBits p) (Real.exp 1) v := by
    intro c c' v hc h
    obtain ⟨r, c'', h1, -, h3, -⟩ := constE_spec hp rm hc.ok
    rw [h1] at h
    injection h with h
    injection h with h _
    rcases h3 with ⟨v', rfl, h4⟩ | rfl
    · injection h with h
      rw [← h]; exact h4
    · cases h
  have hP : 64 ≤ precBits p := by have := hp.pos; unfold precBits; omega
  exact (key hc₁ h₁).unique hd hP (by have := Real.exp_one_gt_two; linarith) (key hc₂ h₂)

/-- Below `2^29` bits the answer is a number in mode `None`, and in the directed modes unless the digits of `e` at
that place are exceptional. -/
theorem C58_number_partial {p : Nat} (hp : 0 < p) (hp29 : p + 127 ≤ 2 ^ 29) {rm : RM}
    (hs : rm = .none ∨ (rm = .up ∨ rm = .down ∨ rm = .toZero ∨ rm = .fromZero) ∧ ¬ NearGrid (precBits p) 63 (Real.exp 1))
    {c : ConstCache (Num × Num)} (hc : EHist c) : ∃ v c', constE p rm c = some (.num v, c') := by
  have hP : precBits p ≤ p + 63 ∧ 64 ≤ precBits p := by unfold precBits; omega
  obtain ⟨r, c', h1, -, -, h4, -⟩ := constE_spec (p := p) ⟨hp, by omega⟩ rm hc.ok
  obtain ⟨v, rfl⟩ := h4 (by
    rcases hs with h | ⟨h, h'⟩
    · exact Or.inl h
    · exact Or.inr ⟨by rcases h with rfl | rfl | rfl | rfl <;> rfl, h'⟩) (bFactor_le (by omega) (by omega))
  exact ⟨v, c', h1⟩

/-- From `2^32` bits on the answer is NaN, whatever the mode and the cache. -/
theorem C58_overflow {p : Nat} (hp : ValidP p) (h32 : 2 ^ 32 ≤ p) (rm : RM) {c : ConstCache (Num × Num)}
    (hc : EHist c) : ∃ c', constE p rm c = some (.nan (some (.exponentOverflow .pos)), c') := by
  obtain ⟨r, c', h1, -, -, -, h5⟩ := constE_spec hp rm hc.ok
  rw [h5 (bFactor_ge (by unfold precBits; omega))] at h1
  exact ⟨c', h1⟩

/-- So the full claim fails: at a valid precision no number is returned. -/
theorem C58_refuted : ¬ ∀ (p : Nat) (rm : RM) (c : ConstCache (Num × Num)), ValidP p → EHist c →
    ∃ v c', constE p rm c = some (.num v, c') := by
  intro h
  have hp : ValidP (2 ^ 32) := ⟨by norm_num, by decide⟩
  obtain ⟨c, -, hc⟩ := C58_new
  obtain ⟨v, c', h1⟩ := h _ .up c hp hc
  obtain ⟨c'', h2⟩ := C58_overflow hp (le_refl _) .up hc
  rw [h1] at h2
  injection h2 with h2
  injection h2 with h2 _
  cases h2

/-! ## Concrete cases -/

set_option maxRecDepth 100000 in
/-- `e` with 64 bits, rounded up, from a new cache, and once more from the cache left behind. -/
example : ∃ c v c' c'', EHist c ∧ ValidP 64 ∧ constE 64 .up c = some (.num v, c') ∧
    constE 64 .up c' = some (.num v, c'') ∧ v.m.m = [12535862302449814171] ∧ v.e = 2 := by
  obtain ⟨c, h1, hc⟩ := C58_new
  have hp : ValidP 64 := ⟨by norm_num, by decide⟩
  have h2 : (match eNew with
    | .ok c => match constE 64 .up c with
      | some (.num v, c') => v.m.m == [12535862302449814171] && v.e == 2 && (constE 64 .up c').any fun r =>
          match r.1 with
          | .num _ => true
          | _ => false
      | _ => false
    | _ => false) = true := by decide +kernel
  rw [h1] at h2
  dsimp only at h2
  obtain ⟨r, c', h3, hc', h4⟩ := C58_outcomes_partial hp .up hc
  rw [h3] at h2
  rcases h4 with ⟨v, rfl, h5⟩ | rfl
  · obtain ⟨r', c'', h6, -, h7⟩ := C58_outcomes_partial hp .up hc'
    dsimp only at h2
    rw [h6] at h2
    rcases h7 with ⟨v', rfl, h8⟩ | rfl
    · simp at h2
      have : v' = v := C58_history_partial hp (Or.inl rfl) hc' hc h6 h3
      rw [this] at h6
      exact ⟨c, v, c', c'', hc, hp, h3, h6, h2.1, h2.2⟩
    · simp at h2
  · simp at h2

/-- A precision at which the answer is NaN, and one below the limit of `C58_number_partial`. -/
example : ValidP (2 ^ 32) ∧ 2 ^ 32 ≤ 2 ^ 32 ∧ 0 < 2 ^ 28 ∧ 2 ^ 28 + 127 ≤ 2 ^ 29 :=
  ⟨⟨by norm_num, by decide⟩, by norm_num, by norm_num, by norm_num⟩

end AF
