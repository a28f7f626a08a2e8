import Verif.Lemmas.PiMachin
import Verif.Lemmas.Ext
/-!
# C73: the constant pi

The full claim: for every precision, every rounding mode and whatever was asked of the cache before, `Consts::pi`
returns the number pi correctly rounded, as a number marked inexact.

The number is described relative to `chudPi`, the right-hand side of the formula of Chudnovsky and Chudnovsky that the
code sums (`SpecPi.lean`). In the four directed modes the number returned is `chudPi` correctly rounded, and so does not
depend on the history of the cache (`C73_directed_partial`, `C73_history_partial`); the other modes are within the
bounds of `ConstRounded` (`C73_outcomes_partial`). The function always ends. It returns a number for precisions up to
394000000 bits in mode `None`, and in the directed modes unless the 63 bits of the number after the first `P` are all
equal (`C73_number_partial`).

For precisions up to 4096 bits both numbers are known (`Lemmas/PiMachin.lean`), and the same is proved about pi itself: a
number is returned in every directed mode and it is pi correctly rounded (`C73_pi_partial`). Under the hypothesis that
the formula holds, so is every number returned at any precision (`C73_formula_partial`).

The claim is false for large precisions: from 900000000 bits on the answer is NaN with `ExponentOverflow`, in every
mode and for every cache (`C73_overflow`, `C73_refuted`), since the common denominator of the series is larger than
any number.

Missing: correct rounding in the nearest modes, and that `chudPi` is pi at all precisions (a theorem Mathlib does not have).
-/

namespace AF

/-- The caches that exist after `PiCache::new` and any number of calls with valid precisions. -/
inductive PiHist : ConstCache (Num × Num × Num × Nat) → Prop
  | new {c} : piNew = .ok c → PiHist c
  | call {c c' p rm r} : PiHist c → ValidP p → constPi p rm c = some (r, c') → PiHist c'

theorem constPi_spec {p : Nat} (hp : ValidP p) (rm : RM) {c : ConstCache (Num × Num × Num × Nat)} (hc : CacheOk PiRep PiValOk c) :
    ∃ r c', constPi p rm c = some (r, c') ∧ CacheOk PiRep PiValOk c' ∧
      ((∃ v, r = .num v ∧ ConstRounded rm (precBits p) chudPi v) ∨
        ∃ s, r = .nan (some (.exponentOverflow s))) ∧
      (rm = .none ∨ rm.directed = true ∧ ¬ NearGrid (precBits p) 63 chudPi →
        2 * ((precBits p + 46 + 64) / 47) ≤ 2 ^ 24 → ∃ v, r = .num v) ∧
      (9 * 2 ^ 21 ≤ (precBits p + 46 + 64) / 47 → ∃ s, r = .nan (some (.exponentOverflow s))) := by
  have hp0 := hp.pos
  have hp1 := hp.lt
  obtain ⟨pw, hpw⟩ : ∃ pw, precBits p = 64 * pw := ⟨(p + 63) / 64, rfl⟩
  have hpw0 : 0 < pw := by unfold precBits at hpw; omega
  have hr2 : roundP (precBits p) = precBits p := by rw [hpw]; unfold roundP USIZE_MAX; omega
  have hpm : 64 * pw < PMAX := by unfold PMAX; omega
  obtain ⟨r, c', h1, h2, h3, h4, h5⟩ := (pi_loop hpw0 hpm rm).forPrecS piSeries hc (by
      rw [← hpw, hr2, hpw]
      obtain ⟨j, hj⟩ := hc.pow
      rw [hj]
      exact pi_inv_start)
  rw [← hpw] at h1 h3 h4 h5
  unfold constPi piForPrec
  rw [hp.roundP, h1]
  refine ⟨constToBF r, c', rfl, h2, ?_, ?_, ?_⟩
  · rcases h3 with ⟨v, rfl, h6, h7⟩ | ⟨s, rfl⟩
    · exact Or.inl ⟨v, rfl, h6.rounded (by have := chudPi_small.1; linarith) h7⟩
    · exact Or.inr ⟨s, rfl⟩
  · intro hs hb
    obtain ⟨v, rfl⟩ := h4 hs hb
    exact ⟨v, rfl⟩
  · intro hb
    obtain ⟨s, rfl⟩ := h5 hb
    exact ⟨s, rfl⟩

theorem PiHist.ok {c : ConstCache (Num × Num × Num × Nat)} (h : PiHist c) : CacheOk PiRep PiValOk c := by
  induction h with
  | new h =>
    obtain ⟨c', h1, h2⟩ := pi_new
    rw [h] at h1
    injection h1 with h1
    rw [h1]; exact h2
  | call h hp hc ih =>
    obtain ⟨r, c', h1, h2, -⟩ := constPi_spec hp _ ih
    rw [h1] at hc
    injection hc with hc
    injection hc with _ hc
    rw [← hc]; exact h2

/-- A cache can be made. -/
theorem C73_new : ∃ c, piNew = .ok c ∧ PiHist c := by
  obtain ⟨c, h, _⟩ := pi_new
  exact ⟨c, h, .new h⟩

/-- Every call ends, with the number `chudPi` as described by `ConstRounded` or with NaN for an exponent overflow. -/
theorem C73_outcomes_partial {p : Nat} (hp : ValidP p) (rm : RM) {c : ConstCache (Num × Num × Num × Nat)} (hc : PiHist c) :
    ∃ r c', constPi p rm c = some (r, c') ∧ PiHist c' ∧
      ((∃ v, r = .num v ∧ ConstRounded rm (precBits p) chudPi v) ∨
        ∃ s, r = .nan (some (.exponentOverflow s))) := by
  obtain ⟨r, c', h1, -, h3, -⟩ := constPi_spec hp rm hc.ok
  exact ⟨r, c', h1, hc.call hp h1, h3⟩

/-- In the directed modes a number returned is the number `chudPi` correctly rounded. -/
theorem C73_directed_partial {p : Nat} (hp : ValidP p) {rm : RM}
    (hd : rm = .up ∨ rm = .down ∨ rm = .toZero ∨ rm = .fromZero) {c c' : ConstCache (Num × Num × Num × Nat)} (hc : PiHist c)
    {v : Num} (h : constPi p rm c = some (.num v, c')) :
    RoundsFmt rm (precBits p) chudPi v.toK ∧ 64 * v.m.m.length = precBits p ∧ v.inexact = true := by
  obtain ⟨r, c'', h1, -, h3, -⟩ := constPi_spec hp rm hc.ok
  rw [h1] at h
  injection h with h
  injection h with h _
  rcases h3 with ⟨v', rfl, h4⟩ | ⟨_, rfl⟩
  · injection h with h
    rw [← h]
    exact ⟨h4.directed hd, h4.prec, h4.inexact⟩
  · cases h

/-- In the directed modes the number does not depend on what the cache was used for before. -/
theorem C73_history_partial {p : Nat} (hp : ValidP p) {rm : RM}
    (hd : rm = .up ∨ rm = .down ∨ rm = .toZero ∨ rm = .fromZero) {c₁ c₂ c₁' c₂' : ConstCache (Num × Num × Num × Nat)}
    (hc₁ : PiHist c₁) (hc₂ : PiHist c₂) {v₁ v₂ : Num} (h₁ : constPi p rm c₁ = some (.num v₁, c₁'))
    (h₂ : constPi p rm c₂ = some (.num v₂, c₂')) : v₁ = v₂ := by
  have key : ∀ {c c' : ConstCache (Num × Num × Num × Nat)} {v : Num}, PiHist c → constPi p rm c = some (.num v, c') →
      ConstRounded rm (precBits p) chudPi v := by
    intro c c' v hc h
    obtain ⟨r, c'', h1, -, h3, -⟩ := constPi_spec hp rm hc.ok
    rw [h1] at h
    injection h with h
    injection h with h _
    rcases h3 with ⟨v', rfl, h4⟩ | ⟨_, rfl⟩
    · injection h with h
      rw [← h]; exact h4
    · cases h
  have hP : 64 ≤ precBits p := by have := hp.pos; unfold precBits; omega
  exact (key hc₁ h₁).unique hd hP (by have := chudPi_small.1; linarith) (key hc₂ h₂)

/-- Up to 394000000 bits the answer is a number in mode `None`, and in the directed modes unless the digits of the number at
that place are exceptional. -/
theorem C73_number_partial {p : Nat} (hp : 0 < p) (hp26 : p ≤ 394000000) {rm : RM}
    (hs : rm = .none ∨ (rm = .up ∨ rm = .down ∨ rm = .toZero ∨ rm = .fromZero) ∧ ¬ NearGrid (precBits p) 63 chudPi)
    {c : ConstCache (Num × Num × Num × Nat)} (hc : PiHist c) : ∃ v c', constPi p rm c = some (.num v, c') := by
  have hP : precBits p ≤ p + 63 ∧ 64 ≤ precBits p := by unfold precBits; omega
  obtain ⟨r, c', h1, -, -, h4, -⟩ := constPi_spec (p := p) ⟨hp, by omega⟩ rm hc.ok
  obtain ⟨v, rfl⟩ := h4 (by
    rcases hs with h | ⟨h, h'⟩
    · exact Or.inl h
    · exact Or.inr ⟨by rcases h with rfl | rfl | rfl | rfl <;> rfl, h'⟩) (by omega)
  exact ⟨v, c', h1⟩

/-- Up to 4096 bits, in the directed modes: a number is returned, and it is pi correctly rounded. -/
theorem C73_pi_partial {p : Nat} (hp : 0 < p) (hp12 : p ≤ 4096) {rm : RM}
    (hd : rm = .up ∨ rm = .down ∨ rm = .toZero ∨ rm = .fromZero) {c : ConstCache (Num × Num × Num × Nat)} (hc : PiHist c) :
    ∃ v c', constPi p rm c = some (.num v, c') ∧ PiHist c' ∧ RoundsFmt rm (precBits p) Real.pi v.toK ∧
      64 * v.m.m.length = precBits p ∧ v.inexact = true := by
  have hk : precBits p = 64 * ((p + 63) / 64) := rfl
  have hv : ValidP p := ⟨hp, by omega⟩
  obtain ⟨v, c', h⟩ := C73_number_partial hp (by omega) (rm := rm)
    (Or.inr ⟨hd, by rw [hk]; exact pi_not_near (by omega) (by omega)⟩) hc
  obtain ⟨h1, h2, h3⟩ := C73_directed_partial hv hd hc h
  refine ⟨v, c', h, hc.call hv h, ?_, h2, h3⟩
  rw [hk] at h1 ⊢
  exact rounds_pi hd (by omega) (by omega) h1

/-- If the formula of Chudnovsky and Chudnovsky holds, the numbers returned in the directed modes are pi correctly
rounded at every precision. -/
theorem C73_formula_partial (hf : chudPi = Real.pi) {p : Nat} (hp : ValidP p) {rm : RM}
    (hd : rm = .up ∨ rm = .down ∨ rm = .toZero ∨ rm = .fromZero) {c c' : ConstCache (Num × Num × Num × Nat)} (hc : PiHist c)
    {v : Num} (h : constPi p rm c = some (.num v, c')) : RoundsFmt rm (precBits p) Real.pi v.toK := by
  rw [← hf]
  exact (C73_directed_partial hp hd hc h).1

/-- From 900000000 bits on the answer is NaN, whatever the mode and the cache. -/
theorem C73_overflow {p : Nat} (hp : ValidP p) (h28 : 900000000 ≤ p) (rm : RM) {c : ConstCache (Num × Num × Num × Nat)}
    (hc : PiHist c) : ∃ s c', constPi p rm c = some (.nan (some (.exponentOverflow s)), c') := by
  obtain ⟨r, c', h1, -, -, -, h5⟩ := constPi_spec hp rm hc.ok
  obtain ⟨s, rfl⟩ := h5 (by unfold precBits; omega)
  exact ⟨s, c', h1⟩

/-- So the full claim fails: at a valid precision no number is returned. -/
theorem C73_refuted : ¬ ∀ (p : Nat) (rm : RM) (c : ConstCache (Num × Num × Num × Nat)), ValidP p → PiHist c →
    ∃ v c', constPi p rm c = some (.num v, c') := by
  intro h
  have hp : ValidP (2 ^ 30) := ⟨by norm_num, by decide⟩
  obtain ⟨c, -, hc⟩ := C73_new
  obtain ⟨v, c', h1⟩ := h _ .up c hp hc
  obtain ⟨s, c'', h2⟩ := C73_overflow hp (by norm_num) .up hc
  rw [h1] at h2
  injection h2 with h2
  injection h2 with h2 _
  cases h2

/-! ## Concrete cases -/

set_option maxRecDepth 100000 in
/-- pi with 64 bits, rounded up, from a new cache, and once more from the cache left behind. -/
example : ∃ c v c' c'', PiHist c ∧ ValidP 64 ∧ constPi 64 .up c = some (.num v, c') ∧
    constPi 64 .up c' = some (.num v, c'') ∧ v.m.m = [14488038916154245685] ∧ v.e = 2 := by
  obtain ⟨c, h1, hc⟩ := C73_new
  have hp : ValidP 64 := ⟨by norm_num, by decide⟩
  have h2 : (match piNew with
    | .ok c => match constPi 64 .up c with
      | some (.num v, c') => v.m.m == [14488038916154245685] && v.e == 2 && (constPi 64 .up c').any fun r =>
          match r.1 with
          | .num _ => true
          | _ => false
      | _ => false
    | _ => false) = true := by decide +kernel
  rw [h1] at h2
  dsimp only at h2
  obtain ⟨r, c', h3, hc', h4⟩ := C73_outcomes_partial hp .up hc
  rw [h3] at h2
  rcases h4 with ⟨v, rfl, h5⟩ | ⟨_, rfl⟩
  · obtain ⟨r', c'', h6, -, h7⟩ := C73_outcomes_partial hp .up hc'
    dsimp only at h2
    rw [h6] at h2
    rcases h7 with ⟨v', rfl, h8⟩ | ⟨_, rfl⟩
    · simp at h2
      have : v' = v := C73_history_partial hp (Or.inl rfl) hc' hc h6 h3
      rw [this] at h6
      exact ⟨c, v, c', c'', hc, hp, h3, h6, h2.1, h2.2⟩
    · simp at h2
  · simp at h2

/-- A precision at which the answer is NaN, and one below the limit of `C73_number_partial`. -/
example : ValidP (2 ^ 30) ∧ 900000000 ≤ 2 ^ 30 ∧ 0 < 2 ^ 28 ∧ 2 ^ 28 ≤ 394000000 :=
  ⟨⟨by norm_num, by decide⟩, by norm_num, by norm_num, by norm_num⟩

/-- A precision and a mode to which `C73_pi_partial` applies. -/
example : ∃ c v c', PiHist c ∧ constPi 1000 .down c = some (.num v, c') ∧ RoundsFmt .down 1024 Real.pi v.toK := by
  obtain ⟨c, -, hc⟩ := C73_new
  obtain ⟨v, c', h1, -, h2, -⟩ := C73_pi_partial (p := 1000) (by norm_num) (by norm_num) (Or.inr (Or.inl rfl)) hc
  exact ⟨c, v, c', hc, h1, h2⟩

end AF
