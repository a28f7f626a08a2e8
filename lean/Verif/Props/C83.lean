import Verif.Props.C82
import Verif.Props.C49
import Verif.Lemmas.ConstNum
/-!
# C83: serde reads the number that the data holds and reads back what it has written

An unsigned integer, a finite `f32` and a finite normal `f64` of the data are read exactly, infinities and NaN survive
serialisation. False in the code:

* the visitor has no method for signed integers, hence a negative integer (`-5` in JSON) is an error
  (`C83_negative_refuted`);
* a subnormal `f64` is halved (`C83_subnormal_refuted`, as in C22);
* a number is written in decimal with too few digits to be read back (`C83_round_trip_refuted`, as in C49).

Text that is not a number is read as NaN, without an error (`C83_garbage_is_nan`).
-/

namespace AF

/-- `r` is the number `X`, exactly. -/
def ReadsAs (r : Except DeError BF) (X : ℚ) : Prop :=
  ∃ v, r = .ok (.num v) ∧ v.WF ∧ (v.toK : ℚ) = X ∧ v.inexact = false

theorem C83_unsigned (u : Nat) (hu : u < 2 ^ 64) (tp : List TenPow) :
    ReadsAs (BF.deserialize (.u64 u) tp).1 u := by
  rcases Nat.eq_zero_or_pos u with h0 | h0
  · subst h0
    refine ⟨Num.fromUsize 0, rfl, Num.WF_of_check (by decide), ?_, rfl⟩
    simp [Num.toK, Num.fromUsize, Mantissa.fromUsize, val]
  · have h := IsNat.fromUsize h0 (by rw [B_eq]; exact hu)
    refine ⟨Num.fromUsize u, rfl, h.wf, ?_, h.exact⟩
    have h1 := h.eq
    have h2 : (((Num.fromUsize u).toK : ℚ) : ℝ) = ((Num.fromUsize u).toK : ℝ) := by
      unfold Num.toK
      push_cast
      congr 2
      cases (Num.fromUsize u).s <;> simp [Sign.toK]
    rw [h1] at h2
    exact_mod_cast h2

/-- Missing from the full claim: the subnormal values of `f64` (false). -/
theorem C83_float_partial (tp : List TenPow) :
    (∀ u < 2 ^ 32, u / 2 ^ 23 % 2 ^ 8 ≠ 255 → ReadsAs (BF.deserialize (.f32 u) tp).1 (f32Val u)) ∧
    (∀ u < 2 ^ 64, u / 2 ^ 52 % 2 ^ 11 ≠ 2047 → (u / 2 ^ 52 % 2 ^ 11 ≠ 0 ∨ u % 2 ^ 63 = 0) →
      ReadsAs (BF.deserialize (.f64 u) tp).1 (f64Val u)) := by
  constructor
  · intro u hu hf
    obtain ⟨h1, h2, h3, h4⟩ := f32ToF64_spec hu hf
    obtain ⟨v, g1, g2, g3, g4⟩ := fromF64_finite _ h1 h2 h3 64 (by norm_num) (by norm_num)
    refine ⟨v, ?_, g2, by rw [g3, h4], g4⟩
    simp only [BF.deserialize, g1, BF.deResult]
  · intro u hu hf hn
    obtain ⟨v, g1, g2, g3, g4⟩ := fromF64_finite _ hu hf hn 64 (by norm_num) (by norm_num)
    refine ⟨v, ?_, g2, g3, g4⟩
    simp only [BF.deserialize, g1, BF.deResult]

/-- A floating-point value that is not finite is an error, as is everything that is not a number or a text. -/
theorem C83_rejects (tp : List TenPow) :
    (∀ u < 2 ^ 64, u / 2 ^ 52 % 2 ^ 11 = 2047 → ∃ e, (BF.deserialize (.f64 u) tp).1 = .error e) ∧
    BF.deserialize .other tp = (.error .invalidType, tp) := by
  refine ⟨fun u hu h => ?_, rfl⟩
  simp only [BF.deserialize]
  unfold Num.fromF64
  rw [if_neg (by unfold PMAX; norm_num)]
  dsimp only
  rw [if_neg (by omega)]
  by_cases h1 : u % 2 ^ 63 = 2047 * 2 ^ 52
  · rw [if_pos h1]; exact ⟨_, rfl⟩
  · rw [if_neg h1, if_pos (by omega)]; exact ⟨_, rfl⟩

/-- A text is read by `from_str`: it is an error exactly when the parser returns a NaN that carries an error. -/
theorem C83_text (s : List Char) (tp : List TenPow) :
    match (BF.parse s .dec USIZE_MAX .toEven tp).1 with
    | .nan (some e) => (BF.deserialize (.str s) tp).1 = .error (.custom e)
    | v => (BF.deserialize (.str s) tp).1 = .ok v := by
  unfold BF.deserialize BF.fromStr
  dsimp only
  cases (BF.parse s .dec USIZE_MAX .toEven tp).1 with
  | num v => rfl
  | inf s => rfl
  | nan e => cases e <;> rfl

/-- The infinities and NaN are read back. -/
theorem C83_special (tp : List TenPow) (s : Sign) (e : Option Err) :
    (∃ t tp', BF.serialize (.inf s) tp = (.ok t, tp') ∧ (BF.deserialize t tp').1 = .ok (.inf s)) ∧
    (∃ t tp', BF.serialize (.nan e) tp = (.ok t, tp') ∧ (BF.deserialize t tp').1 = .ok (.nan none)) := by
  constructor
  · cases s
    · exact ⟨_, _, rfl, by rfl⟩
    · exact ⟨_, _, rfl, by rfl⟩
  · exact ⟨_, _, rfl, by rfl⟩

/-- A signed integer is never read. Data formats hand negative integers over as signed ones. -/
theorem C83_negative_refuted (i : ℤ) (tp : List TenPow) : ¬ ReadsAs (BF.deserialize (.i64 i) tp).1 i := by
  rintro ⟨v, h, _⟩
  cases h

theorem C83_subnormal_refuted : ∃ u < 2 ^ 64, u / 2 ^ 52 % 2 ^ 11 ≠ 2047 ∧
    ¬ ReadsAs (BF.deserialize (.f64 u) []).1 (f64Val u) := by
  refine ⟨1, by norm_num, by norm_num, ?_⟩
  rintro ⟨v, h1, _, h3, _⟩
  obtain ⟨w, g1, _, _, g4, _⟩ := C22_subnormal_half 1 (by norm_num) (by norm_num) (by norm_num) 64 (by norm_num)
    (by norm_num)
  have hw : w = v := by
    simp only [BF.deserialize] at h1
    unfold BF.fromF64 at g1
    cases hx : Num.fromF64 64 1 with
    | error e => rw [hx] at h1; cases h1
    | ok z =>
      rw [hx] at h1 g1
      injection h1 with h1
      injection h1 with h1
      injection g1 with g1
      rw [← h1, ← g1]
  rw [← hw, g4] at h3
  have : f64Val 1 ≠ 0 := by
    unfold f64Val
    simp
  apply this
  linarith

/-- A number that has been written need not be read back, even in the most favourable reading: equality of values. -/
theorem C83_round_trip_refuted :
    ¬ ∀ x : Num, x.WF → ∃ t v, (BF.serialize (.num x) []).1 = .ok t ∧
      (BF.deserialize t []).1 = .ok (.num v) ∧ (v.toK : ℚ) = x.toK := by
  intro h
  obtain ⟨h1, h2, h3, h4, h5⟩ := C49_same_text_refuted
  obtain ⟨t, v, a1, a2, a3⟩ := h exDecA h1
  obtain ⟨t', v', b1, b2, b3⟩ := h exDecB h2
  have ha : (BF.serialize (.num exDecA) []).1 = .ok (.str "1.0000000000000000001e+3".toList) := by
    unfold BF.serialize
    generalize hg : (BF.num exDecA).format .dec .toEven [] = g at h4 ⊢
    obtain ⟨g1, g2⟩ := g
    dsimp only at h4
    subst h4
    rfl
  have hb : (BF.serialize (.num exDecB) []).1 = .ok (.str "1.0000000000000000001e+3".toList) := by
    unfold BF.serialize
    generalize hg : (BF.num exDecB).format .dec .toEven [] = g at h5 ⊢
    obtain ⟨g1, g2⟩ := g
    dsimp only at h5
    subst h5
    rfl
  rw [ha] at a1
  rw [hb] at b1
  injection a1 with a1
  injection b1 with b1
  rw [← a1] at a2
  rw [← b1, a2] at b2
  injection b2 with b2
  injection b2 with b2
  apply h3
  rw [← a3, ← b3, b2]

/-- The text `hello` is read as NaN, without an error. -/
theorem C83_garbage_is_nan (tp : List TenPow) : (BF.deserialize (.str "hello".toList) tp).1 = .ok (.nan none) := by
  rfl

/-- `3.5`, and the `f32` with the smallest positive value. -/
example : (0x400C000000000000 < 2 ^ 64) ∧ f64Val 0x400C000000000000 = 7 / 2 ∧
    (BF.deserialize (.f64 0x400C000000000000) []).1 = .ok (.num ⟨2, .pos, ⟨[7 * 2 ^ 61], 64⟩, false⟩) ∧
    (BF.deserialize (.f32 1) []).1 = .ok (.num ⟨-148, .pos, ⟨[2 ^ 63], 64⟩, false⟩) := by
  refine ⟨by norm_num, by unfold f64Val; norm_num, by decide +kernel, by decide +kernel⟩

end AF
