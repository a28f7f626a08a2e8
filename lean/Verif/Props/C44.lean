import Verif.Model.Pow
import Verif.Lemmas.Conv
import Verif.Props.C07
/-!
# C44: `powi` special cases

`x^0 = 1` for every finite `x` and every accepted precision; for an infinite `x` the code goes through
`from_u8(1, p)`, which rejects precisions below 8 bits, so the claim fails there
(`C44_inf_zero_refuted`). `x^1` is `x` rounded, infinities follow parity, NaN is passed on.
-/

namespace AF

/-- The number one with `precBits p` bits, exact. -/
def IsOne (p : Nat) (r : BF) : Prop :=
  ∃ v, r = .num v ∧ v.WF ∧ 64 * v.m.m.length = precBits p ∧ (v.toK : ℚ) = 1 ∧ v.inexact = false

theorem ValidP.lt' {p : Nat} (hp : ValidP p) : p < PMAX := by
  have := hp.lt; rw [PMAX_eq]; unfold precBits at this; omega

theorem ValidP.prec {p : Nat} (hp : ValidP p) : ValidP (precBits p) := by
  have h0 := hp.pos
  have h1 := hp.lt
  refine ⟨by unfold precBits; omega, ?_⟩
  have : precBits (precBits p) = precBits p := by unfold precBits; omega
  rw [this]; exact h1

theorem precBits_idem (p : Nat) : precBits (precBits p) = precBits p := by unfold precBits; omega

theorem fromU_one {p : Nat} (hp : ValidP p) (h8 : 8 ≤ p) : IsOne p (BF.fromU 8 1 p) := by
  obtain ⟨v, h1, h2, h3, h4, h5⟩ := fromU_spec (K := ℚ) (sz := 8) (u := 1) (p := p) (by norm_num)
    (by norm_num) (by norm_num) h8 hp.lt'
  exact ⟨v, by unfold BF.fromU; rw [h1]; rfl, h2, h3, by simpa using h4, h5⟩

theorem C44_zero_exponent (x : Num) (p : Nat) (hp : ValidP p) (rm : RM) : IsOne p ((BF.num x).powi 0 p rm) := by
  obtain ⟨v, h1, h2, h3, h4, h5⟩ := fromWord_spec (K := ℚ) (d := 1) (p := precBits p) (by decide)
    hp.prec.pos hp.prec.lt'
  refine ⟨v, ?_, h2, by rw [h3, precBits_idem], by simpa using h4, h5⟩
  show BF.resultToExt (x.powiInternal 0 p rm true) false true = _
  unfold Num.powiInternal
  rw [if_pos rfl, hp.roundP, h1]
  rfl

theorem C44_inf_zero_exponent_partial (s : Sign) (p : Nat) (hp : ValidP p) (h8 : 8 ≤ p) (rm : RM) :
    IsOne p ((BF.inf s).powi 0 p rm) := fromU_one hp h8

theorem C44_inf_zero_refuted : ¬ ∀ (s : Sign) (p : Nat), ValidP p → ∀ rm, IsOne p ((BF.inf s).powi 0 p rm) := by
  intro h
  obtain ⟨v, h1, _⟩ := h .pos 1 ⟨by norm_num, by decide⟩ .toEven
  have : (BF.inf .pos).powi 0 1 .toEven = .nan (some .invalidArgument) := by decide
  rw [this] at h1
  cases h1

/-- `x^1` is `x` rounded to the precision `p`, in mode `rm`, once; it overflows only when the rounded
value reaches `2^EMAX`. -/
theorem C44_one_exponent (x : Num) (hx : x.WF) (p : Nat) (hp : ValidP p) (rm : RM) :
    (∃ v, (BF.num x).powi 1 p rm = .num v ∧ v.WF ∧ 64 * v.m.m.length = precBits p ∧ v.s = x.s ∧
      RoundsFmt rm (precBits p) (x.toK : ℚ) v.toK) ∨
    ((BF.num x).powi 1 p rm = .inf x.s ∧
      ∃ t : ℚ, RoundsPrec rm (precBits p) (x.toK : ℚ) t ∧ (2 : ℚ) ^ EMAX ≤ |t|) := by
  have hkey : (BF.num x).powi 1 p rm = BF.resultToExt (x.setPrecision (precBits p) rm) false true := by
    show BF.resultToExt (x.powiInternal 1 p rm true) false true = _
    unfold Num.powiInternal
    rw [if_neg (by norm_num), if_pos (by simp), hp.roundP]
  have hk : setPrecBits rm (precBits p) = precBits p := by
    unfold setPrecBits; rw [precBits_idem]; simp
  have h := C07_set_precision_rounds x hx (precBits p) hp.prec.pos (by rw [← PMAX_eq]; exact hp.prec.lt') rm
  rw [hk, precBits_idem] at h
  rw [hkey]
  cases hr : x.setPrecision (precBits p) rm with
  | ok w =>
    rcases h with ⟨v, h1, h2⟩ | ⟨h1, _⟩
    · simp only [BF.setPrecision, hr, Except.ok.injEq, BF.num.injEq] at h1
      subst h1
      exact Or.inl ⟨w, rfl, h2⟩
    · simp [BF.setPrecision, hr] at h1
  | error er =>
    rcases h with ⟨v, h1, _⟩ | ⟨h1, h2⟩
    · simp [BF.setPrecision, hr] at h1
    · simp only [BF.setPrecision, hr, Except.error.injEq] at h1
      subst h1
      refine Or.inr ⟨?_, h2⟩
      cases hs : x.s <;> rfl

/-- A power of zero is zero, with the sign of the base. -/
theorem C44_zero_base (x : Num) (hx : x.WF) (h0 : (x.toK : ℚ) = 0) (n p : Nat) (hn : 0 < n) (hp : ValidP p)
    (rm : RM) : ∃ v, (BF.num x).powi n p rm = .num v ∧ v.WF ∧ 64 * v.m.m.length = precBits p ∧ v.s = x.s ∧
      (v.toK : ℚ) = 0 := by
  have hz : x.isZero = true := hx.toK_eq_zero.1 h0
  have : (BF.num x).powi n p rm = (BF.num x).powi 1 p rm := by
    show BF.resultToExt (x.powiInternal n p rm true) false true =
      BF.resultToExt (x.powiInternal 1 p rm true) false true
    unfold Num.powiInternal
    rw [if_neg (by omega), if_pos (by simp [hz]), if_neg (by norm_num), if_pos (by simp)]
  rw [this]
  rcases C44_one_exponent x hx p hp rm with ⟨v, h1, h2, h3, h4, h5⟩ | ⟨_, t, h1, h2⟩
  · refine ⟨v, h1, h2, h3, h4, ?_⟩
    rcases h5 with ⟨_, h⟩ | ⟨q, hq, _⟩
    · exact h
    · rw [h0, abs_zero] at hq
      exact absurd hq (not_le.2 (zpow_pos (by norm_num) _))
  · exfalso
    rw [h0] at h1
    have := h1.abs_le (precBits_pos hp.pos) (a := EMIN) (by rw [abs_zero]; positivity)
    have h6 : (2 : ℚ) ^ EMIN < 2 ^ EMAX := zpow_lt_zpow_right₀ (by norm_num) EMIN_lt_EMAX
    linarith

/-- Powers of infinities: `(+Inf)^n = +Inf`, `(-Inf)^n` has the sign `(-1)^n`. -/
theorem C44_inf (n p : Nat) (hn : 0 < n) (rm : RM) :
    (BF.inf .pos).powi n p rm = .inf .pos ∧
    (Even n → (BF.inf .neg).powi n p rm = .inf .pos) ∧ (Odd n → (BF.inf .neg).powi n p rm = .inf .neg) := by
  have h0 : n ≠ 0 := by omega
  refine ⟨?_, fun h => ?_, fun h => ?_⟩
  · simp [BF.powi, h0, Sign.isNeg, BF.INF_POS]
  · have : n % 2 = 0 := Nat.even_iff.1 h
    simp [BF.powi, h0, Sign.isNeg, BF.INF_POS, Nat.and_one_is_mod, this]
  · have : n % 2 = 1 := Nat.odd_iff.1 h
    simp [BF.powi, h0, Sign.isNeg, BF.INF_NEG, Nat.and_one_is_mod, this]

theorem C44_nan (e : Option Err) (n p : Nat) (rm : RM) : (BF.nan e).powi n p rm = .nan e := rfl

example : (BF.num exB).powi 1 64 .up = .num (Num.mk (-2) .neg ⟨[MSB + 3], 64⟩ true) := by decide

example : (∃ v, (BF.num exB).powi 1 64 .up = .num v ∧ v.WF ∧ 64 * v.m.m.length = precBits 64 ∧ v.s = exB.s ∧
      RoundsFmt .up (precBits 64) (exB.toK : ℚ) v.toK) ∨
    ((BF.num exB).powi 1 64 .up = .inf exB.s ∧
      ∃ t : ℚ, RoundsPrec .up (precBits 64) (exB.toK : ℚ) t ∧ (2 : ℚ) ^ EMAX ≤ |t|) :=
  C44_one_exponent exB exB_WF 64 ValidP_64 .up

example : IsOne 64 ((BF.num exB).powi 0 64 .up) := C44_zero_exponent exB 64 ValidP_64 .up

example : (BF.inf .neg).powi 7 64 .up = .inf .neg := (C44_inf 7 64 (by norm_num) .up).2.2 (by decide)

end AF
