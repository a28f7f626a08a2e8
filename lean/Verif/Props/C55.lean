import Verif.Lemmas.PowLoop
import Verif.Lemmas.Samples
import Verif.Model.ExtDiv
/-!
# C55: `powi` is correctly rounded

The full claim: for finite `x`, an integer exponent `n ≥ 2`, a valid precision and every rounding mode, the
result is `x^n` correctly rounded.

It is false in the nearest modes (`C55_nearest_refuted`): the roundability check of `round_mantissa` looks at the
lowest words of the working result instead of those behind the rounding position, and accepts a result whose
correct bits do not decide the rounding. The relative error is within `2^-60` of the half unit
(`C55_nearest_partial`). In the directed modes the claim holds, with the exact inexact flag
(`C55_directed_partial`), for results in the normal range away from the overflow threshold and while all
intermediate sizes stay below `2^60` bits. Without the last condition the only other outcome is NaN with
`InvalidArgument` (`C55_outcomes_partial`). Missing: results below the normal range, and the two binades next to
the overflow threshold.
-/

namespace AF

/-- Every outcome of `powi` for exponents from two. -/
theorem C55_outcomes_partial (x : Num) (hx : x.WF) (n p : Nat) (hn : 2 ≤ n) (hnB : n < 2 ^ 64) (hp : ValidP p) (rm : RM)
    (hlo : (2 : ℚ) ^ (EMIN - 1) ≤ |(x.toK : ℚ) ^ n|) :
    (∃ v, (BF.num x).powi n p rm = .num v ∧ v.WF ∧ 64 * v.m.m.length = precBits p ∧
      (v.inexact = false → x.inexact = false ∧ (v.toK : ℚ) = x.toK ^ n)) ∨
    (∃ s, (BF.num x).powi n p rm = .inf s ∧ (2 : ℚ) ^ (EMAX - 2) ≤ |(x.toK : ℚ) ^ n| ∧
      (0 < (x.toK : ℚ) ^ n → s = .pos) ∧ ((x.toK : ℚ) ^ n < 0 → s = .neg)) ∨
    ((BF.num x).powi n p rm = .nan (some .invalidArgument) ∧
      (2 ^ 60 < 64 * x.m.m.length * n ∨ 2 ^ 60 < precBits p)) := by
  have hz : x.isZero = false := by
    rw [← Bool.not_eq_true, ← hx.toK_eq_zero (K := ℚ)]
    intro h
    rw [h, zero_pow (by omega), abs_zero] at hlo
    exact absurd hlo (not_le.2 (by positivity))
  have h := powiInternal_spec hx hz hn hnB hp (by rw [← abs_pow]; exact hlo) rm true
  show (∃ v, BF.resultToExt (x.powiInternal n p rm true) false true = _ ∧ _) ∨
    (∃ s, BF.resultToExt (x.powiInternal n p rm true) false true = _ ∧ _) ∨
    (BF.resultToExt (x.powiInternal n p rm true) false true = _ ∧ _)
  cases hr : x.powiInternal n p rm true with
  | ok v =>
    rw [hr] at h
    exact Or.inl ⟨v, rfl, h.wf, h.len, fun hi => by simpa using h.exact hi⟩
  | error e =>
    rw [hr] at h
    rcases h with ⟨s, rfl, h2, h3, h4⟩ | ⟨rfl, h2⟩
    · exact Or.inr (Or.inl ⟨s, by cases s <;> rfl, h2, h3, h4⟩)
    · exact Or.inr (Or.inr ⟨rfl, by omega⟩)

/-- In the range of C55 the result is a number, described by `PowOk`. -/
theorem powi_num {x : Num} (hx : x.WF) {n p : Nat} (hn : 2 ≤ n) (hnB : n < 2 ^ 64) (hp : ValidP p) (rm : RM)
    (hlo : (2 : ℚ) ^ (EMIN - 1) ≤ |(x.toK : ℚ) ^ n|) (hhi : |(x.toK : ℚ) ^ n| < 2 ^ (EMAX - 2))
    (hsz : 64 * x.m.m.length * n ≤ 2 ^ 60) (hpz : precBits p ≤ 2 ^ 60) :
    ∃ v, (BF.num x).powi n p rm = .num v ∧ PowOk rm (precBits p) ((x.toK : ℚ) ^ n) x.inexact v := by
  have hz : x.isZero = false := by
    rw [← Bool.not_eq_true, ← hx.toK_eq_zero (K := ℚ)]
    intro h
    rw [h, zero_pow (by omega), abs_zero] at hlo
    exact absurd hlo (not_le.2 (by positivity))
  have h := powiInternal_spec hx hz hn hnB hp (by rw [← abs_pow]; exact hlo) rm true
  show ∃ v, BF.resultToExt (x.powiInternal n p rm true) false true = _ ∧ _
  cases hr : x.powiInternal n p rm true with
  | ok v =>
    rw [hr] at h
    exact ⟨v, rfl, h⟩
  | error e =>
    rw [hr] at h
    rcases h with ⟨s, rfl, h2, h3, h4⟩ | ⟨rfl, h2⟩
    · exact absurd h2 (not_le.2 hhi)
    · exact absurd ⟨hsz, hpz⟩ h2

/-- In the directed modes `powi` is correctly rounded. -/
theorem C55_directed_partial (x : Num) (hx : x.WF) (n p : Nat) (hn : 2 ≤ n) (hnB : n < 2 ^ 64) (hp : ValidP p) (rm : RM)
    (hrm : rm = .up ∨ rm = .down ∨ rm = .toZero ∨ rm = .fromZero)
    (hlo : (2 : ℚ) ^ (EMIN - 1) ≤ |(x.toK : ℚ) ^ n|) (hhi : |(x.toK : ℚ) ^ n| < 2 ^ (EMAX - 2))
    (hsz : 64 * x.m.m.length * n ≤ 2 ^ 60) (hpz : precBits p ≤ 2 ^ 60) :
    ∃ v, (BF.num x).powi n p rm = .num v ∧ v.WF ∧ 64 * v.m.m.length = precBits p ∧
      (0 < (x.toK : ℚ) ^ n → v.s = .pos) ∧ ((x.toK : ℚ) ^ n < 0 → v.s = .neg) ∧
      RoundsFmt rm (precBits p) ((x.toK : ℚ) ^ n) v.toK ∧
      (v.inexact = true ↔ x.inexact = true ∨ (v.toK : ℚ) ≠ x.toK ^ n) := by
  obtain ⟨v, h1, h⟩ := powi_num hx hn hnB hp rm hlo hhi hsz hpz
  have hd : rm.directed = true := by rcases hrm with h | h | h | h <;> rw [h] <;> rfl
  refine ⟨v, h1, h.wf, h.len, h.pos, h.neg, h.directed hd, h.flag hd, fun hh => ?_⟩
  cases hv : v.inexact with
  | true => rfl
  | false =>
    obtain ⟨a, b⟩ := h.exact hv
    rcases hh with hh | hh
    · rw [a] at hh; cases hh
    · exact absurd b hh

/-- In the nearest modes the error is within a factor `1 + 2^-60` of that of a correctly rounded result. -/
theorem C55_nearest_partial (x : Num) (hx : x.WF) (n p : Nat) (hn : 2 ≤ n) (hnB : n < 2 ^ 64) (hp : ValidP p) (rm : RM)
    (hrm : rm = .toEven ∨ rm = .toOdd)
    (hlo : (2 : ℚ) ^ (EMIN - 1) ≤ |(x.toK : ℚ) ^ n|) (hhi : |(x.toK : ℚ) ^ n| < 2 ^ (EMAX - 2))
    (hsz : 64 * x.m.m.length * n ≤ 2 ^ 60) (hpz : precBits p ≤ 2 ^ 60) :
    ∃ v, (BF.num x).powi n p rm = .num v ∧ v.WF ∧ 64 * v.m.m.length = precBits p ∧
      |v.toK - (x.toK : ℚ) ^ n| ≤ |(x.toK : ℚ) ^ n| * (2 ^ (-(precBits p : ℤ)) * (1 + 2 ^ (-60 : ℤ))) := by
  obtain ⟨v, h1, h⟩ := powi_num hx hn hnB hp rm hlo hhi hsz hpz
  have hd : rm.nearest = true := by rcases hrm with h | h <;> rw [h] <;> rfl
  exact ⟨v, h1, h.wf, h.len, h.nearest hd⟩

/-- In mode `None` the result is within one unit: it falls short of `x^n` by less than `2^(1-P)`, and exceeds
it by at most `2^(-P-64)`, relatively. -/
theorem C55_none_partial (x : Num) (hx : x.WF) (n p : Nat) (hn : 2 ≤ n) (hnB : n < 2 ^ 64) (hp : ValidP p)
    (hlo : (2 : ℚ) ^ (EMIN - 1) ≤ |(x.toK : ℚ) ^ n|) (hhi : |(x.toK : ℚ) ^ n| < 2 ^ (EMAX - 2))
    (hsz : 64 * x.m.m.length * n ≤ 2 ^ 60) (hpz : precBits p ≤ 2 ^ 60) :
    ∃ v, (BF.num x).powi n p .none = .num v ∧ v.WF ∧ 64 * v.m.m.length = precBits p ∧
      |(x.toK : ℚ) ^ n| * (1 - 2 ^ (1 - (precBits p : ℤ))) ≤ |v.toK| ∧
      |v.toK| ≤ |(x.toK : ℚ) ^ n| * (1 + 2 ^ (-(precBits p : ℤ) - 64)) ∧ 0 ≤ (x.toK : ℚ) ^ n * v.toK := by
  obtain ⟨v, h1, h⟩ := powi_num hx hn hnB hp .none hlo hhi hsz hpz
  exact ⟨v, h1, h.wf, h.len, h.none rfl⟩

/-- The base of the counterexample: eight words, just below one. -/
def exPow : Num := Num.mk 0 .pos ⟨[14871743169681744684, 2574915945493403321, 746805015405078626,
  17809683713383489082, 8963783824838420066, 16938433693753131896, 15308084094301570617,
  18409619992613349129], 512⟩ false

/-- The value computed for its cube with 576 bits. -/
def exPowR : Num := Num.mk 0 .pos ⟨[10767932957477597015, 10424636144970697170, 1212693938748983112,
  4771921256310364732, 2293266060695217875, 6874339378203964178, 13551428880506177968,
  6795329577553177978, 18335595816754374831], 576⟩ true

theorem exPow_WF : exPow.WF := Num.WF_of_check (by decide +kernel)

/-- A ratio of naturals below one, from its numerator. -/
theorem unit_val (m : List Nat) (n : Nat) (b : Bool) (k : Nat) (hk : 64 * m.length = k) :
    (Num.toK (Num.mk 0 .pos ⟨m, n⟩ b) : ℚ) = (val m : ℚ) / 2 ^ k := by
  unfold Num.toK
  dsimp only
  rw [hk, show Sign.toK (K := ℚ) .pos = 1 from rfl, one_mul, zero_sub, zpow_neg, zpow_natCast]
  rfl

/-- A value `Y / 2^(P+k+1)` in `[1/2, 1)` which lies more than half a unit `2^-P` below `R / 2^P`. -/
theorem not_nearest {rm : RM} (hrm : rm = .toEven ∨ rm = .toOdd) {P k Y R : ℕ} (n1 : 2 ^ (P + k) ≤ Y)
    (n2 : Y < 2 ^ (P + k + 1)) (n3 : Y + 2 ^ k < R * 2 ^ (k + 1)) :
    ¬ RoundsFmt rm P ((Y : ℚ) / 2 ^ (P + k + 1)) ((R : ℚ) / 2 ^ P) := by
  have q1 : (2 : ℚ) ^ P * 2 ^ k ≤ (Y : ℚ) := by rw [← pow_add]; exact_mod_cast n1
  have q2 : (Y : ℚ) < 2 * (2 ^ P * 2 ^ k) := by rw [← pow_add, ← pow_succ']; exact_mod_cast n2
  have q3 : (Y : ℚ) + 2 ^ k < R * (2 * 2 ^ k) := by rw [← pow_succ']; exact_mod_cast n3
  have e1 : (2 : ℚ) ^ (P + k + 1) = 2 * (2 ^ P * 2 ^ k) := by rw [pow_succ', pow_add]
  have e2 : (2 : ℚ) ^ ((0 : ℤ) - (P : ℤ)) = ((2 : ℚ) ^ P)⁻¹ := by rw [zero_sub, zpow_neg, zpow_natCast]
  have ha : (0 : ℚ) < 2 ^ P := by positivity
  have hb : (0 : ℚ) < 2 ^ k := by positivity
  have hEM : EMIN ≤ 0 := by decide
  rw [e1]
  unfold RoundsFmt
  generalize (2 : ℚ) ^ P = a at *
  generalize (2 : ℚ) ^ k = b at *
  have hab : 0 < a * b := mul_pos ha hb
  have hY : (0 : ℚ) < Y / (2 * (a * b)) := by
    have : (0 : ℚ) < Y := by linarith
    positivity
  have g1 : (2 : ℚ) ^ (-1 : ℤ) ≤ (Y : ℚ) / (2 * (a * b)) := by
    rw [le_div_iff₀ (by positivity), zpow_neg_one]; linarith
  have g2 : (Y : ℚ) / (2 * (a * b)) < 2 ^ (0 : ℤ) := by
    rw [div_lt_iff₀ (by positivity), zpow_zero, one_mul]; exact q2
  have g3 : a⁻¹ / 2 < (R : ℚ) / a - Y / (2 * (a * b)) := by
    have e3 : (R : ℚ) / a - Y / (2 * (a * b)) - a⁻¹ / 2 = (R * (2 * b) - Y - b) / (2 * (a * b)) := by field_simp
    have : 0 < (R * (2 * b) - Y - b) / (2 * (a * b)) := div_pos (by linarith) (by linarith)
    linarith
  rintro (⟨h, _⟩ | ⟨q, h3, h4, h5⟩)
  · exact absurd h hY.ne'
  · rw [abs_of_pos hY] at h3 h4
    have i1 := (zpow_lt_zpow_iff_right₀ (show (1 : ℚ) < 2 by norm_num)).1 (lt_of_le_of_lt h3 g2)
    have i2 := (zpow_lt_zpow_iff_right₀ (show (1 : ℚ) < 2 by norm_num)).1 (lt_of_le_of_lt g1 h4)
    have hq : q = 0 := by omega
    rw [hq, max_eq_left hEM, e2] at h5
    obtain ⟨j, _, h6⟩ := h5
    have h7 : |(Y : ℚ) / (2 * (a * b)) - (R : ℚ) / a| ≤ a⁻¹ / 2 := by
      rcases hrm with h | h <;> rw [h] at h6 <;> exact h6.1
    rw [abs_sub_comm] at h7
    have := le_abs_self ((R : ℚ) / a - Y / (2 * (a * b)))
    linarith

set_option exponentiation.threshold 2000 in
/-- Both nearest modes: in the cube of a 512-bit number below one, with 576 bits, the rounding bit is zero and
is followed by 127 ones; the result is rounded up. -/
theorem C55_nearest_refuted : ∃ (x v : Num), x.WF ∧ ∀ rm, rm = .toEven ∨ rm = .toOdd →
    (BF.num x).powi 3 576 rm = .num v ∧ ¬ RoundsFmt rm (precBits 576) ((x.toK : ℚ) ^ 3) v.toK := by
  refine ⟨exPow, exPowR, exPow_WF, fun rm hrm => ?_⟩
  refine ⟨?_, ?_⟩
  · rcases hrm with h | h <;> rw [h] <;> decide +kernel
  · have h1 : (exPow.toK : ℚ) = (val exPow.m.m : ℚ) / 2 ^ 512 := unit_val _ _ _ 512 (by decide)
    have h2 : (exPowR.toK : ℚ) = (val exPowR.m.m : ℚ) / 2 ^ 576 := unit_val _ _ _ 576 (by decide)
    have hy : ((exPow.toK : ℚ)) ^ 3 = ((val exPow.m.m ^ 3 : ℕ) : ℚ) / 2 ^ (576 + 959 + 1) := by
      rw [h1, div_pow, ← pow_mul, Nat.cast_pow]
    have n1 : 2 ^ (576 + 959) ≤ val exPow.m.m ^ 3 := by decide +kernel
    have n2 : val exPow.m.m ^ 3 < 2 ^ (576 + 959 + 1) := by decide +kernel
    have n3 : val exPow.m.m ^ 3 + 2 ^ 959 < val exPowR.m.m * 2 ^ (959 + 1) := by decide +kernel
    rw [hy, h2]
    generalize val exPow.m.m ^ 3 = Y at *
    exact not_nearest hrm n1 n2 n3

/-! ## A case meeting the hypotheses -/

theorem exB_cube : (2 : ℚ) ^ (EMIN - 1) ≤ |(exB.toK : ℚ) ^ 3| ∧ |(exB.toK : ℚ) ^ 3| < 2 ^ (EMAX - 2) := by
  have h : (2 : ℚ) ^ (-9 : ℤ) ≤ |(exB.toK : ℚ) ^ 3| ∧ |(exB.toK : ℚ) ^ 3| < 2 ^ (0 : ℤ) := by
    rw [exB_val]; norm_num [abs_of_neg]
  exact ⟨(zpow_le_zpow_right₀ (by norm_num) (by decide)).trans h.1,
    h.2.trans_le (zpow_le_zpow_right₀ (by norm_num) (by decide))⟩

example : ∃ v, (BF.num exB).powi 3 100 .up = .num v ∧ v.WF ∧ 64 * v.m.m.length = precBits 100 ∧
      (0 < (exB.toK : ℚ) ^ 3 → v.s = .pos) ∧ ((exB.toK : ℚ) ^ 3 < 0 → v.s = .neg) ∧
      RoundsFmt .up (precBits 100) ((exB.toK : ℚ) ^ 3) v.toK ∧
      (v.inexact = true ↔ exB.inexact = true ∨ (v.toK : ℚ) ≠ exB.toK ^ 3) :=
  C55_directed_partial exB exB_WF 3 100 (by norm_num) (by norm_num) ValidP_100 .up (Or.inl rfl) exB_cube.1 exB_cube.2
    (by decide) (by decide)

example : ∃ v, (BF.num exB).powi 3 100 .toEven = .num v ∧ v.WF ∧ 64 * v.m.m.length = precBits 100 ∧
      |v.toK - (exB.toK : ℚ) ^ 3| ≤ |(exB.toK : ℚ) ^ 3| * (2 ^ (-(precBits 100 : ℤ)) * (1 + 2 ^ (-60 : ℤ))) :=
  C55_nearest_partial exB exB_WF 3 100 (by norm_num) (by norm_num) ValidP_100 .toEven (Or.inl rfl) exB_cube.1 exB_cube.2
    (by decide) (by decide)

example : (BF.num exB).powi 3 100 .up = .num (Num.mk (-8) .neg ⟨[69, 9223372036854775817], 128⟩ true) := by
  decide +kernel

end AF
