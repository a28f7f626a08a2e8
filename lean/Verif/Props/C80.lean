import Verif.Lemmas.ExprTotal
import Verif.Lemmas.ExprEndless
import Verif.Lemmas.Samples
/-!
# C80: the macro `expr!` compensates the errors of an expression

The full claim (src/lib.rs 150-215): the arguments of an expression are exact; the macro compensates the errors of cancellation by
a larger working precision, which is limited by the range of exponents of the context. So for every expression with a value
that is not zero and lies in the range of the context the result has the precision of the context: its relative error is little
more than that of one rounding.

Refuted: a complete cancellation is not noticed, because the exponent of a zero is zero (`C80_cancel_refuted`); an argument
with more bits than the working precision is rounded and then taken for exact (`C80_argument_refuted`); no error is
accounted for in `%` (`C80_rem_refuted`); and for `(1/3)*3 - 1` the working precision is raised round after round, whatever the
range of exponents of the context (`C80_limit_refuted`).

Proved: for expressions of arguments, exact literals, `+`, `-`, `*`, `/`, unary `-`, `recip`, `sqrt` and `cbrt` with at
most 16 operations whose intermediate values are well inside the range of normal numbers, whose arguments have at most `p + 64` bits,
and in which no addition or subtraction cancels more than `p + 24` bits (`Tame`), the loop ends with a working precision of
at most `p + 64 + n (p + 26)` bits and the result has a relative error of at most `2^(1-p) + 2^(2n-62-p)` for `n` operations
and is an approximation with relative error `2^(2n-63-p)` rounded to `p` bits in the mode of the context (to whole words in mode `None`)
(`C80_accuracy_partial`). Without additions and subtractions the first round is the last (`C80_first_round`).

Missing: the functions that need the cache of constants; `%`; subnormal intermediate values.
-/

namespace AF

open MExpr in
/-- The value of a `Tame` expression is its value over the real numbers. -/
theorem C80_means {p : Nat} {emin emax : Int} {e : MExpr} {X : ℝ} {n : Nat} (h : e.Tame p emin emax X n) : e.Means X := by
  have key : e.Means X ∧ X ≠ 0 := by
    induction h with
    | var _ _ h _ _ => exact ⟨.var, h.ne⟩
    | lit _ _ h _ _ => exact ⟨.lit, h.ne⟩
    | neg _ ih => exact ⟨.neg ih.1, neg_ne_zero.2 ih.2⟩
    | add _ _ h _ iha ihb => exact ⟨.add iha.1 ihb.1, h.ne⟩
    | sub _ _ h _ iha ihb => exact ⟨.sub iha.1 ihb.1, h.ne⟩
    | mul _ _ h iha ihb => exact ⟨.mul iha.1 ihb.1, h.ne⟩
    | div _ _ h iha ihb => exact ⟨.div iha.1 ihb.1 ihb.2, h.ne⟩
    | recip _ h ih => exact ⟨.recip ih.1 ih.2, h.ne⟩
    | sqrt _ h0 h ih => exact ⟨.sqrt ih.1 h0.le, h.ne⟩
    | cbrt _ h0 h ih => exact ⟨.cbrt ih.1 h0, h.ne⟩
  exact key.1

/-- The macro ends, with a bound of the working precision, and its result has the precision of the context. -/
theorem C80_accuracy_partial {e : MExpr} {c : CtxView} {X : ℝ} {n : Nat} (hT : e.Tame c.precision c.emin c.emax X n) (hn : n ≤ 16)
    (hp : 2 ≤ c.precision) (hp' : c.precision ≤ 2 ^ 55) (hmin : EMIN ≤ c.emin) (hmax : c.emax ≤ EMAX)
    (hlo : (2 : ℝ) ^ (c.emin + 1) ≤ |X|) (hhi : |X| < 2 ^ (c.emax - 2)) {fuel : Nat} (hf : n * (c.precision + 26) < fuel) :
    ∃ u w, exprMacro e c fuel = some (.num u, w) ∧ w ≤ c.precision + 64 + n * (c.precision + 26) ∧ u.WF ∧
      64 * u.m.m.length = precBits c.precision ∧
      |(u.toK : ℝ) - X| ≤ (2 ^ (1 - (c.precision : ℤ)) + 2 ^ (2 * (n : ℤ) - 62 - c.precision)) * |X| ∧
      ∃ V : ℝ, |V - X| ≤ 2 ^ (2 * (n : ℤ) - 63 - c.precision) * |X| ∧
        RoundsPrec c.roundingMode (if c.roundingMode = .none then precBits c.precision else c.precision) V u.toK := by
  obtain ⟨r, w, h1, h2⟩ := loop_total (rm := c.roundingMode) hT hn hp' fuel e.init (init_length hT) (fun i _ => by simp)
    (fun i hi => le_trans (init_le i hi) (by omega)) (by omega)
  have hnp : n * (c.precision + 26) ≤ 16 * (c.precision + 26) := Nat.mul_le_mul_right _ hn
  obtain ⟨v, v1, -, v3, -, v5⟩ := exprMacro_value hT hn h1 (by norm_num at hp' ⊢; omega)
  obtain ⟨δ, hδ⟩ : ∃ δ : ℝ, δ = 2 ^ (2 * (n : ℤ) - 63 - c.precision) := ⟨_, rfl⟩
  have hδ0 : 0 < δ := by rw [hδ]; positivity
  have hδ1 : δ ≤ 1 / 16 := by
    rw [hδ]
    calc (2 : ℝ) ^ (2 * (n : ℤ) - 63 - c.precision) ≤ 2 ^ (-4 : ℤ) := zpow_le_zpow_right₀ (by norm_num) (by omega)
      _ = _ := by norm_num
  have hδ2 : (2 : ℝ) ^ (2 * (n : ℤ) - 62 - c.precision) = 2 * δ := by
    rw [hδ, ← zpow_one_add₀ (by norm_num)]; congr 1; ring
  rw [← hδ] at v3
  obtain ⟨a1, a2, -⟩ := abs_near v3 hδ1
  have hX0 : 0 < |X| := lt_of_lt_of_le (by positivity) hlo
  obtain ⟨u, u1, u2, u3, u4, u5⟩ := exprFinish_spec (p := c.precision) (by omega) (by rw [PMAX_eq]; norm_num at hp' ⊢; omega) c.roundingMode v1
    (emin := c.emin) (emax := c.emax) (by
      rw [zpow_add_one₀ (by norm_num)] at hlo
      have : (0 : ℝ) < 2 ^ c.emin := by positivity
      linarith) hmin (by
      have h4 : (2 : ℝ) ^ c.emax = 2 ^ (c.emax - 2) * 4 := by
        rw [show (4 : ℝ) = 2 ^ (2 : ℤ) by norm_num, ← zpow_add₀ (by norm_num)]; congr 1; ring
      rw [h4]; linarith) hmax hp
  refine ⟨u, w, ?_, h2, u2, ?_, ?_, v.toK, hδ ▸ v3, u5⟩
  · unfold exprMacro; rw [h1, v5, u1]
  · rw [u3]; rfl
  · have hq : (2 : ℝ) ^ (1 - (c.precision : ℤ)) ≤ 1 / 2 := by
      calc (2 : ℝ) ^ (1 - (c.precision : ℤ)) ≤ 2 ^ (-1 : ℤ) := zpow_le_zpow_right₀ (by norm_num) (by omega)
        _ = _ := by norm_num
    have hq0 : (0 : ℝ) < 2 ^ (1 - (c.precision : ℤ)) := by positivity
    rw [hδ2]
    generalize (2 : ℝ) ^ (1 - (c.precision : ℤ)) = q at *
    have h3 : |(v.toK : ℝ)| ≤ (1 + δ) * |X| := by
      have := abs_sub_abs_le_abs_sub (v.toK : ℝ) X
      linarith
    have h5 := mul_le_mul_of_nonneg_left h3 hq0.le
    have h6 : |(u.toK : ℝ) - X| ≤ |(u.toK : ℝ) - v.toK| + |(v.toK : ℝ) - X| := abs_sub_le _ _ _
    have h7 : q * δ ≤ δ := by nlinarith
    have h8 := mul_le_mul_of_nonneg_right h7 hX0.le
    have e1 : q * ((1 + δ) * |X|) = q * |X| + q * δ * |X| := by ring
    have e2 : (q + 2 * δ) * |X| = q * |X| + δ * |X| + δ * |X| := by ring
    linarith

/-- No addition and no subtraction. -/
def MExpr.noSum : MExpr → Bool
  | .var _ => true
  | .lit _ => true
  | .neg a => a.noSum
  | .add _ _ => false
  | .sub _ _ => false
  | .mul a b => a.noSum && b.noSum
  | .div a b => a.noSum && b.noSum
  | .rem a b => a.noSum && b.noSum
  | .recip a => a.noSum
  | .sqrt a => a.noSum
  | .cbrt a => a.noSum

/-- Without additions and subtractions there is one round. -/
theorem C80_first_round {e : MExpr} (h : e.noSum = true) (c : CtxView) (fuel : Nat) :
    ∃ r, exprMacro e c (fuel + 1) = some (r, min USIZE_MAX (c.precision + 64 + e.init.sum)) := by
  have key : ∀ {e : MExpr}, e.noSum = true → ∀ w emin emax errs k, ∃ r, e.eval w emin emax errs k = .ok r := by
    intro e
    induction e with
    | var x => intro _ w emin emax errs k; exact ⟨_, rfl⟩
    | lit x => intro _ w emin emax errs k; exact ⟨_, rfl⟩
    | neg a ih | recip a ih | sqrt a ih | cbrt a ih =>
      intro h w emin emax errs k
      obtain ⟨r, hr⟩ := ih h w emin emax errs k
      simp only [MExpr.eval, hr]
      exact ⟨_, rfl⟩
    | mul a b iha ihb | div a b iha ihb | rem a b iha ihb =>
      intro h w emin emax errs k
      simp only [MExpr.noSum, Bool.and_eq_true] at h
      obtain ⟨r, hr⟩ := iha h.1 w emin emax errs k
      obtain ⟨q, hq⟩ := ihb h.2 w emin emax errs (k + a.init.length)
      simp only [MExpr.eval, hr, hq]
      exact ⟨_, rfl⟩
    | add a b | sub a b => intro h; cases h
  obtain ⟨r, hr⟩ := key h (min USIZE_MAX (c.precision + 64 + e.init.sum)) c.emin c.emax e.init 0
  simp only [exprMacro, exprLoop, hr]
  exact ⟨_, rfl⟩

/-- The claim for one expression and one context: whenever the macro returns, a value that is not zero and lies in the range of
the context is returned with a relative error of at most two units of the last place. -/
def ExprAccurate (e : MExpr) (c : CtxView) : Prop :=
  ∀ X r w fuel, e.Means X → (2 : ℝ) ^ (c.emin + 1) ≤ |X| → |X| < 2 ^ (c.emax - 2) → exprMacro e c fuel = some (r, w) →
    ∃ u, r = .num u ∧ |(u.toK : ℝ) - X| ≤ 2 ^ (2 - (c.precision : ℤ)) * |X|

/-- `1 + 2^-100`, `1 + 2^-99`, `1 - 2^-100`, `1 + 2^-255`, `2^100 + 1`, `3`. -/
def exprX : Num := ⟨1, .pos, ⟨[134217728, MSB], 128⟩, false⟩
def exprZ : Num := ⟨1, .pos, ⟨[268435456, MSB], 128⟩, false⟩
def exprY : Num := ⟨0, .pos, ⟨[18446744073441116160, 18446744073709551615], 128⟩, false⟩
def exprLong : Num := ⟨1, .pos, ⟨[1, 0, 0, MSB], 256⟩, false⟩
def exprBig : Num := ⟨101, .pos, ⟨[134217728, MSB], 128⟩, false⟩
def exprThree : Num := ⟨2, .pos, ⟨[13835058055282163712], 64⟩, false⟩
def exprOne : Num := ⟨1, .pos, ⟨[MSB], 64⟩, false⟩

theorem exprX_toK : (exprX.toK : ℝ) = 1 + 2 ^ (-100 : ℤ) := by norm_num [Num.toK, Sign.toK, val, exprX, MSB, B]
theorem exprZ_toK : (exprZ.toK : ℝ) = 1 + 2 ^ (-99 : ℤ) := by norm_num [Num.toK, Sign.toK, val, exprZ, MSB, B]
theorem exprY_toK : (exprY.toK : ℝ) = 1 - 2 ^ (-100 : ℤ) := by norm_num [Num.toK, Sign.toK, val, exprY, MSB, B]
theorem exprLong_toK : (exprLong.toK : ℝ) = 1 + 2 ^ (-255 : ℤ) := by norm_num [Num.toK, Sign.toK, val, exprLong, MSB, B]
theorem exprBig_toK : (exprBig.toK : ℝ) = 2 ^ 100 + 1 := by norm_num [Num.toK, Sign.toK, val, exprBig, MSB, B]
theorem exprThree_toK : (exprThree.toK : ℝ) = 3 := by norm_num [Num.toK, Sign.toK, val, exprThree, MSB, B]
theorem exprOne_toK : (exprOne.toK : ℝ) = 1 := by norm_num [Num.toK, Sign.toK, val, exprOne, MSB, B]

/-- A result zero for a value that is not zero is not accurate. -/
theorem not_accurate {e : MExpr} {c : CtxView} {X : ℝ} {z : Num} {w fuel : Nat} (h1 : e.Means X) (h2 : (2 : ℝ) ^ (c.emin + 1) ≤ |X|)
    (h3 : |X| < 2 ^ (c.emax - 2)) (h4 : exprMacro e c fuel = some (.num z, w)) (h5 : (z.toK : ℝ) = 0) (hp : 3 ≤ c.precision) :
    ¬ ExprAccurate e c := by
  intro h
  obtain ⟨u, u1, u2⟩ := h X _ w fuel h1 h2 h3 h4
  injection u1 with u1
  rw [← u1, h5, zero_sub, abs_neg] at u2
  have h6 : (0 : ℝ) < |X| := lt_of_lt_of_le (by positivity) h2
  have h7 : (2 : ℝ) ^ (2 - (c.precision : ℤ)) ≤ 2 ^ (-1 : ℤ) := zpow_le_zpow_right₀ (by norm_num) (by omega)
  have h8 := mul_le_mul_of_nonneg_right h7 h6.le
  norm_num at h8
  linarith

/-- The context of the counterexamples: 64 bits, exponents from -1000 to 1000. -/
def exprCtx : CtxView := ⟨64, .toEven, -1000, 1000⟩

/-- `x * x - z` for `x = 1 + 2^-100` and `z = 1 + 2^-99` is `2^-200`; the macro returns zero. -/
theorem C80_cancel_refuted : ¬ ExprAccurate (.sub (.mul (.var (.num exprX)) (.var (.num exprX))) (.var (.num exprZ))) exprCtx := by
  have hv : (exprX.toK : ℝ) * exprX.toK - exprZ.toK = 2 ^ (-200 : ℤ) := by rw [exprX_toK, exprZ_toK]; norm_num
  refine not_accurate (X := 2 ^ (-200 : ℤ)) (z := ⟨0, .pos, ⟨[0], 0⟩, true⟩) (w := 133) (fuel := 1) ?_ ?_ ?_ (by decide +kernel) (by simp [Num.toK, val]) (by decide)
  · rw [← hv]; exact .sub (.mul .var .var) .var
  · rw [abs_of_pos (by positivity)]; exact zpow_le_zpow_right₀ (by norm_num) (by decide)
  · rw [abs_of_pos (by positivity)]; exact zpow_lt_zpow_right₀ (by norm_num) (by decide)

/-- `x - 1` for `x = 1 + 2^-255` is `2^-255`; the macro returns zero, marked as exact. -/
theorem C80_argument_refuted : ¬ ExprAccurate (.sub (.var (.num exprLong)) (.var (.num exprOne))) exprCtx ∧
    exprMacro (.sub (.var (.num exprLong)) (.var (.num exprOne))) exprCtx 1 = some (.num ⟨0, .pos, ⟨[0], 0⟩, false⟩, 130) := by
  have h0 : exprMacro (.sub (.var (.num exprLong)) (.var (.num exprOne))) exprCtx 1 = some (.num ⟨0, .pos, ⟨[0], 0⟩, false⟩, 130) := by decide +kernel
  have hv : (exprLong.toK : ℝ) - exprOne.toK = 2 ^ (-255 : ℤ) := by rw [exprLong_toK, exprOne_toK]; ring
  refine ⟨not_accurate (X := 2 ^ (-255 : ℤ)) ?_ ?_ ?_ h0 (by simp [Num.toK, val]) (by decide), h0⟩
  · rw [← hv]; exact .sub .var .var
  · rw [abs_of_pos (by positivity)]; exact zpow_le_zpow_right₀ (by norm_num) (by decide)
  · rw [abs_of_pos (by positivity)]; exact zpow_lt_zpow_right₀ (by norm_num) (by decide)

/-- `(x * x) % 3` for `x = 2^100 + 1` is one; the macro returns zero. -/
theorem C80_rem_refuted : ¬ ExprAccurate (.rem (.mul (.var (.num exprBig)) (.var (.num exprBig))) (.var (.num exprThree))) exprCtx := by
  refine not_accurate (X := 1) (z := ⟨0, .pos, ⟨[0], 0⟩, true⟩) (w := 131) (fuel := 1) ?_ ?_ ?_ (by decide +kernel) (by simp [Num.toK, val]) (by decide)
  · refine .rem (q := ((2 ^ 100 + 1) ^ 2 - 1) / 3) (.mul .var .var) .var ?_ ?_ ?_ ?_
    · rw [exprThree_toK]; norm_num
    · rw [exprThree_toK, exprBig_toK]; norm_num
    · rw [exprThree_toK]; norm_num
    · rw [exprBig_toK]; norm_num
  · rw [abs_one, ← zpow_zero (2 : ℝ)]; exact zpow_le_zpow_right₀ (by norm_num) (by decide)
  · rw [abs_one, ← zpow_zero (2 : ℝ)]; exact zpow_lt_zpow_right₀ (by norm_num) (by decide)

/-- For `(1/3)*3 - 1` the rounds do not end, though the working precision soon exceeds the range of exponents of the context: in
every context with exponents up to 2 at least, the macro has not returned after `f` rounds as long as `f (p + 134) + 2 <= 2^30`. The
value is zero. -/
theorem C80_limit_refuted : (MExpr.restart exprOne exprThree).Means 0 ∧
    ∀ (c : CtxView) (f : Nat), c.emin ≤ 1 → 2 ≤ c.emax → f * (c.precision + 134) + 2 ≤ 2 ^ 30 → exprMacro (MExpr.restart exprOne exprThree) c f = none := by
  have w1 : exprOne.WF := Num.WF_of_check (by decide +kernel)
  have w3 : exprThree.WF := Num.WF_of_check (by decide +kernel)
  constructor
  · have h : (0 : ℝ) = exprOne.toK / exprThree.toK * exprThree.toK - exprOne.toK := by rw [exprOne_toK, exprThree_toK]; norm_num
    rw [h]
    exact .sub (.mul (.div .var .var (by rw [exprThree_toK]; norm_num)) .var) .var
  · intro c f h1 h2 h3
    exact restart_loop w1 w3 exprOne_toK exprThree_toK (by show 64 * 1 ≤ c.precision + 64; omega) (by show 64 * 1 ≤ c.precision + 64; omega) h1 h2 f 2 h3

/-- In the context of the counterexamples the second round already has a working precision larger than all exponents would need,
and thousands of rounds follow. -/
example : exprMacro (MExpr.restart exprOne exprThree) exprCtx 5000000 = none :=
  C80_limit_refuted.2 exprCtx 5000000 (by decide) (by decide) (by decide)

/-- `(1 + 2^-100) * (1 - 2^-100) - 1 = -2^-200` at 192 bits: a cancellation that is compensated. -/
example : ∃ u w, exprMacro (.sub (.mul (.var (.num exprX)) (.var (.num exprY))) (.var (.num exprOne))) ⟨192, .up, -240, 240⟩ 437 = some (.num u, w) ∧
    w ≤ 692 ∧ |(u.toK : ℝ) - (-2 ^ (-200 : ℤ))| ≤ (2 ^ (-191 : ℤ) + 2 ^ (-250 : ℤ)) * |-(2 : ℝ) ^ (-200 : ℤ)| := by
  have wx : exprX.WF := Num.WF_of_check (by decide +kernel)
  have wy : exprY.WF := Num.WF_of_check (by decide +kernel)
  have w1 : exprOne.WF := Num.WF_of_check (by decide +kernel)
  have hm : (exprX.toK : ℝ) * exprY.toK = 1 - 2 ^ (-200 : ℤ) := by rw [exprX_toK, exprY_toK]; norm_num
  have hs : (exprX.toK : ℝ) * exprY.toK - exprOne.toK = -2 ^ (-200 : ℤ) := by rw [hm, exprOne_toK]; ring
  have ir : ∀ {S : ℝ}, (2 : ℝ) ^ (-250 : ℤ) ≤ |S| → |S| < 2 ^ (250 : ℤ) → InRange S :=
    fun h1 h2 => inRange_of (-250) 250 h1 h2 (by decide) (by decide)
  have hT : MExpr.Tame 192 (-240) 240 (.sub (.mul (.var (.num exprX)) (.var (.num exprY))) (.var (.num exprOne))) (exprX.toK * exprY.toK - exprOne.toK) (0 + 0 + 1 + 0 + 1) := by
    refine .sub (.mul (.var wx (by decide) (ir ?_ ?_) (by decide) (by decide)) (.var wy (by decide) (ir ?_ ?_) (by decide) (by decide)) (ir ?_ ?_))
      (.var w1 (by decide) (ir ?_ ?_) (by decide) (by decide)) (ir ?_ ?_) ?_
    · rw [exprX_toK]; norm_num [abs_of_pos]
    · rw [exprX_toK]; norm_num [abs_of_pos]
    · rw [exprY_toK]; norm_num [abs_of_pos]
    · rw [exprY_toK]; norm_num [abs_of_pos]
    · rw [hm]; norm_num [abs_of_pos]
    · rw [hm]; norm_num [abs_of_pos]
    · rw [exprOne_toK]; norm_num
    · rw [exprOne_toK]; norm_num
    · rw [hs, abs_neg]; norm_num [abs_of_pos]
    · rw [hs, abs_neg]; norm_num [abs_of_pos]
    · rw [hs, hm, exprOne_toK, abs_neg]; norm_num [abs_of_pos]
  obtain ⟨u, w, h1, h2, -, -, h5, -⟩ := C80_accuracy_partial (c := ⟨192, .up, -240, 240⟩) hT (by decide) (by decide) (by decide) (by decide) (by decide)
    (by rw [hs, abs_neg]; norm_num [abs_of_pos]) (by rw [hs, abs_neg]; norm_num [abs_of_pos]) (fuel := 437) (by decide)
  refine ⟨u, w, h1, h2, ?_⟩
  rw [hs] at h5
  norm_num at h5 ⊢
  exact h5

/-- `2^100 + 1` times itself over three: one round. -/
example : ∃ r, exprMacro (.div (.mul (.var (.num exprBig)) (.var (.num exprBig))) (.var (.num exprThree))) exprCtx 1 = some (r, 134) :=
  C80_first_round rfl exprCtx 0

end AF
