import Verif.Lemmas.ExprEval
/-!
# The loop of `expr!`
-/

namespace AF

theorem cancelled_lt {sub : Bool} {x y r : BF} {errs : List Nat} {id n : Nat} (h : MExpr.cancelled sub x y r errs id = some n) :
    errs.getD id 0 < n := by
  unfold MExpr.cancelled at h
  split at h
  · split at h
    · split at h
      · dsimp only at h
        split at h
        · simp only [Option.some.injEq] at h; omega
        · cases h
      · cases h
    · cases h
  · cases h

theorem set_above {errs : List Nat} {id n : Nat} (h : errs.getD id 0 < n) : ∀ i, errs.getD i 0 ≤ (errs.set id n).getD i 0 := by
  intro i
  simp only [List.getD_eq_getElem?_getD, List.getElem?_set] at h ⊢
  split
  · rename_i hi
    subst hi
    split
    · simp only [Option.getD_some]; omega
    · rename_i hl
      rw [List.getElem?_eq_none (by omega)]
  · exact le_rfl

theorem eval_error {w : Nat} {emin emax : Int} {errs s : List Nat} {e : MExpr} : ∀ {k : Nat}, e.eval w emin emax errs k = .error s →
    s.length = errs.length ∧ ∀ i, errs.getD i 0 ≤ s.getD i 0 := by
  induction e with
  | var x => intro k h; simp [MExpr.eval] at h
  | lit x => intro k h; simp [MExpr.eval] at h
  | neg a ih =>
    intro k h
    simp only [MExpr.eval] at h
    split at h
    · rename_i s' ha; simp only [Except.error.injEq] at h; exact ih (h ▸ ha)
    · cases h
  | recip a ih =>
    intro k h
    simp only [MExpr.eval] at h
    split at h
    · rename_i s' ha; simp only [Except.error.injEq] at h; exact ih (h ▸ ha)
    · cases h
  | sqrt a ih =>
    intro k h
    simp only [MExpr.eval] at h
    split at h
    · rename_i s' ha; simp only [Except.error.injEq] at h; exact ih (h ▸ ha)
    · cases h
  | cbrt a ih =>
    intro k h
    simp only [MExpr.eval] at h
    split at h
    · rename_i s' ha; simp only [Except.error.injEq] at h; exact ih (h ▸ ha)
    · cases h
  | mul a b iha ihb =>
    intro k h
    simp only [MExpr.eval] at h
    split at h
    · rename_i s' ha; simp only [Except.error.injEq] at h; exact iha (h ▸ ha)
    · split at h
      · rename_i s' hb; simp only [Except.error.injEq] at h; exact ihb (h ▸ hb)
      · cases h
  | div a b iha ihb =>
    intro k h
    simp only [MExpr.eval] at h
    split at h
    · rename_i s' ha; simp only [Except.error.injEq] at h; exact iha (h ▸ ha)
    · split at h
      · rename_i s' hb; simp only [Except.error.injEq] at h; exact ihb (h ▸ hb)
      · cases h
  | rem a b iha ihb =>
    intro k h
    simp only [MExpr.eval] at h
    split at h
    · rename_i s' ha; simp only [Except.error.injEq] at h; exact iha (h ▸ ha)
    · split at h
      · rename_i s' hb; simp only [Except.error.injEq] at h; exact ihb (h ▸ hb)
      · cases h
  | add a b iha ihb =>
    intro k h
    simp only [MExpr.eval] at h
    split at h
    · rename_i s' ha; simp only [Except.error.injEq] at h; exact iha (h ▸ ha)
    · split at h
      · rename_i s' hb; simp only [Except.error.injEq] at h; exact ihb (h ▸ hb)
      · split at h
        · rename_i n hn
          simp only [Except.error.injEq] at h
          rw [← h]
          exact ⟨by simp, set_above (cancelled_lt hn)⟩
        · cases h
  | sub a b iha ihb =>
    intro k h
    simp only [MExpr.eval] at h
    split at h
    · rename_i s' ha; simp only [Except.error.injEq] at h; exact iha (h ▸ ha)
    · split at h
      · rename_i s' hb; simp only [Except.error.injEq] at h; exact ihb (h ▸ hb)
      · split at h
        · rename_i n hn
          simp only [Except.error.injEq] at h
          rw [← h]
          exact ⟨by simp, set_above (cancelled_lt hn)⟩
        · cases h

/-- What the loop returns comes from a round with entries of `errs` at least the initial ones. -/
theorem loop_round {e : MExpr} {p : Nat} {rm : RM} {emin emax : Int} : ∀ {f : Nat} {errs : List Nat} {r : BF} {w : Nat},
    errs.length = e.init.length → Above e errs 0 → exprLoop e p rm emin emax f errs = some (r, w) →
    ∃ errs' r', errs'.length = e.init.length ∧ Above e errs' 0 ∧ w = min USIZE_MAX (p + 64 + errs'.sum) ∧
      e.eval w emin emax errs' 0 = .ok r' ∧ r = exprFinish p rm emin emax r' := by
  intro f
  induction f with
  | zero => intro errs r w _ _ h; simp [exprLoop] at h
  | succ f ih =>
    intro errs r w hl ha h
    simp only [exprLoop] at h
    split at h
    · rename_i s hs
      obtain ⟨h1, h2⟩ := eval_error hs
      exact ih (h1.trans hl) (fun i hi => le_trans (ha i hi) (h2 _)) h
    · rename_i r' hr
      simp only [Option.some.injEq, Prod.mk.injEq] at h
      obtain ⟨h3, h4⟩ := h
      exact ⟨errs, r', hl, ha, h4.symm, h4 ▸ hr, h3.symm⟩

/-- The value before the last rounding. -/
theorem exprMacro_value {e : MExpr} {c : CtxView} {X : ℝ} {n fuel : Nat} {r : BF} {w : Nat}
    (hT : e.Tame c.precision c.emin c.emax X n) (hn : n ≤ 16) (h : exprMacro e c fuel = some (r, w)) (hw : w ≤ 2 ^ 60) :
    ∃ v : Num, v.WF ∧ InRange X ∧ |(v.toK : ℝ) - X| ≤ 2 ^ (2 * (n : ℤ) - 63 - c.precision) * |X| ∧ c.precision ≤ w ∧
      r = exprFinish c.precision c.roundingMode c.emin c.emax (.num v) := by
  obtain ⟨errs, r', h1, h2, h3, h4, h5⟩ := loop_round rfl (fun i _ => by simp) h
  have hU : (2 : ℕ) ^ 60 < USIZE_MAX := by decide
  have hw' : w = c.precision + 64 + errs.sum := by omega
  have hV : ValidP w := by
    refine ⟨by omega, ?_⟩
    unfold precBits
    norm_num at hw ⊢
    omega
  have hsum : segSum errs 0 e.init.length = errs.sum := by
    unfold segSum; rw [List.drop_zero, ← h1, List.take_length]
  have hPw : (w : ℤ) ≤ (precBits w : ℤ) := by unfold precBits; omega
  have hle : (2 : ℝ) ^ (segSum errs 0 e.init.length + 2 * n) * 2 ^ (1 - (precBits w : ℤ)) ≤ 2 ^ (2 * (n : ℤ) - 63 - c.precision) := by
    rw [hsum, ← zpow_natCast, ← zpow_add₀ (by norm_num)]
    refine zpow_le_zpow_right₀ (by norm_num) ?_
    rw [hw'] at hPw ⊢
    push_cast at hPw ⊢
    linarith
  obtain ⟨v, v1, v2⟩ := eval_spec hV (by omega) hT h2 (le_trans hle (zpow_le_zpow_right₀ (by norm_num) (by omega))) h4
  refine ⟨v, v2.wf, v2.rng, le_trans v2.near (mul_le_mul_of_nonneg_right hle (abs_nonneg _)), by omega, by rw [h5, v1]⟩

theorem rounds_abs {rm : RM} {x u r : ℝ} (h : Rounds rm x u r) (hu : 0 < u) : |r - x| ≤ u := by
  obtain ⟨k, -, h⟩ := h
  have hz : ∀ {A B : ℝ}, |A| ≤ |B| → |B| < |A| + u → 0 ≤ A * B → |A - B| ≤ u := by
    intro A B h1 h2 h3
    rcases le_total 0 B with hB | hB
    · rcases le_or_gt 0 A with hA | hA
      · rw [abs_of_nonneg hA, abs_of_nonneg hB] at h1 h2
        rw [abs_le]; constructor <;> linarith
      · have hB0 : B = 0 := by
          by_contra hb
          have : 0 < B := lt_of_le_of_ne hB (Ne.symm hb)
          nlinarith
        rw [hB0, abs_zero] at h1
        have := abs_nonpos_iff.1 h1
        linarith
    · rcases le_or_gt A 0 with hA | hA
      · rw [abs_of_nonpos hA, abs_of_nonpos hB] at h1 h2
        rw [abs_le]; constructor <;> linarith
      · have hB0 : B = 0 := by
          by_contra hb
          have : B < 0 := lt_of_le_of_ne hB hb
          nlinarith
        rw [hB0, abs_zero] at h1
        have := abs_nonpos_iff.1 h1
        linarith
  cases rm with
  | none => exact hz h.1 h.2.1 (by linarith [h.2.2, mul_comm x r])
  | toZero => exact hz h.1 h.2.1 (by linarith [h.2.2, mul_comm x r])
  | fromZero => rw [abs_sub_comm]; exact hz h.1 h.2.1 h.2.2
  | up => rw [abs_le]; constructor <;> linarith [h.1, h.2]
  | down => rw [abs_le]; constructor <;> linarith [h.1, h.2]
  | toEven => rw [abs_sub_comm]; linarith [h.1]
  | toOdd => rw [abs_sub_comm]; linarith [h.1]

/-- The last rounding. -/
theorem exprFinish_spec {p : Nat} (hp : 0 < p) (hpm : p < PMAX) (rm : RM) {emin emax : Int} {v : Num} (hv : v.WF)
    (hlo : (2 : ℝ) ^ emin ≤ |(v.toK : ℝ)|) (hmin : EMIN ≤ emin) (hhi : 2 * |(v.toK : ℝ)| < 2 ^ emax) (hmax : emax ≤ EMAX) (hp2 : 2 ≤ p) :
    ∃ u, exprFinish p rm emin emax (.num v) = .num u ∧ u.WF ∧ u.m.m.length = wordLen p ∧ |(u.toK : ℝ) - v.toK| ≤ 2 ^ (1 - (p : ℤ)) * |(v.toK : ℝ)| ∧
      RoundsPrec rm (keptBits rm p) (v.toK : ℝ) u.toK := by
  have hz : v.isZero = false := by
    rw [← Bool.not_eq_true]
    intro hz
    rw [hv.toK_eq_zero.2 hz, abs_zero] at hlo
    have : (0 : ℝ) < 2 ^ emin := by positivity
    linarith
  have hv0 : 0 < |(v.toK : ℝ)| := lt_of_lt_of_le (by positivity) hlo
  have hkp : (p : ℤ) ≤ keptBits rm p := by
    unfold keptBits wordLen
    split <;> omega
  -- the error of the rounding, and the sizes
  have hq : ∀ q : ℤ, (2 : ℝ) ^ (q - 1) ≤ |(v.toK : ℝ)| → |(v.toK : ℝ)| < 2 ^ q → emin < q := by
    intro q _ h2
    exact (zpow_lt_zpow_iff_right₀ (by norm_num : (1 : ℝ) < 2)).1 (lt_of_le_of_lt hlo h2)
  have hgrid : ∀ q : ℤ, (2 : ℝ) ^ (q - 1) ≤ |(v.toK : ℝ)| → (2 : ℝ) ^ (q - (keptBits rm p : ℤ)) ≤ 2 ^ (1 - (p : ℤ)) * |(v.toK : ℝ)| := by
    intro q h1
    calc (2 : ℝ) ^ (q - (keptBits rm p : ℤ)) ≤ 2 ^ ((1 - (p : ℤ)) + (q - 1)) := zpow_le_zpow_right₀ (by norm_num) (by omega)
      _ = 2 ^ (1 - (p : ℤ)) * 2 ^ (q - 1) := zpow_add₀ (by norm_num) _ _
      _ ≤ _ := mul_le_mul_of_nonneg_left h1 (by positivity)
  have hp1 : (2 : ℝ) ^ (1 - (p : ℤ)) ≤ 1 / 2 := by
    calc (2 : ℝ) ^ (1 - (p : ℤ)) ≤ 2 ^ (-1 : ℤ) := zpow_le_zpow_right₀ (by norm_num) (by omega)
      _ = _ := by norm_num
  have h := setPrecision_spec (K := ℝ) hv hp hpm rm
  cases hr : v.setPrecision p rm with
  | error er =>
    rw [hr] at h
    obtain ⟨-, -, t, ht, ht2⟩ := h
    rcases ht with ⟨h0, -⟩ | ⟨q, q1, q2, q3⟩
    · rw [h0, abs_zero] at hv0; exact absurd hv0 (lt_irrefl _)
    · have h1 := le_trans (rounds_abs q3 (by positivity)) (hgrid q q1)
      have h2 := abs_sub_abs_le_abs_sub t v.toK
      have h3 := mul_le_mul_of_nonneg_right hp1 hv0.le
      have h4 : (2 : ℝ) ^ emax ≤ 2 ^ EMAX := zpow_le_zpow_right₀ (by norm_num) hmax
      linarith
  | ok u =>
    rw [hr] at h
    obtain ⟨⟨u1, u2, -, -, u5⟩, -⟩ := h
    rcases u5 with ⟨h0, -⟩ | ⟨q, q1, q2, q3⟩
    · rw [h0, abs_zero] at hv0; exact absurd hv0 (lt_irrefl _)
    · have hqe := hq q q1 q2
      rw [max_eq_left (by omega)] at q3
      have h1 := le_trans (rounds_abs q3 (by positivity)) (hgrid q q1)
      refine ⟨u, ?_, u1, u2, h1, Or.inr ⟨q, q1, q2, q3⟩⟩
      unfold exprFinish
      simp only [BF.setPrecision, hr]
      -- the exponent of the result
      have hsmall : |(u.toK : ℝ)| < 2 ^ emax := by
        have h2 := abs_sub_abs_le_abs_sub (u.toK : ℝ) v.toK
        have h3 := mul_le_mul_of_nonneg_right hp1 hv0.le
        linarith
      have hbig : (2 : ℝ) ^ (emin - 1) ≤ |(u.toK : ℝ)| := by
        have h2 := abs_sub_abs_le_abs_sub (v.toK : ℝ) u.toK
        rw [abs_sub_comm] at h2
        have h3 := mul_le_mul_of_nonneg_right hp1 hv0.le
        have h4 : (2 : ℝ) ^ emin = 2 ^ (emin - 1) * 2 := by rw [← zpow_add_one₀ (by norm_num)]; congr 1; ring
        linarith
      have huz : u.isZero = false := by
        rw [← Bool.not_eq_true]
        intro hz
        rw [u1.toK_eq_zero.2 hz, abs_zero] at hbig
        have : (0 : ℝ) < 2 ^ (emin - 1) := by positivity
        linarith
      obtain ⟨q', r1, r2, r3, -⟩ := Num.WF.mag (K := ℝ) u1 huz
      have a1 := (zpow_lt_zpow_iff_right₀ (by norm_num : (1 : ℝ) < 2)).1 (lt_of_le_of_lt hbig r2)
      have a2 := (zpow_lt_zpow_iff_right₀ (by norm_num : (1 : ℝ) < 2)).1 (lt_of_le_of_lt r1 hsmall)
      apply checkExponentRange_id
      · omega
      · omega

end AF
