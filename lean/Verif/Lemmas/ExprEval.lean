import Verif.Lemmas.ExprSum
import Verif.Lemmas.ExpSinh
/-!
# A round and the loop of `expr!`
-/

namespace AF

/-- The sum of the entries of `errs` that belong to an expression. -/
def segSum (errs : List Nat) (k n : Nat) : Nat := ((errs.drop k).take n).sum

theorem segSum_add (errs : List Nat) (k m n : Nat) : segSum errs k (m + n) = segSum errs k m + segSum errs (k + m) n := by
  unfold segSum
  rw [List.take_add, List.sum_append, List.drop_drop]

theorem segSum_one (errs : List Nat) (k : Nat) : segSum errs k 1 = errs.getD k 0 := by
  unfold segSum
  by_cases h : k < errs.length
  · rw [List.drop_eq_getElem_cons h]
    simp [h]
  · rw [List.drop_eq_nil_of_le (by omega)]
    simp [List.getD, List.getElem?_eq_none (show errs.length ≤ k by omega)]

/-- The entries of `errs` are at least the initial ones. -/
def Above (e : MExpr) (errs : List Nat) (k : Nat) : Prop := ∀ i < e.init.length, e.init.getD i 0 ≤ errs.getD (k + i) 0

theorem above_split {l1 l2 l3 errs : List Nat} {k : Nat}
    (h : ∀ i < (l1 ++ l2 ++ l3).length, (l1 ++ l2 ++ l3).getD i 0 ≤ errs.getD (k + i) 0) :
    (∀ i < l1.length, l1.getD i 0 ≤ errs.getD (k + i) 0) ∧
    (∀ i < l2.length, l2.getD i 0 ≤ errs.getD (k + l1.length + i) 0) ∧
    (∀ i < l3.length, l3.getD i 0 ≤ errs.getD (k + l1.length + l2.length + i) 0) := by
  simp only [List.length_append] at h
  refine ⟨fun i hi => ?_, fun i hi => ?_, fun i hi => ?_⟩
  · have h1 := h i (by omega)
    rwa [List.append_assoc, List.getD_append _ _ _ _ hi] at h1
  · have h1 := h (l1.length + i) (by omega)
    rw [List.append_assoc, List.getD_append_right _ _ _ _ (by omega), List.getD_append _ _ _ _ (by omega)] at h1
    rwa [show l1.length + i - l1.length = i by omega, ← add_assoc] at h1
  · have h1 := h (l1.length + l2.length + i) (by omega)
    rw [List.getD_append_right _ _ _ _ (by simp)] at h1
    rwa [List.length_append, show l1.length + l2.length + i - (l1.length + l2.length) = i by omega, ← add_assoc, ← add_assoc] at h1

/-- The bound of the error after `E` units. -/
theorem units_split {A B : ℝ} (hA : 1 ≤ A) (hB : 1 ≤ B) : A + B ≤ 2 * (A * B) ∧ 1 ≤ A * B := by
  have h1 : 0 ≤ (A - 1) * (B - 1) := mul_nonneg (by linarith) (by linarith)
  have h2 : 1 ≤ A * B := by nlinarith
  constructor
  · nlinarith
  · exact h2

theorem checkExponentRange_id {v : Num} {emin emax : Int} (h1 : emin ≤ v.e) (h2 : v.e ≤ emax) : checkExponentRange (.num v) emin emax = .num v := by
  unfold checkExponentRange
  simp only [BF.exponent]
  rw [if_neg (by omega), if_neg (by omega)]

theorem e_unique {v x : Num} (h1 : v.WF) (h2 : x.WF) (hR : InRange (x.toK : ℝ)) (h : (v.toK : ℝ) = x.toK) : v.e = x.e := by
  have a1 : Ev 0 (x.toK : ℝ) x := ⟨h2, hR, by simp, fun _ => rfl⟩
  have a2 : Ev 0 (x.toK : ℝ) v := ⟨h1, hR, by simp [h], fun _ => h⟩
  obtain ⟨-, b1, b2⟩ := a1.bounds (by norm_num)
  obtain ⟨-, c1, c2⟩ := a2.bounds (by norm_num)
  rw [h] at c1 c2
  have d1 := (zpow_lt_zpow_iff_right₀ (by norm_num : (1 : ℝ) < 2)).1 (lt_of_le_of_lt b1 c2)
  have d2 := (zpow_lt_zpow_iff_right₀ (by norm_num : (1 : ℝ) < 2)).1 (lt_of_le_of_lt c1 b2)
  omega

theorem argument_spec {w p : Nat} {emin emax : Int} {x : Num} (hw : ValidP w) (hpw : p + 64 ≤ w) (hx : x.WF) (hl : 64 * x.m.m.length ≤ p + 64)
    (hR : InRange (x.toK : ℝ)) (h1 : emin ≤ x.e) (h2 : x.e ≤ emax) :
    ∃ v, MExpr.argument w emin emax (.num x) = .num v ∧ v.WF ∧ (v.toK : ℝ) = x.toK ∧ v.inexact = false := by
  obtain ⟨v, v1, v2, -, v4, -⟩ := setPrecision_extend hx hw.pos (by have := hw.lt; rw [PMAX_eq]; unfold precBits at this; omega) (le_trans hl hpw) .toEven
  have he := e_unique v2 hx hR v4
  refine ⟨{ v with inexact := false }, ?_, ⟨v2.wf, v2.bits, v2.emin, v2.emax, v2.norm, v2.sized⟩, v4, rfl⟩
  unfold MExpr.argument
  simp only [BF.setPrecision, v1, BF.setInexact]
  exact checkExponentRange_id (by dsimp only; omega) (by dsimp only; omega)

theorem neg_num (v : Num) : BF.neg (.num v) = .num v.neg := by
  obtain ⟨m, s, e, i⟩ := v
  cases s <;> rfl

/-- A round that reaches the end gives a value with a bounded error. -/
theorem eval_spec {w p : Nat} {emin emax : Int} {errs : List Nat} (hw : ValidP w) (hpw : p + 64 ≤ w) {e : MExpr} {X : ℝ} {n : Nat}
    (hT : MExpr.Tame p emin emax e X n) : ∀ {k : Nat} {r : BF}, Above e errs k →
    (2 : ℝ) ^ (segSum errs k e.init.length + 2 * n) * 2 ^ (1 - (precBits w : ℤ)) ≤ 2 ^ (-(p : ℤ) - 30) →
    e.eval w emin emax errs k = .ok r →
    ∃ v, r = .num v ∧ Ev (2 ^ (segSum errs k e.init.length + 2 * n) * 2 ^ (1 - (precBits w : ℤ))) X v := by
  have hε0 : (0 : ℝ) < 2 ^ (1 - (precBits w : ℤ)) := by positivity
  have hp10 : (2 : ℝ) ^ (-(p : ℤ) - 30) ≤ 1 / 2 ^ 10 := by
    calc (2 : ℝ) ^ (-(p : ℤ) - 30) ≤ 2 ^ (-10 : ℤ) := zpow_le_zpow_right₀ (by norm_num) (by omega)
      _ = _ := by norm_num
  have hpL : 2 ^ (-(p : ℤ) - 30) * (2 : ℝ) ^ (p + 24) = 1 / 64 := by
    rw [← zpow_natCast, ← zpow_add₀ (by norm_num)]
    rw [show -(p : ℤ) - 30 + ((p + 24 : ℕ) : ℤ) = -6 by push_cast; ring]
    norm_num
  have hεle : ∀ E : Nat, (2 : ℝ) ^ E * 2 ^ (1 - (precBits w : ℤ)) ≤ 2 ^ (-(p : ℤ) - 30) → (2 : ℝ) ^ (1 - (precBits w : ℤ)) ≤ 1 / 2 ^ 10 := by
    intro E h
    have h1 : (1 : ℝ) ≤ 2 ^ E := one_le_pow₀ (by norm_num)
    have := mul_le_mul_of_nonneg_right h1 hε0.le
    linarith
  have hmono : ∀ E F : Nat, E ≤ F → (2 : ℝ) ^ F * 2 ^ (1 - (precBits w : ℤ)) ≤ 2 ^ (-(p : ℤ) - 30) →
      (2 : ℝ) ^ E * 2 ^ (1 - (precBits w : ℤ)) ≤ 2 ^ (-(p : ℤ) - 30) := by
    intro E F h1 h2
    exact le_trans (mul_le_mul_of_nonneg_right (pow_le_pow_right₀ (by norm_num) h1) hε0.le) h2
  -- the operations with two operands
  have hstep2 : ∀ E1 E2 c F : Nat, F = E1 + E2 + c + 2 → ∀ ε : ℝ, 0 < ε →
      9 / 8 * ((2 : ℝ) ^ E1 * ε + 2 ^ E2 * ε + ε) ≤ 2 ^ F * ε ∧
      9 / 8 * (9 / 8 * ((2 : ℝ) ^ E1 * ε + 2 ^ E2 * ε) * 2 ^ c + ε) ≤ 2 ^ F * ε := by
    intro E1 E2 c F hF ε hε
    have hA : (1 : ℝ) ≤ 2 ^ E1 := one_le_pow₀ (by norm_num)
    have hB : (1 : ℝ) ≤ 2 ^ E2 := one_le_pow₀ (by norm_num)
    have hC : (1 : ℝ) ≤ 2 ^ c := one_le_pow₀ (by norm_num)
    rw [hF, pow_add, pow_add, pow_add]
    generalize (2 : ℝ) ^ E1 = A at *
    generalize (2 : ℝ) ^ E2 = B at *
    generalize (2 : ℝ) ^ c = C at *
    obtain ⟨h1, h2⟩ := units_split hA hB
    have h3 : A * B ≤ A * B * C := le_mul_of_one_le_right (by linarith) hC
    constructor
    · have h4 : 9 / 8 * (A + B + 1) ≤ A * B * C * 2 ^ 2 := by norm_num; linarith
      have := mul_le_mul_of_nonneg_right h4 hε.le
      linarith
    · have h5 := mul_le_mul_of_nonneg_right h1 (show 0 ≤ C by linarith)
      have h4 : 9 / 8 * (9 / 8 * (A + B) * C + 1) ≤ A * B * C * 2 ^ 2 := by norm_num; linarith
      have := mul_le_mul_of_nonneg_right h4 hε.le
      linarith
  -- with one operand
  have hstep1 : ∀ E1 c F : Nat, F = E1 + c + 2 → ∀ ε : ℝ, 0 < ε → 4 / 3 * ((2 : ℝ) ^ E1 * ε + ε) ≤ 2 ^ F * ε := by
    intro E1 c F hF ε hε
    have hA : (1 : ℝ) ≤ 2 ^ E1 := one_le_pow₀ (by norm_num)
    have hC : (1 : ℝ) ≤ 2 ^ c := one_le_pow₀ (by norm_num)
    rw [hF, pow_add, pow_add]
    generalize (2 : ℝ) ^ E1 = A at *
    generalize (2 : ℝ) ^ c = C at *
    have h3 : A ≤ A * C := le_mul_of_one_le_right (by linarith) hC
    have h4 : 4 / 3 * (A + 1) ≤ A * C * 2 ^ 2 := by norm_num; linarith
    have := mul_le_mul_of_nonneg_right h4 hε.le
    linarith
  induction hT with
  | @var x h1 h2 h3 h4 h5 =>
    intro k r _ hsm he
    simp only [MExpr.eval, Except.ok.injEq] at he
    obtain ⟨v, v1, v2, v3, -⟩ := argument_spec hw hpw h1 h2 h3 h4 h5
    refine ⟨v, by rw [← he, v1], v2, h3, ?_, fun _ => v3⟩
    rw [v3]; simp only [sub_self, abs_zero]; positivity
  | @lit x h1 h2 h3 h4 h5 =>
    intro k r _ hsm he
    simp only [MExpr.eval, Except.ok.injEq] at he
    rw [checkExponentRange_id h4 h5] at he
    refine ⟨x, he.symm, h1, h3, ?_, fun _ => rfl⟩
    simp only [sub_self, abs_zero]; positivity
  | @neg a X n _ ih =>
    intro k r ha hsm he
    simp only [MExpr.eval] at he
    cases hra : a.eval w emin emax errs k with
    | error s => rw [hra] at he; cases he
    | ok x =>
      rw [hra] at he
      simp only [Except.ok.injEq] at he
      obtain ⟨v, v1, v2⟩ := ih ha hsm hra
      refine ⟨v.neg, ?_, v2.wf.neg, ?_, ?_, ?_⟩
      · rw [← he, v1, neg_num]
      · unfold InRange; rw [abs_neg]; exact v2.rng
      · rw [Num.toK_neg, abs_neg, show -(v.toK : ℝ) - -X = -(v.toK - X) by ring, abs_neg]
        exact v2.near
      · intro h; rw [Num.toK_neg, v2.exact h]
  | @add a b X Y m n _ _ hR hM iha ihb =>
    intro k r hab hsm he
    simp only [MExpr.eval] at he
    unfold Above at hab
    simp only [MExpr.init] at hab
    obtain ⟨hA, hB, hC⟩ := above_split hab
    have hc := hC 0 (by simp)
    simp only [List.getD_cons_zero, add_zero] at hc
    simp only [MExpr.init, List.length_append, List.length_cons, List.length_nil, zero_add, segSum_add, segSum_one] at hsm ⊢
    rw [← add_assoc k] at hsm ⊢
    have s2 := hstep2 (segSum errs k a.init.length + 2 * m) (segSum errs (k + a.init.length) b.init.length + 2 * n)
      (errs.getD (k + a.init.length + b.init.length) 0) _ rfl _ hε0
    rw [show segSum errs k a.init.length + segSum errs (k + a.init.length) b.init.length + errs.getD (k + a.init.length + b.init.length) 0 + 2 * (m + n + 1)
      = segSum errs k a.init.length + 2 * m + (segSum errs (k + a.init.length) b.init.length + 2 * n) + errs.getD (k + a.init.length + b.init.length) 0 + 2 by ring] at hsm ⊢
    have hsa := hmono (segSum errs k a.init.length + 2 * m) _ (by omega) hsm
    have hsb := hmono (segSum errs (k + a.init.length) b.init.length + 2 * n) _ (by omega) hsm
    cases hra : a.eval w emin emax errs k with
    | error s => rw [hra] at he; cases he
    | ok x =>
      rw [hra] at he
      cases hrb : b.eval w emin emax errs (k + a.init.length) with
      | error s => rw [hrb] at he; cases he
      | ok y =>
        rw [hrb] at he
        dsimp only at he
        obtain ⟨x', rfl, hx⟩ := iha hA hsa hra
        obtain ⟨y', rfl, hy⟩ := ihb hB hsb hrb
        cases hcan : MExpr.cancelled false (.num x') (.num y') (BF.add (.num x') (.num y') w .none) errs (k + a.init.length + b.init.length) with
        | some z => rw [hcan] at he; cases he
        | none =>
          rw [hcan] at he
          simp only [Except.ok.injEq] at he
          have hd := BF.add_delivers (K := ℝ) hx.wf hy.wf hw .none
          have e1 : ∀ z : ℝ, sgnOf false * z = z := fun z => by simp [sgnOf]
          have := sum_node (sub := false) (L := 2 ^ (p + 24)) (by rw [e1]; exact hd) hx hy (le_trans hsa hp10) (le_trans hsb hp10) (by positivity) (by positivity)
            (by rw [e1]; exact hR) (by rw [e1]; exact hM) ?_ (le_trans (by norm_num) hc) hcan (hεle _ hsm) (le_trans hsm (le_trans hp10 (by norm_num))) s2.2
          · rw [e1, he] at this; exact this
          · have h1 := mul_le_mul_of_nonneg_right (add_le_add hsa hsb) (show (0 : ℝ) ≤ 2 ^ (p + 24) by positivity)
            refine le_trans h1 ?_
            rw [add_mul, hpL]; norm_num
  | @sub a b X Y m n _ _ hR hM iha ihb =>
    intro k r hab hsm he
    simp only [MExpr.eval] at he
    unfold Above at hab
    simp only [MExpr.init] at hab
    obtain ⟨hA, hB, hC⟩ := above_split hab
    have hc := hC 0 (by simp)
    simp only [List.getD_cons_zero, add_zero] at hc
    simp only [MExpr.init, List.length_append, List.length_cons, List.length_nil, zero_add, segSum_add, segSum_one] at hsm ⊢
    rw [← add_assoc k] at hsm ⊢
    have s2 := hstep2 (segSum errs k a.init.length + 2 * m) (segSum errs (k + a.init.length) b.init.length + 2 * n)
      (errs.getD (k + a.init.length + b.init.length) 0) _ rfl _ hε0
    rw [show segSum errs k a.init.length + segSum errs (k + a.init.length) b.init.length + errs.getD (k + a.init.length + b.init.length) 0 + 2 * (m + n + 1)
      = segSum errs k a.init.length + 2 * m + (segSum errs (k + a.init.length) b.init.length + 2 * n) + errs.getD (k + a.init.length + b.init.length) 0 + 2 by ring] at hsm ⊢
    have hsa := hmono (segSum errs k a.init.length + 2 * m) _ (by omega) hsm
    have hsb := hmono (segSum errs (k + a.init.length) b.init.length + 2 * n) _ (by omega) hsm
    cases hra : a.eval w emin emax errs k with
    | error s => rw [hra] at he; cases he
    | ok x =>
      rw [hra] at he
      cases hrb : b.eval w emin emax errs (k + a.init.length) with
      | error s => rw [hrb] at he; cases he
      | ok y =>
        rw [hrb] at he
        dsimp only at he
        obtain ⟨x', rfl, hx⟩ := iha hA hsa hra
        obtain ⟨y', rfl, hy⟩ := ihb hB hsb hrb
        cases hcan : MExpr.cancelled true (.num x') (.num y') (BF.sub (.num x') (.num y') w .none) errs (k + a.init.length + b.init.length) with
        | some z => rw [hcan] at he; cases he
        | none =>
          rw [hcan] at he
          simp only [Except.ok.injEq] at he
          have hd := BF.sub_delivers (K := ℝ) hx.wf hy.wf hw .none
          have e1 : ∀ u z : ℝ, u + sgnOf true * z = u - z := fun u z => by simp [sgnOf]; ring
          have := sum_node (sub := true) (L := 2 ^ (p + 24)) (by rw [e1]; exact hd) hx hy (le_trans hsa hp10) (le_trans hsb hp10) (by positivity) (by positivity)
            (by rw [e1]; exact hR) (by rw [e1]; exact hM) ?_ (le_trans (by norm_num) hc) hcan (hεle _ hsm) (le_trans hsm (le_trans hp10 (by norm_num))) s2.2
          · rw [e1, he] at this; exact this
          · have h1 := mul_le_mul_of_nonneg_right (add_le_add hsa hsb) (show (0 : ℝ) ≤ 2 ^ (p + 24) by positivity)
            refine le_trans h1 ?_
            rw [add_mul, hpL]; norm_num
  | @mul a b X Y m n _ _ hR iha ihb =>
    intro k r hab hsm he
    simp only [MExpr.eval] at he
    unfold Above at hab
    simp only [MExpr.init] at hab
    obtain ⟨hA, hB, hC⟩ := above_split hab
    simp only [MExpr.init, List.length_append, List.length_cons, List.length_nil, zero_add, segSum_add, segSum_one] at hsm ⊢
    rw [← add_assoc k] at hsm ⊢
    have s2 := hstep2 (segSum errs k a.init.length + 2 * m) (segSum errs (k + a.init.length) b.init.length + 2 * n)
      (errs.getD (k + a.init.length + b.init.length) 0) _ rfl _ hε0
    rw [show segSum errs k a.init.length + segSum errs (k + a.init.length) b.init.length + errs.getD (k + a.init.length + b.init.length) 0 + 2 * (m + n + 1)
      = segSum errs k a.init.length + 2 * m + (segSum errs (k + a.init.length) b.init.length + 2 * n) + errs.getD (k + a.init.length + b.init.length) 0 + 2 by ring] at hsm ⊢
    have hsa := hmono (segSum errs k a.init.length + 2 * m) _ (by omega) hsm
    have hsb := hmono (segSum errs (k + a.init.length) b.init.length + 2 * n) _ (by omega) hsm
    cases hra : a.eval w emin emax errs k with
    | error s => rw [hra] at he; cases he
    | ok x =>
      rw [hra] at he
      cases hrb : b.eval w emin emax errs (k + a.init.length) with
      | error s => rw [hrb] at he; cases he
      | ok y =>
        rw [hrb] at he
        simp only [Except.ok.injEq] at he
        obtain ⟨x', rfl, hx⟩ := iha hA hsa hra
        obtain ⟨y', rfl, hy⟩ := ihb hB hsb hrb
        rw [← he]
        exact mul_node hw hx hy (le_trans hsa hp10) (le_trans hsb hp10) hR s2.1
  | @div a b X Y m n _ _ hR iha ihb =>
    intro k r hab hsm he
    simp only [MExpr.eval] at he
    unfold Above at hab
    simp only [MExpr.init] at hab
    obtain ⟨hA, hB, hC⟩ := above_split hab
    simp only [MExpr.init, List.length_append, List.length_cons, List.length_nil, zero_add, segSum_add, segSum_one] at hsm ⊢
    rw [← add_assoc k] at hsm ⊢
    have s2 := hstep2 (segSum errs k a.init.length + 2 * m) (segSum errs (k + a.init.length) b.init.length + 2 * n)
      (errs.getD (k + a.init.length + b.init.length) 0) _ rfl _ hε0
    rw [show segSum errs k a.init.length + segSum errs (k + a.init.length) b.init.length + errs.getD (k + a.init.length + b.init.length) 0 + 2 * (m + n + 1)
      = segSum errs k a.init.length + 2 * m + (segSum errs (k + a.init.length) b.init.length + 2 * n) + errs.getD (k + a.init.length + b.init.length) 0 + 2 by ring] at hsm ⊢
    have hsa := hmono (segSum errs k a.init.length + 2 * m) _ (by omega) hsm
    have hsb := hmono (segSum errs (k + a.init.length) b.init.length + 2 * n) _ (by omega) hsm
    cases hra : a.eval w emin emax errs k with
    | error s => rw [hra] at he; cases he
    | ok x =>
      rw [hra] at he
      cases hrb : b.eval w emin emax errs (k + a.init.length) with
      | error s => rw [hrb] at he; cases he
      | ok y =>
        rw [hrb] at he
        simp only [Except.ok.injEq] at he
        obtain ⟨x', rfl, hx⟩ := iha hA hsa hra
        obtain ⟨y', rfl, hy⟩ := ihb hB hsb hrb
        rw [← he]
        exact div_node hw hx hy (le_trans hsa hp10) (le_trans hsb hp10) hR s2.1
  | @recip a X n _ hR ih =>
    intro k r hab hsm he
    simp only [MExpr.eval] at he
    unfold Above at hab
    simp only [MExpr.init] at hab
    obtain ⟨hA, -, -⟩ := above_split (l1 := a.init) (l2 := []) (l3 := [2]) (by rw [List.append_nil]; exact hab)
    simp only [MExpr.init, List.length_append, List.length_cons, List.length_nil, zero_add, segSum_add, segSum_one] at hsm ⊢
    have s1 := hstep1 (segSum errs k a.init.length + 2 * n) (errs.getD (k + a.init.length) 0) _ rfl _ hε0
    rw [show segSum errs k a.init.length + errs.getD (k + a.init.length) 0 + 2 * (n + 1)
      = segSum errs k a.init.length + 2 * n + errs.getD (k + a.init.length) 0 + 2 by ring] at hsm ⊢
    have hsa := hmono (segSum errs k a.init.length + 2 * n) _ (by omega) hsm
    cases hra : a.eval w emin emax errs k with
    | error s => rw [hra] at he; cases he
    | ok x =>
      rw [hra] at he
      simp only [Except.ok.injEq] at he
      obtain ⟨x', rfl, hx⟩ := ih hA hsa hra
      rw [← he]
      refine recip_node hw hx (le_trans hsa hp10) hR (le_trans ?_ s1)
      exact mul_le_mul_of_nonneg_right (by norm_num) (by positivity)
  | @sqrt a X n _ hX hR ih =>
    intro k r hab hsm he
    simp only [MExpr.eval] at he
    unfold Above at hab
    simp only [MExpr.init] at hab
    obtain ⟨hA, -, -⟩ := above_split (l1 := a.init) (l2 := []) (l3 := [1]) (by rw [List.append_nil]; exact hab)
    simp only [MExpr.init, List.length_append, List.length_cons, List.length_nil, zero_add, segSum_add, segSum_one] at hsm ⊢
    have s1 := hstep1 (segSum errs k a.init.length + 2 * n) (errs.getD (k + a.init.length) 0) _ rfl _ hε0
    rw [show segSum errs k a.init.length + errs.getD (k + a.init.length) 0 + 2 * (n + 1)
      = segSum errs k a.init.length + 2 * n + errs.getD (k + a.init.length) 0 + 2 by ring] at hsm ⊢
    have hsa := hmono (segSum errs k a.init.length + 2 * n) _ (by omega) hsm
    cases hra : a.eval w emin emax errs k with
    | error s => rw [hra] at he; cases he
    | ok x =>
      rw [hra] at he
      simp only [Except.ok.injEq] at he
      obtain ⟨x', rfl, hx⟩ := ih hA hsa hra
      rw [← he]
      refine sqrt_node hw hx (le_trans hsa hp10) hX hR (le_trans ?_ s1)
      exact mul_le_mul_of_nonneg_right (by norm_num) (by positivity)
  | @cbrt a X Y n _ hX hR ih =>
    intro k r hab hsm he
    simp only [MExpr.eval] at he
    unfold Above at hab
    simp only [MExpr.init] at hab
    obtain ⟨hA, -, -⟩ := above_split (l1 := a.init) (l2 := []) (l3 := [1]) (by rw [List.append_nil]; exact hab)
    simp only [MExpr.init, List.length_append, List.length_cons, List.length_nil, zero_add, segSum_add, segSum_one] at hsm ⊢
    have s1 := hstep1 (segSum errs k a.init.length + 2 * n) (errs.getD (k + a.init.length) 0) _ rfl _ hε0
    rw [show segSum errs k a.init.length + errs.getD (k + a.init.length) 0 + 2 * (n + 1)
      = segSum errs k a.init.length + 2 * n + errs.getD (k + a.init.length) 0 + 2 by ring] at hsm ⊢
    have hsa := hmono (segSum errs k a.init.length + 2 * n) _ (by omega) hsm
    cases hra : a.eval w emin emax errs k with
    | error s => rw [hra] at he; cases he
    | ok x =>
      rw [hra] at he
      simp only [Except.ok.injEq] at he
      obtain ⟨x', rfl, hx⟩ := ih hA hsa hra
      rw [← he]
      exact cbrt_node hw hx (le_trans hsa hp10) hX hR s1

end AF
