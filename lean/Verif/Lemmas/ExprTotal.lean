import Verif.Lemmas.ExprLoop
/-!
# The loop of `expr!` ends
-/

namespace AF

theorem cancel_le {P N : Nat} {X Y a b : ℝ} {x y : Num} {sub : Bool} {errs : List Nat} {id z : Nat} {r : BF}
    (hr : DeliversBF .none P ((x.toK : ℝ) + sgnOf sub * y.toK) (addIx x y) r)
    (hx : Ev a X x) (hy : Ev b Y y) (ha : a ≤ 1 / 2 ^ 10) (hb : b ≤ 1 / 2 ^ 10) (ha0 : 0 ≤ a) (hb0 : 0 ≤ b)
    (hR : InRange (X + sgnOf sub * Y)) (hM : max |X| |Y| ≤ 2 ^ N * |X + sgnOf sub * Y|) (hL : (a + b) * 2 ^ N ≤ 1 / 16)
    (hε : (2 : ℝ) ^ (1 - (P : ℤ)) ≤ 1 / 2 ^ 10)
    (hcan : MExpr.cancelled sub (.num x) (.num y) r errs id = some z) : z ≤ N + 2 := by
  obtain ⟨hzx, hmx⟩ := hx.bounds (le_trans ha (by norm_num))
  obtain ⟨hzy, hmy⟩ := hy.bounds (le_trans hb (by norm_num))
  obtain ⟨-, hX, -⟩ := abs_near hx.near (le_trans ha (by norm_num))
  obtain ⟨-, hY, -⟩ := abs_near hy.near (le_trans hb (by norm_num))
  have hn : |((x.toK : ℝ) + sgnOf sub * y.toK) - (X + sgnOf sub * Y)| ≤ 1 / 16 * |X + sgnOf sub * Y| := by
    have hd : |((x.toK : ℝ) + sgnOf sub * y.toK) - (X + sgnOf sub * Y)| ≤ a * |X| + b * |Y| := by
      rw [show ((x.toK : ℝ) + sgnOf sub * y.toK) - (X + sgnOf sub * Y) = (x.toK - X) + sgnOf sub * (y.toK - Y) by ring]
      refine le_trans (abs_add_le _ _) ?_
      rw [abs_sgnOf]
      exact add_le_add hx.near hy.near
    refine le_trans hd ?_
    have h1 := mul_le_mul_of_nonneg_left (le_trans (le_max_left _ _) hM) ha0
    have h2 := mul_le_mul_of_nonneg_left (le_trans (le_max_right _ _) hM) hb0
    have h3 := mul_le_mul_of_nonneg_right hL (abs_nonneg (X + sgnOf sub * Y))
    have e : (a + b) * 2 ^ N * |X + sgnOf sub * Y| = a * (2 ^ N * |X + sgnOf sub * Y|) + b * (2 ^ N * |X + sgnOf sub * Y|) := by ring
    linarith
  obtain ⟨v, v1, v2, v3, v4, -⟩ := deliver_near hr hR hn
  obtain ⟨n1, -, -⟩ := abs_near hn le_rfl
  obtain ⟨n4, -, n3⟩ := abs_near v3 (le_trans hε (by norm_num))
  have hve : (2 : ℝ) ^ EMIN ≤ |(v.toK : ℝ)| := by
    have h3 := hR.1
    rw [zpow_add_one₀ (by norm_num)] at h3
    have h4 : (0 : ℝ) < 2 ^ EMIN := by positivity
    linarith
  have hzv : v.isZero = false := by
    rw [← Bool.not_eq_true]
    intro hz
    rw [v2.toK_eq_zero.2 hz, abs_zero] at hve
    have : (0 : ℝ) < 2 ^ EMIN := by positivity
    linarith
  have hmv := v2.mag_normal hzv (v2.e_of_abs hve)
  rw [v1] at hcan
  have hz : z = (max x.e y.e - v.e).natAbs + 1 := by
    unfold MExpr.cancelled at hcan
    simp only [BF.exponent] at hcan
    split at hcan
    · split at hcan
      · split at hcan
        · exact (Option.some.inj hcan).symm
        · cases hcan
      · cases hcan
    · cases hcan
  have hNS : ∀ e : ℤ, (2 : ℝ) ^ (e - 1) ≤ 17 / 16 * (2 ^ N * |X + sgnOf sub * Y|) → e ≤ v.e + N + 1 := by
    intro e h1
    have h2 : (2 : ℝ) ^ (e - 1) < 2 ^ (v.e + N + 1) := by
      have h3 : |X + sgnOf sub * Y| ≤ 16 / 15 * (9 / 8 * |(v.toK : ℝ)|) := by linarith
      have h4 := mul_le_mul_of_nonneg_left h3 (show (0 : ℝ) ≤ 2 ^ N by positivity)
      have h5 := mul_lt_mul_of_pos_left hmv.2 (show (0 : ℝ) < 2 ^ N by positivity)
      have h6 : (2 : ℝ) ^ (v.e + N + 1) = 2 * (2 ^ N * 2 ^ v.e) := by
        rw [zpow_add_one₀ (by norm_num), zpow_add₀ (by norm_num), zpow_natCast]; ring
      rw [h6]
      have h7 : (0 : ℝ) < 2 ^ N * 2 ^ v.e := by positivity
      nlinarith
    have := (zpow_lt_zpow_iff_right₀ (by norm_num : (1 : ℝ) < 2)).1 h2
    omega
  have u1 : x.e ≤ v.e + N + 1 := by
    refine hNS _ (le_trans hmx.1 (le_trans hX ?_))
    exact mul_le_mul_of_nonneg_left (le_trans (le_max_left _ _) hM) (by norm_num)
  have u2 : y.e ≤ v.e + N + 1 := by
    refine hNS _ (le_trans hmy.1 (le_trans hY ?_))
    exact mul_le_mul_of_nonneg_left (le_trans (le_max_right _ _) hM) (by norm_num)
  have u3 : v.e ≤ max x.e y.e + 1 := by
    have h1 : (2 : ℝ) ^ (v.e - 1) < 2 ^ (max x.e y.e + 1) := by
      have h2 := abs_add_le (x.toK : ℝ) (sgnOf sub * y.toK)
      rw [abs_sgnOf] at h2
      have h3 : (2 : ℝ) ^ x.e ≤ 2 ^ max x.e y.e := zpow_le_zpow_right₀ (by norm_num) (le_max_left _ _)
      have h4 : (2 : ℝ) ^ y.e ≤ 2 ^ max x.e y.e := zpow_le_zpow_right₀ (by norm_num) (le_max_right _ _)
      rw [zpow_add_one₀ (by norm_num)]
      linarith [hmx.2, hmy.2, hmv.1]
    have := (zpow_lt_zpow_iff_right₀ (by norm_num : (1 : ℝ) < 2)).1 h1
    omega
  omega

/-- An entry of `errs` grows in a round that is abandoned, but not beyond `p + 26`. -/
theorem eval_restart {w p : Nat} {emin emax : Int} {errs : List Nat} (hw : ValidP w) (hpw : p + 64 ≤ w) {e : MExpr} {X : ℝ} {n : Nat}
    (hT : MExpr.Tame p emin emax e X n) : ∀ {k : Nat} {s : List Nat}, Above e errs k →
    (2 : ℝ) ^ (segSum errs k e.init.length + 2 * n) * 2 ^ (1 - (precBits w : ℤ)) ≤ 2 ^ (-(p : ℤ) - 30) →
    e.eval w emin emax errs k = .error s →
    ∃ id z, id < k + e.init.length ∧ s = errs.set id z ∧ errs.getD id 0 < z ∧ z ≤ p + 26 := by
  have hε0 : (0 : ℝ) < 2 ^ (1 - (precBits w : ℤ)) := by positivity
  have hp10 : (2 : ℝ) ^ (-(p : ℤ) - 30) ≤ 1 / 2 ^ 10 := by
    calc (2 : ℝ) ^ (-(p : ℤ) - 30) ≤ 2 ^ (-10 : ℤ) := zpow_le_zpow_right₀ (by norm_num) (by omega)
      _ = _ := by norm_num
  have hpL : 2 ^ (-(p : ℤ) - 30) * (2 : ℝ) ^ (p + 24) = 1 / 64 := by
    rw [← zpow_natCast, ← zpow_add₀ (by norm_num)]
    rw [show -(p : ℤ) - 30 + ((p + 24 : ℕ) : ℤ) = -6 by push_cast; ring]
    norm_num
  have hεle : ∀ E : Nat, (2 : ℝ) ^ E * 2 ^ (1 - (precBits w : ℤ)) ≤ 2 ^ (-(p : ℤ) - 30) → (2 : ℝ) ^ (1 - (precBits w : ℤ)) ≤ 1 / 2 ^ 10 := by
    intro E h
    have h1 : (1 : ℝ) ≤ 2 ^ E := one_le_pow₀ (by norm_num)
    have := mul_le_mul_of_nonneg_right h1 hε0.le
    linarith
  have hmono : ∀ E F : Nat, E ≤ F → (2 : ℝ) ^ F * 2 ^ (1 - (precBits w : ℤ)) ≤ 2 ^ (-(p : ℤ) - 30) →
      (2 : ℝ) ^ E * 2 ^ (1 - (precBits w : ℤ)) ≤ 2 ^ (-(p : ℤ) - 30) := by
    intro E F h1 h2
    exact le_trans (mul_le_mul_of_nonneg_right (pow_le_pow_right₀ (by norm_num) h1) hε0.le) h2
  induction hT with
  | var _ _ _ _ _ => intro k s _ _ h; simp [MExpr.eval] at h
  | lit _ _ _ _ _ => intro k s _ _ h; simp [MExpr.eval] at h
  | @neg a X n _ ih =>
    intro k s ha hsm he
    simp only [MExpr.eval] at he
    cases hra : a.eval w emin emax errs k with
    | error s' => rw [hra] at he; simp only [Except.error.injEq] at he; exact ih ha hsm (he ▸ hra)
    | ok x => rw [hra] at he; cases he
  | @add a b X Y m n hTa hTb hR hM iha ihb =>
    intro k s hab hsm he
    simp only [MExpr.eval] at he
    unfold Above at hab
    simp only [MExpr.init] at hab
    obtain ⟨hA, hB, hC⟩ := above_split hab
    simp only [MExpr.init, List.length_append, List.length_cons, List.length_nil, zero_add, segSum_add, segSum_one] at hsm ⊢
    have hsa := hmono (segSum errs k a.init.length + 2 * m) _ (by omega) hsm
    have hsb := hmono (segSum errs (k + a.init.length) b.init.length + 2 * n) _ (by omega) hsm
    cases hra : a.eval w emin emax errs k with
    | error s' =>
      rw [hra] at he; simp only [Except.error.injEq] at he
      obtain ⟨id, z, h1, h2⟩ := iha hA hsa (he ▸ hra)
      exact ⟨id, z, by omega, h2⟩
    | ok x =>
      rw [hra] at he
      cases hrb : b.eval w emin emax errs (k + a.init.length) with
      | error s' =>
        rw [hrb] at he; simp only [Except.error.injEq] at he
        obtain ⟨id, z, h1, h2⟩ := ihb hB hsb (he ▸ hrb)
        exact ⟨id, z, by omega, h2⟩
      | ok y =>
        rw [hrb] at he
        dsimp only at he
        obtain ⟨x', rfl, hx⟩ := eval_spec hw hpw hTa hA hsa hra
        obtain ⟨y', rfl, hy⟩ := eval_spec hw hpw hTb hB hsb hrb
        cases hcan : MExpr.cancelled false (.num x') (.num y') (BF.add (.num x') (.num y') w .none) errs (k + a.init.length + b.init.length) with
        | none => rw [hcan] at he; cases he
        | some z =>
          rw [hcan] at he
          simp only [Except.error.injEq] at he
          have hd := BF.add_delivers (K := ℝ) hx.wf hy.wf hw .none
          have e1 : ∀ u z : ℝ, u + sgnOf false * z = u + z := fun u z => by simp [sgnOf]
          refine ⟨_, z, ?_, he.symm, cancelled_lt hcan, ?_⟩
          · omega
          · refine cancel_le (sub := false) (N := p + 24) (by rw [e1]; exact hd) hx hy (le_trans hsa hp10) (le_trans hsb hp10) (by positivity) (by positivity)
              (by rw [e1]; exact hR) (by rw [e1]; exact hM) ?_ (hεle _ hsm) hcan
            have h1 := mul_le_mul_of_nonneg_right (add_le_add hsa hsb) (show (0 : ℝ) ≤ 2 ^ (p + 24) by positivity)
            refine le_trans h1 ?_
            rw [add_mul, hpL]; norm_num
  | @sub a b X Y m n hTa hTb hR hM iha ihb =>
    intro k s hab hsm he
    simp only [MExpr.eval] at he
    unfold Above at hab
    simp only [MExpr.init] at hab
    obtain ⟨hA, hB, hC⟩ := above_split hab
    simp only [MExpr.init, List.length_append, List.length_cons, List.length_nil, zero_add, segSum_add, segSum_one] at hsm ⊢
    have hsa := hmono (segSum errs k a.init.length + 2 * m) _ (by omega) hsm
    have hsb := hmono (segSum errs (k + a.init.length) b.init.length + 2 * n) _ (by omega) hsm
    cases hra : a.eval w emin emax errs k with
    | error s' =>
      rw [hra] at he; simp only [Except.error.injEq] at he
      obtain ⟨id, z, h1, h2⟩ := iha hA hsa (he ▸ hra)
      exact ⟨id, z, by omega, h2⟩
    | ok x =>
      rw [hra] at he
      cases hrb : b.eval w emin emax errs (k + a.init.length) with
      | error s' =>
        rw [hrb] at he; simp only [Except.error.injEq] at he
        obtain ⟨id, z, h1, h2⟩ := ihb hB hsb (he ▸ hrb)
        exact ⟨id, z, by omega, h2⟩
      | ok y =>
        rw [hrb] at he
        dsimp only at he
        obtain ⟨x', rfl, hx⟩ := eval_spec hw hpw hTa hA hsa hra
        obtain ⟨y', rfl, hy⟩ := eval_spec hw hpw hTb hB hsb hrb
        cases hcan : MExpr.cancelled true (.num x') (.num y') (BF.sub (.num x') (.num y') w .none) errs (k + a.init.length + b.init.length) with
        | none => rw [hcan] at he; cases he
        | some z =>
          rw [hcan] at he
          simp only [Except.error.injEq] at he
          have hd := BF.sub_delivers (K := ℝ) hx.wf hy.wf hw .none
          have e1 : ∀ u z : ℝ, u + sgnOf true * z = u - z := fun u z => by simp [sgnOf]; ring
          refine ⟨_, z, ?_, he.symm, cancelled_lt hcan, ?_⟩
          · omega
          · refine cancel_le (sub := true) (N := p + 24) (by rw [e1]; exact hd) hx hy (le_trans hsa hp10) (le_trans hsb hp10) (by positivity) (by positivity)
              (by rw [e1]; exact hR) (by rw [e1]; exact hM) ?_ (hεle _ hsm) hcan
            have h1 := mul_le_mul_of_nonneg_right (add_le_add hsa hsb) (show (0 : ℝ) ≤ 2 ^ (p + 24) by positivity)
            refine le_trans h1 ?_
            rw [add_mul, hpL]; norm_num
  | @mul a b X Y m n hTa hTb hR iha ihb =>
    intro k s hab hsm he
    simp only [MExpr.eval] at he
    unfold Above at hab
    simp only [MExpr.init] at hab
    obtain ⟨hA, hB, hC⟩ := above_split hab
    simp only [MExpr.init, List.length_append, List.length_cons, List.length_nil, zero_add, segSum_add, segSum_one] at hsm ⊢
    have hsa := hmono (segSum errs k a.init.length + 2 * m) _ (by omega) hsm
    have hsb := hmono (segSum errs (k + a.init.length) b.init.length + 2 * n) _ (by omega) hsm
    cases hra : a.eval w emin emax errs k with
    | error s' =>
      rw [hra] at he; simp only [Except.error.injEq] at he
      obtain ⟨id, z, h1, h2⟩ := iha hA hsa (he ▸ hra)
      exact ⟨id, z, by omega, h2⟩
    | ok x =>
      rw [hra] at he
      cases hrb : b.eval w emin emax errs (k + a.init.length) with
      | error s' =>
        rw [hrb] at he; simp only [Except.error.injEq] at he
        obtain ⟨id, z, h1, h2⟩ := ihb hB hsb (he ▸ hrb)
        exact ⟨id, z, by omega, h2⟩
      | ok y =>
        rw [hrb] at he
        cases he
  | @div a b X Y m n hTa hTb hR iha ihb =>
    intro k s hab hsm he
    simp only [MExpr.eval] at he
    unfold Above at hab
    simp only [MExpr.init] at hab
    obtain ⟨hA, hB, hC⟩ := above_split hab
    simp only [MExpr.init, List.length_append, List.length_cons, List.length_nil, zero_add, segSum_add, segSum_one] at hsm ⊢
    have hsa := hmono (segSum errs k a.init.length + 2 * m) _ (by omega) hsm
    have hsb := hmono (segSum errs (k + a.init.length) b.init.length + 2 * n) _ (by omega) hsm
    cases hra : a.eval w emin emax errs k with
    | error s' =>
      rw [hra] at he; simp only [Except.error.injEq] at he
      obtain ⟨id, z, h1, h2⟩ := iha hA hsa (he ▸ hra)
      exact ⟨id, z, by omega, h2⟩
    | ok x =>
      rw [hra] at he
      cases hrb : b.eval w emin emax errs (k + a.init.length) with
      | error s' =>
        rw [hrb] at he; simp only [Except.error.injEq] at he
        obtain ⟨id, z, h1, h2⟩ := ihb hB hsb (he ▸ hrb)
        exact ⟨id, z, by omega, h2⟩
      | ok y =>
        rw [hrb] at he
        cases he
  | @recip a X n _ hR ih =>
    intro k s hab hsm he
    simp only [MExpr.eval] at he
    unfold Above at hab
    simp only [MExpr.init] at hab
    obtain ⟨hA, -, -⟩ := above_split (l1 := a.init) (l2 := []) (l3 := [2]) (by rw [List.append_nil]; exact hab)
    simp only [MExpr.init, List.length_append, List.length_cons, List.length_nil, zero_add, segSum_add, segSum_one] at hsm ⊢
    have hsa := hmono (segSum errs k a.init.length + 2 * n) _ (by omega) hsm
    cases hra : a.eval w emin emax errs k with
    | error s' =>
      rw [hra] at he; simp only [Except.error.injEq] at he
      obtain ⟨id, z, h1, h2⟩ := ih hA hsa (he ▸ hra)
      exact ⟨id, z, by omega, h2⟩
    | ok x => rw [hra] at he; cases he
  | @sqrt a X n _ _ hR ih =>
    intro k s hab hsm he
    simp only [MExpr.eval] at he
    unfold Above at hab
    simp only [MExpr.init] at hab
    obtain ⟨hA, -, -⟩ := above_split (l1 := a.init) (l2 := []) (l3 := [1]) (by rw [List.append_nil]; exact hab)
    simp only [MExpr.init, List.length_append, List.length_cons, List.length_nil, zero_add, segSum_add, segSum_one] at hsm ⊢
    have hsa := hmono (segSum errs k a.init.length + 2 * n) _ (by omega) hsm
    cases hra : a.eval w emin emax errs k with
    | error s' =>
      rw [hra] at he; simp only [Except.error.injEq] at he
      obtain ⟨id, z, h1, h2⟩ := ih hA hsa (he ▸ hra)
      exact ⟨id, z, by omega, h2⟩
    | ok x => rw [hra] at he; cases he
  | @cbrt a X Y n _ _ hR ih =>
    intro k s hab hsm he
    simp only [MExpr.eval] at he
    unfold Above at hab
    simp only [MExpr.init] at hab
    obtain ⟨hA, -, -⟩ := above_split (l1 := a.init) (l2 := []) (l3 := [1]) (by rw [List.append_nil]; exact hab)
    simp only [MExpr.init, List.length_append, List.length_cons, List.length_nil, zero_add, segSum_add, segSum_one] at hsm ⊢
    have hsa := hmono (segSum errs k a.init.length + 2 * n) _ (by omega) hsm
    cases hra : a.eval w emin emax errs k with
    | error s' =>
      rw [hra] at he; simp only [Except.error.injEq] at he
      obtain ⟨id, z, h1, h2⟩ := ih hA hsa (he ▸ hra)
      exact ⟨id, z, by omega, h2⟩
    | ok x => rw [hra] at he; cases he

theorem init_length {p : Nat} {emin emax : Int} {e : MExpr} {X : ℝ} {n : Nat} (hT : MExpr.Tame p emin emax e X n) : e.init.length = n := by
  induction hT <;> simp_all [MExpr.init] <;> omega

theorem init_le {e : MExpr} : ∀ i ∈ e.init, i ≤ 3 := by
  induction e with
  | var x => simp [MExpr.init]
  | lit x => simp [MExpr.init]
  | neg a ih => simpa [MExpr.init] using ih
  | rem a b iha ihb =>
    intro i h
    simp only [MExpr.init, List.mem_append] at h
    rcases h with h | h
    · exact iha i h
    · exact ihb i h
  | recip a ih | sqrt a ih | cbrt a ih =>
    intro i h
    simp only [MExpr.init, List.mem_append, List.mem_singleton] at h
    rcases h with h | h
    · exact ih i h
    · omega
  | add a b iha ihb | sub a b iha ihb | mul a b iha ihb | div a b iha ihb =>
    intro i h
    simp only [MExpr.init, List.mem_append, List.mem_singleton] at h
    rcases h with (h | h) | h
    · exact iha i h
    · exact ihb i h
    · omega

theorem sum_set {l : List Nat} {id z : Nat} (h : id < l.length) : (l.set id z).sum + l.getD id 0 = l.sum + z := by
  induction l generalizing id with
  | nil => simp at h
  | cons a l ih =>
    cases id with
    | zero => simp; omega
    | succ i =>
      simp only [List.length_cons, Nat.add_lt_add_iff_right] at h
      have := ih h
      simp only [List.set_cons_succ, List.sum_cons, List.getD_cons_succ]
      omega

theorem sum_le_mul {l : List Nat} {c : Nat} (h : ∀ i ∈ l, i ≤ c) : l.sum ≤ l.length * c := by
  induction l with
  | nil => simp
  | cons a l ih =>
    have h1 := h a (by simp)
    have h2 := ih (fun i hi => h i (by simp [hi]))
    simp only [List.sum_cons, List.length_cons, Nat.succ_mul]
    omega

/-- The loop ends. -/
theorem loop_total {e : MExpr} {p : Nat} {rm : RM} {emin emax : Int} {X : ℝ} {n : Nat} (hT : e.Tame p emin emax X n) (hn : n ≤ 16)
    (hp : p ≤ 2 ^ 55) : ∀ (f : Nat) (errs : List Nat), errs.length = n → Above e errs 0 → (∀ i ∈ errs, i ≤ p + 26) →
    n * (p + 26) - errs.sum < f → ∃ r w, exprLoop e p rm emin emax f errs = some (r, w) ∧ w ≤ p + 64 + n * (p + 26) := by
  intro f
  induction f with
  | zero => intro errs _ _ _ h; omega
  | succ f ih =>
    intro errs hl ha hle hf
    have hs := sum_le_mul hle
    rw [hl] at hs
    have hnp : n * (p + 26) ≤ 16 * (p + 26) := Nat.mul_le_mul_right _ hn
    have hU : (2 : ℕ) ^ 60 < USIZE_MAX := by decide
    have hw : min USIZE_MAX (p + 64 + errs.sum) = p + 64 + errs.sum := min_eq_right (by norm_num at hp hU ⊢; omega)
    have hV : ValidP (p + 64 + errs.sum) := by
      refine ⟨by omega, ?_⟩
      unfold precBits
      norm_num at hp ⊢
      omega
    simp only [exprLoop]
    rw [hw]
    cases he : e.eval (p + 64 + errs.sum) emin emax errs 0 with
    | ok r => exact ⟨_, _, rfl, by omega⟩
    | error s =>
      have hil := init_length hT
      have hsum : segSum errs 0 e.init.length = errs.sum := by
        unfold segSum; rw [List.drop_zero, hil, ← hl, List.take_length]
      obtain ⟨id, z, h1, h2, h3, h4⟩ := eval_restart hV (by omega) hT ha (by
        rw [hsum, ← zpow_natCast, ← zpow_add₀ (by norm_num)]
        refine zpow_le_zpow_right₀ (by norm_num) ?_
        have hPw : ((p + 64 + errs.sum : ℕ) : ℤ) ≤ (precBits (p + 64 + errs.sum) : ℤ) := by unfold precBits; omega
        push_cast at hPw ⊢
        omega) he
      have hid : id < errs.length := by omega
      have h5 := sum_set (l := errs) (z := z) hid
      obtain ⟨h6, h7⟩ := eval_error he
      dsimp only
      have hle' : ∀ i ∈ s, i ≤ p + 26 := by
        intro i hi
        rw [h2] at hi
        rcases List.mem_or_eq_of_mem_set hi with h | h
        · exact hle i h
        · omega
      have hs' := sum_le_mul hle'
      rw [h6.trans hl] at hs'
      refine ih s (h6.trans hl) (fun i hi => le_trans (ha i hi) (h7 _)) hle' ?_
      · rw [← h2] at h5
        omega

end AF
