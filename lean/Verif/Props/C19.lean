import Verif.Lemmas.IntPart
import Verif.SpecInt
import Mathlib.Algebra.Order.Archimedean.Basic
/-!
# C19: int, fract, floor and ceil

For mantissas shorter than `2^31` bits (for longer ones `fract` of a number whose fractional part is
below the normal range leaves a wrong bit length).
-/

namespace AF

theorem int_eq (x : Num) (hx : x.WF) : (x.int.toK : ℚ) = truncQ x.toK := by
  obtain ⟨_, h2, _, _, h5⟩ := int_WF_val hx
  rw [Num.toK_eq x.int, h2, h5, ← truncQ_sign _ _ (abs_nonneg _), ← Num.toK_eq]

theorem fract_eq (x : Num) (hx : x.WF) (hl : 64 * x.m.m.length < 2 ^ 31) :
    (x.fract.toK : ℚ) = x.toK - truncQ x.toK := by
  obtain ⟨_, h2, _, _, h5⟩ := fract_WF_val hx hl
  rw [Num.toK_eq x.fract, h2, h5, mul_sub, ← truncQ_sign _ _ (abs_nonneg _), ← Num.toK_eq]

theorem C19_int (x : Num) (hx : x.WF) :
    ∃ v, (BF.num x).int = .num v ∧ v.WF ∧ v.m.m.length = x.m.m.length ∧ v.s = x.s ∧
      (v.toK : ℚ) = truncQ x.toK := by
  obtain ⟨h1, h2, _, h4, _⟩ := int_WF_val hx
  exact ⟨x.int, rfl, h1, h4, h2, int_eq x hx⟩

theorem C19_fract (x : Num) (hx : x.WF) (hl : 64 * x.m.m.length < 2 ^ 31) :
    ∃ v, (BF.num x).fract = .num v ∧ v.WF ∧ v.m.m.length = x.m.m.length ∧ v.s = x.s ∧
      (v.toK : ℚ) = x.toK - truncQ x.toK ∧ |(v.toK : ℚ)| < 1 := by
  obtain ⟨h1, h2, _, h4, h5⟩ := fract_WF_val hx hl
  refine ⟨x.fract, rfl, h1, h4, h2, fract_eq x hx hl, ?_⟩
  rw [h5]
  have := Int.lt_floor_add_one |(x.toK : ℚ)|
  linarith

theorem C19_int_add_fract (x : Num) (hx : x.WF) (hl : 64 * x.m.m.length < 2 ^ 31) :
    ∃ v w, (BF.num x).int = .num v ∧ (BF.num x).fract = .num w ∧ (v.toK : ℚ) + w.toK = x.toK :=
  ⟨x.int, x.fract, rfl, rfl, by rw [int_eq x hx, fract_eq x hx hl]; ring⟩

/-- A nonzero integer that fits is delivered exactly. -/
theorem DeliversBF.integer {rm : RM} {P n : Nat} (hP : 0 < P) {z : ℤ} (hz : z ≠ 0)
    (hb : |(z : ℚ)| ≤ 2 ^ (n : ℤ)) (hn : n < P) (hP' : P < 2 ^ 31) {ix : Bool} {r : BF}
    (h : DeliversBF rm P (z : ℚ) ix r) : ∃ v, r = .num v ∧ v.WF ∧ 64 * v.m.m.length = P ∧ (v.toK : ℚ) = z := by
  have h1 : (2 : ℚ) ^ (0 : ℤ) ≤ |(z : ℚ)| := by
    rw [zpow_zero, ← Int.cast_abs]
    exact_mod_cast Int.one_le_abs hz
  obtain ⟨v, e1, e2, e3⟩ := h.normal (NormalRange.of_bounds hP h1 hb (by decide) (by unfold EMAX; omega))
  refine ⟨v, e1, ?_, e2, ?_⟩
  · rw [e1] at h; exact h.1
  · refine e3.unique hP ?_
    have hab : 0 < |(z : ℚ)| := by linarith [zpow_zero (2 : ℚ)]
    obtain ⟨q, hq1, hq2⟩ := exists_mem_Ico_zpow (x := |(z : ℚ)|) (y := (2 : ℚ)) hab (by norm_num)
    have hqn : q ≤ n := (zpow_le_zpow_iff_right₀ (by norm_num : (1 : ℚ) < 2)).1 (hq1.trans hb)
    right
    refine ⟨q + 1, by rw [add_sub_cancel_right]; exact hq1, hq2, ?_⟩
    obtain ⟨d, hd⟩ : ∃ d : ℕ, q + 1 - (P : ℤ) = -(d : ℤ) := ⟨(P - (q + 1)).toNat, by omega⟩
    rw [hd]
    have h3 := Rounds.self rm (two_zpow_pos (K := ℚ) (-(d : ℤ))) (z * 2 ^ d)
    have h4 : ((z * 2 ^ d : ℤ) : ℚ) * 2 ^ (-(d : ℤ)) = z := by
      rw [zpow_neg, zpow_natCast]; push_cast; field_simp
    rwa [h4] at h3

/-- `int ± 1` when the number has a fractional part. -/
theorem int_step (x : Num) (hx : x.WF) (hl : 64 * x.m.m.length < 2 ^ 31)
    (hf : (x.fract.toK : ℚ) ≠ 0) (op : Op) (hop : op = .add ∨ op = .sub)
    (hne : op.exact (truncQ x.toK : ℚ) 1 ≠ 0) :
    ∃ v, op.apply (.num x.int) (.num Num.ONE) (64 * x.m.m.length) .toZero = .num v ∧ v.WF ∧
      v.m.m.length = x.m.m.length ∧ (v.toK : ℚ) = op.exact (truncQ x.toK : ℚ) 1 := by
  obtain ⟨i1, i2, _, i4, i5⟩ := int_WF_val hx
  have h0 : (x.toK : ℚ) ≠ 0 := by
    intro hc
    apply hf
    rw [fract_eq x hx hl, hc]; simp [truncQ]
  have hlen : 0 < x.m.m.length := by
    rcases Nat.eq_zero_or_pos x.m.m.length with h | h
    · exfalso; apply h0
      apply Num.toK_of_zero
      rw [List.length_eq_zero_iff.1 h]; rfl
    · exact h
  have hP : ValidP (64 * x.m.m.length) := ⟨by omega, by unfold precBits; omega⟩
  have hpb : precBits (64 * x.m.m.length) = 64 * x.m.m.length := by unfold precBits; omega
  -- the exponent is inside the mantissa
  obtain ⟨n, hn1, hn2⟩ : ∃ n : ℕ, n < 64 * x.m.m.length ∧ |(x.toK : ℚ)| < 2 ^ (n : ℤ) := by
    by_cases he : x.e < 64 * x.m.m.length
    · refine ⟨x.e.toNat, by omega, lt_of_lt_of_le hx.abs_lt_zpow (zpow_le_zpow_right₀ (by norm_num) (by omega))⟩
    · exfalso
      apply hf
      have : x.fract = { x with e := 0, m := x.m.setZero } := by
        unfold Num.fract Mantissa.maxBitLen
        rw [if_pos (by omega), if_neg (by omega)]
      rw [this]
      apply Num.toK_of_zero
      simp [Mantissa.setZero, val_replicate_zero]
  have hd : op.Dom (Num.ONE.toK : ℚ) := by rcases hop with rfl | rfl <;> trivial
  have hdel := op.delivers (K := ℚ) i1 ONE_WF hd hP .toZero
  rw [hpb, ONE_toK, int_eq x hx] at hdel
  obtain ⟨z, hz⟩ : ∃ z : ℤ, op.exact (truncQ x.toK : ℚ) 1 = (z : ℚ) := by
    rcases hop with rfl | rfl
    · exact ⟨truncQ x.toK + 1, by simp [Op.exact]⟩
    · exact ⟨truncQ x.toK - 1, by simp [Op.exact]⟩
  rw [hz] at hdel hne ⊢
  have hbound : |(z : ℚ)| ≤ 2 ^ (n : ℤ) := by
    have h1 : |(truncQ x.toK : ℚ)| < 2 ^ (n : ℤ) := by
      rw [← int_eq x hx, i5]
      exact lt_of_le_of_lt (Int.floor_le _) hn2
    rw [zpow_natCast] at h1 ⊢
    have h2 : |truncQ x.toK| < 2 ^ n := by exact_mod_cast h1
    have h3 : |z| ≤ 2 ^ n := by
      have h4 : |z| ≤ |truncQ x.toK| + 1 := by
        rcases hop with rfl | rfl
        · have : z = truncQ x.toK + 1 := by
            have h5 := hz; simp only [Op.exact] at h5
            exact_mod_cast h5.symm
          rw [this]; exact (abs_add_le _ _).trans (by simp)
        · have : z = truncQ x.toK - 1 := by
            have h5 := hz; simp only [Op.exact] at h5
            exact_mod_cast h5.symm
          rw [this]; exact (abs_sub _ _).trans (by simp)
      omega
    exact_mod_cast h3
  obtain ⟨v, v1, v2, v3, v4⟩ := hdel.integer (by omega) (by exact_mod_cast hne) hbound hn1 hl
  exact ⟨v, v1, v2, by omega, v4⟩

theorem fract_zero_iff (x : Num) (hx : x.WF) (hl : 64 * x.m.m.length < 2 ^ 31) :
    x.fract.isZero = true ↔ (x.toK : ℚ) = truncQ x.toK := by
  rw [← (fract_WF_val hx hl).1.toK_eq_zero (K := ℚ), fract_eq x hx hl, sub_eq_zero]

theorem sgn_nonneg {x : Num} (h : x.s = .pos) : (0 : ℚ) ≤ x.toK := by
  rw [Num.toK_eq, h]; simp [Sign.toK]

theorem sgn_nonpos {x : Num} (h : x.s = .neg) : (x.toK : ℚ) ≤ 0 := by
  rw [Num.toK_eq, h]; simp [Sign.toK]

theorem wrap_num_eq {f : Num → Except Err Num} {x : Num} {r : Except Err Num} (h : f x = r) (a b : BF)
    {c d : Bool} {v : Num} (hv : BF.resultToExt r c d = .num v) : BF.wrap (.num x) f a b = .num v := by
  cases r with
  | ok w => simp only [BF.resultToExt] at hv; simp only [BF.wrap, h, BF.resultToExt]; exact hv
  | error e =>
    exfalso; revert hv
    cases e with
    | exponentOverflow s => cases s <;> simp [BF.resultToExt, BF.INF_POS, BF.INF_NEG, Sign.isPos]
    | divisionByZero => cases c <;> cases d <;> simp [BF.resultToExt, BF.NAN, BF.INF_POS, BF.INF_NEG]
    | _ => simp [BF.resultToExt]

theorem C19_floor (x : Num) (hx : x.WF) (hl : 64 * x.m.m.length < 2 ^ 31) :
    ∃ v, (BF.num x).floor = .num v ∧ v.WF ∧ v.m.m.length = x.m.m.length ∧ (v.toK : ℚ) = ⌊(x.toK : ℚ)⌋ := by
  obtain ⟨i1, i2, _, i4, i5⟩ := int_WF_val hx
  have hfz := fract_zero_iff x hx hl
  by_cases hc : (x.isNegative && !x.fract.isZero) = true
  · simp only [Bool.and_eq_true, Bool.not_eq_true'] at hc
    have hs : x.s = .neg := by simpa [Num.isNegative] using hc.1
    have hne : (x.toK : ℚ) ≠ truncQ x.toK := by
      intro h; rw [hfz.2 h] at hc; simp at hc
    have hx0 : (x.toK : ℚ) < 0 := by
      refine lt_of_le_of_ne (sgn_nonpos hs) ?_
      intro h; apply hne; rw [h]; simp [truncQ]
    have ht : truncQ x.toK = ⌈(x.toK : ℚ)⌉ := by unfold truncQ; rw [if_neg (not_le.2 hx0)]
    have hfl : ⌊(x.toK : ℚ)⌋ = truncQ x.toK - 1 := by
      rw [ht, Int.floor_eq_iff]
      push_cast
      have h1 := Int.ceil_lt_add_one (x.toK : ℚ)
      have h2 := Int.le_ceil (x.toK : ℚ)
      rw [ht] at hne
      constructor
      · linarith
      · rw [sub_add_cancel]; exact lt_of_le_of_ne h2 hne
    have hle : truncQ x.toK ≤ 0 := by
      rw [ht]; exact Int.ceil_le.2 (by simpa using hx0.le)
    obtain ⟨v, h1, h2, h3, h4⟩ := int_step x hx hl (by rw [fract_eq x hx hl, sub_ne_zero]; exact hne) .sub
      (Or.inr rfl) (by
        simp only [Op.exact]
        have : (truncQ x.toK : ℚ) ≤ 0 := by exact_mod_cast hle
        linarith)
    refine ⟨v, ?_, h2, h3, by rw [h4, hfl]; simp [Op.exact]⟩
    have h5 : x.int.m.maxBitLen = 64 * x.m.m.length := by unfold Mantissa.maxBitLen; rw [i4]; ring
    have hfe : x.floor = x.int.sub Num.ONE (64 * x.m.m.length) .toZero := by
      unfold Num.floor
      rw [if_pos (by simp [Num.isNegative, hs, hc.2]), h5]
    exact wrap_num_eq hfe _ _ (c := x.int.isZero) (d := x.int.s == Num.ONE.s) h1
  · refine ⟨x.int, ?_, i1, i4, ?_⟩
    · have hfe : x.floor = .ok x.int := by unfold Num.floor; rw [if_neg hc]
      exact wrap_num_eq hfe _ _ (c := false) (d := false) rfl
    · rw [int_eq x hx]
      simp only [Bool.and_eq_true, Bool.not_eq_true', not_and, Bool.not_eq_false] at hc
      cases hs : x.s with
      | pos => unfold truncQ; rw [if_pos (sgn_nonneg hs)]
      | neg =>
        have h := hfz.1 (hc (by simp [Num.isNegative, hs]))
        conv_rhs => rw [h]
        rw [Int.floor_intCast]

theorem C19_ceil (x : Num) (hx : x.WF) (hl : 64 * x.m.m.length < 2 ^ 31) :
    ∃ v, (BF.num x).ceil = .num v ∧ v.WF ∧ v.m.m.length = x.m.m.length ∧ (v.toK : ℚ) = ⌈(x.toK : ℚ)⌉ := by
  obtain ⟨i1, i2, _, i4, i5⟩ := int_WF_val hx
  have hfz := fract_zero_iff x hx hl
  by_cases hc : (x.isPositive && !x.fract.isZero) = true
  · simp only [Bool.and_eq_true, Bool.not_eq_true'] at hc
    have hs : x.s = .pos := by simpa [Num.isPositive] using hc.1
    have hne : (x.toK : ℚ) ≠ truncQ x.toK := by
      intro h; rw [hfz.2 h] at hc; simp at hc
    have hx0 : 0 ≤ (x.toK : ℚ) := sgn_nonneg hs
    have ht : truncQ x.toK = ⌊(x.toK : ℚ)⌋ := by unfold truncQ; rw [if_pos hx0]
    have hfl : ⌈(x.toK : ℚ)⌉ = truncQ x.toK + 1 := by
      rw [ht, Int.ceil_eq_iff]
      push_cast
      have h1 := Int.floor_le (x.toK : ℚ)
      have h2 := Int.lt_floor_add_one (x.toK : ℚ)
      rw [ht] at hne
      constructor
      · rw [add_sub_cancel_right]; exact lt_of_le_of_ne h1 (Ne.symm hne)
      · linarith
    have hle : 0 ≤ truncQ x.toK := by
      rw [ht]; exact Int.floor_nonneg.2 hx0
    obtain ⟨v, h1, h2, h3, h4⟩ := int_step x hx hl (by rw [fract_eq x hx hl, sub_ne_zero]; exact hne) .add
      (Or.inl rfl) (by
        simp only [Op.exact]
        have : (0 : ℚ) ≤ (truncQ x.toK : ℚ) := by exact_mod_cast hle
        linarith)
    refine ⟨v, ?_, h2, h3, by rw [h4, hfl]; simp [Op.exact]⟩
    have h5 : x.int.m.maxBitLen = 64 * x.m.m.length := by unfold Mantissa.maxBitLen; rw [i4]; ring
    have hfe : x.ceil = x.int.add Num.ONE (64 * x.m.m.length) .toZero := by
      unfold Num.ceil
      rw [if_pos (by simp [Num.isPositive, hs, hc.2]), h5]
    exact wrap_num_eq hfe _ _ (c := x.int.isZero) (d := x.int.s == Num.ONE.s) h1
  · refine ⟨x.int, ?_, i1, i4, ?_⟩
    · have hfe : x.ceil = .ok x.int := by unfold Num.ceil; rw [if_neg hc]
      exact wrap_num_eq hfe _ _ (c := false) (d := false) rfl
    · rw [int_eq x hx]
      simp only [Bool.and_eq_true, Bool.not_eq_true', not_and, Bool.not_eq_false] at hc
      cases hs : x.s with
      | neg =>
        unfold truncQ
        by_cases h0 : (0 : ℚ) ≤ x.toK
        · have : (x.toK : ℚ) = 0 := le_antisymm (sgn_nonpos hs) h0
          rw [this]; simp
        · rw [if_neg h0]
      | pos =>
        have h := hfz.1 (hc (by simp [Num.isPositive, hs]))
        conv_rhs => rw [h]
        rw [Int.ceil_intCast]

/-- About `-1/8`: the integer part is `0`, the floor `-1`. -/
example : ∃ v, (BF.num exB).floor = .num v ∧ v.WF ∧ v.m.m.length = exB.m.m.length ∧
    (v.toK : ℚ) = ⌊(exB.toK : ℚ)⌋ := C19_floor exB exB_WF (by decide)

example : ⌊(exB.toK : ℚ)⌋ = -1 := by rw [exB_val, Int.floor_eq_iff]; norm_num

example : ∃ v w, (BF.num exA).int = .num v ∧ (BF.num exA).fract = .num w ∧ (v.toK : ℚ) + w.toK = exA.toK :=
  C19_int_add_fract exA exA_WF (by decide)

end AF
