import Verif.Lemmas.RootBounds
import Verif.Lemmas.Cmp
import Verif.Props.C24
/-!
# C39: signum and classification

The claims are false in the code for zero: a zero with a non-empty mantissa is classified as
`Subnormal` (and `is_subnormal` holds for it), and `signum` of a zero is `1` or `-1`
(`C39_classify_refuted`, `C39_signum_refuted`). Everything else is as claimed.
-/

namespace AF

theorem subnormal_iff_small (x : Num) (hx : x.WF) (h0 : (x.toK : ℚ) ≠ 0) :
    x.isSubnormal = true ↔ |(x.toK : ℚ)| < (2 : ℚ) ^ (EMIN - 1) := by
  have hz : x.isZero = false := by
    rw [← Bool.not_eq_true]; exact fun h => h0 (hx.toK_eq_zero.2 h)
  obtain ⟨q, h1, h2, h3, h4⟩ := hx.mag (K := ℚ) hz
  have hn := hx.n_le
  have hp := hx.n_pos hz
  have hm := hx.emin
  rw [Num.isSubnormal_iff]
  constructor
  · intro h
    have := hx.norm hp h
    exact lt_of_lt_of_le h2 (zpow_le_zpow_right₀ (by norm_num) (by omega))
  · intro h
    have h5 := (zpow_lt_zpow_iff_right₀ (by norm_num : (1 : ℚ) < 2)).1 (lt_of_le_of_lt h1 h)
    omega

/-- `classify` on everything but zeros; missing from the full claim: zeros (false). -/
theorem C39_classify_partial (x : BF) (hx : x.WF) (h0 : ∀ v, x = .num v → (v.toK : ℚ) ≠ 0) :
    (x.classify = .nan ↔ ∃ e, x = .nan e) ∧ (x.classify = .infinite ↔ ∃ s, x = .inf s) ∧
    (x.classify = .subnormal ↔ ∃ v, x = .num v ∧ |(v.toK : ℚ)| < (2 : ℚ) ^ (EMIN - 1)) ∧
    (x.classify = .normal ↔ ∃ v, x = .num v ∧ (2 : ℚ) ^ (EMIN - 1) ≤ |(v.toK : ℚ)|) ∧
    x.classify ≠ .zero ∧
    (x.isNan = true ↔ x.classify = .nan) ∧ (x.isInf = true ↔ x.classify = .infinite) ∧
    (x.isSubnormal = true ↔ x.classify = .subnormal) ∧ (x.isZero = true ↔ x.classify = .zero) := by
  cases x with
  | nan e => simp [BF.classify, BF.isNan, BF.isInf, BF.isSubnormal, BF.isZero]
  | inf s => simp [BF.classify, BF.isNan, BF.isInf, BF.isSubnormal, BF.isZero]
  | num v =>
    have hv0 := h0 v rfl
    have hz : v.isZero = false := by
      rw [← Bool.not_eq_true]; exact fun h => hv0 ((show v.WF from hx).toK_eq_zero.2 h)
    have hs := subnormal_iff_small v hx hv0
    by_cases h : v.isSubnormal = true
    · have h2 := hs.1 h
      simp [BF.classify, BF.isNan, BF.isInf, BF.isSubnormal, BF.isZero, h, hz, h2]
    · have h2 : ¬ |(v.toK : ℚ)| < (2 : ℚ) ^ (EMIN - 1) := fun hc => h (hs.2 hc)
      have h3 := not_lt.1 h2
      rw [Bool.not_eq_true] at h
      simp [BF.classify, BF.isNan, BF.isInf, BF.isSubnormal, BF.isZero, h, hz, h3]

/-- A zero is reported as subnormal exactly when its mantissa is not empty. -/
theorem C39_zero_class (x : Num) (hx : x.WF) (h0 : (x.toK : ℚ) = 0) :
    (BF.num x).isZero = true ∧
    (BF.num x).classify = if x.m.m.length = 0 then .zero else .subnormal := by
  have hz := hx.toK_eq_zero.1 h0
  have hn : x.m.n = 0 := by
    rw [hx.bits, Nat.size_eq_zero]; exact hx.isZero_iff.1 hz
  refine ⟨hz, ?_⟩
  unfold BF.classify
  dsimp only
  by_cases hl : x.m.m.length = 0
  · rw [if_pos hl, if_neg (by rw [Num.isSubnormal_iff]; omega), if_pos hz]
  · rw [if_neg hl, if_pos (by rw [Num.isSubnormal_iff]; omega)]

theorem C39_classify_refuted : ¬ ∀ x : Num, x.WF → (x.toK : ℚ) = 0 → (BF.num x).classify = .zero := by
  intro h
  have := h (Num.zero 64 .pos false) (zero_WF (by decide) _ _) (zero_toK _ _ _)
  exact absurd this (by decide)

/-- `1` with the default precision, of either sign. -/
def isOneOf (s : Sign) (r : BF) : Prop := ∃ v, r = .num v ∧ v.WF ∧ (v.toK : ℚ) = s.toK

theorem sig_one : isOneOf .pos (BF.fromU 8 1 DEFAULT_P) := by
  obtain ⟨v, h1, h2, _, h3, _⟩ := fromU_spec (K := ℚ) (sz := 8) (u := 1) (p := DEFAULT_P) (by norm_num)
    (by norm_num) (by norm_num) (by decide) (by decide)
  refine ⟨v, ?_, h2, by rw [h3]; simp [Sign.toK]⟩
  unfold BF.fromU; rw [h1]; rfl

theorem sig_neg_one : isOneOf .neg (BF.fromU 8 1 DEFAULT_P).invSign := by
  obtain ⟨v, h1, h2, _, h3, _⟩ := fromU_spec (K := ℚ) (sz := 8) (u := 1) (p := DEFAULT_P) (by norm_num)
    (by norm_num) (by norm_num) (by decide) (by decide)
  refine ⟨v.invSign, by unfold BF.fromU; rw [h1]; rfl, ?_, ?_⟩
  · unfold Num.invSign
    split <;> exact ⟨h2.1, h2.2, h2.3, h2.4, h2.5, h2.6⟩
  · have hs : v.s = .pos := by
      have h5 := h1
      unfold Num.fromU at h5
      rw [if_neg (by decide)] at h5
      exact fromWord_pos v h5
    unfold Num.invSign Num.isNegative
    rw [hs]
    rw [if_neg (by decide)]
    unfold Num.toK at h3 ⊢
    rw [hs] at h3
    simp only [Num.setSign, Sign.toK] at h3 ⊢
    push_cast at h3 ⊢
    linarith

/-- `signum` on everything but zeros. -/
theorem C39_signum_partial (x : BF) :
    (∀ v, x = .num v → v.WF → (0 < (v.toK : ℚ) → isOneOf .pos x.signum) ∧
      ((v.toK : ℚ) < 0 → isOneOf .neg x.signum)) ∧
    (x = .inf .pos → isOneOf .pos x.signum) ∧ (x = .inf .neg → isOneOf .neg x.signum) ∧
    (∀ e, x = .nan e → x.signum.isNan = true) := by
  refine ⟨?_, ?_, ?_, ?_⟩
  · rintro v rfl hv
    have he := Num.toK_eq (K := ℚ) v
    have ha := abs_nonneg (v.toK : ℚ)
    constructor
    · intro h
      have hs : v.s = .pos := by
        by_contra hc
        have hn : v.s = .neg := by
          cases h : v.s with
          | pos => exact absurd h hc
          | neg => rfl
        rw [hn] at he; simp only [Sign.toK] at he; linarith
      have : (BF.num v).signum = BF.fromU 8 1 DEFAULT_P := by
        simp [BF.signum, BF.isNan, BF.isNegative, Num.isNegative, hs]
      rw [this]; exact sig_one
    · intro h
      have hs : v.s = .neg := by
        by_contra hc
        have hn : v.s = .pos := by
          cases h : v.s with
          | pos => rfl
          | neg => exact absurd h hc
        rw [hn] at he; simp only [Sign.toK] at he; linarith
      have : (BF.num v).signum = (BF.fromU 8 1 DEFAULT_P).invSign := by
        simp [BF.signum, BF.isNan, BF.isNegative, Num.isNegative, hs]
      rw [this]; exact sig_neg_one
  · rintro rfl; exact sig_one
  · rintro rfl; exact sig_neg_one
  · rintro e rfl; rfl

theorem C39_signum_refuted : ¬ ∀ x : Num, x.WF → (x.toK : ℚ) = 0 → (BF.num x).signum.isZero = true := by
  intro h
  have := h (Num.zero 64 .pos false) (zero_WF (by decide) _ _) (zero_toK _ _ _)
  exact absurd this (by decide)

/-- A subnormal number. -/
example : (BF.num exSub).classify = .subnormal := by
  have h := (C39_classify_partial (.num exSub) exSub_WF (by rintro v ⟨⟩; exact exSub_ne)).2.2.1
  rw [h]
  exact ⟨exSub, rfl, (subnormal_iff_small exSub exSub_WF exSub_ne).1 (by decide)⟩

example : isOneOf .neg (BF.num exB).signum :=
  ((C39_signum_partial (.num exB)).1 exB rfl exB_WF).2 (by rw [exB_val]; norm_num)

end AF
