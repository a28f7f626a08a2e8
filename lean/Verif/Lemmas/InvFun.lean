import Verif.Lemmas.InvStep
import Verif.Lemmas.TruncLoop
import Verif.Lemmas.AtanhFun
/-!
# The values of `asinh` and `acosh`
-/

namespace AF

open Num

set_option linter.unusedSectionVars false

variable {x : Num}

/-! ## Signs -/

theorem Rounds.neg {K : Type*} [Field K] [LinearOrder K] [IsStrictOrderedRing K] {rm : RM} {x u r : K}
    (h : Rounds (invertRm rm) x u r) : Rounds rm (-x) u (-r) := by
  obtain ⟨k, h1, h2⟩ := h
  refine ⟨-k, by rw [h1]; push_cast; ring, ?_⟩
  have e : |(-x) - (-r)| = |x - r| := by rw [← abs_neg]; congr 1; ring
  cases rm <;> simp only [invertRm] at h2 ⊢
  case up => exact ⟨by linarith [h2.1], by linarith [h2.2]⟩
  case down => exact ⟨by linarith [h2.1], by linarith [h2.2]⟩
  case toEven => rw [e, even_neg]; exact h2
  case toOdd => rw [e, odd_neg]; exact h2
  all_goals rw [abs_neg, abs_neg, neg_mul_neg]; exact h2

theorem RoundsFmt.neg {K : Type*} [Field K] [LinearOrder K] [IsStrictOrderedRing K] {rm : RM} {P : Nat} {x r : K}
    (h : RoundsFmt (invertRm rm) P x r) : RoundsFmt rm P (-x) (-r) := by
  rcases h with ⟨h1, h2⟩ | ⟨q, q1, q2, q3⟩
  · exact Or.inl ⟨by rw [h1, neg_zero], by rw [h2, neg_zero]⟩
  · exact Or.inr ⟨q, by rw [abs_neg]; exact q1, by rw [abs_neg]; exact q2, q3.neg⟩

/-- The value of an odd function at a negative argument. -/
theorem FunRounded.flip {rm : RM} {P : Nat} {y : ℝ} {v : Num} (hy : 0 < y) (s : Sign)
    (h : FunRounded (if s = .neg then invertRm rm else rm) P y v) : FunRounded rm P (s.toK * y) (v.setSign s) := by
  have hv : 0 ≤ (v.toK : ℝ) := by
    rw [Num.toK_eq, h.pos hy]
    simp [Sign.toK]
  have ht : ((v.setSign s).toK : ℝ) = s.toK * v.toK := by rw [setSign_toK, abs_of_nonneg hv]
  have hw : (v.setSign s).WF := ⟨h.wf.wf, h.wf.bits, h.wf.emin, h.wf.emax, h.wf.norm, h.wf.sized⟩
  cases s with
  | pos =>
    rw [if_neg (by simp)] at h
    simp only [Sign.toK, one_mul] at ht ⊢
    exact ⟨hw, h.prec, fun _ => rfl, fun h' => by linarith, h.inexact, by rw [ht]; exact h.directed, by rw [ht]; exact h.nearest,
      by rw [ht]; exact h.none⟩
  | neg =>
    rw [if_pos rfl] at h
    simp only [Sign.toK, neg_mul, one_mul] at ht ⊢
    have e : |(-(v.toK : ℝ)) - (-y)| = |v.toK - y| := by rw [← abs_neg]; congr 1; ring
    refine ⟨hw, h.prec, fun h' => by linarith, fun _ => rfl, h.inexact, ?_, ?_, ?_⟩
    · intro hr
      rw [ht]
      refine RoundsFmt.neg (h.directed ?_)
      rcases hr with rfl | rfl | rfl | rfl <;> simp [invertRm]
    · intro hr
      rw [ht, e, abs_neg]
      refine h.nearest ?_
      rcases hr with rfl | rfl <;> simp [invertRm]
    · rintro rfl
      rw [ht, e, abs_neg]
      exact h.none rfl

theorem sign_arsinh (x : Num) : Real.arsinh (x.toK : ℝ) = x.s.toK * Real.arsinh |(x.toK : ℝ)| := by
  have h := Num.toK_eq (K := ℝ) x
  cases hs : x.s <;> rw [hs] at h <;> simp only [Sign.toK, one_mul, neg_mul] at h ⊢
  · rw [← Real.arsinh_neg, ← h]
  · rw [← h]

theorem asinh_small {x : Num} (hx : x.WF) (hz : x.isZero = false) (hlo : EMIN + 2 ≤ x.e) {pw : Nat} (hp : 0 < pw)
    (he : ((max (64 * pw) (64 * x.m.m.length) : ℕ) : ℤ) + 1 < -(x.e * 2 - 2)) (rm : RM) :
    ∃ v, x.smallExp true (64 * pw) rm = .ok v ∧ RoundsFmt rm (64 * pw) (Real.arsinh x.toK) v.toK ∧
      FunRounded rm (64 * pw) (Real.arsinh x.toK) v := by
  have hem := hx.emin
  have hE : EMIN = -2 ^ 31 := rfl
  have hEX : EMAX = 2 ^ 31 - 1 := rfl
  have hPM : PMAX = 2 ^ 62 - 2 ^ 31 - 1 := rfl
  obtain ⟨q, q1, q2, q3, -⟩ := hx.mag (K := ℝ) hz
  have hqe : q = x.e := by omega
  rw [hqe] at q1 q2
  obtain ⟨X, hX⟩ : ∃ X, X = |(x.toK : ℝ)| := ⟨_, rfl⟩
  rw [← hX] at q1 q2
  have hX0 : 0 < X := lt_of_lt_of_le (by positivity) q1
  obtain ⟨G, hG⟩ : ∃ G, G = max (64 * pw) (64 * x.m.m.length) := ⟨_, rfl⟩
  rw [← hG] at he
  have hX1 : X ≤ 1 / 2 := by
    refine le_trans q2.le ?_
    rw [show (1 / 2 : ℝ) = 2 ^ (-1 : ℤ) by norm_num]
    exact zpow_le_zpow_right₀ (by norm_num) (by omega)
  obtain ⟨c1, c2⟩ := arsinh_cube hX0 hX1
  obtain ⟨k, hk⟩ := x.toK_grid (G := G) (by omega)
  have hcube : X ^ 3 / 4 < 2 ^ (x.e - (G : ℤ) - 2) := by
    have h3 : X ^ 3 < ((2 : ℝ) ^ x.e) ^ 3 := pow_lt_pow_left₀ q2 hX0.le (by norm_num)
    have h4 : ((2 : ℝ) ^ x.e) ^ 3 ≤ 2 ^ (x.e - (G : ℤ)) := by
      rw [← zpow_natCast, ← zpow_mul]
      exact zpow_le_zpow_right₀ (by norm_num) (by push_cast; omega)
    rw [zpow_sub₀ (by norm_num) _ 2, show (2 : ℝ) ^ (2 : ℤ) = 4 by norm_num]
    exact div_lt_div_of_pos_right (lt_of_lt_of_le h3 h4) (by norm_num)
  have hsx : Real.arsinh (x.toK : ℝ) = x.toK + (corrSign x true).toK * (X - Real.arsinh X) := by
    have : corrSign x true = x.s.invert := rfl
    rw [this, sign_arsinh, ← hX]
    have h6 := Num.toK_eq (K := ℝ) x
    rw [← hX] at h6
    rw [h6]
    cases x.s <;> simp only [Sign.invert, Sign.toK] <;> ring
  obtain ⟨v, v1, v2, v3, v4, v5, v6⟩ := smallExp_rounds hx hz hlo (by omega) hp (by omega) (by omega) true rm
    (G := G) (by omega) (by omega) hk c1 (lt_trans c2 hcube) hsx
  have hT : 0 < Real.arsinh X := by
    have h3 : X ^ 3 / 4 < X := by
      have h2 : X ^ 2 ≤ 1 := pow_le_one₀ hX0.le (by linarith)
      have : X ^ 3 = X * X ^ 2 := by ring
      nlinarith
    linarith
  have hTl : X / 2 ≤ Real.arsinh X := by
    have h2 : X ^ 2 ≤ 1 := pow_le_one₀ hX0.le (by linarith)
    have : X ^ 3 = X * X ^ 2 := by ring
    nlinarith
  have haT : |Real.arsinh (x.toK : ℝ)| = Real.arsinh X := by
    rw [sign_arsinh, ← hX]
    cases x.s <;> simp [Sign.toK, abs_of_pos hT]
  refine ⟨v, v1, v6, ?_⟩
  refine FunRounded.of_fmt ?_ v2 (by rw [v3]) ?_ ?_ v5 v6
  · rw [haT]
    refine le_trans ?_ hTl
    have : (2 : ℝ) ^ (x.e - 2) ≤ X / 2 := by
      rw [show x.e - 2 = x.e - 1 - 1 by ring, zpow_sub₀ (by norm_num) _ 1, zpow_one]
      exact div_le_div_of_nonneg_right q1 (by norm_num)
    refine le_trans (zpow_le_zpow_right₀ (by norm_num) ?_) this
    omega
  · intro h
    rw [v4]
    rw [sign_arsinh, ← hX] at h
    cases hxs : x.s
    · rw [hxs] at h; simp only [Sign.toK] at h; linarith
    · rfl
  · intro h
    rw [v4]
    rw [sign_arsinh, ← hX] at h
    cases hxs : x.s
    · rfl
    · rw [hxs] at h; simp only [Sign.toK] at h; linarith

/-! ## asinh -/

theorem invertRm_directed {s : Sign} {rm : RM} {P g : Nat} {y : ℝ}
    (h : rm = .none ∨ rm.directed = true ∧ ¬ NearGrid P g y) :
    (if s = .neg then invertRm rm else rm) = .none ∨ (if s = .neg then invertRm rm else rm).directed = true ∧ ¬ NearGrid P g y := by
  cases s <;> cases rm <;> simpa [invertRm, RM.directed] using h

theorem isNegative_if {α : Type} (x : Num) (a b : α) : (if x.isNegative = true then a else b) = if x.s = .neg then a else b := by
  unfold Num.isNegative
  cases x.s <;> rfl

/-- The argument of a round of `asinh`. -/
def asinhArg (x : Num) : Num := ({ x with inexact := false } : Num).setSign .pos

theorem asinhArg_WF (hx : x.WF) : (asinhArg x).WF := ⟨hx.wf, hx.bits, hx.emin, hx.emax, hx.norm, hx.sized⟩

theorem asinhArg_toK (x : Num) : ((asinhArg x).toK : ℝ) = |(x.toK : ℝ)| := by
  unfold asinhArg
  rw [setSign_toK]
  simp only [Sign.toK, one_mul]
  rfl

theorem abs_arsinh (x : Num) : |Real.arsinh (x.toK : ℝ)| = Real.arsinh |(x.toK : ℝ)| := by
  rw [sign_arsinh, abs_toK, abs_of_nonneg (Real.arsinh_nonneg_iff.2 (abs_nonneg _))]

theorem arsinh_midRange {X : ℝ} (hX : 0 < X) {N : Nat} (hN : N ≤ 2 ^ 18) (h1 : (2 : ℝ) ^ (-(N : ℤ)) ≤ X) (h2 : X ≤ 2 ^ EMAX) :
    MidRange (Real.arsinh X) := by
  refine inv_midRange (N := N + 1) (by omega) ?_ (by rw [arsinh_eq_log]; exact inv_log_le hX h2 le_rfl)
  refine le_trans ?_ (arsinh_ge hX)
  rw [le_div_iff₀ (by norm_num), ← zpow_add_one₀ (by norm_num), le_min_iff]
  constructor
  · exact le_trans (zpow_le_zpow_right₀ (by norm_num) (by push_cast; omega)) h1
  · exact zpow_le_one_of_nonpos₀ (by norm_num) (by push_cast; omega)

/-- What a round of `asinh` finds. -/
theorem asinhStep_try (hx : x.WF) (hz : x.isZero = false) {pw w f : Nat} (hpw : 0 < pw) (hlt : 64 * pw < PMAX)
    (hw1 : max (64 * pw) (64 * x.m.m.length) + 64 ≤ w) (hw64 : 64 ∣ w) (hW : w ≤ 2 ^ 14) (he : -(w : ℤ) ≤ x.e) (rm : RM)
    {c : Ln2Cache} (hc : Ln2Ok c) :
    ∃ o c', (asinhArg x).invStep true (x.e.natAbs + 5) (f + 1) w c = some (o, c') ∧ Ln2Ok c' ∧
      StepTry rm pw (Real.arsinh |(x.toK : ℝ)|) w o := by
  have hE : EMIN = -2 ^ 31 := rfl
  have hx0 : 0 < |(x.toK : ℝ)| := by
    rw [abs_pos, Ne, hx.toK_eq_zero, hz]; exact Bool.false_ne_true
  obtain ⟨q, q1, q2, q3, -⟩ := hx.mag (K := ℝ) hz
  have hqe : q = x.e := by omega
  rw [hqe] at q1 q2
  have hmid : MidRange (Real.arsinh |(x.toK : ℝ)|) := arsinh_midRange hx0 (N := w + 1) (by omega)
    (le_trans (zpow_le_zpow_right₀ (by norm_num) (by push_cast; omega)) q1)
    (le_trans q2.le (zpow_le_zpow_right₀ (by norm_num) hx.emax))
  obtain ⟨t, c', b1, b2, b3⟩ := asinhStep_spec (asinhArg_WF hx) (show (asinhArg x).isZero = false from hz) (asinhArg_toK x) hx0 (f := f)
    (by omega : 128 ≤ w) hw64 (show 64 * x.m.m.length ≤ w by omega) hW he hc
  refine ⟨.tst t, c', b1, b2, ?_⟩
  rcases b3 with b3 | b3
  · exact b3.tryOk hmid hpw hlt (by omega) hw64 rm
  · exact b3.tryOk hmid hpw hlt (by omega) hw64 rm

theorem asinh_spec (hx : x.WF) (hz : x.isZero = false) {p : Nat} (hp : ValidP p)
    (rm : RM) {f : Nat} {c c' : Ln2Cache} (hc : Ln2Ok c) {r : Except Err Num} {w : Nat}
    (h : x.asinh p rm f c = some (r, c', w)) (hw : w ≤ 2 ^ 14) :
    Ln2Ok c' ∧ (EMIN + 2 ≤ x.e → ∃ v, r = .ok v ∧ FunRounded rm (precBits p) (Real.arsinh x.toK) v) := by
  have hmb : x.m.maxBitLen = 64 * x.m.m.length := by unfold Mantissa.maxBitLen; omega
  have hp0 := hp.pos
  have hlt := hp.lt
  obtain ⟨pw, hpw⟩ : ∃ pw, precBits p = 64 * pw := ⟨(p + 63) / 64, rfl⟩
  have hpw0 : 0 < pw := by unfold precBits at hpw; omega
  unfold Num.asinh at h
  rw [hp.roundP] at h
  dsimp only at h
  rw [hz, if_neg Bool.false_ne_true, hmb, isNegative_if] at h
  rw [hpw] at h hlt ⊢
  by_cases hs : ((max (64 * pw) (64 * x.m.m.length) : ℕ) : ℤ) + 1 < -(x.e * 2 - 2)
  · rw [if_pos hs] at h
    injection h with h
    injection h with h h'
    injection h' with h' h''
    rw [← h, ← h']
    refine ⟨hc, fun hlo => ?_⟩
    obtain ⟨v, v1, v2, v3⟩ := asinh_small hx hz hlo hpw0 hs rm
    exact ⟨v, v1, v3⟩
  · rw [if_neg hs] at h
    obtain ⟨rm', hrm'⟩ : ∃ rm', rm' = if x.s = .neg then invertRm rm else rm := ⟨_, rfl⟩
    rw [← hrm'] at h
    have main : ∀ r' s' w', roundLoop ((asinhArg x).invStep true (x.e.natAbs + 5) f) (64 * pw) rm' x.inexact f 64
          (max (64 * pw) (64 * x.m.m.length) + 64) c = some (r', s', w') → w' ≤ 2 ^ 14 →
        Ln2Ok s' ∧ ∃ v, r' = .ok v ∧ FunRounded rm' (64 * pw) (Real.arsinh |(x.toK : ℝ)|) v := by
      intro r' s' w' hl hw'
      have hge := roundLoop_ge hl
      cases f with
      | zero => simp [roundLoop] at hl
      | succ f =>
        have hR := roundLoop_try (Inv := fun _ s => Ln2Ok s) (W := 2 ^ 14)
          (w0 := max (64 * pw) (64 * x.m.m.length) + 64) (rm := rm') (pw := pw) (by
            intro w s o s' hd hw1 hw2 hi hst
            obtain ⟨o', c1, a1, a2, a3⟩ := asinhStep_try hx hz (f := f) hpw0 hlt hw1 hd hw2 (by omega) rm' hi
            rw [a1] at hst
            injection hst with hst
            injection hst with hst1 hst2
            rw [← hst1, ← hst2]
            exact ⟨fun _ _ => a2, a3⟩) hc (by omega) (by norm_num) (by norm_num) le_rfl hl hw' (by norm_num)
        exact ⟨hR.1 _ le_rfl, hR.2⟩
    change (match roundLoop ((asinhArg x).invStep true (x.e.natAbs + 5) f) (64 * pw) rm' x.inexact f 64
          (max (64 * pw) (64 * x.m.m.length) + 64) c with
      | none => none
      | some (.error e, c, w) => some (.error e, c, w)
      | some (.ok r, c, w) => some (.ok (r.setSign x.s), c, w)) = some (r, c', w) at h
    split at h
    · cases h
    · rename_i e1 c1 w1 hl
      injection h with h
      injection h with h h'
      injection h' with h' h''
      obtain ⟨-, v, v1, -⟩ := main _ _ _ hl (by omega)
      cases v1
    · rename_i r1 c1 w1 hl
      injection h with h
      injection h with h h'
      injection h' with h' h''
      obtain ⟨m1, v, v1, v2⟩ := main _ _ _ hl (by omega)
      rw [← h, ← h']
      refine ⟨m1, fun _ => ⟨r1.setSign x.s, rfl, ?_⟩⟩
      injection v1 with v1
      rw [← v1] at v2
      rw [sign_arsinh]
      have hx0 : 0 < |(x.toK : ℝ)| := by
        rw [abs_pos, Ne, hx.toK_eq_zero, hz]; exact Bool.false_ne_true
      refine FunRounded.flip (Real.arsinh_pos_iff.2 hx0) x.s ?_
      rw [← hrm']
      exact v2

theorem asinh_number (hx : x.WF) (hz : x.isZero = false) {p : Nat} (hp : ValidP p)
    {rm : RM} {f : Nat} {c : Ln2Cache} (hc : Ln2Ok c) (hw : max (precBits p) (64 * x.m.m.length) + 64 ≤ 2 ^ 14)
    (hr : rm = .none ∨ rm.directed = true ∧ ¬ NearGrid (precBits p) 61 |Real.arsinh x.toK|) :
    ∃ r c' w, x.asinh p rm (f + 1) c = some (r, c', w) ∧ w ≤ 2 ^ 14 := by
  have hmb : x.m.maxBitLen = 64 * x.m.m.length := by unfold Mantissa.maxBitLen; omega
  have hp0 := hp.pos
  have hlt := hp.lt
  obtain ⟨pw, hpw⟩ : ∃ pw, precBits p = 64 * pw := ⟨(p + 63) / 64, rfl⟩
  have hpw0 : 0 < pw := by unfold precBits at hpw; omega
  unfold Num.asinh
  rw [hp.roundP]
  dsimp only
  rw [hz, if_neg Bool.false_ne_true, hmb, isNegative_if]
  rw [hpw] at hlt hw hr ⊢
  by_cases hs : ((max (64 * pw) (64 * x.m.m.length) : ℕ) : ℤ) + 1 < -(x.e * 2 - 2)
  · rw [if_pos hs]
    exact ⟨_, _, _, rfl, by norm_num⟩
  · rw [if_neg hs]
    rw [abs_arsinh, ← abs_of_nonneg (Real.arsinh_nonneg_iff.2 (abs_nonneg (x.toK : ℝ)))] at hr
    obtain ⟨o, c1, a1, a2, a3⟩ := asinhStep_try hx hz (f := f) (w := max (64 * pw) (64 * x.m.m.length) + 64) hpw0 hlt le_rfl
      (by omega) hw (by omega) (if x.s = .neg then invertRm rm else rm) hc
    obtain ⟨r, hr⟩ := roundLoop_try_number (ix := x.inexact) a1 a3 (invertRm_directed hr) f 64
    unfold asinhArg at hr
    rw [hr]
    cases r with
    | error e => exact ⟨_, _, _, rfl, hw⟩
    | ok r => exact ⟨_, _, _, rfl, hw⟩

/-! ## acosh -/

theorem cmpOk_one (x : Num) : CmpOk x ONE := Or.inr (Or.inl (by rw [ONE_toK]; norm_num))

theorem cmp_one_real (hx : x.WF) : (x.cmp ONE = 0 ↔ (x.toK : ℝ) = 1) ∧ (x.cmp ONE < 0 ↔ (x.toK : ℝ) < 1) := by
  have h1 := cmp_eq_zero hx ONE_WF (cmpOk_one x)
  have h2 := (cmp_spec hx ONE_WF (cmpOk_one x)).2
  rw [ONE_toK] at h1 h2
  rw [h1, h2, ← toK_ratCast x]
  constructor
  · norm_cast
  · norm_cast

/-- The bits counted near 1. -/
theorem acosh_bits (hx : x.WF) (h1 : 1 < (x.toK : ℝ)) :
    (if x.e = 1 then countLeadingZeroesSkipFirst x.m.m else 0) ≤ 64 * x.m.m.length ∧
      (2 : ℝ) ^ (-((if x.e = 1 then countLeadingZeroesSkipFirst x.m.m else 0 : ℕ) : ℤ)) ≤ x.toK - 1 := by
  have hE : EMIN = -2 ^ 31 := rfl
  have hz : x.isZero = false := by
    rw [← Bool.not_eq_true, ← hx.toK_eq_zero (K := ℝ)]; linarith
  obtain ⟨q, q1, q2, q3, -⟩ := hx.mag (K := ℝ) hz
  rw [abs_of_pos (by linarith)] at q1 q2
  have hq0 : 0 < q := by
    by_contra h
    have : (2 : ℝ) ^ q ≤ 1 := zpow_le_one_of_nonpos₀ (by norm_num) (by omega)
    linarith
  have hqe : q = x.e := by omega
  rw [hqe] at q1 q2 hq0
  by_cases he : x.e = 1
  · rw [if_pos he]
    have hL : 0 < x.m.m.length := by
      have := hx.n_pos hz
      have := hx.n_le
      omega
    have hn : x.m.n = 64 * x.m.m.length := by
      by_contra h
      have := hx.norm (hx.n_pos hz) (lt_of_le_of_ne hx.n_le h)
      omega
    have hval : (x.toK : ℝ) = val x.m.m * 2 ^ (1 - ((64 * x.m.m.length : ℕ) : ℤ)) := by
      rw [← abs_of_pos (show (0 : ℝ) < x.toK by linarith), Num.abs_val, he]
    have hMSB : 2 ^ (64 * x.m.m.length - 1) ≤ val x.m.m := by
      rw [← Nat.lt_size, ← hx.bits]; omega
    have hpow : (2 : ℝ) ^ (64 * x.m.m.length - 1) * 2 ^ (1 - ((64 * x.m.m.length : ℕ) : ℤ)) = 1 := by
      rw [← zpow_natCast, ← zpow_add₀ (by norm_num)]
      convert zpow_zero (2 : ℝ) using 2
      omega
    have hne : val x.m.m ≠ 2 ^ (64 * x.m.m.length - 1) := by
      intro h
      rw [hval, h] at h1
      push_cast at h1
      push_cast at hpow
      rw [hpow] at h1
      exact lt_irrefl _ h1
    have hltv := val_lt_two_pow hx.wf
    have hdbl : 2 ^ (64 * x.m.m.length) = 2 * 2 ^ (64 * x.m.m.length - 1) := by rw [← pow_succ']; congr 1; omega
    have hc : countLeadingZeroesSkipFirst x.m.m ≠ 64 * x.m.m.length := by
      rw [clzSkip_spec hx.wf hL, Nat.mod_eq_sub_mod hMSB, Nat.mod_eq_of_lt (by omega)]
      omega
    obtain ⟨c1, c2, c3⟩ := clzSkip_mag hx.wf hL hMSB hc
    refine ⟨c3, ?_⟩
    obtain ⟨z, hz⟩ : ∃ z, z = countLeadingZeroesSkipFirst x.m.m := ⟨_, rfl⟩
    rw [← hz] at c1 ⊢
    rw [hdbl] at c1
    have c1' : 2 ^ (64 * x.m.m.length - 1) ≤ (val x.m.m - 2 ^ (64 * x.m.m.length - 1)) * 2 ^ z := by omega
    have c2 : ((2 ^ (64 * x.m.m.length - 1) : ℕ) : ℝ) ≤ (((val x.m.m - 2 ^ (64 * x.m.m.length - 1)) * 2 ^ z : ℕ) : ℝ) := by
      exact_mod_cast c1'
    rw [Nat.cast_mul, Nat.cast_sub hMSB] at c2
    push_cast at c2
    obtain ⟨u, hu⟩ : ∃ u : ℝ, u = 2 ^ (1 - ((64 * x.m.m.length : ℕ) : ℤ)) := ⟨_, rfl⟩
    rw [← hu] at hval hpow
    have hu0 : 0 < u := by rw [hu]; positivity
    have c3 := mul_le_mul_of_nonneg_right c2 hu0.le
    rw [hpow] at c3
    rw [zpow_neg, zpow_natCast, hval, inv_le_iff_one_le_mul₀ (by positivity)]
    calc (1 : ℝ) ≤ _ := c3
      _ = (val x.m.m * u - 2 ^ (64 * x.m.m.length - 1) * u) * 2 ^ z := by ring
      _ = (val x.m.m * u - 1) * 2 ^ z := by rw [hpow]
  · rw [if_neg he]
    refine ⟨Nat.zero_le _, ?_⟩
    have : (2 : ℝ) ^ (1 : ℤ) ≤ 2 ^ (x.e - 1) := zpow_le_zpow_right₀ (by norm_num) (by omega)
    norm_num at this ⊢
    linarith

theorem arcosh_midRange {X : ℝ} (hX : 1 < X) {z : Nat} (hN : z ≤ 2 ^ 18) (h1 : (2 : ℝ) ^ (-(z : ℤ)) ≤ X - 1) (h2 : X ≤ 2 ^ EMAX) :
    MidRange (Real.arcosh X) := by
  refine inv_midRange (N := z + 1) (by omega) ?_ (by
    rw [arcosh_eq_log, sub_eq_add_neg]; exact inv_log_le (by linarith) h2 (by norm_num))
  have hZ0 : (0 : ℝ) < 2 ^ (-(z : ℤ)) := by positivity
  have hZ1 : (2 : ℝ) ^ (-(z : ℤ)) ≤ 1 := zpow_le_one_of_nonpos₀ (by norm_num) (by omega)
  rw [show -((z + 1 : ℕ) : ℤ) = -(z : ℤ) - 1 by push_cast; ring, zpow_sub₀ (by norm_num), zpow_one]
  obtain ⟨Z, hZ⟩ : ∃ Z : ℝ, Z = 2 ^ (-(z : ℤ)) := ⟨_, rfl⟩
  rw [← hZ] at h1 hZ0 hZ1 ⊢
  have hT : 0 < X * X - 1 := by nlinarith
  rw [arcosh_eq_log, log_root_sub hX.le]
  refine le_trans ?_ (arsinh_ge (Real.sqrt_pos.2 hT))
  refine div_le_div_of_nonneg_right ?_ (by norm_num)
  rw [le_min_iff]
  refine ⟨?_, hZ1⟩
  rw [Real.le_sqrt hZ0.le hT.le]
  nlinarith

/-- What a round of `acosh` finds. -/
theorem acoshStep_try (hx : x.WF) (h1 : 1 < (x.toK : ℝ)) {pw w f : Nat} (hpw : 0 < pw) (hlt : 64 * pw < PMAX)
    (hw1 : max (64 * pw) (64 * x.m.m.length) + 64 ≤ w) (hw64 : 64 ∣ w) (hW : w ≤ 2 ^ 14) (rm : RM)
    {c : Ln2Cache} (hc : Ln2Ok c) :
    ∃ o c', ({ x with inexact := false } : Num).invStep false (6 + if x.e = 1 then countLeadingZeroesSkipFirst x.m.m else 0) (f + 1) w c =
      some (o, c') ∧ Ln2Ok c' ∧ StepTry rm pw (Real.arcosh (x.toK : ℝ)) w o := by
  have hz : x.isZero = false := by
    rw [← Bool.not_eq_true, ← hx.toK_eq_zero (K := ℝ)]; linarith
  obtain ⟨z1, z2⟩ := acosh_bits hx h1
  obtain ⟨z, hzz⟩ : ∃ z, z = if x.e = 1 then countLeadingZeroesSkipFirst x.m.m else 0 := ⟨_, rfl⟩
  rw [← hzz] at z1 z2 ⊢
  have hlt2 := hx.abs_lt_zpow (K := ℝ)
  have hmid : MidRange (Real.arcosh (x.toK : ℝ)) := arcosh_midRange h1 (by omega) z2
    (le_trans (le_trans (le_abs_self _) hlt2.le) (zpow_le_zpow_right₀ (by norm_num) hx.emax))
  have hx' : ({ x with inexact := false } : Num).WF := ⟨hx.wf, hx.bits, hx.emin, hx.emax, hx.norm, hx.sized⟩
  obtain ⟨t, c', b1, b2, b3⟩ := acoshStep_spec hx' hz (X := (x.toK : ℝ)) rfl h1 (f := f)
    (by omega : 128 ≤ w) hw64 (show 64 * x.m.m.length ≤ w by omega) hW (by omega : z ≤ w) z2 hc
  refine ⟨.tst t, c', b1, b2, ?_⟩
  rcases b3 with b3 | b3
  · exact b3.tryOk hmid hpw hlt (by omega) hw64 rm
  · exact b3.tryOk hmid hpw hlt (by omega) hw64 rm

theorem acosh_spec (hx : x.WF) (h1 : 1 < (x.toK : ℝ)) {p : Nat} (hp : ValidP p)
    (rm : RM) {f : Nat} {c c' : Ln2Cache} (hc : Ln2Ok c) {r : Except Err Num} {w : Nat}
    (h : x.acosh p rm f c = some (r, c', w)) (hw : w ≤ 2 ^ 14) :
    Ln2Ok c' ∧ ∃ v, r = .ok v ∧ FunRounded rm (precBits p) (Real.arcosh x.toK) v := by
  have hmb : x.m.maxBitLen = 64 * x.m.m.length := by unfold Mantissa.maxBitLen; omega
  have hp0 := hp.pos
  have hlt := hp.lt
  obtain ⟨pw, hpw⟩ : ∃ pw, precBits p = 64 * pw := ⟨(p + 63) / 64, rfl⟩
  have hpw0 : 0 < pw := by unfold precBits at hpw; omega
  obtain ⟨o1, o2⟩ := cmp_one_real hx
  unfold Num.acosh at h
  rw [hp.roundP] at h
  dsimp only at h
  rw [if_neg (by rw [o1]; linarith), if_neg (by rw [o2]; linarith), hmb] at h
  rw [hpw] at h hlt ⊢
  have hge := roundLoop_ge h
  cases f with
  | zero => simp [roundLoop] at h
  | succ f =>
    have hR := roundLoop_try (Inv := fun _ s => Ln2Ok s) (W := 2 ^ 14) (y := Real.arcosh (x.toK : ℝ))
      (w0 := max (64 * pw) (64 * x.m.m.length) + 64) (rm := rm) (pw := pw) (by
        intro w s o s' hd hw1 hw2 hi hst
        obtain ⟨o', c1, a1, a2, a3⟩ := acoshStep_try hx h1 (f := f) hpw0 hlt hw1 hd hw2 rm hi
        rw [a1] at hst
        injection hst with hst
        injection hst with hst1 hst2
        rw [← hst1, ← hst2]
        exact ⟨fun _ _ => a2, a3⟩) hc (by omega) (by norm_num) (by norm_num) le_rfl h hw (by norm_num)
    exact ⟨hR.1 _ le_rfl, hR.2⟩

theorem acosh_number (hx : x.WF) (h1 : 1 < (x.toK : ℝ)) {p : Nat} (hp : ValidP p)
    {rm : RM} {f : Nat} {c : Ln2Cache} (hc : Ln2Ok c) (hw : max (precBits p) (64 * x.m.m.length) + 64 ≤ 2 ^ 14)
    (hr : rm = .none ∨ rm.directed = true ∧ ¬ NearGrid (precBits p) 61 |Real.arcosh x.toK|) :
    ∃ r c' w, x.acosh p rm (f + 1) c = some (r, c', w) ∧ w ≤ 2 ^ 14 := by
  have hmb : x.m.maxBitLen = 64 * x.m.m.length := by unfold Mantissa.maxBitLen; omega
  have hp0 := hp.pos
  have hlt := hp.lt
  obtain ⟨pw, hpw⟩ : ∃ pw, precBits p = 64 * pw := ⟨(p + 63) / 64, rfl⟩
  have hpw0 : 0 < pw := by unfold precBits at hpw; omega
  obtain ⟨o1, o2⟩ := cmp_one_real hx
  unfold Num.acosh
  rw [hp.roundP]
  dsimp only
  rw [if_neg (by rw [o1]; linarith), if_neg (by rw [o2]; linarith), hmb]
  rw [hpw] at hlt hw hr ⊢
  obtain ⟨o, c1, a1, a2, a3⟩ := acoshStep_try hx h1 (f := f) (w := max (64 * pw) (64 * x.m.m.length) + 64) hpw0 hlt le_rfl
      (by omega) hw rm hc
  obtain ⟨r, hr⟩ := roundLoop_try_number (ix := x.inexact) a1 a3 hr f 64
  exact ⟨_, _, _, hr, hw⟩

/-! ## The cache after `atanh` -/

theorem atanh_cache (hx : x.WF) {p : Nat} (hp : ValidP p)
    (rm : RM) {f : Nat} {c c' : Ln2Cache} (hc : Ln2Ok c) {r : Except Err Num} {w : Nat}
    (h : x.atanh p rm f c = some (r, c', w)) (hw : w ≤ 2 ^ 15) : Ln2Ok c' := by
  by_cases hz : x.isZero = true
  · unfold Num.atanh at h
    dsimp only at h
    rw [if_pos hz] at h
    injection h with h; injection h with h h'; injection h' with h' h''
    exact h' ▸ hc
  · have hz : x.isZero = false := by simpa using hz
    by_cases he : x.e ≤ 0
    · by_cases hlo : EMIN + 2 ≤ x.e
      · exact (atanh_spec hx hz he hlo hp rm hc h hw).1
      · have hE : EMIN = -2 ^ 31 := rfl
        unfold Num.atanh at h
        dsimp only at h
        rw [hz, if_neg Bool.false_ne_true, if_neg (by omega), if_neg (by omega)] at h
        split at h
        · injection h with h; injection h with h h'; injection h' with h' h''
          exact h' ▸ hc
        · rename_i hs
          split at h
          · cases h
          · rename_i r' s' w' hl
            have hge := roundLoop_ge hl
            injection h with h; injection h with h h'; injection h' with h' h''
            omega
    · unfold Num.atanh at h
      dsimp only at h
      rw [hz, if_neg Bool.false_ne_true] at h
      have hf : ∀ {A : Except Err Num}, some (A, c, 0) = some (r, c', w) → Ln2Ok c' := by
        intro A h
        injection h with h; injection h with h h'; injection h' with h' h''
        exact h' ▸ hc
      by_cases he1 : x.e = 1
      · rw [if_pos he1] at h
        split at h <;> exact hf h
      · rw [if_neg he1, if_pos (by omega)] at h
        exact hf h

end AF
