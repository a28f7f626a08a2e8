import Verif.Props.C67
/-!
# C68: the inverse hyperbolic sine

The full claim: for every number `x`, every precision, every rounding mode and whatever was asked of the cache before,
`asinh` returns `arsinh x` correctly rounded, marked inexact unless `x` is zero; `asinh` of a zero or an infinity is the zero
or infinity of the same sign.

Proved: the values at zeros and infinities (`C68_zero`, `C68_special`). Next to zero the result is correctly rounded in all
modes and at every precision (`C68_small`). For the other arguments a result obtained with a working precision up to
`2^14` bits is a number with the sign of `x`, correctly rounded in the four directed modes and within the bounds of
`FunRounded` in the other modes (`C68_outcome_partial`, `C68_directed_partial`); in the directed modes it does not depend on
the history of the cache or on the precision of the argument (`C68_history_partial`), grows with the argument
(`C68_mono_partial`) and is odd (`C68_odd_partial`). The first round of the loop returns such a number in mode `None`, and in
the directed modes unless the 61 bits of `|arsinh x|` after the first `P` are all equal (`C68_number_partial`).

The claim is false at precisions from `2^30` bits on: for arguments of magnitude `2^(2^30)` and more the square of the
argument overflows and the result is `+Inf`, even if the argument is negative (`C68_precision`, `C68_precision_refuted`,
`C68_sign_refuted`).

Missing: arguments in the two lowest binades and subnormal arguments, correct rounding in the nearest modes, working
precisions over `2^14` bits, the end of the loop in the exceptional cases.
-/

namespace AF

/-- NaN and the infinities. -/
theorem C68_special (p : Nat) (rm : RM) (f : Nat) (c : Num.Ln2Cache) :
    (∀ e, BF.asinhC (.nan e) p rm f c = some (.nan e, c, 0)) ∧ (∀ s, BF.asinhC (.inf s) p rm f c = some (.inf s, c, 0)) :=
  ⟨fun _ => rfl, fun s => by cases s <;> rfl⟩

/-- The value at a zero is a zero of the same sign, exactly, in every mode. -/
theorem C68_zero {x : Num} (hx : x.WF) (h0 : (x.toK : ℚ) = 0) {p : Nat} (hp : ValidP p) (rm : RM) (f : Nat) (c : Num.Ln2Cache) :
    ∃ v, BF.asinhC (.num x) p rm f c = some (.num v, c, 0) ∧ v.WF ∧ 64 * v.m.m.length = precBits p ∧ v.s = x.s ∧
      (v.toK : ℚ) = 0 ∧ v.inexact = x.inexact := by
  have hz := hx.toK_eq_zero.1 h0
  have hlt := hp.lt
  have hPM : PMAX = 2 ^ 62 - 2 ^ 31 - 1 := rfl
  have hv := zero_WF (p := precBits p) (by unfold wordLen precBits at *; omega) x.s x.inexact
  refine ⟨Num.zero (precBits p) x.s x.inexact, ?_, hv, ?_, rfl, zero_toK _ _ _, rfl⟩
  · unfold BF.asinhC BF.wrapInv Num.asinh
    dsimp only
    rw [hp.roundP, if_pos hz]
    unfold Num.new2
    rw [if_neg (by omega)]
    rfl
  · simp only [Num.zero, Mantissa.new, List.length_replicate]
    unfold wordLen precBits; omega

theorem arsinh_sign {x : Num} (h0 : (x.toK : ℚ) ≠ 0) {rm : RM} {P : Nat} {v : Num}
    (h : FunRounded rm P (Real.arsinh x.toK) v) : v.s = x.s := by
  have h2 : 0 < |(x.toK : ℝ)| := by
    rw [abs_pos, ← toK_ratCast x]; exact_mod_cast h0
  have h3 := Real.arsinh_pos_iff.2 h2
  have h4 := sign_arsinh x
  cases hs : x.s with
  | pos => rw [hs, Sign.toK, one_mul] at h4; exact h.pos (by rw [h4]; linarith)
  | neg => rw [hs, Sign.toK] at h4; exact h.neg (by rw [h4]; linarith)

/-- Next to zero the result is `arsinh x` correctly rounded, in every mode and at every precision. -/
theorem C68_small {x : Num} (hx : x.WF) (h0 : (x.toK : ℚ) ≠ 0) (hlo : EMIN + 2 ≤ x.e) {p : Nat} (hp : ValidP p)
    (he : ((max (precBits p) (64 * x.m.m.length) : ℕ) : ℤ) + 1 < -(x.e * 2 - 2)) (rm : RM) (f : Nat) (c : Num.Ln2Cache) :
    ∃ v, BF.asinhC (.num x) p rm f c = some (.num v, c, 0) ∧ v.WF ∧ 64 * v.m.m.length = precBits p ∧ v.s = x.s ∧
      v.inexact = true ∧ RoundsFmt rm (precBits p) (Real.arsinh x.toK) v.toK := by
  have hz := nz_of_ne hx h0
  have hp0 := hp.pos
  obtain ⟨pw, hpw⟩ : ∃ pw, precBits p = 64 * pw := ⟨(p + 63) / 64, rfl⟩
  have hpw0 : 0 < pw := by unfold precBits at hpw; omega
  have hmb : x.m.maxBitLen = 64 * x.m.m.length := by unfold Mantissa.maxBitLen; omega
  rw [hpw] at he
  obtain ⟨v, v1, v2, v3⟩ := asinh_small hx hz hlo hpw0 he rm
  refine ⟨v, ?_, v3.wf, by rw [hpw]; exact v3.prec, arsinh_sign h0 v3, v3.inexact, by rw [hpw]; exact v2⟩
  unfold BF.asinhC BF.wrapInv Num.asinh
  dsimp only
  rw [hp.roundP, hpw, hz, if_neg Bool.false_ne_true, hmb, if_pos he, v1]
  rfl

/-- What is returned for the other arguments. -/
theorem C68_outcome_partial {x : Num} (hx : x.WF) (h0 : (x.toK : ℚ) ≠ 0) (hlo : EMIN + 2 ≤ x.e)
    {p : Nat} (hp : ValidP p) (rm : RM) {f : Nat} {c c' : Num.Ln2Cache} (hc : InvHist c) {r : BF} {w : Nat}
    (h : BF.asinhC (.num x) p rm f c = some (r, c', w)) (hw : w ≤ 2 ^ 14) :
    ∃ v, r = .num v ∧ v.s = x.s ∧ FunRounded rm (precBits p) (Real.arsinh x.toK) v := by
  obtain ⟨r', h2, h3⟩ := wrapInv_num h
  obtain ⟨v, v1, v2⟩ := (asinh_spec hx (nz_of_ne hx h0) hp rm hc.ok h2 hw).2 hlo
  refine ⟨v, ?_, arsinh_sign h0 v2, v2⟩
  rw [h3, v1]; rfl

/-- In the directed modes it is `arsinh x` correctly rounded. -/
theorem C68_directed_partial {x : Num} (hx : x.WF) (h0 : (x.toK : ℚ) ≠ 0) (hlo : EMIN + 2 ≤ x.e)
    {p : Nat} (hp : ValidP p) {rm : RM} (hd : rm = .up ∨ rm = .down ∨ rm = .toZero ∨ rm = .fromZero) {f : Nat}
    {c c' : Num.Ln2Cache} (hc : InvHist c) {r : BF} {w : Nat}
    (h : BF.asinhC (.num x) p rm f c = some (r, c', w)) (hw : w ≤ 2 ^ 14) :
    ∃ v, r = .num v ∧ RoundsFmt rm (precBits p) (Real.arsinh x.toK) v.toK ∧ 64 * v.m.m.length = precBits p ∧
      v.inexact = true := by
  obtain ⟨v, v1, -, v2⟩ := C68_outcome_partial hx h0 hlo hp rm hc h hw
  exact ⟨v, v1, v2.directed hd, v2.prec, v2.inexact⟩

theorem arsinh_normal {x : Num} (hx : x.WF) (h0 : (x.toK : ℚ) ≠ 0) (hlo : EMIN + 2 ≤ x.e) :
    (2 : ℝ) ^ (EMIN - 1) ≤ |Real.arsinh x.toK| := by
  have hE : EMIN = -2 ^ 31 := rfl
  obtain ⟨q, q1, -, q3, -⟩ := hx.mag (K := ℝ) (nz_of_ne hx h0)
  have h2 : 0 < |(x.toK : ℝ)| := lt_of_lt_of_le (by positivity) q1
  rw [abs_arsinh]
  refine le_trans ?_ (arsinh_ge h2)
  rw [le_div_iff₀ (by norm_num), ← zpow_add_one₀ (by norm_num), le_min_iff]
  constructor
  · exact le_trans (zpow_le_zpow_right₀ (by norm_num) (by omega)) q1
  · exact zpow_le_one_of_nonpos₀ (by norm_num) (by omega)

/-- In the directed modes the result depends neither on what the cache was used for before nor on the precision of the
argument. -/
theorem C68_history_partial {x y : Num} (hx : x.WF) (hy : y.WF) (h0 : (x.toK : ℚ) ≠ 0)
    (hxy : (x.toK : ℚ) = y.toK) (hlo : EMIN + 2 ≤ x.e) (hlo' : EMIN + 2 ≤ y.e)
    {p : Nat} (hp : ValidP p) {rm : RM} (hd : rm = .up ∨ rm = .down ∨ rm = .toZero ∨ rm = .fromZero) {f₁ f₂ : Nat}
    {c₁ c₂ c₁' c₂' : Num.Ln2Cache} (hc₁ : InvHist c₁) (hc₂ : InvHist c₂) {r₁ r₂ : BF} {w₁ w₂ : Nat}
    (h₁ : BF.asinhC (.num x) p rm f₁ c₁ = some (r₁, c₁', w₁)) (h₂ : BF.asinhC (.num y) p rm f₂ c₂ = some (r₂, c₂', w₂))
    (hw₁ : w₁ ≤ 2 ^ 14) (hw₂ : w₂ ≤ 2 ^ 14) : r₁ = r₂ := by
  have hR : (x.toK : ℝ) = y.toK := by rw [← toK_ratCast x, ← toK_ratCast y, hxy]
  obtain ⟨v, rfl, -, v2⟩ := C68_outcome_partial hx h0 hlo hp rm hc₁ h₁ hw₁
  obtain ⟨v', rfl, -, v2'⟩ := C68_outcome_partial hy (hxy ▸ h0) hlo' hp rm hc₂ h₂ hw₂
  have hP : 64 ≤ precBits p := by have := hp.pos; unfold precBits; omega
  rw [← hR] at v2'
  rw [v2.unique hd hP (arsinh_normal hx h0 hlo) v2']

/-- In the directed modes the function grows with the argument. -/
theorem C68_mono_partial {x y : Num} (hx : x.WF) (hy : y.WF) (hx0 : (x.toK : ℚ) ≠ 0) (hy0 : (y.toK : ℚ) ≠ 0)
    (hlo : EMIN + 2 ≤ x.e) (hlo' : EMIN + 2 ≤ y.e)
    (hxy : (x.toK : ℚ) ≤ y.toK) {p : Nat} (hp : ValidP p) {rm : RM}
    (hd : rm = .up ∨ rm = .down ∨ rm = .toZero ∨ rm = .fromZero) {f₁ f₂ : Nat} {c₁ c₂ c₁' c₂' : Num.Ln2Cache}
    (hc₁ : InvHist c₁) (hc₂ : InvHist c₂) {v₁ v₂ : Num} {w₁ w₂ : Nat}
    (h₁ : BF.asinhC (.num x) p rm f₁ c₁ = some (.num v₁, c₁', w₁)) (h₂ : BF.asinhC (.num y) p rm f₂ c₂ = some (.num v₂, c₂', w₂))
    (hw₁ : w₁ ≤ 2 ^ 14) (hw₂ : w₂ ≤ 2 ^ 14) : (v₁.toK : ℚ) ≤ v₂.toK := by
  have hxyR : (x.toK : ℝ) ≤ y.toK := by
    rw [← toK_ratCast x, ← toK_ratCast y]; exact_mod_cast hxy
  obtain ⟨v, e1, v2, -⟩ := C68_directed_partial hx hx0 hlo hp hd hc₁ h₁ hw₁
  obtain ⟨v', e2, v2', -⟩ := C68_directed_partial hy hy0 hlo' hp hd hc₂ h₂ hw₂
  injection e1 with e1
  injection e2 with e2
  rw [← e1] at v2
  rw [← e2] at v2'
  have hP : 0 < precBits p := by have := hp.pos; unfold precBits; omega
  have := v2.mono hP v2' (Real.arsinh_le_arsinh.2 hxyR)
  rw [← toK_ratCast v₁, ← toK_ratCast v₂] at this
  exact_mod_cast this

/-- The function is odd: `asinh(-x)` rounded in one of the directed modes is `-asinh(x)` rounded in the mirrored mode. -/
theorem C68_odd_partial {x y : Num} (hx : x.WF) (hy : y.WF) (h0 : (x.toK : ℚ) ≠ 0)
    (hxy : (y.toK : ℚ) = -x.toK) (hlo : EMIN + 2 ≤ x.e) (hlo' : EMIN + 2 ≤ y.e)
    {p : Nat} (hp : ValidP p) {rm : RM} (hd : rm = .up ∨ rm = .down ∨ rm = .toZero ∨ rm = .fromZero) {f₁ f₂ : Nat}
    {c₁ c₂ c₁' c₂' : Num.Ln2Cache} (hc₁ : InvHist c₁) (hc₂ : InvHist c₂) {v₁ v₂ : Num} {w₁ w₂ : Nat}
    (h₁ : BF.asinhC (.num x) p rm.mirror f₁ c₁ = some (.num v₁, c₁', w₁))
    (h₂ : BF.asinhC (.num y) p rm f₂ c₂ = some (.num v₂, c₂', w₂))
    (hw₁ : w₁ ≤ 2 ^ 14) (hw₂ : w₂ ≤ 2 ^ 14) : (v₂.toK : ℚ) = -v₁.toK := by
  have hR : (y.toK : ℝ) = -x.toK := by
    rw [← toK_ratCast x, ← toK_ratCast y]; exact_mod_cast hxy
  have hy0 : (y.toK : ℚ) ≠ 0 := by rw [hxy]; simpa using h0
  obtain ⟨v, e1, v2, -⟩ := C68_directed_partial hx h0 hlo hp (RM.mirror_directed hd) hc₁ h₁ hw₁
  obtain ⟨v', e2, v2', -⟩ := C68_directed_partial hy hy0 hlo' hp hd hc₂ h₂ hw₂
  injection e1 with e1
  injection e2 with e2
  rw [← e1, RM.mirror_eq] at v2
  rw [← e2, hR, Real.arsinh_neg] at v2'
  have hP : 0 < precBits p := by have := hp.pos; unfold precBits; omega
  have := v2'.unique hP v2.neg
  rw [← toK_ratCast v₁, ← toK_ratCast v₂] at this
  exact_mod_cast this

/-- The first round returns a number in mode `None`, and in the directed modes unless the digits are exceptional. -/
theorem C68_number_partial {x : Num} (hx : x.WF) (h0 : (x.toK : ℚ) ≠ 0) (hlo : EMIN + 2 ≤ x.e)
    {p : Nat} (hp : ValidP p) {rm : RM} {c : Num.Ln2Cache} (hc : InvHist c)
    (hw : max (precBits p) (64 * x.m.m.length) + 64 ≤ 2 ^ 14)
    (hs : rm = .none ∨ (rm = .up ∨ rm = .down ∨ rm = .toZero ∨ rm = .fromZero) ∧
      ¬ NearGrid (precBits p) 61 |Real.arsinh x.toK|) (f : Nat) :
    ∃ v c' w, BF.asinhC (.num x) p rm (f + 1) c = some (.num v, c', w) ∧ w ≤ 2 ^ 14 := by
  have hz := nz_of_ne hx h0
  obtain ⟨r, c', w, h2, h3⟩ := asinh_number (f := f) hx hz hp hc.ok hw (by
    rcases hs with h | ⟨h, h'⟩
    · exact Or.inl h
    · exact Or.inr ⟨by rcases h with rfl | rfl | rfl | rfl <;> rfl, h'⟩)
  obtain ⟨v, rfl, -⟩ := (asinh_spec hx hz hp rm hc.ok h2 h3).2 hlo
  refine ⟨v, c', w, ?_, h3⟩
  unfold BF.asinhC BF.wrapInv
  dsimp only
  rw [h2]
  rfl

/-! ## Large precisions -/

/-- The square of a number of magnitude `2^(2^30)` or more overflows. -/
theorem square_overflow {x : Num} (hx : x.WF) (hz : x.isZero = false) (he : 2 ^ 30 < x.e) {P : Nat} (hP : 0 < P) (hPM : roundP P < PMAX) :
    x.mul x P .none = .error (.exponentOverflow .pos) := by
  have hE : EMIN = -2 ^ 31 := rfl
  have hEX : EMAX = 2 ^ 31 - 1 := rfl
  obtain ⟨q, q1, q2, q3, -⟩ := hx.mag (K := ℚ) hz
  have hqe : q = x.e := by omega
  rw [hqe] at q1
  have hP64 : 64 ≤ roundP P := by
    rw [roundP_eq hPM]; unfold wordLen; omega
  have hbig : (2 : ℚ) ^ (EMAX + 1) ≤ (x.toK : ℚ) * x.toK := by
    rw [← abs_mul_abs_self]
    calc (2 : ℚ) ^ (EMAX + 1) ≤ 2 ^ (x.e - 1 + (x.e - 1)) := zpow_le_zpow_right₀ (by norm_num) (by omega)
      _ = 2 ^ (x.e - 1) * 2 ^ (x.e - 1) := zpow_add₀ (by norm_num) _ _
      _ ≤ _ := mul_le_mul q1 q1 (by positivity) (abs_nonneg _)
  have hpos : 0 < (x.toK : ℚ) * x.toK := lt_of_lt_of_le (by positivity) hbig
  have h := mulGeneral_spec (K := ℚ) hx hx hP hPM .none
  change Delivers .none (roundP P) ((x.toK : ℚ) * x.toK) (mulIx x x) (x.mul x P .none) at h
  cases hr : x.mul x P .none with
  | error e =>
    rw [hr] at h
    rcases h.1 with ⟨-, h1⟩ | ⟨h1, -⟩
    · rw [h1]
    · linarith
  | ok v =>
    exfalso
    rw [hr] at h
    obtain ⟨v1, -, -, -, -, v2 | ⟨v2, -⟩⟩ := h
    · have hlt := v1.abs_lt_emax (K := ℚ)
      rcases v2 with ⟨h1, -⟩ | ⟨q', p1, p2, k, k1, k2, k3, k4⟩
      · linarith
      · have hq' : EMAX + 1 < q' := by
          have := lt_of_le_of_lt hbig (lt_of_le_of_lt (le_abs_self _) p2)
          exact (zpow_lt_zpow_iff_right₀ (by norm_num)).1 this
        have e1 : (2 : ℚ) ^ (max q' EMIN - (roundP P : ℤ)) ≤ 2 ^ (q' - 2) :=
          zpow_le_zpow_right₀ (by norm_num) (by omega)
        have e2 : (2 : ℚ) ^ (q' - 1) = 2 * 2 ^ (q' - 2) := by
          rw [← zpow_one_add₀ (by norm_num)]; congr 1; ring
        have e3 : (2 : ℚ) ^ EMAX ≤ 2 ^ (q' - 2) := zpow_le_zpow_right₀ (by norm_num) (by omega)
        linarith
    · cases v2

/-- From `2^30` bits on the result for numbers of magnitude `2^(2^30)` or more is `+Inf`, whatever their sign. -/
theorem C68_precision {x : Num} (hx : x.WF) (h0 : (x.toK : ℚ) ≠ 0) (he : 2 ^ 30 < x.e) {p : Nat} (hp : 2 ^ 30 ≤ p)
    (hw : max (precBits p) (64 * x.m.m.length) + 2 ^ 32 ≤ PMAX) (rm : RM) (f : Nat) (c : Num.Ln2Cache) :
    ∃ w, BF.asinhC (.num x) p rm (f + 1) c = some (.inf .pos, c, w) := by
  have hEX : EMAX = 2 ^ 31 - 1 := rfl
  have hz := nz_of_ne hx h0
  have hem := hx.emax
  have hpb : p ≤ precBits p := by unfold precBits; omega
  have hpv : ValidP p := ⟨by omega, by have hPM : PMAX = 2 ^ 62 - 2 ^ 31 - 1 := rfl; omega⟩
  have hmb : x.m.maxBitLen = 64 * x.m.m.length := by unfold Mantissa.maxBitLen; omega
  refine ⟨max (precBits p) (64 * x.m.m.length) + 64, ?_⟩
  have hstep : ∀ w, max (precBits p) (64 * x.m.m.length) + 64 = w →
      (asinhArg x).invStep true (x.e.natAbs + 5) (f + 1) w c = some (.ret (.error (.exponentOverflow .pos)), c) := by
    intro w hw'
    have hrp : roundP (w + (x.e.natAbs + 5)) < PMAX := by
      have := roundP_le_add (w + (x.e.natAbs + 5))
      omega
    have hsq := square_overflow (asinhArg_WF hx) (show (asinhArg x).isZero = false from hz) he (P := w + (x.e.natAbs + 5)) (by omega) hrp
    unfold Num.invStep
    rw [if_neg]
    · unfold Num.lnRoot
      rw [hsq]
    · intro hb
      have hb' := (tdiv_two_gt (n := w + 2)).1 (by push_cast; exact hb)
      have : (asinhArg x).e = x.e := rfl
      push_cast at hb'
      omega
  have hl : ∀ rm', roundLoop ((({ x with inexact := false } : Num).setSign .pos).invStep true (x.e.natAbs + 5) (f + 1)) (precBits p)
      rm' x.inexact (f + 1) 64 (max (precBits p) (64 * x.m.m.length) + 64) c =
      some (.error (.exponentOverflow .pos), c, max (precBits p) (64 * x.m.m.length) + 64) := by
    intro rm'
    rw [roundLoop, show (({ x with inexact := false } : Num).setSign .pos).invStep true (x.e.natAbs + 5) (f + 1)
      (max (precBits p) (64 * x.m.m.length) + 64) c = _ from hstep _ rfl]
  unfold BF.asinhC BF.wrapInv Num.asinh
  dsimp only
  rw [hpv.roundP, hz, if_neg Bool.false_ne_true, hmb, if_neg (by omega), hl]
  rfl

/-- The number `-2^(2^30+9)`. -/
def exHuge : Num := ⟨2 ^ 30 + 10, .neg, ⟨[MSB], 64⟩, false⟩

theorem exHuge_WF : exHuge.WF := Num.WF_of_check (by decide +kernel)

theorem exHuge_ne : (exHuge.toK : ℚ) ≠ 0 := by
  intro h
  have : exHuge.isZero = false := by decide +kernel
  rw [exHuge_WF.toK_eq_zero.1 h] at this; cases this

theorem exHuge_asinh : ∃ c w, InvHist c ∧ BF.asinhC (.num exHuge) (2 ^ 30) .up 1 c = some (.inf .pos, c, w) := by
  obtain ⟨c, hc, -⟩ := C59_new
  obtain ⟨w, h1⟩ := C68_precision exHuge_WF exHuge_ne (by decide +kernel) (le_refl (2 ^ 30)) (by decide +kernel) .up 0 c
  exact ⟨c, w, .new hc, h1⟩

/-- The result is not a number at every precision. -/
theorem C68_precision_refuted : ¬ ∀ (x : Num) (p : Nat) (rm : RM) (f : Nat) (c c' : Num.Ln2Cache) (r : BF) (w : Nat), x.WF → ValidP p →
    InvHist c → BF.asinhC (.num x) p rm f c = some (r, c', w) → ∃ v, r = .num v := by
  intro h
  obtain ⟨c, w, h1, h2⟩ := exHuge_asinh
  obtain ⟨v, hv⟩ := h _ _ _ _ _ _ _ _ exHuge_WF ⟨by norm_num, by decide +kernel⟩ h1 h2
  cases hv

/-- The result for a negative number is not always negative. -/
theorem C68_sign_refuted : ¬ ∀ (x : Num) (p : Nat) (rm : RM) (f : Nat) (c c' : Num.Ln2Cache) (r : BF) (w : Nat), x.WF → ValidP p →
    InvHist c → (x.toK : ℚ) < 0 → BF.asinhC (.num x) p rm f c = some (r, c', w) → r.isNegative = true := by
  intro h
  obtain ⟨c, w, h1, h2⟩ := exHuge_asinh
  have hneg : (exHuge.toK : ℚ) < 0 := by
    refine lt_of_le_of_ne ?_ exHuge_ne
    rw [Num.toK_eq]
    have : exHuge.s = .neg := rfl
    rw [this, Sign.toK]
    have := abs_nonneg (exHuge.toK : ℚ)
    linarith
  have := h _ _ _ _ _ _ _ _ exHuge_WF ⟨by norm_num, by decide +kernel⟩ h1 hneg h2
  cases this

/-! ## Concrete cases -/

set_option maxRecDepth 100000 in
/-- `asinh(-1/2)` with 64 bits, rounded up, from a new cache: the hypotheses hold and the number is known. -/
example : ∃ c v c' w, InvHist c ∧ exMinusHalf.WF ∧ (exMinusHalf.toK : ℚ) ≠ 0 ∧
    EMIN + 2 ≤ exMinusHalf.e ∧ ValidP 64 ∧
    BF.asinhC (.num exMinusHalf) 64 .up 1 c = some (.num v, c', w) ∧ w ≤ 2 ^ 14 ∧
    v.m.m = [17753582764234394789] ∧ v.e = -1 ∧ v.s = .neg ∧ RoundsFmt .up 64 (Real.arsinh (-(1 / 2))) v.toK := by
  obtain ⟨c, h1, -⟩ := C59_new
  have hw : exMinusHalf.WF := Num.WF_of_check (by decide +kernel)
  have h0 : (exMinusHalf.toK : ℚ) ≠ 0 := by rw [exMinusHalf_toK_rat]; norm_num
  have hp : ValidP 64 := ⟨by norm_num, by decide⟩
  have h2 : (match ln2New with
    | .ok c => match BF.asinhC (.num exMinusHalf) 64 .up 1 c with
      | some (.num v, _, w) => v.m.m == [17753582764234394789] && v.e == -1 && v.s == .neg && decide (w ≤ 1000)
      | _ => false
    | _ => false) = true := by decide +kernel
  rw [h1] at h2
  dsimp only at h2
  cases h3 : BF.asinhC (.num exMinusHalf) 64 .up 1 c with
  | none => rw [h3] at h2; cases h2
  | some r =>
    obtain ⟨b, c', w⟩ := r
    rw [h3] at h2
    cases b with
    | nan e => cases h2
    | inf s => cases h2
    | num v =>
      simp at h2
      obtain ⟨⟨⟨h4, h5⟩, h5'⟩, h6⟩ := h2
      have hr := C68_directed_partial hw h0 (by decide) hp (Or.inl rfl) (.new h1) h3 (by omega)
      obtain ⟨v', e1, e2, -⟩ := hr
      injection e1 with e1
      rw [← e1, exMinusHalf_toK] at e2
      exact ⟨c, v, c', w, .new h1, hw, h0, by decide, hp, h3, by omega, h4, h5, h5', e2⟩

set_option maxRecDepth 100000 in
/-- An argument next to zero. -/
example : exNearZero.WF ∧ (exNearZero.toK : ℚ) ≠ 0 ∧ EMIN + 2 ≤ exNearZero.e ∧
    ((max (precBits 64) (64 * exNearZero.m.m.length) : ℕ) : ℤ) + 1 < -(exNearZero.e * 2 - 2) ∧
    ∀ c, BF.asinhC (.num exNearZero) 64 .up 1 c = some (.num ⟨-101, .neg, ⟨[WMAX], 64⟩, true⟩, c, 0) := by
  have hw : exNearZero.WF := Num.WF_of_check (by decide +kernel)
  refine ⟨hw, ?_, by decide, by decide +kernel, fun c => ?_⟩
  · intro h
    have : exNearZero.isZero = false := by decide +kernel
    rw [hw.toK_eq_zero.1 h] at this; cases this
  · have h1 : exNearZero.smallExp true 64 .up = .ok ⟨-101, .neg, ⟨[WMAX], 64⟩, true⟩ := by decide +kernel
    have h2 : roundP 64 = 64 := by decide +kernel
    unfold BF.asinhC BF.wrapInv Num.asinh
    dsimp only
    rw [h2, if_neg (by decide +kernel), if_pos (by decide +kernel), h1]
    rfl

/-- The precision bound of `C68_number_partial` is met by `-1/2` at 16000 bits. -/
example : max (precBits 16000) (64 * exMinusHalf.m.m.length) + 64 ≤ 2 ^ 14 := by decide +kernel

end AF
