import Verif.Props.C68
/-!
# C69: the inverse hyperbolic cosine

The full claim: for every number `x > 1`, every precision, every rounding mode and whatever was asked of the cache before,
`acosh` returns `arcosh x` correctly rounded and marked inexact; `acosh 1` is `+0`, `acosh(+Inf)` is `+Inf`, and numbers below 1
and `-Inf` give NaN.

Proved: the special values (`C69_one`, `C69_domain`, `C69_special`). For the other arguments a result obtained with a working
precision up to `2^14` bits is a positive number, correctly rounded in the four directed modes and within the bounds of
`FunRounded` in the other modes (`C69_outcome_partial`, `C69_directed_partial`); in the directed modes it does not depend on
the history of the cache or on the precision of the argument (`C69_history_partial`) and grows with the argument
(`C69_mono_partial`). The first round of the loop returns such a number in mode `None`, and in the directed modes unless the
61 bits of `arcosh x` after the first `P` are all equal (`C69_number_partial`).

The claim is false at precisions from `2^30` bits on: for arguments of magnitude `2^(2^30)` and more the square of the
argument overflows and the result is `+Inf` (`C69_precision`, `C69_precision_refuted`).

Missing: correct rounding in the nearest modes, working precisions over `2^14` bits, the end of the loop in the
exceptional cases.
-/

namespace AF

theorem one_lt_real {x : Num} (h : 1 < (x.toK : ℚ)) : 1 < (x.toK : ℝ) := by
  rw [← toK_ratCast x]; exact_mod_cast h

/-- NaN and the infinities. -/
theorem C69_special (p : Nat) (rm : RM) (f : Nat) (c : Num.Ln2Cache) :
    (∀ e, BF.acoshC (.nan e) p rm f c = some (.nan e, c, 0)) ∧ BF.acoshC (.inf .pos) p rm f c = some (.inf .pos, c, 0) ∧
      BF.acoshC (.inf .neg) p rm f c = some (.nan none, c, 0) :=
  ⟨fun _ => rfl, rfl, rfl⟩

/-- The value at one is `+0`, exactly, in every mode. -/
theorem C69_one {x : Num} (hx : x.WF) (h1 : (x.toK : ℚ) = 1) {p : Nat} (hp : ValidP p) (rm : RM) (f : Nat) (c : Num.Ln2Cache) :
    ∃ v, BF.acoshC (.num x) p rm f c = some (.num v, c, 0) ∧ v.WF ∧ 64 * v.m.m.length = precBits p ∧ v.s = .pos ∧ v.e = 0 ∧
      (v.toK : ℚ) = 0 ∧ v.inexact = x.inexact := by
  have hlt := hp.lt
  have hPM : PMAX = 2 ^ 62 - 2 ^ 31 - 1 := rfl
  have hv := zero_WF (p := precBits p) (by unfold wordLen precBits at *; omega) .pos x.inexact
  have hR : (x.toK : ℝ) = 1 := by rw [← toK_ratCast x, h1]; norm_num
  refine ⟨Num.zero (precBits p) .pos x.inexact, ?_, hv, ?_, rfl, rfl, zero_toK _ _ _, rfl⟩
  · unfold BF.acoshC BF.wrapInv Num.acosh
    dsimp only
    rw [hp.roundP, if_pos ((cmp_one_real hx).1.2 hR)]
    unfold Num.new2
    rw [if_neg (by omega)]
    rfl
  · simp only [Num.zero, Mantissa.new, List.length_replicate]
    unfold wordLen precBits; omega

/-- Numbers below one, zeros among them, are out of the domain: NaN with the reason. -/
theorem C69_domain {x : Num} (hx : x.WF) (h1 : (x.toK : ℚ) < 1) (p : Nat) (rm : RM) (f : Nat) (c : Num.Ln2Cache) :
    BF.acoshC (.num x) p rm f c = some (.nan (some .invalidArgument), c, 0) := by
  have hR : (x.toK : ℝ) < 1 := by rw [← toK_ratCast x]; exact_mod_cast h1
  obtain ⟨o1, o2⟩ := cmp_one_real hx
  unfold BF.acoshC BF.wrapInv Num.acosh
  dsimp only
  rw [if_neg (by rw [o1]; exact hR.ne), if_pos (o2.2 hR)]
  rfl

theorem arcosh_pos' {x : Num} (hx : x.WF) (h1 : 1 < (x.toK : ℚ)) : 0 < Real.arcosh (x.toK : ℝ) := by
  have hR := one_lt_real h1
  rw [arcosh_eq_log, log_root_sub hR.le, Real.arsinh_pos_iff]
  exact Real.sqrt_pos.2 (by nlinarith)

/-- What is returned for the other arguments. -/
theorem C69_outcome_partial {x : Num} (hx : x.WF) (h1 : 1 < (x.toK : ℚ))
    {p : Nat} (hp : ValidP p) (rm : RM) {f : Nat} {c c' : Num.Ln2Cache} (hc : InvHist c) {r : BF} {w : Nat}
    (h : BF.acoshC (.num x) p rm f c = some (r, c', w)) (hw : w ≤ 2 ^ 14) :
    ∃ v, r = .num v ∧ v.s = .pos ∧ FunRounded rm (precBits p) (Real.arcosh x.toK) v := by
  obtain ⟨r', h2, h3⟩ := wrapInv_num h
  obtain ⟨-, v, v1, v2⟩ := acosh_spec hx (one_lt_real h1) hp rm hc.ok h2 hw
  refine ⟨v, ?_, v2.pos (arcosh_pos' hx h1), v2⟩
  rw [h3, v1]; rfl

/-- In the directed modes it is `arcosh x` correctly rounded. -/
theorem C69_directed_partial {x : Num} (hx : x.WF) (h1 : 1 < (x.toK : ℚ))
    {p : Nat} (hp : ValidP p) {rm : RM} (hd : rm = .up ∨ rm = .down ∨ rm = .toZero ∨ rm = .fromZero) {f : Nat}
    {c c' : Num.Ln2Cache} (hc : InvHist c) {r : BF} {w : Nat}
    (h : BF.acoshC (.num x) p rm f c = some (r, c', w)) (hw : w ≤ 2 ^ 14) :
    ∃ v, r = .num v ∧ RoundsFmt rm (precBits p) (Real.arcosh x.toK) v.toK ∧ 64 * v.m.m.length = precBits p ∧
      v.inexact = true := by
  obtain ⟨v, v1, -, v2⟩ := C69_outcome_partial hx h1 hp rm hc h hw
  exact ⟨v, v1, v2.directed hd, v2.prec, v2.inexact⟩

theorem acoshC_len {x : Num} (hx : x.WF) (h1 : 1 < (x.toK : ℚ)) {p : Nat} {rm : RM} {f : Nat}
    {c c' : Num.Ln2Cache} {r : BF} {w : Nat} (h : BF.acoshC (.num x) p rm f c = some (r, c', w)) (hw : w ≤ 2 ^ 14) :
    64 * x.m.m.length ≤ 2 ^ 14 := by
  obtain ⟨r', h2, -⟩ := wrapInv_num h
  obtain ⟨o1, o2⟩ := cmp_one_real hx
  have hR := one_lt_real h1
  have hmb : x.m.maxBitLen = 64 * x.m.m.length := by unfold Mantissa.maxBitLen; omega
  unfold Num.acosh at h2
  dsimp only at h2
  rw [if_neg (by rw [o1]; linarith), if_neg (by rw [o2]; linarith), hmb] at h2
  have := roundLoop_ge h2
  omega

theorem arcosh_normal {x : Num} (hx : x.WF) (h1 : 1 < (x.toK : ℚ)) (hl : 64 * x.m.m.length ≤ 2 ^ 14) :
    (2 : ℝ) ^ (EMIN - 1) ≤ |Real.arcosh x.toK| := by
  have hR := one_lt_real h1
  obtain ⟨z1, z2⟩ := acosh_bits hx hR
  obtain ⟨q, q1, -, q2, -⟩ := arcosh_midRange hR (by omega) z2
    (le_trans (le_trans (le_abs_self _) (hx.abs_lt_zpow (K := ℝ)).le) (zpow_le_zpow_right₀ (by norm_num) hx.emax))
  exact le_trans (zpow_le_zpow_right₀ (by norm_num) (by omega)) q2

/-- In the directed modes the result depends neither on what the cache was used for before nor on the precision of the
argument. -/
theorem C69_history_partial {x y : Num} (hx : x.WF) (hy : y.WF) (h1 : 1 < (x.toK : ℚ)) (hxy : (x.toK : ℚ) = y.toK)
    {p : Nat} (hp : ValidP p) {rm : RM} (hd : rm = .up ∨ rm = .down ∨ rm = .toZero ∨ rm = .fromZero) {f₁ f₂ : Nat}
    {c₁ c₂ c₁' c₂' : Num.Ln2Cache} (hc₁ : InvHist c₁) (hc₂ : InvHist c₂) {r₁ r₂ : BF} {w₁ w₂ : Nat}
    (h₁ : BF.acoshC (.num x) p rm f₁ c₁ = some (r₁, c₁', w₁)) (h₂ : BF.acoshC (.num y) p rm f₂ c₂ = some (r₂, c₂', w₂))
    (hw₁ : w₁ ≤ 2 ^ 14) (hw₂ : w₂ ≤ 2 ^ 14) : r₁ = r₂ := by
  have hR : (x.toK : ℝ) = y.toK := by rw [← toK_ratCast x, ← toK_ratCast y, hxy]
  obtain ⟨v, rfl, -, v2⟩ := C69_outcome_partial hx h1 hp rm hc₁ h₁ hw₁
  obtain ⟨v', rfl, -, v2'⟩ := C69_outcome_partial hy (hxy ▸ h1) hp rm hc₂ h₂ hw₂
  have hP : 64 ≤ precBits p := by have := hp.pos; unfold precBits; omega
  rw [← hR] at v2'
  rw [v2.unique hd hP (arcosh_normal hx h1 (acoshC_len hx h1 h₁ hw₁)) v2']

theorem arcosh_mono {x y : ℝ} (hx : 1 ≤ x) (h : x ≤ y) : Real.arcosh x ≤ Real.arcosh y := by
  rw [arcosh_eq_log, arcosh_eq_log]
  have := Real.sqrt_nonneg (x * x - 1)
  refine Real.log_le_log (by linarith) (add_le_add h (Real.sqrt_le_sqrt ?_))
  nlinarith

/-- In the directed modes the function grows with the argument. -/
theorem C69_mono_partial {x y : Num} (hx : x.WF) (hy : y.WF) (hx1 : 1 < (x.toK : ℚ))
    (hxy : (x.toK : ℚ) ≤ y.toK) {p : Nat} (hp : ValidP p) {rm : RM}
    (hd : rm = .up ∨ rm = .down ∨ rm = .toZero ∨ rm = .fromZero) {f₁ f₂ : Nat} {c₁ c₂ c₁' c₂' : Num.Ln2Cache}
    (hc₁ : InvHist c₁) (hc₂ : InvHist c₂) {v₁ v₂ : Num} {w₁ w₂ : Nat}
    (h₁ : BF.acoshC (.num x) p rm f₁ c₁ = some (.num v₁, c₁', w₁)) (h₂ : BF.acoshC (.num y) p rm f₂ c₂ = some (.num v₂, c₂', w₂))
    (hw₁ : w₁ ≤ 2 ^ 14) (hw₂ : w₂ ≤ 2 ^ 14) : (v₁.toK : ℚ) ≤ v₂.toK := by
  have hxyR : (x.toK : ℝ) ≤ y.toK := by
    rw [← toK_ratCast x, ← toK_ratCast y]; exact_mod_cast hxy
  obtain ⟨v, e1, v2, -⟩ := C69_directed_partial hx hx1 hp hd hc₁ h₁ hw₁
  obtain ⟨v', e2, v2', -⟩ := C69_directed_partial hy (lt_of_lt_of_le hx1 hxy) hp hd hc₂ h₂ hw₂
  injection e1 with e1
  injection e2 with e2
  rw [← e1] at v2
  rw [← e2] at v2'
  have hP : 0 < precBits p := by have := hp.pos; unfold precBits; omega
  have := v2.mono hP v2' (arcosh_mono (one_lt_real hx1).le hxyR)
  rw [← toK_ratCast v₁, ← toK_ratCast v₂] at this
  exact_mod_cast this

/-- The first round returns a number in mode `None`, and in the directed modes unless the digits are exceptional. -/
theorem C69_number_partial {x : Num} (hx : x.WF) (h1 : 1 < (x.toK : ℚ))
    {p : Nat} (hp : ValidP p) {rm : RM} {c : Num.Ln2Cache} (hc : InvHist c)
    (hw : max (precBits p) (64 * x.m.m.length) + 64 ≤ 2 ^ 14)
    (hs : rm = .none ∨ (rm = .up ∨ rm = .down ∨ rm = .toZero ∨ rm = .fromZero) ∧
      ¬ NearGrid (precBits p) 61 |Real.arcosh x.toK|) (f : Nat) :
    ∃ v c' w, BF.acoshC (.num x) p rm (f + 1) c = some (.num v, c', w) ∧ w ≤ 2 ^ 14 := by
  obtain ⟨r, c', w, h2, h3⟩ := acosh_number (f := f) hx (one_lt_real h1) hp hc.ok hw (by
    rcases hs with h | ⟨h, h'⟩
    · exact Or.inl h
    · exact Or.inr ⟨by rcases h with rfl | rfl | rfl | rfl <;> rfl, h'⟩)
  obtain ⟨-, v, rfl, -⟩ := acosh_spec hx (one_lt_real h1) hp rm hc.ok h2 h3
  refine ⟨v, c', w, ?_, h3⟩
  unfold BF.acoshC BF.wrapInv
  dsimp only
  rw [h2]
  rfl

/-! ## Large precisions -/

/-- From `2^30` bits on the result for numbers from `2^(2^30)` on is `+Inf`. -/
theorem C69_precision {x : Num} (hx : x.WF) (h1 : 1 < (x.toK : ℚ)) (he : 2 ^ 30 < x.e) {p : Nat} (hp : 2 ^ 30 ≤ p)
    (hw : max (precBits p) (64 * x.m.m.length) + 2 ^ 32 ≤ PMAX) (rm : RM) (f : Nat) (c : Num.Ln2Cache) :
    ∃ w, BF.acoshC (.num x) p rm (f + 1) c = some (.inf .pos, c, w) := by
  have hEX : EMAX = 2 ^ 31 - 1 := rfl
  have hz := nz_of_ne hx (by linarith : (x.toK : ℚ) ≠ 0)
  have hem := hx.emax
  have hR := one_lt_real h1
  obtain ⟨o1, o2⟩ := cmp_one_real hx
  have hpb : p ≤ precBits p := by unfold precBits; omega
  have hpv : ValidP p := ⟨by omega, by have hPM : PMAX = 2 ^ 62 - 2 ^ 31 - 1 := rfl; omega⟩
  have hmb : x.m.maxBitLen = 64 * x.m.m.length := by unfold Mantissa.maxBitLen; omega
  have hx' : ({ x with inexact := false } : Num).WF := ⟨hx.wf, hx.bits, hx.emin, hx.emax, hx.norm, hx.sized⟩
  refine ⟨max (precBits p) (64 * x.m.m.length) + 64, ?_⟩
  have hstep : ∀ w, max (precBits p) (64 * x.m.m.length) + 64 = w →
      ({ x with inexact := false } : Num).invStep false (6 + 0) (f + 1) w c = some (.ret (.error (.exponentOverflow .pos)), c) := by
    intro w hw'
    have hrp : roundP (w + (6 + 0)) < PMAX := by
      have := roundP_le_add (w + (6 + 0))
      omega
    have hsq := square_overflow hx' (show ({ x with inexact := false } : Num).isZero = false from hz) he (P := w + (6 + 0)) (by omega) hrp
    unfold Num.invStep
    rw [if_neg]
    · unfold Num.lnRoot
      rw [hsq]
    · intro hb
      have hb' := (tdiv_two_gt (n := w + 2)).1 (by push_cast; exact hb)
      push_cast at hb'
      omega
  unfold BF.acoshC BF.wrapInv Num.acosh
  dsimp only
  rw [hpv.roundP, if_neg (by rw [o1]; linarith), if_neg (by rw [o2]; linarith), hmb, if_neg (by omega : ¬ x.e = 1), roundLoop, hstep _ rfl]
  rfl

/-- The number `2^(2^30+9)`. -/
def exHugePos : Num := ⟨2 ^ 30 + 10, .pos, ⟨[MSB], 64⟩, false⟩

theorem exHugePos_WF : exHugePos.WF := Num.WF_of_check (by decide +kernel)

theorem exHugePos_gt : 1 < (exHugePos.toK : ℚ) := by
  have hz : exHugePos.isZero = false := by decide +kernel
  obtain ⟨q, q1, q2, q3, -⟩ := exHugePos_WF.mag (K := ℚ) hz
  have he : exHugePos.e = 2 ^ 30 + 10 := rfl
  have hE : EMIN = -2 ^ 31 := rfl
  have hq : q = 2 ^ 30 + 10 := by omega
  have h1 : (2 : ℚ) ^ (1 : ℤ) ≤ 2 ^ (q - 1) := zpow_le_zpow_right₀ (by norm_num) (by omega)
  rw [zpow_one] at h1
  have h2 : (exHugePos.toK : ℚ) = |exHugePos.toK| := by
    rw [Num.toK_eq, show exHugePos.s = .pos from rfl, Sign.toK, one_mul, abs_abs]
  rw [h2]
  linarith

/-- The result is not a number at every precision. -/
theorem C69_precision_refuted : ¬ ∀ (x : Num) (p : Nat) (rm : RM) (f : Nat) (c c' : Num.Ln2Cache) (r : BF) (w : Nat), x.WF → ValidP p →
    InvHist c → 1 < (x.toK : ℚ) → BF.acoshC (.num x) p rm f c = some (r, c', w) → ∃ v, r = .num v := by
  intro h
  obtain ⟨c, hc, -⟩ := C59_new
  obtain ⟨w, h1⟩ := C69_precision exHugePos_WF exHugePos_gt (by decide +kernel) (le_refl (2 ^ 30)) (by decide +kernel) .up 0 c
  obtain ⟨v, hv⟩ := h _ _ _ _ _ _ _ _ exHugePos_WF ⟨by norm_num, by decide +kernel⟩ (.new hc) exHugePos_gt h1
  cases hv

/-! ## Concrete cases -/

set_option maxRecDepth 100000 in
/-- `acosh 3` with 64 bits, rounded up, from a new cache: the hypotheses hold and the number is known. -/
example : ∃ c v c' w, InvHist c ∧ exThree.WF ∧ 1 < (exThree.toK : ℚ) ∧ ValidP 64 ∧
    BF.acoshC (.num exThree) 64 .up 1 c = some (.num v, c', w) ∧ w ≤ 2 ^ 14 ∧
    v.m.m = [16258472993076885089] ∧ v.e = 1 ∧ v.s = .pos ∧ RoundsFmt .up 64 (Real.arcosh 3) v.toK := by
  obtain ⟨c, h1, -⟩ := C59_new
  have h0 : 1 < (exThree.toK : ℚ) := by rw [exThree_toK]; norm_num
  have hp : ValidP 64 := ⟨by norm_num, by decide⟩
  have h2 : (match ln2New with
    | .ok c => match BF.acoshC (.num exThree) 64 .up 1 c with
      | some (.num v, _, w) => v.m.m == [16258472993076885089] && v.e == 1 && v.s == .pos && decide (w ≤ 1000)
      | _ => false
    | _ => false) = true := by decide +kernel
  rw [h1] at h2
  dsimp only at h2
  cases h3 : BF.acoshC (.num exThree) 64 .up 1 c with
  | none => rw [h3] at h2; cases h2
  | some r =>
    obtain ⟨b, c', w⟩ := r
    rw [h3] at h2
    cases b with
    | nan e => cases h2
    | inf s => cases h2
    | num v =>
      simp at h2
      obtain ⟨⟨⟨h4, h5⟩, h5'⟩, h6⟩ := h2
      obtain ⟨v', e1, e2, -⟩ := C69_directed_partial exThree_WF h0 hp (Or.inl rfl) (.new h1) h3 (by omega)
      injection e1 with e1
      rw [← e1, exThree_toK] at e2
      exact ⟨c, v, c', w, .new h1, exThree_WF, h0, hp, h3, by omega, h4, h5, h5', e2⟩

set_option maxRecDepth 100000 in
/-- `acosh(2^300)` takes the branch of large arguments and returns a number. -/
example : (match ln2New with
    | .ok c => match BF.acoshC (.num ⟨301, .pos, ⟨[MSB], 64⟩, false⟩) 64 .down 1 c with
      | some (.num v, _, w) => v.e == 8 && v.s == .pos && decide (w ≤ 1000)
      | _ => false
    | _ => false) = true := by decide +kernel

/-- Numbers that meet the hypotheses of `C69_one` and `C69_domain`, and the precision bound of `C69_number_partial`. -/
example : (Num.ONE.toK : ℚ) = 1 ∧ (exMinusHalf.toK : ℚ) < 1 ∧ max (precBits 16000) (64 * exThree.m.m.length) + 64 ≤ 2 ^ 14 := by
  refine ⟨ONE_toK, by rw [exMinusHalf_toK_rat]; norm_num, by decide +kernel⟩

end AF
