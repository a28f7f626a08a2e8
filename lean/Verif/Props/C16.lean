import Verif.Lemmas.Op
/-!
# C16: infinity and NaN arithmetic follows the extended-real rules

The rules are written down separately, for extended reals with signed zeros: `XR` for the operands (a
sign is kept with a finite value, so that the sign of a zero divisor is known) and for the results.
-/

namespace AF

/-- An extended real: a signed infinity, or a finite value with a sign (which only matters for zero), or
an undefined value. -/
inductive XR
  | undef
  | infty (s : Sign)
  | fin (s : Sign) (q : ℚ)

namespace XR

/-- The product of signs. -/
def sgn (a b : Sign) : Sign := if a = b then .pos else .neg

/-- Extended-real addition. -/
def add : XR → XR → XR
  | undef, _ => undef
  | _, undef => undef
  | infty s, infty t => if s = t then infty s else undef
  | infty s, fin _ _ => infty s
  | fin _ _, infty t => infty t
  | fin s a, fin _ b => fin s (a + b)

/-- Extended-real negation. -/
def neg : XR → XR
  | undef => undef
  | infty s => infty s.invert
  | fin s a => fin s.invert (-a)

/-- Extended-real subtraction. -/
def sub (a b : XR) : XR := add a (neg b)

/-- Extended-real multiplication. -/
def mul : XR → XR → XR
  | undef, _ => undef
  | _, undef => undef
  | infty s, infty t => infty (sgn s t)
  | infty s, fin t b => if b = 0 then undef else infty (sgn s t)
  | fin s a, infty t => if a = 0 then undef else infty (sgn s t)
  | fin s a, fin t b => fin (sgn s t) (a * b)

/-- Extended-real division; a nonzero value over a zero is an infinity signed by both. -/
def div : XR → XR → XR
  | undef, _ => undef
  | _, undef => undef
  | infty _, infty _ => undef
  | infty s, fin t _ => infty (sgn s t)
  | fin s _, infty t => fin (sgn s t) 0
  | fin s a, fin t b =>
    if b = 0 then (if a = 0 then undef else infty (sgn s t)) else fin (sgn s t) (a / b)

/-- Remainder: `x rem Inf` is `x`. Only the cases with an infinity, an undefined operand or a zero
divisor are specified here (`none` otherwise). -/
def rem : XR → XR → Option XR
  | undef, _ => some undef
  | _, undef => some undef
  | infty _, _ => some undef
  | fin s a, infty _ => some (fin s a)
  | fin _ _, fin _ b => if b = 0 then some undef else none

end XR

/-- The extended real denoted by a `BigFloat`. -/
def BF.toXR : BF → XR
  | .nan _ => .undef
  | .inf s => .infty s
  | .num v => .fin v.s v.toK

/-- Same class, same infinity, same finite value (the sign of a zero result is not prescribed). -/
def XR.Same : XR → XR → Prop
  | .undef, .undef => True
  | .infty s, .infty t => s = t
  | .fin _ a, .fin _ b => a = b
  | _, _ => False

/-- The argument is not an ordinary finite number. -/
def BF.special (x : BF) : Prop := x.isNan = true ∨ x.isInf = true

theorem isZero_iff {v : Num} (h : v.WF) : v.isZero = true ↔ (v.toK : ℚ) = 0 := h.toK_eq_zero.symm

theorem C16_add (x y : BF) (h : x.special ∨ y.special) (p : Nat) (rm : RM) :
    XR.Same (BF.add x y p rm).toXR (XR.add x.toXR y.toXR) := by
  cases x with
  | nan e => cases y <;> simp [BF.add, BF.addOp, BF.toXR, XR.add, XR.Same]
  | inf s =>
    cases y with
    | nan e => cases s <;> simp [BF.add, BF.addOp, BF.toXR, XR.add, XR.Same]
    | num v => simp [BF.add, BF.addOp, BF.toXR, XR.add, XR.Same]
    | inf t => cases s <;> cases t <;> simp [BF.add, BF.addOp, BF.toXR, XR.add, XR.Same, BF.NAN]
  | num u =>
    cases y with
    | nan e => simp [BF.add, BF.addOp, BF.toXR, XR.add, XR.Same]
    | num v => simp [BF.special, BF.isNan, BF.isInf] at h
    | inf t => simp [BF.add, BF.addOp, BF.toXR, XR.add, XR.Same]

theorem C16_sub (x y : BF) (h : x.special ∨ y.special) (p : Nat) (rm : RM) :
    XR.Same (BF.sub x y p rm).toXR (XR.sub x.toXR y.toXR) := by
  cases x with
  | nan e => cases y <;> simp [BF.sub, BF.subOp, BF.toXR, XR.add, XR.sub, XR.neg, XR.Same]
  | inf s =>
    cases y with
    | nan e => cases s <;> simp [BF.sub, BF.subOp, BF.toXR, XR.add, XR.sub, XR.neg, XR.Same]
    | num v => simp [BF.sub, BF.subOp, BF.toXR, XR.add, XR.sub, XR.neg, XR.Same]
    | inf t =>
      cases s <;> cases t <;>
        simp [BF.sub, BF.subOp, BF.toXR, XR.add, XR.sub, XR.neg, XR.Same, BF.NAN, Sign.invert]
  | num u =>
    cases y with
    | nan e => simp [BF.sub, BF.subOp, BF.toXR, XR.add, XR.sub, XR.neg, XR.Same]
    | num v => simp [BF.special, BF.isNan, BF.isInf] at h
    | inf t => cases t <;> simp [BF.sub, BF.subOp, BF.toXR, XR.add, XR.sub, XR.neg, XR.Same, Sign.invert,
        Sign.isPos, BF.INF_POS, BF.INF_NEG]

theorem C16_mul (x y : BF) (hx : x.WF) (hy : y.WF) (h : x.special ∨ y.special) (p : Nat) (rm : RM) :
    XR.Same (BF.mul x y p rm).toXR (XR.mul x.toXR y.toXR) := by
  cases x with
  | nan e => cases y <;> simp [BF.mul, BF.mulOp, BF.toXR, XR.mul, XR.Same]
  | inf s =>
    cases y with
    | nan e => cases s <;> simp [BF.mul, BF.mulOp, BF.toXR, XR.mul, XR.Same]
    | num v =>
      have hz := isZero_iff (v := v) hy
      by_cases hc : v.isZero = true
      · simp [BF.mul, BF.mulOp, BF.toXR, XR.mul, XR.Same, hz.1 hc, hc, BF.NAN]
      · have hc' : (v.toK : ℚ) ≠ 0 := fun h => hc (hz.2 h)
        simp [BF.mul, BF.mulOp, BF.toXR, XR.mul, XR.Same, hc, hc', XR.sgn, eq_comm]
    | inf t => cases s <;> cases t <;> simp [BF.mul, BF.mulOp, BF.toXR, XR.mul, XR.Same, XR.sgn]
  | num u =>
    cases y with
    | nan e => simp [BF.mul, BF.mulOp, BF.toXR, XR.mul, XR.Same]
    | num v => simp [BF.special, BF.isNan, BF.isInf] at h
    | inf t =>
      have hz := isZero_iff (v := u) hx
      by_cases hc : u.isZero = true
      · simp [BF.mul, BF.mulOp, BF.toXR, XR.mul, XR.Same, hz.1 hc, hc, BF.NAN]
      · have hc' : (u.toK : ℚ) ≠ 0 := fun h => hc (hz.2 h)
        simp [BF.mul, BF.mulOp, BF.toXR, XR.mul, XR.Same, hc, hc', XR.sgn]

/-- Division, the divisor being zero or an operand not finite. The size hypothesis excludes only
dividends of exactly the maximal length `2^62 - 2^31` bits, for which `x / Inf` cannot build its zero. -/
theorem C16_div (x y : BF) (hx : x.WF) (hy : y.WF)
    (h : x.special ∨ y.special ∨ ∃ v, y = .num v ∧ (v.toK : ℚ) = 0)
    (hsz : ∀ u, x = .num u → 64 * u.m.m.length < 2 ^ 62 - 2 ^ 31) (p : Nat) (rm : RM) :
    XR.Same (BF.div x y p rm).toXR (XR.div x.toXR y.toXR) := by
  cases x with
  | nan e => cases y <;> simp [BF.div, BF.toXR, XR.div, XR.Same]
  | inf s =>
    cases y with
    | nan e => cases s <;> simp [BF.div, BF.toXR, XR.div, XR.Same]
    | num v =>
      simp only [BF.div, XR.sgn]
      by_cases hs : s = v.s <;> simp [hs, BF.INF_POS, BF.INF_NEG, BF.toXR, XR.div, XR.Same, XR.sgn]
    | inf t => cases s <;> cases t <;> simp [BF.div, BF.toXR, XR.div, XR.Same, BF.NAN]
  | num u =>
    cases y with
    | nan e => simp [BF.div, BF.toXR, XR.div, XR.Same]
    | num v =>
      have hv0 : (v.toK : ℚ) = 0 := by
        rcases h with h | h | ⟨w, h, hw⟩
        · simp [BF.special, BF.isNan, BF.isInf] at h
        · simp [BF.special, BF.isNan, BF.isInf] at h
        · injection h with h; rw [h]; exact hw
      have hv : v.isZero = true := (isZero_iff hy).2 hv0
      by_cases hc : u.isZero = true
      · have hu := (isZero_iff hx).1 hc
        simp [BF.div, Num.div, hv, hc, BF.resultToExt, BF.toXR, XR.div, hv0, hu, XR.Same]
      · have hu : (u.toK : ℚ) ≠ 0 := fun h => hc ((isZero_iff hx).2 h)
        simp only [BF.div, Num.div, hv, hc, BF.resultToExt, BF.toXR, XR.div, hv0, hu, if_true, if_false,
          Bool.false_eq_true, XR.sgn]
        by_cases hs : u.s = v.s <;> simp [hs, BF.INF_POS, BF.INF_NEG, BF.toXR, XR.Same]
    | inf t =>
      have hlt := hsz u rfl
      have : ¬ u.m.maxBitLen ≥ PMAX := by
        rw [PMAX_eq]; unfold Mantissa.maxBitLen; omega
      simp only [BF.div, BF.new, Num.new, if_neg this, BF.resultToExt, BF.toXR, XR.div, XR.Same]
      exact zero_toK _ _ _

theorem C16_rem (x y : BF) (hx : x.WF) (hy : y.WF)
    (h : x.special ∨ y.special ∨ ∃ v, y = .num v ∧ (v.toK : ℚ) = 0) :
    ∃ r, XR.rem x.toXR y.toXR = some r ∧ XR.Same (BF.rem x y).toXR r := by
  cases x with
  | nan e => cases y <;> simp [BF.rem, BF.toXR, XR.rem, XR.Same]
  | inf s => cases y <;> simp [BF.rem, BF.toXR, XR.rem, XR.Same, BF.NAN]
  | num u =>
    cases y with
    | nan e => simp [BF.rem, BF.toXR, XR.rem, XR.Same]
    | inf t => simp [BF.rem, BF.toXR, XR.rem, XR.Same]
    | num v =>
      have hv0 : (v.toK : ℚ) = 0 := by
        rcases h with h | h | ⟨w, h, hw⟩
        · simp [BF.special, BF.isNan, BF.isInf] at h
        · simp [BF.special, BF.isNan, BF.isInf] at h
        · injection h with h; rw [h]; exact hw
      have hv : v.isZero = true := (isZero_iff hy).2 hv0
      exact ⟨.undef, by simp [BF.toXR, XR.rem, hv0],
        by simp [BF.rem, Num.rem, hv, BF.resultToExt, BF.toXR, XR.Same]⟩

/-- A NaN first operand is returned with its error; a NaN second operand likewise unless the first is a
NaN (or, for `rem`, an infinity). -/
theorem C16_nan_payload (e : Option Err) (x : BF) (p : Nat) (rm : RM) (op : Op) :
    op.apply (.nan e) x p rm = .nan e ∧ (x.isNan = false → op.apply x (.nan e) p rm = .nan e) := by
  constructor
  · cases op <;> cases x <;> rfl
  · intro h
    cases op <;> cases x <;> first | rfl | simp [BF.isNan] at h

example : XR.Same (BF.div (.num exB) (.num (Num.zero 64 .neg false)) 64 .up).toXR (.infty .pos) :=
  show XR.Same _ (.infty (XR.sgn .neg .neg)) by
    have := C16_div (.num exB) (.num (Num.zero 64 .neg false)) exB_WF (zero_WF (by decide) _ _)
      (Or.inr (Or.inr ⟨_, rfl, zero_toK _ _ _⟩)) (fun u hu => by injection hu with hu; subst hu; decide)
      64 .up
    have e : XR.div (BF.toXR (.num exB)) (BF.toXR (.num (Num.zero 64 .neg false))) =
        .infty (XR.sgn .neg .neg) := by
      have h1 : (exB.toK : ℚ) ≠ 0 := by rw [exB_val]; norm_num
      have h2 : ((Num.zero 64 .neg false).toK : ℚ) = 0 := zero_toK _ _ _
      simp only [BF.toXR, XR.div, h2, h1, if_true, if_false]
      rfl
    rwa [e] at this

example : XR.Same (BF.mul (.num exB) (.inf .pos) 64 .up).toXR
    (XR.mul (BF.toXR (.num exB)) (BF.toXR (.inf .pos))) :=
  C16_mul (.num exB) (.inf .pos) exB_WF trivial (Or.inr (Or.inr rfl)) _ _

end AF
