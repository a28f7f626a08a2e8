import Verif.Props.C45
/-!
# C46: elementary functions at infinities and NaN

`f` is the unmodelled computation for finite arguments; the results at the infinities and at NaN do not
depend on it. `tanh` goes through `from_i8(±1, p)`, which rejects precisions below 8 bits, so at such
precisions `tanh(±Inf)` is NaN (`C46_tanh_refuted`).
-/

namespace AF
variable (f : Num → Nat → RM → Except Err Num) (p : Nat) (rm : RM)

/-- Exactly `1` or `-1`, with `precBits p` bits. -/
def IsUnit (s : Sign) (p : Nat) (r : BF) : Prop :=
  ∃ v, r = .num v ∧ v.WF ∧ 64 * v.m.m.length = precBits p ∧ (v.toK : ℚ) = Sign.toK s ∧ v.inexact = false

/-- The values at `+Inf`: `exp`, `ln`, `log2`, `log10`, `sinh`, `cosh`, `asinh`, `acosh`, `sqrt`, `cbrt`
tend to `+Inf`; the trigonometric functions and their inverses and `atanh` have no limit or are outside
their domain. -/
theorem C46_at_pos_inf :
    BF.exp f (.inf .pos) p rm = .inf .pos ∧ BF.ln f (.inf .pos) p rm = .inf .pos ∧
    BF.log2 f (.inf .pos) p rm = .inf .pos ∧ BF.log10 f (.inf .pos) p rm = .inf .pos ∧
    BF.sinh f (.inf .pos) p rm = .inf .pos ∧ BF.cosh f (.inf .pos) p rm = .inf .pos ∧
    BF.asinh f (.inf .pos) p rm = .inf .pos ∧ BF.acosh f (.inf .pos) p rm = .inf .pos ∧
    BF.sqrt (.inf .pos) p rm = .inf .pos ∧ BF.cbrt (.inf .pos) p rm = .inf .pos ∧
    (BF.sin f (.inf .pos) p rm).isNan = true ∧ (BF.cos f (.inf .pos) p rm).isNan = true ∧
    (BF.tan f (.inf .pos) p rm).isNan = true ∧ (BF.asin f (.inf .pos) p rm).isNan = true ∧
    (BF.acos f (.inf .pos) p rm).isNan = true ∧ (BF.atanh f (.inf .pos) p rm).isNan = true :=
  ⟨rfl, rfl, rfl, rfl, rfl, rfl, rfl, rfl, rfl, rfl, rfl, rfl, rfl, rfl, rfl, rfl⟩

/-- The values at `-Inf`. -/
theorem C46_at_neg_inf (hp : ValidP p) :
    IsZeroP p (BF.exp f (.inf .neg) p rm) ∧ (BF.ln f (.inf .neg) p rm).isNan = true ∧
    (BF.log2 f (.inf .neg) p rm).isNan = true ∧ (BF.log10 f (.inf .neg) p rm).isNan = true ∧
    BF.sinh f (.inf .neg) p rm = .inf .neg ∧ BF.cosh f (.inf .neg) p rm = .inf .pos ∧
    BF.asinh f (.inf .neg) p rm = .inf .neg ∧ (BF.acosh f (.inf .neg) p rm).isNan = true ∧
    (BF.sqrt (.inf .neg) p rm).isNan = true ∧ BF.cbrt (.inf .neg) p rm = .inf .neg ∧
    (BF.sin f (.inf .neg) p rm).isNan = true ∧ (BF.cos f (.inf .neg) p rm).isNan = true ∧
    (BF.tan f (.inf .neg) p rm).isNan = true ∧ (BF.asin f (.inf .neg) p rm).isNan = true ∧
    (BF.acos f (.inf .neg) p rm).isNan = true ∧ (BF.atanh f (.inf .neg) p rm).isNan = true :=
  ⟨new_zero hp, rfl, rfl, rfl, rfl, rfl, rfl, rfl, rfl, rfl, rfl, rfl, rfl, rfl, rfl, rfl⟩

/-- `tanh(±Inf) = ±1` for precisions of at least 8 bits. -/
theorem C46_tanh_partial (s : Sign) (hp : ValidP p) (h8 : 8 ≤ p) : IsUnit s p (BF.tanh f (.inf s) p rm) := by
  obtain ⟨v, h1, h2, h3, h4, h5⟩ := fromI_spec (K := ℚ) (sz := 8) (p := p) (i := s.toInt) (by norm_num)
    (by norm_num) (by cases s <;> decide) h8 hp.lt'
  refine ⟨v, ?_, h2, h3, ?_, h5⟩
  · show BF.resultToExt (Num.fromI 8 s.toInt p) false true = _
    rw [h1]; rfl
  · rw [h4]; cases s <;> simp [Sign.toInt, Sign.toK]

theorem C46_tanh_refuted : ¬ ∀ (s : Sign) (p : Nat), ValidP p → IsUnit s p (BF.tanh f (.inf s) p rm) := by
  intro h
  obtain ⟨v, h1, _⟩ := h .pos 1 ⟨by norm_num, by decide⟩
  have h2 : BF.tanh f (.inf .pos) 1 rm = .nan (some .invalidArgument) := rfl
  rw [h2] at h1
  cases h1

/-- `atan(±Inf)` is `±π/2`: whenever the constant `π` comes back as a number `v` with exponent 2 (its
value is in `[2, 4)`), the result is that number halved, with the sign of the argument. -/
theorem C46_atan (pi : Nat → RM → Except Err Num) (s : Sign) (v : Num) (hv : pi p rm = .ok v) (hw : v.WF)
    (hn : v.m.n = 64 * v.m.m.length) (he : v.e = 2) (h0 : (v.toK : ℚ) ≠ 0) :
    ∃ w, BF.atan f (.inf s) p rm pi = .num w ∧ w.WF ∧ w.m.m.length = v.m.m.length ∧
      (w.toK : ℚ) = Sign.toK s * (|(v.toK : ℚ)| / 2) ∧ w.inexact = v.inexact := by
  have hz : v.isZero = false := by
    rw [← Bool.not_eq_true]; exact fun h => h0 (hw.toK_eq_zero.2 h)
  have hs : v.isSubnormal = false := by
    rw [← Bool.not_eq_true, Num.isSubnormal_iff]; omega
  have hset : v.setExponent 1 = { v with e := 1 } := by
    unfold Num.setExponent; rw [hz, hs]; simp
  refine ⟨{ v with e := 1, s := s }, ?_, ?_, rfl, ?_, rfl⟩
  · show BF.resultToExt (BF.halfPi p rm pi s) false true = _
    unfold BF.halfPi; rw [hv]; simp only [hset]; rfl
  · exact ⟨hw.wf, hw.bits, (by decide : EMIN ≤ (1 : ℤ)), (by decide : (1 : ℤ) ≤ EMAX), fun _ h => absurd h (by dsimp only; omega), hw.sized⟩
  · rw [Num.abs_val, he]
    unfold Num.toK
    dsimp only
    rw [show (2 : ℤ) - (64 * v.m.m.length : ℕ) = (1 - (64 * v.m.m.length : ℕ)) + 1 by ring, zpow_add_one₀ (by norm_num)]
    ring

/-- NaN is passed on with its error. -/
theorem C46_nan (e : Option Err) (pi : Nat → RM → Except Err Num) :
    BF.exp f (.nan e) p rm = .nan e ∧ BF.ln f (.nan e) p rm = .nan e ∧ BF.log2 f (.nan e) p rm = .nan e ∧
    BF.log10 f (.nan e) p rm = .nan e ∧ BF.sin f (.nan e) p rm = .nan e ∧ BF.cos f (.nan e) p rm = .nan e ∧
    BF.tan f (.nan e) p rm = .nan e ∧ BF.asin f (.nan e) p rm = .nan e ∧ BF.acos f (.nan e) p rm = .nan e ∧
    BF.atan f (.nan e) p rm pi = .nan e ∧ BF.sinh f (.nan e) p rm = .nan e ∧
    BF.cosh f (.nan e) p rm = .nan e ∧ BF.tanh f (.nan e) p rm = .nan e ∧ BF.asinh f (.nan e) p rm = .nan e ∧
    BF.acosh f (.nan e) p rm = .nan e ∧ BF.atanh f (.nan e) p rm = .nan e ∧ BF.sqrt (.nan e) p rm = .nan e ∧
    BF.cbrt (.nan e) p rm = .nan e :=
  ⟨rfl, rfl, rfl, rfl, rfl, rfl, rfl, rfl, rfl, rfl, rfl, rfl, rfl, rfl, rfl, rfl, rfl, rfl⟩

/-- The logarithms of zero are `-Inf`. -/
theorem C46_log_zero (x : Num) (hx : x.WF) (h0 : (x.toK : ℚ) = 0) :
    BF.ln f (.num x) p rm = .inf .neg ∧ BF.log2 f (.num x) p rm = .inf .neg ∧
    BF.log10 f (.num x) p rm = .inf .neg := by
  have hz : x.isZero = true := hx.toK_eq_zero.1 h0
  simp [BF.ln, BF.log2, BF.log10, BF.wrapLog, hz, BF.INF_NEG]

example : IsUnit .neg 64 (BF.tanh f (.inf .neg) 64 rm) := C46_tanh_partial f 64 rm .neg ValidP_64 (by norm_num)

/-- `π` to 64 bits. -/
def exPi : Num := Num.mk 2 .pos ⟨[14488038916154245685], 64⟩ true

example : ∃ w, BF.atan f (.inf .neg) 64 rm (fun _ _ => .ok exPi) = .num w ∧ w.WF ∧
    w.m.m.length = exPi.m.m.length ∧ (w.toK : ℚ) = Sign.toK .neg * (|(exPi.toK : ℚ)| / 2) ∧
    w.inexact = exPi.inexact :=
  C46_atan f 64 rm (fun _ _ => .ok exPi) .neg exPi rfl (Num.WF_of_check (by decide)) (by decide) rfl
    (by norm_num [Num.toK, exPi, Sign.toK, val])

end AF
