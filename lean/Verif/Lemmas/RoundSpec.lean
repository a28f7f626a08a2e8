import Verif.Spec
import Verif.Lemmas.Round
import Mathlib.Tactic.FieldSimp
import Mathlib.Tactic.Linarith
import Mathlib.Tactic.NormNum
import Mathlib.Algebra.Order.Floor.Ring
/-!
# From the integer rounding function to the specification `Rounds`
-/

namespace AF

variable {K : Type*} [Field K] [LinearOrder K] [IsStrictOrderedRing K]

/-- `k` is the integer obtained by rounding the magnitude `x ≥ 0` of a number of sign `pos`. -/
def RMag (rm : RM) (pos : Bool) (x : K) (k : Nat) : Prop :=
  match rm, pos with
  | .none, _ | .toZero, _ | .up, false | .down, true => (k : K) ≤ x ∧ x < k + 1
  | .fromZero, _ | .up, true | .down, false => x ≤ k ∧ (k : K) < x + 1
  | .toEven, _ => |x - k| ≤ 1 / 2 ∧ (|x - k| = 1 / 2 → Even k)
  | .toOdd, _ => |x - k| ≤ 1 / 2 ∧ (|x - k| = 1 / 2 → Odd k)

/-- Sign of a number from the `is_positive` flag. -/
def bsgn (pos : Bool) : K := if pos then 1 else -1

theorem RMag.toRounds {rm : RM} {pos : Bool} {x : K} {k : Nat} (hx : 0 ≤ x) (h : RMag rm pos x k)
    {u : K} (hu : 0 < u) : Rounds rm (bsgn pos * x * u) u (bsgn pos * k * u) := by
  have hk : (0:K) ≤ k := Nat.cast_nonneg k
  have hxu : 0 ≤ x * u := mul_nonneg hx hu.le
  have hku : (0:K) ≤ k * u := mul_nonneg hk hu.le
  have habs : ∀ y : K, 0 ≤ y * u → |bsgn pos * y * u| = y * u := by
    intro y hy
    cases pos
    · simp only [bsgn, Bool.false_eq_true, if_false, neg_mul, one_mul, abs_neg]; exact abs_of_nonneg hy
    · simp only [bsgn, if_true, one_mul]; exact abs_of_nonneg hy
  have hmul : 0 ≤ bsgn pos * x * u * (bsgn pos * k * u) := by
    have : bsgn pos * x * u * (bsgn pos * k * u) = (bsgn pos * bsgn pos) * ((x * u) * (k * u)) := by ring
    rw [this]
    have h1 : (bsgn pos : K) * bsgn pos = 1 := by cases pos <;> simp [bsgn]
    rw [h1, one_mul]; exact mul_nonneg hxu hku
  have e1 : ∀ a b : K, a ≤ b → a * u ≤ b * u := fun a b hab => mul_le_mul_of_nonneg_right hab hu.le
  have e2 : ∀ a b : K, a < b → a * u < b * u := fun a b hab => mul_lt_mul_of_pos_right hab hu
  have hsub : |bsgn pos * x * u - bsgn pos * k * u| = |x - k| * u := by
    have : bsgn pos * x * u - bsgn pos * k * u = bsgn pos * ((x - k) * u) := by ring
    rw [this, abs_mul, abs_mul, abs_of_pos hu]
    cases pos <;> simp [bsgn]
  have hhalf : |x - k| * u = u / 2 ↔ |x - k| = 1 / 2 := by
    constructor
    · intro h2
      have h3 : |x - k| * u = 1 / 2 * u := by rw [h2]; ring
      exact mul_right_cancel₀ hu.ne' h3
    · intro h2; rw [h2]; ring
  refine ⟨(if pos then 1 else -1) * (k : ℤ), ?_, ?_⟩
  · cases pos <;> simp [bsgn]
  · have hpar : Even ((if pos then 1 else -1) * (k : ℤ)) ↔ Even k := by cases pos <;> simp
    have hpar2 : Odd ((if pos then 1 else -1) * (k : ℤ)) ↔ Odd k := by cases pos <;> simp
    cases rm <;> simp only [RMag] at h ⊢
    · rw [habs x hxu, habs k hku]
      refine ⟨e1 _ _ h.1, ?_, hmul⟩
      have := e2 _ _ h.2; linarith [this, add_mul (k:K) 1 u]
    · cases pos <;> simp only [bsgn, if_true, Bool.false_eq_true, if_false] at h ⊢
      · have a := e1 _ _ h.1; have b := e2 _ _ h.2
        rw [add_mul] at b
        constructor <;> linarith
      · have a := e1 _ _ h.1; have b := e2 _ _ h.2
        rw [add_mul] at b
        constructor <;> linarith
    · cases pos <;> simp only [bsgn, if_true, Bool.false_eq_true, if_false] at h ⊢
      · have a := e1 _ _ h.1; have b := e2 _ _ h.2
        rw [add_mul] at b
        constructor <;> linarith
      · have a := e1 _ _ h.1; have b := e2 _ _ h.2
        rw [add_mul] at b
        constructor <;> linarith
    · rw [habs x hxu, habs k hku]
      refine ⟨e1 _ _ h.1, ?_, hmul⟩
      have := e2 _ _ h.2; linarith [this, add_mul (k:K) 1 u]
    · rw [habs x hxu, habs k hku]
      refine ⟨e1 _ _ h.1, ?_, hmul⟩
      have := e2 _ _ h.2; linarith [this, add_mul x 1 u]
    · rw [hsub, hhalf, hpar]
      refine ⟨?_, h.2⟩
      have := e1 _ _ h.1; linarith
    · rw [hsub, hhalf, hpar2]
      refine ⟨?_, h.2⟩
      have := e1 _ _ h.1; linarith

/-- The integer rounding function satisfies the magnitude specification. -/
theorem rndN_RMag (rm : RM) (pos : Bool) (V n : Nat) :
    RMag rm pos ((V : K) / 2 ^ n) (rndN rm pos V n) := by
  have hp : (0:K) < 2 ^ n := by positivity
  have hdm : (V : K) = 2 ^ n * (V / 2 ^ n : ℕ) + (V % 2 ^ n : ℕ) := by
    have := Nat.div_add_mod V (2 ^ n)
    conv_lhs => rw [← this]
    push_cast; ring
  have hlt : ((V % 2 ^ n : ℕ) : K) < 2 ^ n := by
    have : V % 2 ^ n < 2 ^ n := Nat.mod_lt _ (by positivity)
    exact_mod_cast this
  have hge : (0:K) ≤ (V % 2 ^ n : ℕ) := Nat.cast_nonneg _
  set q := V / 2 ^ n with hq
  set r := V % 2 ^ n with hr
  have hx : (V : K) / 2 ^ n = q + (r : K) / 2 ^ n := by
    rw [hdm]; field_simp
  have hf0 : (0:K) ≤ (r : K) / 2 ^ n := by positivity
  have hf1 : (r : K) / 2 ^ n < 1 := by rw [div_lt_one hp]; exact hlt
  have hfz : (r : K) / 2 ^ n = 0 ↔ r = 0 := by
    rw [div_eq_zero_iff]
    constructor
    · rintro (h | h)
      · exact_mod_cast h
      · exact absurd h hp.ne'
    · intro h; left; exact_mod_cast h
  have hfhalf : (r : K) / 2 ^ n = 1 / 2 ↔ 2 * r = 2 ^ n := by
    rw [div_eq_iff hp.ne']
    constructor
    · intro h
      have : (2:K) * r = 2 ^ n := by rw [h]; ring
      exact_mod_cast this
    · intro h
      have : (2:K) * r = 2 ^ n := by exact_mod_cast h
      linarith
  have hflt : (r : K) / 2 ^ n < 1 / 2 ↔ 2 * r < 2 ^ n := by
    rw [div_lt_iff₀ hp]
    constructor
    · intro h
      have : (2:K) * r < 2 ^ n := by linarith
      exact_mod_cast this
    · intro h
      have : (2:K) * r < 2 ^ n := by exact_mod_cast h
      linarith
  set f := (r : K) / 2 ^ n with hf
  rw [hx]
  have hceil : ((q : K) + f ≤ ((q + if decide (r ≠ 0) = true then 1 else 0 : ℕ) : K) ∧
      (((q + if decide (r ≠ 0) = true then 1 else 0 : ℕ) : K)) < q + f + 1) := by
    by_cases h0 : r = 0
    · have hf0' := hfz.2 h0
      simp [h0, hf0']
    · have : f ≠ 0 := fun h => h0 (hfz.1 h)
      have hfp : 0 < f := lt_of_le_of_ne hf0 (Ne.symm this)
      simp only [ne_eq, h0, not_false_eq_true, decide_true, if_true]
      push_cast
      constructor <;> linarith
  have hfloor : ((q : K) ≤ q + f ∧ (q:K) + f < q + 1) := by constructor <;> linarith
  have near : ∀ b : Bool, (2 ^ n < 2 * r → b = true) → (2 * r < 2 ^ n → b = false) →
      |(q : K) + f - ((q + if b = true then 1 else 0 : ℕ) : K)| ≤ 1 / 2 ∧
      (|(q : K) + f - ((q + if b = true then 1 else 0 : ℕ) : K)| = 1 / 2 → 2 * r = 2 ^ n) := by
    intro b hb1 hb2
    rcases lt_trichotomy (2 * r) (2 ^ n) with h | h | h
    · rw [hb2 h]
      have := hflt.2 h
      simp only [Bool.false_eq_true, if_false, add_zero, add_sub_cancel_left]
      rw [abs_of_nonneg hf0]
      exact ⟨this.le, fun h2 => absurd h2 this.ne⟩
    · have hfh := hfhalf.2 h
      refine ⟨?_, fun _ => h⟩
      rw [hfh]
      cases b
      · simp only [Bool.false_eq_true, if_false, add_zero, add_sub_cancel_left]
        rw [abs_of_nonneg (by norm_num)]
      · simp only [if_true]
        push_cast
        rw [abs_le]; constructor <;> linarith
    · rw [hb1 h]
      have hfg : 1 / 2 < f := by
        by_contra hc
        rcases lt_or_eq_of_le (not_lt.1 hc) with h3 | h3
        · have := hflt.1 h3; omega
        · have := hfhalf.1 h3; omega
      simp only [if_true]
      push_cast
      have e : (q : K) + f - (q + 1) = -(1 - f) := by ring
      rw [e, abs_neg, abs_of_nonneg (by linarith)]
      exact ⟨by linarith, fun h2 => by linarith⟩
  unfold rndN
  rw [← hq]
  cases rm
  · simpa [RMag, roundAway] using hfloor
  · cases pos
    · simpa [RMag, roundAway] using hfloor
    · simpa only [RMag, roundAway, Bool.true_and] using hceil
  · cases pos
    · simpa only [RMag, roundAway, Bool.not_false, Bool.true_and] using hceil
    · simpa [RMag, roundAway] using hfloor
  · simpa [RMag, roundAway] using hfloor
  · simpa only [RMag, roundAway, ← hr] using hceil
  · simp only [RMag]
    have := near (roundAway .toEven pos V n)
      (by intro h; simp [roundAway, ← hr, h])
      (by intro h
          have h1 : ¬ 2 ^ n < 2 * r := by omega
          have h2 : ¬ 2 * r = 2 ^ n := by omega
          simp [roundAway, ← hr, h1, h2])
    refine ⟨this.1, fun h => ?_⟩
    have h2 := this.2 h
    simp only [roundAway, ← hr, ← hq, h2, lt_irrefl, decide_false, decide_true, Bool.true_and, Bool.false_or]
    rcases Nat.mod_two_eq_zero_or_one q with h3 | h3
    · simp [h3, Nat.even_iff]
    · simp only [h3, decide_true, if_true, Nat.even_iff]; omega
  · simp only [RMag]
    have := near (roundAway .toOdd pos V n)
      (by intro h; simp [roundAway, ← hr, h])
      (by intro h
          have h1 : ¬ 2 ^ n < 2 * r := by omega
          have h2 : ¬ 2 * r = 2 ^ n := by omega
          simp [roundAway, ← hr, h1, h2])
    refine ⟨this.1, fun h => ?_⟩
    have h2 := this.2 h
    simp only [roundAway, ← hr, ← hq, h2, lt_irrefl, decide_false, decide_true, Bool.true_and, Bool.false_or]
    rcases Nat.mod_two_eq_zero_or_one q with h3 | h3
    · simp only [h3, decide_true, if_true, Nat.odd_iff]; omega
    · simp [h3, Nat.odd_iff]

/-- Rounding does not distinguish two values in the same open half-cell `(j/2, (j+1)/2)`. -/
theorem RMag.sticky {rm : RM} {pos : Bool} {x y : K} {k j : Nat} (h : RMag rm pos x k)
    (hx1 : (j : K) / 2 < x) (hx2 : x < ((j : K) + 1) / 2)
    (hy1 : (j : K) / 2 < y) (hy2 : y < ((j : K) + 1) / 2) : RMag rm pos y k := by
  have hxl : (j : K) < 2 * x := by linarith
  have hxu : 2 * x < j + 1 := by linarith
  have hyl : (j : K) < 2 * y := by linarith
  have hyu : 2 * y < j + 1 := by linarith
  have floorCase : ((k : K) ≤ x ∧ x < k + 1) → ((k : K) ≤ y ∧ y < k + 1) := by
    rintro ⟨h1, h2⟩
    have a : (2 * k : K) < j + 1 := by linarith
    have b : (j : K) < 2 * k + 2 := by linarith
    have a' : 2 * k < j + 1 := by exact_mod_cast a
    have b' : j < 2 * k + 2 := by exact_mod_cast b
    have a2 : (2 * k : K) ≤ j := by exact_mod_cast (show 2 * k ≤ j by omega)
    have b2 : (j : K) + 1 ≤ 2 * k + 2 := by exact_mod_cast (show j + 1 ≤ 2 * k + 2 by omega)
    constructor <;> linarith
  have ceilCase : (x ≤ (k : K) ∧ (k : K) < x + 1) → (y ≤ (k : K) ∧ (k : K) < y + 1) := by
    rintro ⟨h1, h2⟩
    have a : (j : K) < 2 * k := by linarith
    have b : (2 * k : K) < j + 3 := by linarith
    have a' : j < 2 * k := by exact_mod_cast a
    have b' : 2 * k < j + 3 := by exact_mod_cast b
    have a2 : (j : K) + 1 ≤ 2 * k := by exact_mod_cast (show j + 1 ≤ 2 * k by omega)
    have b2 : (2 * k : K) ≤ j + 2 := by exact_mod_cast (show 2 * k ≤ j + 2 by omega)
    constructor <;> linarith
  have nearCase : |x - k| ≤ 1 / 2 → |y - k| < 1 / 2 := by
    intro h1
    rw [abs_le] at h1
    have a : (2 * k : K) < j + 2 := by linarith
    have b : (j : K) < 2 * k + 1 := by linarith
    have a' : 2 * k < j + 2 := by exact_mod_cast a
    have b' : j < 2 * k + 1 := by exact_mod_cast b
    have a2 : (2 * k : K) ≤ j + 1 := by exact_mod_cast (show 2 * k ≤ j + 1 by omega)
    have b2 : (j : K) ≤ 2 * k := by exact_mod_cast (show j ≤ 2 * k by omega)
    rw [abs_lt]; constructor <;> linarith
  cases rm <;> cases pos <;> simp only [RMag] at h ⊢ <;>
    first
    | exact floorCase h
    | exact ceilCase h
    | (have h1 := nearCase h.1; exact ⟨h1.le, fun h2 => absurd h2 h1.ne⟩)

end AF
