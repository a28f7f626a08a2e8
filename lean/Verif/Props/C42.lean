import Verif.Lemmas.RootBounds
/-!
# C42: arithmetic identities

At a precision not below that of `x` (the mantissa of `x` fits the requested number of bits).
-/

namespace AF

theorem C42_add_zero (x z : Num) (hx : x.WF) (hz : z.WF) (hz0 : (z.toK : ℚ) = 0) (p : Nat)
    (hp : ValidP p) (hl : 64 * x.m.m.length ≤ precBits p) (rm : RM) :
    ∃ v, BF.add (.num x) (.num z) p rm = .num v ∧ 64 * v.m.m.length = precBits p ∧
      (v.toK : ℚ) = x.toK := by
  obtain ⟨v, h1, h2, h3⟩ := (BF.add_delivers (K := ℚ) hx hz hp rm).repr (precBits_pos hp.pos) hx hl
    (by rw [hz0, add_zero])
  exact ⟨v, h1, h2, by rw [h3, hz0, add_zero]⟩

theorem C42_zero_add (x z : Num) (hx : x.WF) (hz : z.WF) (hz0 : (z.toK : ℚ) = 0) (p : Nat)
    (hp : ValidP p) (hl : 64 * x.m.m.length ≤ precBits p) (rm : RM) :
    ∃ v, BF.add (.num z) (.num x) p rm = .num v ∧ 64 * v.m.m.length = precBits p ∧
      (v.toK : ℚ) = x.toK := by
  obtain ⟨v, h1, h2, h3⟩ := (BF.add_delivers (K := ℚ) hz hx hp rm).repr (precBits_pos hp.pos) hx hl
    (by rw [hz0, zero_add])
  exact ⟨v, h1, h2, by rw [h3, hz0, zero_add]⟩

theorem C42_sub_zero (x z : Num) (hx : x.WF) (hz : z.WF) (hz0 : (z.toK : ℚ) = 0) (p : Nat)
    (hp : ValidP p) (hl : 64 * x.m.m.length ≤ precBits p) (rm : RM) :
    ∃ v, BF.sub (.num x) (.num z) p rm = .num v ∧ 64 * v.m.m.length = precBits p ∧
      (v.toK : ℚ) = x.toK := by
  obtain ⟨v, h1, h2, h3⟩ := (BF.sub_delivers (K := ℚ) hx hz hp rm).repr (precBits_pos hp.pos) hx hl
    (by rw [hz0, sub_zero])
  exact ⟨v, h1, h2, by rw [h3, hz0, sub_zero]⟩

theorem C42_mul_one (x i : Num) (hx : x.WF) (hi : i.WF) (hi1 : (i.toK : ℚ) = 1) (p : Nat)
    (hp : ValidP p) (hl : 64 * x.m.m.length ≤ precBits p) (rm : RM) :
    ∃ v, BF.mul (.num x) (.num i) p rm = .num v ∧ 64 * v.m.m.length = precBits p ∧
      (v.toK : ℚ) = x.toK := by
  obtain ⟨v, h1, h2, h3⟩ := (BF.mul_delivers (K := ℚ) hx hi hp rm).repr (precBits_pos hp.pos) hx hl
    (by rw [hi1, mul_one])
  exact ⟨v, h1, h2, by rw [h3, hi1, mul_one]⟩

theorem C42_div_one (x i : Num) (hx : x.WF) (hi : i.WF) (hi1 : (i.toK : ℚ) = 1) (p : Nat)
    (hp : ValidP p) (hl : 64 * x.m.m.length ≤ precBits p) (rm : RM) :
    ∃ v, BF.div (.num x) (.num i) p rm = .num v ∧ 64 * v.m.m.length = precBits p ∧
      (v.toK : ℚ) = x.toK := by
  obtain ⟨v, h1, h2, h3⟩ := (BF.div_delivers (K := ℚ) hx hi (by rw [hi1]; norm_num) hp rm).repr
    (precBits_pos hp.pos) hx hl (by rw [hi1, div_one])
  exact ⟨v, h1, h2, by rw [h3, hi1, div_one]⟩

/-- At every accepted precision. -/
theorem C42_sub_self (x : Num) (hx : x.WF) (p : Nat) (hp : ValidP p) (rm : RM) :
    ∃ v, BF.sub (.num x) (.num x) p rm = .num v ∧ 64 * v.m.m.length = precBits p ∧
      (v.toK : ℚ) = 0 :=
  (BF.sub_delivers (K := ℚ) hx hx hp rm).zero (sub_self _)

/-- The square root of the exact square of a nonnegative `w` that fits the requested precision. -/
theorem C42_sqrt_square (x w : Num) (hx : x.WF) (hw : w.WF) (hw0 : (0 : ℚ) ≤ w.toK)
    (hsq : (x.toK : ℚ) = w.toK * w.toK) (p : Nat) (hp : ValidP p)
    (hl : 64 * w.m.m.length ≤ precBits p) (rm : RM) :
    ∃ v, BF.sqrt (.num x) p rm = .num v ∧ 64 * v.m.m.length = precBits p ∧
      (v.toK : ℚ) = w.toK :=
  (BF.sqrt_delivers (K := ℚ) hx (Num.WF.sign_of_nonneg (by rw [hsq]; exact mul_self_nonneg _)) hp rm hw0
    hsq.symm).repr (precBits_pos hp.pos) hw hl rfl

/-- The cube root of an exact cube. -/
theorem C42_cbrt_cube (x w : Num) (hx : x.WF) (hw : w.WF)
    (hcu : (x.toK : ℚ) = w.toK ^ 3) (p : Nat) (hp : ValidP p)
    (hl : 64 * w.m.m.length ≤ precBits p) (rm : RM) :
    ∃ v, BF.cbrt (.num x) p rm = .num v ∧ 64 * v.m.m.length = precBits p ∧
      (v.toK : ℚ) = w.toK :=
  (BF.cbrt_delivers (K := ℚ) hx hp rm hcu.symm).repr (precBits_pos hp.pos) hw hl rfl

/-- One, in 64 bits. -/
def one64 : Num := { e := 1, s := .pos, m := { m := [MSB], n := 64 }, inexact := false }

theorem one64_WF : one64.WF := Num.WF_of_check (by decide)
theorem one64_val : (one64.toK : ℚ) = 1 := by norm_num [Num.toK, one64, Sign.toK, val, MSB]

/-- At every accepted precision. -/
theorem C42_div_self (x : Num) (hx : x.WF) (hx0 : (x.toK : ℚ) ≠ 0) (p : Nat) (hp : ValidP p) (rm : RM) :
    ∃ v, BF.div (.num x) (.num x) p rm = .num v ∧ 64 * v.m.m.length = precBits p ∧
      (v.toK : ℚ) = 1 := by
  obtain ⟨v, h1, h2, h3⟩ := (BF.div_delivers (K := ℚ) hx hx hx0 hp rm).repr
    (precBits_pos hp.pos) one64_WF (by
      have := precBits_pos hp.pos
      show 64 * 1 ≤ _
      unfold precBits at this ⊢; omega) (by rw [one64_val, div_self hx0])
  exact ⟨v, h1, h2, by rw [h3, div_self hx0]⟩

example : ∃ v, BF.div (.num exB) (.num exB) 100 .up = .num v ∧ 64 * v.m.m.length = precBits 100 ∧
    (v.toK : ℚ) = 1 :=
  C42_div_self exB exB_WF (by rw [exB_val]; norm_num) 100 ValidP_100 .up

example : ∃ v, BF.mul (.num exB) (.num one64) 100 .down = .num v ∧ 64 * v.m.m.length = precBits 100 ∧
    (v.toK : ℚ) = exB.toK :=
  C42_mul_one exB one64 exB_WF one64_WF one64_val 100 ValidP_100 (by decide) .down

example : ∃ v, BF.add (.num exB) (.num (Num.zero 64 .neg false)) 100 .down = .num v ∧
    64 * v.m.m.length = precBits 100 ∧ (v.toK : ℚ) = exB.toK :=
  C42_add_zero exB _ exB_WF (zero_WF (by decide) _ _) (zero_toK _ _ _) 100 ValidP_100 (by decide) .down

/-- `9` and `27` in 64 bits, and `3`. -/
def nine64 : Num := { e := 4, s := .pos, m := { m := [9 * 2 ^ 60], n := 64 }, inexact := false }
def m27_64 : Num := { e := 5, s := .neg, m := { m := [27 * 2 ^ 59], n := 64 }, inexact := false }
def three64 : Num := { e := 2, s := .pos, m := { m := [3 * 2 ^ 62], n := 64 }, inexact := false }
def mthree64 : Num := { e := 2, s := .neg, m := { m := [3 * 2 ^ 62], n := 64 }, inexact := false }

theorem three64_val : (three64.toK : ℚ) = 3 := by norm_num [Num.toK, three64, Sign.toK, val, zpow_neg]
theorem mthree64_val : (mthree64.toK : ℚ) = -3 := by norm_num [Num.toK, mthree64, Sign.toK, val, zpow_neg]
theorem nine64_val : (nine64.toK : ℚ) = 9 := by norm_num [Num.toK, nine64, Sign.toK, val, zpow_neg]
theorem m27_64_val : (m27_64.toK : ℚ) = -27 := by norm_num [Num.toK, m27_64, Sign.toK, val, zpow_neg]

example : ∃ v, BF.sqrt (.num nine64) 100 .up = .num v ∧ 64 * v.m.m.length = precBits 100 ∧
    (v.toK : ℚ) = three64.toK :=
  C42_sqrt_square nine64 three64 (Num.WF_of_check (by decide)) (Num.WF_of_check (by decide))
    (by rw [three64_val]; norm_num) (by rw [nine64_val, three64_val]; norm_num) 100 ValidP_100 (by decide) .up

example : ∃ v, BF.cbrt (.num m27_64) 100 .up = .num v ∧ 64 * v.m.m.length = precBits 100 ∧
    (v.toK : ℚ) = mthree64.toK :=
  C42_cbrt_cube m27_64 mthree64 (Num.WF_of_check (by decide)) (Num.WF_of_check (by decide))
    (by rw [m27_64_val, mthree64_val]; norm_num) 100 ValidP_100 (by decide) .up

end AF
