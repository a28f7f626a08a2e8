import Verif.Lemmas.Sinh
import Verif.Lemmas.ExpOver
import Verif.Lemmas.FftWrong
/-!
# The hyperbolic tangent of large arguments
-/

namespace AF

open Num

/-- `tanh` by the exponential function. -/
theorem tanh_eq_exp (t : ℝ) : Real.tanh t = (Real.exp (2 * t) - 1) / (Real.exp (2 * t) + 1) := by
  have h : Real.exp (2 * t) = Real.exp t * Real.exp t := by rw [← Real.exp_add]; congr 1; ring
  have hp := Real.exp_pos t
  rw [Real.tanh_eq_sinh_div_cosh, Real.sinh_eq, Real.cosh_eq, Real.exp_neg, h]
  field_simp

theorem tanh_sub_one (t : ℝ) : Real.tanh t = 1 - 2 / (Real.exp (2 * t) + 1) := by
  have hp := Real.exp_pos (2 * t)
  rw [tanh_eq_exp]
  field_simp
  ring

theorem sign_tanh (x : Num) : Real.tanh (x.toK : ℝ) = x.s.toK * Real.tanh |(x.toK : ℝ)| := by
  conv_lhs => rw [Num.toK_eq (K := ℝ) x]
  cases x.s <;> simp [Sign.toK]

/-- The modes in which a number with sign `σ` just below one in magnitude is rounded to the next number below one. -/
def truncMode (σ : Sign) (rm : RM) : Prop := rm = .toZero ∨ (σ = .pos ∧ rm = .down) ∨ (σ = .neg ∧ rm = .up)

/-- Rounding of numbers just below one in magnitude. -/
theorem large_rounds {σ : Sign} {rm : RM} (hrm : rm ≠ .none) {T u : ℝ} {N : ℤ} (hN : N * u = 1) (hu : 0 < u) (hu1 : u ≤ 1)
    (h1 : 1 - u / 4 < T) (h2 : T < 1) {r : ℝ} (hr : (truncMode σ rm ∧ r = σ.toK * (1 - u)) ∨ (¬ truncMode σ rm ∧ r = σ.toK)) :
    Rounds rm (σ.toK * T) u r := by
  have hT : 0 < T := by linarith
  have aT : |T| = T := abs_of_pos hT
  rcases hr with ⟨hm, hr⟩ | ⟨hm, hr⟩
  · refine ⟨σ.toInt * (N - 1), ?_, ?_⟩
    · rw [hr]
      have : (σ.toInt : ℝ) = σ.toK := by cases σ <;> simp [Sign.toInt, Sign.toK]
      push_cast
      rw [this, mul_assoc, sub_mul, hN, one_mul]
    · have a1 : |1 - u| = 1 - u := abs_of_nonneg (by linarith)
      have a2 : 0 ≤ T * (1 - u) := mul_nonneg hT.le (by linarith)
      rcases hm with rfl | ⟨rfl, rfl⟩ | ⟨rfl, rfl⟩
      · rw [hr]
        cases σ <;> simp only [Sign.toK, one_mul, neg_one_mul, abs_neg, a1, aT] <;>
          refine ⟨by linarith, by linarith, by linarith⟩
      · rw [hr]; simp only [Sign.toK, one_mul]; constructor <;> linarith
      · rw [hr]; simp only [Sign.toK, neg_one_mul]; constructor <;> linarith
  · refine ⟨σ.toInt * N, ?_, ?_⟩
    · rw [hr]
      have : (σ.toInt : ℝ) = σ.toK := by cases σ <;> simp [Sign.toInt, Sign.toK]
      push_cast
      rw [this, mul_assoc, hN, mul_one]
    · have a3 : |T - 1| = 1 - T := by rw [abs_of_neg (by linarith)]; ring
      have a4 : |-T + 1| = 1 - T := by rw [abs_of_pos (by linarith)]; ring
      rw [hr]
      cases rm <;> cases σ <;> simp [truncMode] at hm hrm <;> simp only [Sign.toK, one_mul, neg_one_mul, abs_neg, abs_one, aT]
      case up.pos => constructor <;> linarith
      case down.neg => constructor <;> linarith
      case fromZero.pos => refine ⟨by linarith, by linarith, by linarith⟩
      case fromZero.neg => refine ⟨by linarith, by linarith, by linarith⟩
      all_goals
        simp only [sub_neg_eq_add, a3, a4]
        exact ⟨by linarith, fun h => by exfalso; linarith⟩

theorem setInexact_WF {x : Num} (hx : x.WF) (b : Bool) : ({ x with inexact := b } : Num).WF :=
  ⟨hx.wf, hx.bits, hx.emin, hx.emax, hx.norm, hx.sized⟩

/-- The largest number below one. -/
theorem belowOne_spec {pw : Nat} (hp : 0 < pw) (hpm : 64 * pw < PMAX) (σ : Sign) :
    ∃ r, maxValue (64 * pw) = .ok r ∧ ((r.setSign σ).setExponent 0).WF ∧ 64 * ((r.setSign σ).setExponent 0).m.m.length = 64 * pw ∧
      ((r.setSign σ).setExponent 0).s = σ ∧ ((((r.setSign σ).setExponent 0).toK : ℝ) = σ.toK * (1 - 2 ^ (-((64 * pw : ℕ) : ℤ)))) := by
  unfold Num.maxValue
  rw [if_neg (by omega)]
  refine ⟨_, rfl, ?_⟩
  obtain ⟨r, hr⟩ : ∃ r, r = Num.setSign { e := EMAX, s := .pos, m := Mantissa.oned (64 * pw), inexact := false } σ := ⟨_, rfl⟩
  rw [← hr]
  have hw : r.WF := by rw [hr]; exact setSign_WF (oned_WF hpm .pos) σ
  have hmm : r.m.m = List.replicate pw WMAX := by
    rw [hr]
    show List.replicate (wordLen (64 * pw)) WMAX = _
    rw [wordLen_mul]
  have hre : r.e = EMAX := by rw [hr]; rfl
  have hrs : r.s = σ := by rw [hr]; rfl
  have hval : (val r.m.m : ℝ) = 2 ^ (64 * pw) - 1 := by
    have h := val_ones pw
    rw [hmm]
    have h2 : ((val (List.replicate pw WMAX) + 1 : ℕ) : ℝ) = ((B ^ pw : ℕ) : ℝ) := by rw [h]
    rw [B_eq, ← pow_mul] at h2
    push_cast at h2
    linarith
  have hK : (r.toK : ℝ) = σ.toK * ((2 ^ (64 * pw) - 1) * 2 ^ (EMAX - ((64 * pw : ℕ) : ℤ))) := by
    unfold Num.toK
    rw [hval, hrs, hre, hmm, List.length_replicate, mul_assoc]
  have hz : r.isZero = false := by
    rw [← Bool.not_eq_true, ← hw.toK_eq_zero (K := ℝ), hK]
    have h1 : (1 : ℝ) < 2 ^ (64 * pw) := one_lt_pow₀ (by norm_num) (by omega)
    have h2 : (σ.toK : ℝ) ≠ 0 := by cases σ <;> simp [Sign.toK]
    have h3 : (2 : ℝ) ^ (64 * pw) - 1 ≠ 0 := by linarith
    exact mul_ne_zero h2 (mul_ne_zero h3 (by positivity))
  obtain ⟨a1, a2, a3, a4, a5, a6⟩ := setExponent_normal hw hz (by rw [hre]; decide) (e := 0) (by decide) (by decide)
  refine ⟨a1, by rw [a3, hmm, List.length_replicate], by rw [a5, hrs], ?_⟩
  rw [a2, hK, hre, mul_assoc, mul_assoc, ← zpow_add₀ (by norm_num)]
  congr 1
  rw [show EMAX - ((64 * pw : ℕ) : ℤ) + (0 - EMAX) = -((64 * pw : ℕ) : ℤ) by ring, sub_mul, one_mul, ← zpow_natCast,
    ← zpow_add₀ (by norm_num)]
  rw [show (((64 * pw : ℕ) : ℤ) + -((64 * pw : ℕ) : ℤ)) = 0 by ring, zpow_zero]

/-- The result for large arguments. -/
theorem tanhLarge_spec {pw : Nat} (hp : 0 < pw) (hpm : 64 * pw < PMAX) (σ : Sign) (rm : RM) {T : ℝ}
    (h1 : 1 - 2 ^ (-((64 * pw : ℕ) : ℤ)) / 4 < T) (h2 : T < 1) :
    ∃ v, tanhLarge σ (64 * pw) rm = .ok v ∧ FunRounded rm (64 * pw) (σ.toK * T) v ∧
      (rm ≠ .none → RoundsFmt rm (64 * pw) (σ.toK * T) v.toK) := by
  obtain ⟨u, hu⟩ : ∃ u : ℝ, u = 2 ^ (-((64 * pw : ℕ) : ℤ)) := ⟨_, rfl⟩
  have hu0 : 0 < u := by rw [hu]; positivity
  have hu1 : u ≤ 1 / 4 := by
    rw [hu, show (1 / 4 : ℝ) = 2 ^ (-2 : ℤ) by norm_num]
    exact zpow_le_zpow_right₀ (by norm_num) (by push_cast; omega)
  rw [← hu] at h1
  have hT : 1 / 2 < T := by linarith
  have haT : |σ.toK * T| = T := by
    cases σ <;> simp [Sign.toK, abs_of_pos (show 0 < T by linarith)]
  have hNu : (((2 : ℤ) ^ (64 * pw) : ℤ) : ℝ) * u = 1 := by
    rw [hu]; push_cast
    rw [← zpow_natCast, ← zpow_add₀ (by norm_num)]
    push_cast
    rw [add_neg_cancel, zpow_zero]
  have hs1 : 0 < σ.toK * T → σ = .pos := by
    cases σ
    · intro h; simp only [Sign.toK] at h; linarith
    · intro; rfl
  have hs2 : σ.toK * T < 0 → σ = .neg := by
    cases σ
    · intro; rfl
    · intro h; simp only [Sign.toK] at h; linarith
  have hfmt : ∀ {r : ℝ}, rm ≠ .none → (truncMode σ rm ∧ r = σ.toK * (1 - u)) ∨ (¬ truncMode σ rm ∧ r = σ.toK) →
      RoundsFmt rm (64 * pw) (σ.toK * T) r := by
    intro r hrm hr
    right
    refine ⟨0, by rw [haT]; norm_num; linarith, by rw [haT]; norm_num; linarith, ?_⟩
    have : max (0 : ℤ) EMIN - ((64 * pw : ℕ) : ℤ) = -((64 * pw : ℕ) : ℤ) := by
      rw [max_eq_left (by decide)]; ring
    rw [this, ← hu]
    exact large_rounds hrm hNu hu0 (by linarith) h1 h2 hr
  have hy : (2 : ℝ) ^ (EMIN - 1) ≤ |σ.toK * T| := by
    rw [haT]
    refine le_trans ?_ hT.le
    rw [show (1 / 2 : ℝ) = 2 ^ (-1 : ℤ) by norm_num]
    exact zpow_le_zpow_right₀ (by norm_num) (by unfold EMIN; norm_num)
  unfold Num.tanhLarge
  by_cases hm : truncMode σ rm
  · obtain ⟨r, r1, r2, r3, r4, r5⟩ := belowOne_spec hp hpm σ
    rw [← hu] at r5
    have hrm : rm ≠ .none := by rcases hm with rfl | ⟨-, rfl⟩ | ⟨-, rfl⟩ <;> simp
    dsimp only
    rw [if_pos (show rm = .toZero ∨ (σ = .pos ∧ rm = .down) ∨ (σ = .neg ∧ rm = .up) from hm), r1]
    refine ⟨_, rfl, .of_fmt hy (setInexact_WF r2 true) r3 ?_ ?_ rfl ?_, fun _ => ?_⟩
    · intro h; rw [← hs1 h]; exact r4
    · intro h; rw [← hs2 h]; exact r4
    · exact hfmt hrm (Or.inl ⟨hm, r5⟩)
    · exact hfmt hrm (Or.inl ⟨hm, r5⟩)
  · obtain ⟨r, r1, r2, r3, r4, -⟩ := fromI_spec (K := ℝ) (sz := 8) (p := 64 * pw) (i := σ.toInt) (by norm_num) (by norm_num)
      (by cases σ <;> simp [Sign.toInt]) (by omega) hpm
    have hpb : precBits (64 * pw) = 64 * pw := by unfold precBits; omega
    rw [hpb] at r3
    have hσ : (σ.toInt : ℝ) = σ.toK := by cases σ <;> simp [Sign.toInt, Sign.toK]
    rw [hσ] at r4
    have rs : r.s = σ := by
      cases σ
      · exact toK_sign_neg (K := ℝ) (by rw [r4]; simp [Sign.toK])
      · exact toK_sign_pos (K := ℝ) (by rw [r4]; simp [Sign.toK])
    dsimp only
    rw [if_neg (show ¬ (rm = .toZero ∨ (σ = .pos ∧ rm = .down) ∨ (σ = .neg ∧ rm = .up)) from hm), r1]
    refine ⟨_, rfl, ?_, fun hrm => hfmt hrm (Or.inr ⟨hm, r4⟩)⟩
    by_cases hrm : rm = .none
    · refine ⟨setInexact_WF r2 true, r3, ?_, ?_, rfl, ?_, ?_, fun _ => ?_⟩
      · intro h; rw [← hs1 h]; exact rs
      · intro h; rw [← hs2 h]; exact rs
      · rw [hrm]; simp
      · rw [hrm]; simp
      · have e0 : ((({ r with inexact := true } : Num)).toK : ℝ) = r.toK := rfl
        have e1 : |(σ.toK : ℝ) - σ.toK * T| = 1 - T := by
          cases σ
          · simp only [Sign.toK]
            rw [show (-1 : ℝ) - -1 * T = -(1 - T) by ring, abs_neg, abs_of_pos (by linarith)]
          · simp only [Sign.toK, one_mul]
            rw [abs_of_pos (by linarith)]
        rw [e0, r4, e1, haT]
        have e2 : (2 : ℝ) ^ (1 - ((64 * pw : ℕ) : ℤ)) = 2 * u := by
          rw [hu, sub_eq_add_neg, zpow_add₀ (by norm_num), zpow_one]
        rw [e2]
        have e3 : (0 : ℝ) < 2 ^ (-60 : ℤ) := by positivity
        have e4 : 1 / 2 * (2 * u) ≤ T * (2 * u * (1 + 2 ^ (-60 : ℤ))) :=
          mul_le_mul hT.le (by nlinarith only [hu0, e3]) (by linarith) (by linarith)
        refine le_trans ?_ e4
        linarith only [h1, hu0]
    · refine .of_fmt hy (setInexact_WF r2 true) r3 ?_ ?_ rfl (hfmt hrm (Or.inr ⟨hm, r4⟩))
      · intro h; rw [← hs1 h]; exact rs
      · intro h; rw [← hs2 h]; exact rs

/-- The distance of the hyperbolic tangent from one. -/
theorem tanh_near_one {t : ℝ} {n : ℤ} (h : (2 : ℝ) ^ n ≤ Real.exp (2 * t)) :
    1 - 2 ^ (1 - n) < Real.tanh t ∧ Real.tanh t < 1 := by
  have hE := Real.exp_pos (2 * t)
  rw [tanh_sub_one]
  have h1 : 2 / (Real.exp (2 * t) + 1) < 2 ^ (1 - n) := by
    have h2 : (0 : ℝ) < 2 ^ n := by positivity
    rw [zpow_sub₀ (by norm_num), zpow_one]
    exact div_lt_div_of_pos_left (by norm_num) h2 (by linarith)
  have h3 : 0 < 2 / (Real.exp (2 * t) + 1) := by positivity
  constructor <;> linarith

end AF
