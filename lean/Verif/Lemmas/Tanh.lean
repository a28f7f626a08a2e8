import Verif.Lemmas.TanhLarge
import Mathlib.Analysis.SpecialFunctions.Log.Deriv
/-!
# The hyperbolic tangent
-/

namespace AF

open Num

theorem tanh_lt_self {t : ℝ} (h0 : 0 < t) (h1 : t < 1) : Real.tanh t < t := by
  have hs := Real.hasSum_log_sub_log_of_abs_lt_one (x := t) (by rw [abs_of_pos h0]; exact h1)
  have h2 : 2 * t < Real.log (1 + t) - Real.log (1 - t) := by
    have hle := sum_le_hasSum (Finset.range 2) (fun i _ => by positivity) hs
    rw [Finset.sum_range_succ, Finset.sum_range_one] at hle
    have : 0 < t ^ 3 := by positivity
    norm_num at hle
    linarith
  have h3 : Real.exp (2 * t) < (1 + t) / (1 - t) := by
    have h4 := Real.exp_lt_exp.2 h2
    rw [Real.exp_sub, Real.exp_log (by linarith), Real.exp_log (by linarith)] at h4
    exact h4
  rw [lt_div_iff₀ (by linarith)] at h3
  have hE := Real.exp_pos (2 * t)
  rw [tanh_eq_exp, div_lt_iff₀ (by linarith)]
  linarith

theorem tanh_cube_aux {t s c : ℝ} (h0 : 0 < t) (h1 : t ≤ 1 / 2) (hs : t + t ^ 3 / 6 ≤ s) (hc1 : 1 ≤ c)
    (hc : c ≤ 1 + t ^ 2 / 2 + t ^ 4 / 4) : t - t ^ 3 / 2 ≤ s / c := by
  rw [le_div_iff₀ (by linarith)]
  have h2 : t ^ 2 ≤ 1 / 4 := by nlinarith
  have h3 : 0 < t ^ 3 := by positivity
  have h4 : 0 ≤ t - t ^ 3 / 2 := by nlinarith
  refine le_trans (mul_le_mul_of_nonneg_left hc h4) (le_trans ?_ hs)
  have h5 : t ^ 5 ≤ t ^ 3 / 4 := by
    have : t ^ 5 = t ^ 3 * t ^ 2 := by ring
    rw [this]
    nlinarith
  have h7 : 0 < t ^ 7 := by positivity
  have h6 : 0 < t ^ 5 := by positivity
  have e : (t - t ^ 3 / 2) * (1 + t ^ 2 / 2 + t ^ 4 / 4) = t - t ^ 7 / 8 := by ring
  rw [e]
  linarith

theorem tanh_cube {t : ℝ} (h0 : 0 < t) (h1 : t ≤ 1 / 2) : 0 < t - Real.tanh t ∧ t - Real.tanh t ≤ t ^ 3 / 2 := by
  refine ⟨by linarith [tanh_lt_self h0 (by linarith)], ?_⟩
  have hs := (sinh_partial h0 (by linarith) 1).1
  have e1 : serSum sinhCoef (t * t) 1 1 = 1 / 6 := by
    rw [serSum_succ, serSum_zero]
    unfold sinhCoef
    norm_num [Nat.factorial]
  rw [e1] at hs
  have ha := Real.cosh_le_exp_half_sq t
  have ht1 : t ^ 2 ≤ 1 := pow_le_one₀ h0.le (by linarith)
  have hb := Real.abs_exp_sub_one_sub_id_le (x := t ^ 2 / 2) (by rw [abs_of_pos (by positivity)]; linarith)
  have hb2 := (abs_le.1 hb).2
  have := tanh_cube_aux h0 h1 (s := Real.sinh t) (c := Real.cosh t) (by
    have : t + t ^ 3 / 6 = t + t * (t * t) * (1 / 6) := by ring
    linarith) (Real.one_le_cosh t) (by
    have : (t ^ 2 / 2) ^ 2 = t ^ 4 / 4 := by ring
    linarith)
  rw [Real.tanh_eq_sinh_div_cosh]
  linarith

theorem tanh_lt_one' (t : ℝ) : Real.tanh t < 1 := by
  have := Real.exp_pos (2 * t)
  rw [tanh_sub_one]
  have : 0 < 2 / (Real.exp (2 * t) + 1) := by positivity
  linarith

/-- `tanh` next to zero. -/
theorem tanh_small {x : Num} (hx : x.WF) (hz : x.isZero = false) (hlo : EMIN + 2 ≤ x.e) {pw : Nat} (hp : 0 < pw)
    (he : ((max (64 * pw) (64 * x.m.m.length) : ℕ) : ℤ) + 1 < -(x.e * 2 - 1)) (rm : RM) :
    ∃ v, x.smallExp true (64 * pw) rm = .ok v ∧ RoundsFmt rm (64 * pw) (Real.tanh x.toK) v.toK ∧
      FunRounded rm (64 * pw) (Real.tanh x.toK) v := by
  have hem := hx.emin
  have hE : EMIN = -2 ^ 31 := rfl
  have hEX : EMAX = 2 ^ 31 - 1 := rfl
  have hPM : PMAX = 2 ^ 62 - 2 ^ 31 - 1 := rfl
  obtain ⟨q, q1, q2, q3, -⟩ := hx.mag (K := ℝ) hz
  have hqe : q = x.e := by omega
  rw [hqe] at q1 q2
  obtain ⟨X, hX⟩ : ∃ X, X = |(x.toK : ℝ)| := ⟨_, rfl⟩
  rw [← hX] at q1 q2
  have hX0 : 0 < X := lt_of_lt_of_le (by positivity) q1
  obtain ⟨G, hG⟩ : ∃ G, G = max (64 * pw) (64 * x.m.m.length) := ⟨_, rfl⟩
  rw [← hG] at he
  have hX1 : X ≤ 1 / 2 := by
    refine le_trans q2.le ?_
    rw [show (1 / 2 : ℝ) = 2 ^ (-1 : ℤ) by norm_num]
    exact zpow_le_zpow_right₀ (by norm_num) (by omega)
  obtain ⟨c1, c2⟩ := tanh_cube hX0 hX1
  obtain ⟨k, hk⟩ := x.toK_grid (G := G) (by omega)
  have hcube : X ^ 3 / 2 < 2 ^ (x.e - (G : ℤ) - 2) := by
    have h3 : X ^ 3 < ((2 : ℝ) ^ x.e) ^ 3 := pow_lt_pow_left₀ q2 hX0.le (by norm_num)
    have h4 : ((2 : ℝ) ^ x.e) ^ 3 ≤ 2 ^ (x.e - (G : ℤ) - 1) := by
      rw [← zpow_natCast, ← zpow_mul]
      exact zpow_le_zpow_right₀ (by norm_num) (by push_cast; omega)
    rw [show x.e - (G : ℤ) - 2 = x.e - (G : ℤ) - 1 - 1 by ring, zpow_sub₀ (by norm_num) _ 1, zpow_one]
    exact div_lt_div_of_pos_right (lt_of_lt_of_le h3 h4) (by norm_num)
  have hsx : Real.tanh (x.toK : ℝ) = x.toK + (corrSign x true).toK * (X - Real.tanh X) := by
    have : corrSign x true = x.s.invert := rfl
    rw [this, sign_tanh, ← hX]
    have h6 := Num.toK_eq (K := ℝ) x
    rw [← hX] at h6
    rw [h6]
    cases x.s <;> simp only [Sign.invert, Sign.toK] <;> ring
  obtain ⟨v, v1, v2, v3, v4, v5, v6⟩ := smallExp_rounds hx hz hlo (by omega) hp (by omega) (by omega) true rm
    (G := G) (by omega) (by omega) hk c1 (lt_of_le_of_lt c2 hcube) hsx
  have hT : 0 < Real.tanh X := by
    have h3 : X ^ 3 / 2 < X := by
      have h2 : X ^ 2 ≤ 1 := pow_le_one₀ hX0.le (by linarith)
      have : X ^ 3 = X * X ^ 2 := by ring
      nlinarith
    linarith
  have hTl : X / 2 ≤ Real.tanh X := by
    have h2 : X ^ 2 ≤ 1 := pow_le_one₀ hX0.le (by linarith)
    have : X ^ 3 = X * X ^ 2 := by ring
    nlinarith
  have haT : |Real.tanh (x.toK : ℝ)| = Real.tanh X := by
    rw [sign_tanh, ← hX]
    cases x.s <;> simp [Sign.toK, abs_of_pos hT]
  refine ⟨v, v1, v6, ?_⟩
  refine FunRounded.of_fmt ?_ v2 (by rw [v3]) ?_ ?_ v5 v6
  · rw [haT]
    refine le_trans ?_ hTl
    have : (2 : ℝ) ^ (x.e - 2) ≤ X / 2 := by
      rw [show x.e - 2 = x.e - 1 - 1 by ring, zpow_sub₀ (by norm_num) _ 1, zpow_one]
      exact div_le_div_of_nonneg_right q1 (by norm_num)
    refine le_trans (zpow_le_zpow_right₀ (by norm_num) ?_) this
    omega
  · intro h
    rw [v4]
    rw [sign_tanh, ← hX] at h
    cases hxs : x.s
    · rw [hxs] at h; simp only [Sign.toK] at h; linarith
    · rfl
  · intro h
    rw [v4]
    rw [sign_tanh, ← hX] at h
    cases hxs : x.s
    · rfl
    · rw [hxs] at h; simp only [Sign.toK] at h; linarith

theorem exp_ge_two_pow {t : ℝ} {n : ℕ} (h : (n : ℝ) ≤ t) : (2 : ℝ) ^ (n : ℤ) ≤ Real.exp t := by
  rw [zpow_natCast]
  have h1 : (2 : ℝ) ≤ Real.exp 1 := by linarith [Real.exp_one_gt_d9]
  have h2 : (2 : ℝ) ^ n ≤ Real.exp 1 ^ n := pow_le_pow_left₀ (by norm_num) h1 n
  rw [← Real.exp_nat_mul, mul_one] at h2
  exact le_trans h2 (Real.exp_le_exp.2 h)

/-- `tanh` of the largest arguments. -/
theorem tanh_top {x : Num} (hx : x.WF) (hz : x.isZero = false) (he : x.e = EMAX) {pw : Nat} (hp : 0 < pw)
    (hpm : 64 * pw + 64 < PMAX) (rm : RM) :
    ∃ o t v, fromI 8 x.s.toInt (64 * pw) = .ok o ∧ o.addCorrection true = .ok t ∧ t.setPrecision (64 * pw) rm = .ok v ∧
      RoundsFmt rm (64 * pw) (Real.tanh x.toK) v.toK ∧ FunRounded rm (64 * pw) (Real.tanh x.toK) v := by
  have hE : EMIN = -2 ^ 31 := rfl
  have hEX : EMAX = 2 ^ 31 - 1 := rfl
  have hPM : PMAX = 2 ^ 62 - 2 ^ 31 - 1 := rfl
  obtain ⟨r, r1, r2, r3, r4, -⟩ := fromI_spec (K := ℝ) (sz := 8) (p := 64 * pw) (i := x.s.toInt) (by norm_num) (by norm_num)
    (by cases x.s <;> simp [Sign.toInt]) (by omega) (by omega)
  have hpb : precBits (64 * pw) = 64 * pw := by unfold precBits; omega
  rw [hpb] at r3
  have hσ : (x.s.toInt : ℝ) = x.s.toK := by cases x.s <;> simp [Sign.toInt, Sign.toK]
  rw [hσ] at r4
  have rs : r.s = x.s := by
    cases hs : x.s
    · exact toK_sign_neg (K := ℝ) (by rw [r4, hs]; simp [Sign.toK])
    · exact toK_sign_pos (K := ℝ) (by rw [r4, hs]; simp [Sign.toK])
  have hra : |(r.toK : ℝ)| = 1 := by rw [r4]; cases x.s <;> simp [Sign.toK]
  have hrz : r.isZero = false := by
    rw [← Bool.not_eq_true, ← r2.toK_eq_zero (K := ℝ), ← abs_eq_zero, hra]
    norm_num
  have hre : r.e = 1 := by
    obtain ⟨q, q1, q2, q3, -⟩ := r2.mag (K := ℝ) hrz
    rw [hra] at q1 q2
    have h1 := (zpow_lt_zpow_iff_right₀ (by norm_num : (1 : ℝ) < 2)).1 (show (2 : ℝ) ^ (0 : ℤ) < 2 ^ q by rw [zpow_zero]; exact q2)
    have h2 := (zpow_le_zpow_iff_right₀ (by norm_num : (1 : ℝ) < 2)).1 (show (2 : ℝ) ^ (q - 1) ≤ 2 ^ (0 : ℤ) by rw [zpow_zero]; exact q1)
    omega
  obtain ⟨X, hX⟩ : ∃ X, X = |(x.toK : ℝ)| := ⟨_, rfl⟩
  have hXb : ((64 * pw + 4 : ℕ) : ℝ) ≤ 2 * X := by
    obtain ⟨q, q1, q2, q3, -⟩ := hx.mag (K := ℝ) hz
    have hqe : q = x.e := by omega
    rw [hqe, ← hX] at q1
    have h2 : ((64 * pw + 4 : ℕ) : ℝ) ≤ 2 ^ (63 : ℤ) := by
      have : 64 * pw + 4 ≤ 2 ^ 63 := by omega
      exact_mod_cast this
    have h3 : (2 : ℝ) ^ (63 : ℤ) ≤ 2 ^ (x.e - 1) := zpow_le_zpow_right₀ (by norm_num) (by omega)
    have h4 : (0 : ℝ) < 2 ^ (x.e - 1) := by positivity
    linarith
  obtain ⟨t1, t2⟩ := tanh_near_one (exp_ge_two_pow hXb)
  have hcs : corrSign r true = x.s.invert := by rw [← rs]; rfl
  obtain ⟨v, v1, v2, v3, v4, v5, v6⟩ := smallExp_rounds r2 hrz (by rw [hre, hE]; norm_num) (by rw [hre, hEX]; norm_num) hp hpm
    (by omega) true rm (G := 64 * pw) le_rfl (by omega) (k := x.s.toInt * 2 ^ (64 * pw - 1)) (by
      rw [r4, hre]
      push_cast
      rw [hσ, mul_assoc, ← zpow_natCast, ← zpow_add₀ (by norm_num)]
      rw [show (((64 * pw - 1 : ℕ) : ℤ) + (1 - 64 * (pw : ℤ))) = 0 by omega, zpow_zero, mul_one])
    (d := 1 - Real.tanh X) (by linarith) (by
      have : (2 : ℝ) ^ (1 - ((64 * pw + 4 : ℕ) : ℤ)) ≤ 2 ^ (r.e - ((64 * pw : ℕ) : ℤ) - 2) :=
        zpow_le_zpow_right₀ (by norm_num) (by rw [hre]; push_cast; omega)
      linarith) (y := Real.tanh x.toK) (by
      rw [hcs, sign_tanh, ← hX, r4]
      cases x.s <;> simp only [Sign.invert, Sign.toK] <;> ring)
  have hhalf : 1 / 2 ≤ Real.tanh X := by
    have : (2 : ℝ) ^ (1 - ((64 * pw + 4 : ℕ) : ℤ)) ≤ 2 ^ (-1 : ℤ) := zpow_le_zpow_right₀ (by norm_num) (by push_cast; omega)
    have h2 : (2 : ℝ) ^ (-1 : ℤ) = 1 / 2 := by norm_num
    rw [h2] at this
    linarith
  have hmb : r.m.maxBitLen = 64 * r.m.m.length := by unfold Mantissa.maxBitLen; omega
  unfold Num.smallExp at v1
  rw [hmb, r3, if_neg (by omega)] at v1
  dsimp only at v1
  cases ht : r.addCorrection true with
  | error e => rw [ht] at v1; cases v1
  | ok t =>
    rw [ht] at v1
    refine ⟨r, t, v, r1, ht, v1, v6, ?_⟩
    refine FunRounded.of_fmt ?_ v2 (by rw [v3]) ?_ ?_ v5 v6
    · have : |Real.tanh (x.toK : ℝ)| = Real.tanh X := by
        rw [sign_tanh, ← hX]
        cases x.s <;> simp [Sign.toK, abs_of_pos (show 0 < Real.tanh X by linarith)]
      rw [this]
      refine le_trans ?_ hhalf
      rw [show (1 / 2 : ℝ) = 2 ^ (-1 : ℤ) by norm_num]
      exact zpow_le_zpow_right₀ (by norm_num) (by omega)
    · intro h
      rw [v4, rs]
      rw [sign_tanh, ← hX] at h
      cases hxs : x.s
      · rw [hxs] at h; simp only [Sign.toK] at h; linarith
      · rfl
    · intro h
      rw [v4, rs]
      rw [sign_tanh, ← hX] at h
      cases hxs : x.s
      · rfl
      · rw [hxs] at h; simp only [Sign.toK] at h; linarith

theorem tanh_lo {z δ ex d1 d2 r : ℝ} (hz : 0 < z) (hδ0 : 0 < δ) (hδ : δ ≤ 1 / 8) (h1 : 1 + z ≤ ex)
    (h2 : ex ≤ (1 + z) * (1 + δ)) (a1 : (ex - 1) * (1 - δ) ≤ d1) (b0 : 0 < d2) (b2 : d2 ≤ ex + 1)
    (c1 : d1 / d2 * (1 - δ) ≤ r) : z / (z + 2) * (1 - 3 * δ) ≤ r := by
  refine le_trans ?_ c1
  have e1 : z * (1 - δ) ≤ d1 := le_trans (mul_le_mul_of_nonneg_right (by linarith) (by linarith)) a1
  have e2 : d2 ≤ (z + 2) * (1 + δ) := by nlinarith
  have e3 : z * (1 - δ) / ((z + 2) * (1 + δ)) ≤ d1 / d2 :=
    div_le_div₀ (le_trans (by nlinarith) e1) e1 b0 e2
  refine le_trans ?_ (mul_le_mul_of_nonneg_right e3 (by linarith))
  have e4 : z * (1 - δ) / ((z + 2) * (1 + δ)) * (1 - δ) = z / (z + 2) * ((1 - δ) * (1 - δ) / (1 + δ)) := by
    field_simp
  rw [e4]
  refine mul_le_mul_of_nonneg_left ?_ (by positivity)
  rw [le_div_iff₀ (by linarith)]
  nlinarith

theorem tanh_hi {z δ Y ex d1 d2 r : ℝ} (hz : 0 < z) (hY0 : 0 < Y) (hY : Y ≤ z) (hδ0 : 0 < δ) (hδ : δ ≤ 1 / 8)
    (ha : (1 + 1 / Y) * δ ≤ 1 / 2) (h1 : 1 + z ≤ ex)
    (h2 : ex ≤ (1 + z) * (1 + δ)) (a2 : d1 ≤ ex - 1) (b1 : (ex + 1) * (1 - δ) ≤ d2)
    (c2 : r ≤ d1 / d2) : r ≤ z / (z + 2) * (1 + (4 + 1 / Y) * δ) := by
  refine le_trans c2 ?_
  obtain ⟨a, hae⟩ : ∃ a, a = (1 + 1 / Y) * δ := ⟨_, rfl⟩
  rw [← hae] at ha
  have ha0 : 0 < a := by rw [hae]; positivity
  have e1 : d1 ≤ z * (1 + a) := by
    have : (1 + z) * δ ≤ z * a := by
      rw [hae, ← mul_assoc]
      refine mul_le_mul_of_nonneg_right ?_ hδ0.le
      have : 1 ≤ z * (1 / Y) := by rw [mul_one_div, le_div_iff₀ hY0]; linarith
      linarith
    linarith
  have e2 : (z + 2) * (1 - δ) ≤ d2 := le_trans (mul_le_mul_of_nonneg_right (by linarith) (by linarith)) b1
  have e3 : d1 / d2 ≤ z * (1 + a) / ((z + 2) * (1 - δ)) :=
    div_le_div₀ (by positivity) e1 (mul_pos (by linarith) (by linarith)) e2
  refine le_trans e3 ?_
  have e4 : z * (1 + a) / ((z + 2) * (1 - δ)) = z / (z + 2) * ((1 + a) / (1 - δ)) := by
    have : 1 - δ ≠ 0 := by linarith
    field_simp
  rw [e4]
  refine mul_le_mul_of_nonneg_left ?_ (by positivity)
  have e5 : 1 + (4 + 1 / Y) * δ = 1 + a + 3 * δ := by rw [hae]; ring
  rw [e5, div_le_iff₀ (by linarith)]
  nlinarith

/-- The additional precision covers the loss of the subtraction. -/
theorem tanh_budget {w P m : Nat} (h1 : w + 64 ≤ P) (h2 : w + 4 + m ≤ P) :
    (4 + (2 : ℝ) ^ m) * 2 ^ (1 - (P : ℤ)) ≤ 2 ^ (-(w : ℤ) - 2) := by
  have key : (4 + (2 : ℝ) ^ m) * 8 ≤ 2 ^ (P - w) := by
    by_cases hm : m ≤ 2
    · have e1 : (2 : ℝ) ^ m ≤ 2 ^ 2 := pow_le_pow_right₀ (by norm_num) hm
      have e2 : (2 : ℝ) ^ 6 ≤ 2 ^ (P - w) := pow_le_pow_right₀ (by norm_num) (by omega)
      norm_num at e1 e2
      linarith
    · have e1 : (2 : ℝ) ^ 2 ≤ 2 ^ m := pow_le_pow_right₀ (by norm_num) (by omega)
      have e2 : (2 : ℝ) ^ (m + 4) ≤ 2 ^ (P - w) := pow_le_pow_right₀ (by norm_num) (by omega)
      rw [pow_add] at e2
      norm_num at e1 e2
      linarith
  have e3 : (2 : ℝ) ^ (1 - (P : ℤ)) = 2 ^ (-(w : ℤ) - 2) * (8 / 2 ^ (P - w)) := by
    rw [mul_div_assoc', eq_div_iff (by positivity), ← zpow_natCast, ← zpow_add₀ (by norm_num),
      show (8 : ℝ) = 2 ^ (3 : ℤ) by norm_num, ← zpow_add₀ (by norm_num)]
    congr 1
    omega
  rw [e3, ← mul_assoc, mul_comm (4 + _), mul_assoc]
  refine mul_le_of_le_one_right (by positivity) ?_
  rw [mul_div_assoc', div_le_one (by positivity)]
  exact key

/-- The state of the loop of `tanh`. -/
structure TanhInv (x : Num) (ap w : Nat) (s : TanhState) : Prop where
  wf : s.1.WF
  nz : s.1.isZero = false
  val : (s.1.toK : ℝ) = 2 * |(x.toK : ℝ)|
  sgn : s.1.s = .pos
  len : 64 * s.1.m.m.length ≤ w + ap
  cache : CacheOk ERep EValOk s.2.1

/-- The quotient of the loop of `tanh`. -/
theorem tanhQuot_spec {ex : Num} (hx : ex.WF) (hi : ex.inexact = true) {t Y : ℝ} {px P w m : Nat} (hY0 : 0 < t)
    (hY : Y = 2 * t) (hYm : (1 : ℝ) / Y ≤ 2 ^ m) (hm : m ≤ 2 ^ 22) (hp0 : 0 < px) (hP : roundP px = P) (hPl : P < PMAX)
    (hw1 : w + 64 ≤ P) (hw2 : w + 4 + m ≤ P) (hw : 128 ≤ w)
    (htop : Real.exp Y ≤ 2 ^ (EMAX - 4)) (h1 : Real.exp Y ≤ ex.toK)
    (h2 : (ex.toK : ℝ) ≤ Real.exp Y * (1 + 2 ^ (1 - (P : ℤ)))) :
    ∃ d1 d2 r, ex.sub ONE px .none = .ok d1 ∧ ex.add ONE px .none = .ok d2 ∧ d1.div d2 px .none = .ok r ∧
      TestOk w (Real.tanh t) r := by
  obtain ⟨δ, hδe⟩ : ∃ δ : ℝ, δ = 2 ^ (1 - (P : ℤ)) := ⟨_, rfl⟩
  have hδ0 : 0 < δ := by rw [hδe]; positivity
  have hbud := tanh_budget hw1 hw2
  rw [← hδe] at hbud h2
  obtain ⟨u, hu⟩ : ∃ u : ℝ, u = 2 ^ (-(w : ℤ) - 2) := ⟨_, rfl⟩
  have hu1 : u ≤ 1 / 8 := by
    rw [hu, show (1 / 8 : ℝ) = 2 ^ (-3 : ℤ) by norm_num]
    exact zpow_le_zpow_right₀ (by norm_num) (by omega)
  rw [← hu] at hbud
  have hYp : 0 < Y := by rw [hY]; linarith
  have hiY : 0 < 1 / Y := by positivity
  have hm1 : (1 : ℝ) ≤ 2 ^ m := one_le_pow₀ (by norm_num)
  have hδs : δ ≤ 1 / 8 := by
    have : 1 * δ ≤ (4 + (2 : ℝ) ^ m) * δ := mul_le_mul_of_nonneg_right (by linarith) hδ0.le
    linarith
  have hYδ : (4 + 1 / Y) * δ ≤ u := le_trans (mul_le_mul_of_nonneg_right (by linarith) hδ0.le) hbud
  have ha : (1 + 1 / Y) * δ ≤ 1 / 2 := by
    have : (1 + 1 / Y) * δ ≤ (4 + 1 / Y) * δ := mul_le_mul_of_nonneg_right (by linarith) hδ0.le
    linarith
  obtain ⟨z, hze⟩ : ∃ z, Real.exp Y = 1 + z := ⟨Real.exp Y - 1, by ring⟩
  have hYz : Y ≤ z := by linarith [Real.add_one_le_exp Y]
  have hz0 : 0 < z := by linarith
  have hT : Real.tanh t = z / (z + 2) := by
    rw [tanh_eq_exp, ← hY, hze]
    congr 1 <;> ring
  rw [hze] at h1 h2 htop
  have hlowY : (2 : ℝ) ^ (-(m : ℤ)) ≤ Y := by
    rw [zpow_neg, zpow_natCast, inv_le_comm₀ (by positivity) hYp, ← one_div]
    exact hYm
  have hE : EMIN = -2 ^ 31 := rfl
  have hEX : EMAX = 2 ^ 31 - 1 := rfl
  have hlow : (2 : ℝ) ^ (EMIN - 1) ≤ 2 ^ (-(m : ℤ)) / 16 := by
    rw [show (16 : ℝ) = 2 ^ (4 : ℤ) by norm_num, ← zpow_sub₀ (by norm_num)]
    exact zpow_le_zpow_right₀ (by norm_num) (by omega)
  have h16 : (0 : ℝ) < 2 ^ (-(m : ℤ)) := by positivity
  have hm2 : (2 : ℝ) ^ (-(m : ℤ)) ≤ 1 := zpow_le_one_of_nonpos₀ (by norm_num) (by omega)
  obtain ⟨L, hL⟩ : ∃ L : ℝ, L = 2 ^ (-(m : ℤ)) := ⟨_, rfl⟩
  rw [← hL] at hlow hlowY h16 hm2
  obtain ⟨M, hM⟩ : ∃ M : ℝ, M = 2 ^ (EMAX - 4) := ⟨_, rfl⟩
  have hM4 : (2 : ℝ) ^ (EMAX - 2) = 4 * M := by
    rw [hM, show (4 : ℝ) = 2 ^ (2 : ℤ) by norm_num, ← zpow_add₀ (by norm_num)]
    congr 1
  have hM1 : 1 ≤ M := by rw [hM]; exact one_le_zpow₀ (by norm_num) (by rw [hEX]; norm_num)
  rw [← hM] at htop
  have hexM : (ex.toK : ℝ) ≤ 2 * M := by
    refine le_trans h2 ?_
    have : (1 + z) * (1 + δ) ≤ M * 2 := mul_le_mul htop (by linarith) (by linarith) (by linarith)
    linarith
  have hez : ex.isZero = false := by
    rw [← Bool.not_eq_true, ← hx.toK_eq_zero (K := ℝ)]
    linarith
  have hs := addSub_spec (K := ℝ) hx ONE_WF hp0 (by rw [hP]; exact hPl) false .none
  rw [hP, if_neg (by simp), ONE_toK] at hs
  obtain ⟨d1, a0, a1, a2, a3, a4, a5⟩ := tr_step hs (by linarith) (by rw [hM4]; linarith)
  have hs2 := addSub_spec (K := ℝ) hx ONE_WF hp0 (by rw [hP]; exact hPl) true .none
  rw [hP, if_pos rfl, ONE_toK] at hs2
  obtain ⟨d2, b0, b1, b2, b3, b4, b5⟩ := tr_step hs2 (by linarith) (by rw [hM4]; linarith)
  rw [← hδe] at a3 b3
  have a3' : (ex.toK - 1) * (1 - δ) ≤ d1.toK := by rw [sub_eq_add_neg (ex.toK : ℝ)]; exact a3
  have a4' : (d1.toK : ℝ) ≤ ex.toK - 1 := by rw [sub_eq_add_neg (ex.toK : ℝ)]; exact a4
  have d2p : (0 : ℝ) < d2.toK := lt_of_lt_of_le (mul_pos (by linarith) (by linarith)) b3
  have d1p : (0 : ℝ) < d1.toK := lt_of_lt_of_le (mul_pos (by linarith) (by linarith)) a3'
  have d2z : d2.isZero = false := by
    rw [← Bool.not_eq_true, ← b1.toK_eq_zero (K := ℝ)]; exact d2p.ne'
  have d1z : d1.isZero = false := by
    rw [← Bool.not_eq_true, ← a1.toK_eq_zero (K := ℝ)]; exact d1p.ne'
  have d1i : d1.inexact = true := a5 (by unfold addIx; rw [hez, ONE_nz, hi]; simp)
  have hdv := div_spec (K := ℝ) a1 b1 d2z hp0 (by rw [hP]; exact hPl) .none
  rw [hP] at hdv
  have qhi := tanh_hi (r := d1.toK / d2.toK) hz0 hYp hYz hδ0 hδs ha h1 h2 a4' b3 le_rfl
  have qlo := tanh_lo (r := d1.toK / d2.toK) hz0 hδ0 hδs h1 h2 a3' d2p b4
    (mul_le_of_le_one_right (by positivity) (by linarith))
  have hTp : 0 < z / (z + 2) := by positivity
  have hT1 : z / (z + 2) ≤ 1 := by rw [div_le_one (by linarith)]; linarith
  have hTl : L / 3 ≤ z / (z + 2) := by
    rw [div_le_div_iff₀ (by norm_num) (by linarith)]
    nlinarith
  obtain ⟨T, hTe⟩ : ∃ T, T = z / (z + 2) := ⟨_, rfl⟩
  rw [← hTe] at qhi qlo hTp hT1 hTl
  obtain ⟨r, r0, r1, r2, r3, r4, r5⟩ := tr_step hdv (by
      have : T * (1 / 2) ≤ T * (1 - 3 * δ) := mul_le_mul_of_nonneg_left (by linarith) hTp.le
      linarith) (by
      have : T * (1 + (4 + 1 / Y) * δ) ≤ 1 * 2 := mul_le_mul hT1 (by linarith) (by positivity) (by norm_num)
      rw [hM4]; linarith)
  rw [← hδe] at r3
  refine ⟨d1, d2, r, a0, b0, r0, ?_⟩
  rw [hT, ← hTe]
  refine TestOk.of_rel r1 (r5 (by unfold divIx; rw [d1z, d1i]; simp)) (by omega) hTp.ne' (δ := u) (by rw [hu]) ?_
  rw [abs_of_pos hTp, abs_le]
  have f1 := tanh_lo (r := r.toK) hz0 hδ0 hδs h1 h2 a3' d2p b4 r3
  rw [← hTe] at f1
  have f2 : T * (3 * δ) ≤ T * u := mul_le_mul_of_nonneg_left (by nlinarith) hTp.le
  have f3 : T * ((4 + 1 / Y) * δ) ≤ T * u := mul_le_mul_of_nonneg_left hYδ hTp.le
  constructor
  · linarith
  · linarith

/-- The precision recorded. -/
theorem tanhStep_ghost {σ : Sign} {p ap fuel w : Nat} {rm : RM} {s s' : TanhState} {o : LoopStep}
    (h : tanhStep σ p rm ap fuel w s = some (o, s')) :
    s.2.2 ≤ s'.2.2 ∧ ∀ {y : Num} {r c k}, s.1.setPrecision (w + ap) .none = .ok y →
      y.exp (w + ap) .fromZero fuel s.2.1 = some (r, c, k) → k ≤ s'.2.2 := by
  unfold tanhStep at h
  dsimp only at h
  cases h1 : s.1.setPrecision (w + ap) .none with
  | error e =>
    rw [h1] at h
    simp only [Option.some.injEq, Prod.mk.injEq] at h
    obtain ⟨-, rfl⟩ := h
    exact ⟨le_rfl, fun hy => by cases hy⟩
  | ok y =>
    rw [h1] at h
    dsimp only at h
    cases h2 : y.exp (w + ap) .fromZero fuel s.2.1 with
    | none => rw [h2] at h; cases h
    | some q =>
      obtain ⟨r, c, k⟩ := q
      rw [h2] at h
      have hk : s'.2.2 = max s.2.2 k := by
        cases r with
        | error e => cases e <;> · simp only [Option.some.injEq, Prod.mk.injEq] at h; obtain ⟨-, rfl⟩ := h; rfl
        | ok ex =>
          dsimp only at h
          split at h
          · simp only [Option.some.injEq, Prod.mk.injEq] at h; obtain ⟨-, rfl⟩ := h; rfl
          · split at h
            · simp only [Option.some.injEq, Prod.mk.injEq] at h; obtain ⟨-, rfl⟩ := h; rfl
            · split at h
              · simp only [Option.some.injEq, Prod.mk.injEq] at h; obtain ⟨-, rfl⟩ := h; rfl
              · split at h
                · simp only [Option.some.injEq, Prod.mk.injEq] at h; obtain ⟨-, rfl⟩ := h; rfl
                · simp only [Option.some.injEq, Prod.mk.injEq] at h; obtain ⟨-, rfl⟩ := h; rfl
      rw [hk]
      refine ⟨le_max_left _ _, ?_⟩
      intro y' r' c' k' hy hk'
      injection hy with hy
      rw [← hy, h2] at hk'
      simp only [Option.some.injEq, Prod.mk.injEq] at hk'
      obtain ⟨-, -, rfl⟩ := hk'
      exact le_max_right _ _

theorem exp_big_e {y : Num} (hy : y.WF) (h : (2 : ℝ) ^ (EMAX + 4) ≤ Real.exp |(y.toK : ℝ)|) : 0 < y.e := by
  by_contra hc
  have h1 := hy.abs_lt_zpow (K := ℝ)
  have h2 : (2 : ℝ) ^ y.e ≤ 1 := zpow_le_one_of_nonpos₀ (by norm_num) (by omega)
  have h3 : Real.exp |(y.toK : ℝ)| ≤ Real.exp 1 := Real.exp_le_exp.2 (by linarith)
  have h4 : (2 : ℝ) ^ (2 : ℤ) ≤ 2 ^ (EMAX + 4) := zpow_le_zpow_right₀ (by norm_num) (by unfold EMAX; norm_num)
  have h5 : (2 : ℝ) ^ (2 : ℤ) = 4 := by norm_num
  rw [h5] at h4
  linarith [Real.exp_one_lt_d9]

/-- `exp` of an argument out of range. -/
theorem exp_over {y : Num} (hy : y.WF) (hz : y.isZero = false) (hs : y.s = .pos) {p : Nat} (hp : ValidP p)
    (hbig : (2 : ℝ) ^ (EMAX + 4) ≤ Real.exp |(y.toK : ℝ)|) (hw : y.e ≤ 64 → max (precBits p) (64 * y.m.m.length) + 64 ≤ 2 ^ 22) (rm : RM)
    {c : ConstCache (Num × Num)} (hc : CacheOk ERep EValOk c) (f : Nat) :
    ∃ c', y.exp p rm (f + 1) c = some (.error (.exponentOverflow .pos), c', max (precBits p) (64 * y.m.m.length) + 64) ∧
      CacheOk ERep EValOk c' := by
  have hye : 0 < y.e := exp_big_e hy hbig
  have hneg : y.isNegative = false := by unfold Num.isNegative; rw [hs]; rfl
  have hns : ¬ ((max (precBits p) (64 * y.m.m.length) : ℕ) : ℤ) + 1 < -y.e := by omega
  by_cases he : y.e ≤ 64
  · obtain ⟨c', c1, c2⟩ := expPositive_over hy hz he (w := max (precBits p) (64 * y.m.m.length) + 64) (by unfold precBits; omega)
      (by have := hp.pos; unfold precBits; omega) (hw he) hc hbig
    have := exp_of_over hz hp hns rm c1 f
    rw [hneg] at this
    exact ⟨c', this, c2⟩
  · have := exp_of_over hz hp hns rm (expPositive_far (by omega) _ c) f
    rw [hneg, hs] at this
    exact ⟨c, this, hc⟩

/-- A round of the loop of `tanh`. -/
theorem tanhStep_spec {x : Num} {m ap w pw : Nat} {rm : RM} (hx0 : 0 < |(x.toK : ℝ)|)
    (hm : (1 : ℝ) / (2 * |(x.toK : ℝ)|) ≤ 2 ^ m) (hap : ap = 4 + m) (hmw : 64 ≤ m → m ≤ w)
    (htop : Real.exp (2 * |(x.toK : ℝ)|) ≤ 2 ^ (EMAX - 4) ∨ 2 ^ (EMAX + 4) ≤ Real.exp (2 * |(x.toK : ℝ)|))
    (hd : 64 ∣ w) (hpw : 64 * pw + 64 ≤ w) (hp0 : 0 < pw) (hw : w ≤ 2 ^ 22) {fuel : Nat} {s s' : TanhState} {o : LoopStep}
    (hs : TanhInv x ap w s) (h : tanhStep x.s (64 * pw) rm ap fuel w s = some (o, s')) (hg : s'.2.2 ≤ 2 ^ 22) :
    (∀ w', w + 64 ≤ w' → TanhInv x ap w' s') ∧ StepOut rm (64 * pw) (Real.tanh x.toK) w o := by
  have hPM : PMAX = 2 ^ 62 - 2 ^ 31 - 1 := rfl
  have hE : EMIN = -2 ^ 31 := rfl
  have hEX : EMAX = 2 ^ 31 - 1 := rfl
  obtain ⟨y, y1, y2, y3, y4, y5⟩ := setPrecision_extend hs.wf (p := w + ap) (by omega) (by omega) hs.len .none
  rw [hs.sgn] at y5
  rw [hs.val] at y4
  obtain ⟨X, hX⟩ : ∃ X, X = |(x.toK : ℝ)| := ⟨_, rfl⟩
  rw [← hX] at y4 hx0 htop hm
  have yz : y.isZero = false := by
    rw [← Bool.not_eq_true, ← y2.toK_eq_zero (K := ℝ), y4]
    linarith
  have yabs : |(y.toK : ℝ)| = 2 * X := by rw [y4, abs_of_pos (by linarith)]
  have hv : ValidP (w + ap) := ⟨by omega, by unfold precBits; omega⟩
  obtain ⟨P, hP⟩ : ∃ P, precBits (w + ap) = P := ⟨_, rfl⟩
  have hPw : w + 64 ≤ P ∧ w + 4 + m ≤ P ∧ P ≤ w + ap + 63 ∧ 64 ∣ P := by
    rw [← hP]; unfold precBits; omega
  obtain ⟨hP1, hP2, hP3, hP4⟩ := hPw
  have yl : 64 * y.m.m.length = P := by rw [y3, ← hP]; rfl
  have inv : ∀ {c' k}, CacheOk ERep EValOk c' → ∀ w', w + 64 ≤ w' → TanhInv x ap w' (y, c', k) := by
    intro c' k hc' w' hw'
    exact ⟨y2, yz, by rw [← hX]; exact y4, y5, by dsimp only; omega, hc'⟩
  have large : ∀ {n : ℤ}, ((64 * pw : ℕ) : ℤ) + 3 ≤ n → (2 : ℝ) ^ n ≤ Real.exp (2 * X) →
      StepOut rm (64 * pw) (Real.tanh x.toK) w (.ret (tanhLarge x.s (64 * pw) rm)) := by
    intro n hn hb
    obtain ⟨t1, t2⟩ := tanh_near_one hb
    obtain ⟨v, v1, v2, -⟩ := tanhLarge_spec hp0 (by omega) x.s rm (T := Real.tanh X) (by
      refine lt_of_le_of_lt ?_ t1
      have : (2 : ℝ) ^ (1 - n) ≤ 2 ^ (-((64 * pw : ℕ) : ℤ)) / 4 := by
        rw [show (4 : ℝ) = 2 ^ (2 : ℤ) by norm_num, ← zpow_sub₀ (by norm_num)]
        exact zpow_le_zpow_right₀ (by norm_num) (by omega)
      linarith) t2
    refine ⟨v, v1, ?_⟩
    rw [sign_tanh, ← hX]
    exact v2
  have h0 := h
  unfold tanhStep at h
  dsimp only at h
  rw [y1] at h
  dsimp only at h
  rcases htop with htop | htop
  · -- the exponential is in range
    cases hex : y.exp (w + ap) .fromZero fuel s.2.1 with
    | none => rw [hex] at h; cases h
    | some q =>
      obtain ⟨r, c', k⟩ := q
      rw [hex] at h
      have hk : k ≤ 2 ^ 22 := le_trans ((tanhStep_ghost h0).2 y1 hex) hg
      obtain ⟨hc', ex, rfl, hr⟩ := exp_spec y2 yz (by rw [yabs]; exact htop) hv .fromZero hs.cache hex hk
      rw [hP, y4] at hr
      dsimp only at h
      have hE1 : 1 ≤ Real.exp (2 * X) := Real.one_le_exp (by linarith)
      have hlE : (2 : ℝ) ^ (EMIN - 1) ≤ |Real.exp (2 * X)| := by
        rw [abs_of_pos (by linarith)]
        exact le_trans (zpow_le_one_of_nonpos₀ (by norm_num) (by omega)) hE1
      obtain ⟨g, g1, g2, g3⟩ := ((hr.directed (by simp)).toPrec hlE).fromZero_rel (by linarith)
      have ex1 : Real.exp (2 * X) ≤ ex.toK := by rw [g1]; nlinarith
      have ex2 : (ex.toK : ℝ) ≤ Real.exp (2 * X) * (1 + 2 ^ (1 - (P : ℤ))) := by
        rw [g1]
        exact mul_le_mul_of_nonneg_left (by linarith) (by linarith)
      by_cases hbig : ex.e > ((w + ap : ℕ) : ℤ)
      · rw [if_pos hbig] at h
        simp only [Option.some.injEq, Prod.mk.injEq] at h
        obtain ⟨rfl, rfl⟩ := h
        refine ⟨inv hc', large (n := (w + ap : ℕ) - 1) (by omega) ?_⟩
        have hexz : ex.isZero = false := by
          rw [← Bool.not_eq_true, ← hr.wf.toK_eq_zero (K := ℝ)]; linarith
        obtain ⟨q, q1, -, q3, -⟩ := hr.wf.mag (K := ℝ) hexz
        rw [abs_of_pos (by linarith)] at q1
        have hq : (2 : ℝ) ^ ((w + ap : ℕ) : ℤ) ≤ 2 ^ (q - 1) := zpow_le_zpow_right₀ (by norm_num) (by omega)
        have hδ1 : (2 : ℝ) ^ (1 - (P : ℤ)) ≤ 1 := zpow_le_one_of_nonpos₀ (by norm_num) (by omega)
        rw [zpow_sub₀ (by norm_num), zpow_one]
        have : Real.exp (2 * X) * (1 + 2 ^ (1 - (P : ℤ))) ≤ Real.exp (2 * X) * 2 :=
          mul_le_mul_of_nonneg_left (by linarith) (by linarith)
        rw [div_le_iff₀ (by norm_num)]
        linarith
      · rw [if_neg hbig] at h
        obtain ⟨d1, d2, r, a1, a2, a3, a4⟩ := tanhQuot_spec hr.wf hr.inexact hx0 rfl hm (by omega) (by omega : 0 < w + ap)
          (by rw [hv.roundP, hP]) (by omega) hP1 hP2 (by omega) htop ex1 ex2
        rw [a1] at h
        dsimp only at h
        rw [a2] at h
        dsimp only at h
        rw [a3] at h
        simp only [Option.some.injEq, Prod.mk.injEq] at h
        obtain ⟨rfl, rfl⟩ := h
        refine ⟨inv hc', ?_⟩
        have hTp : 0 < Real.tanh X := by
          rw [tanh_eq_exp]
          have : 1 < Real.exp (2 * X) := Real.one_lt_exp_iff.2 (by linarith)
          exact div_pos (by linarith) (by linarith)
        rw [sign_tanh, ← hX]
        exact TestOk.setSign a4 hTp (by omega) _
  · -- the exponential overflows
    have hye : 0 < y.e := exp_big_e y2 (by rw [yabs]; exact htop)
    cases hex : y.exp (w + ap) .fromZero fuel s.2.1 with
    | none => rw [hex] at h; cases h
    | some q =>
      obtain ⟨r, c', k⟩ := q
      have hk : k ≤ 2 ^ 22 := le_trans ((tanhStep_ghost h0).2 y1 hex) hg
      cases fuel with
      | zero =>
        exfalso
        unfold Num.exp at hex
        dsimp only at hex
        rw [if_neg (by simp [yz]), if_neg (by omega), Num.expLoop] at hex
        cases hex
      | succ f =>
        have hkP : max P (64 * y.m.m.length) + 64 ≤ k := by
          have := hex
          unfold Num.exp at this
          dsimp only at this
          have hmb : y.m.maxBitLen = 64 * y.m.m.length := by unfold Mantissa.maxBitLen; omega
          rw [if_neg (by simp [yz]), if_neg (by omega), hv.roundP, hP, hmb] at this
          exact expLoop_ge this
        obtain ⟨c1, e1, e2⟩ := exp_over y2 yz y5 hv (by rw [yabs]; exact htop) (by intro _; rw [hP]; omega) .fromZero hs.cache f
        rw [hex] at e1
        simp only [Option.some.injEq, Prod.mk.injEq] at e1
        obtain ⟨rfl, rfl, -⟩ := e1
        rw [hex] at h
        simp only [Option.some.injEq, Prod.mk.injEq] at h
        obtain ⟨rfl, rfl⟩ := h
        exact ⟨inv e2, large (n := EMAX + 4) (by omega) htop⟩

theorem tanh_mid {x : ℝ} {m : Nat} (h0 : 0 < |x|) (hm : (1 : ℝ) / (2 * |x|) ≤ 2 ^ m) (hm2 : m ≤ 2 ^ 22) : MidRange (Real.tanh x) := by
  have hE : EMIN = -2 ^ 31 := rfl
  have hEX : EMAX = 2 ^ 31 - 1 := rfl
  have hT : |Real.tanh x| = Real.tanh |x| := by
    rcases abs_cases x with ⟨h, h'⟩ | ⟨h, h'⟩
    · rw [h, abs_of_nonneg]
      rw [tanh_eq_exp]
      have : 1 ≤ Real.exp (2 * x) := Real.one_le_exp (by linarith)
      exact div_nonneg (by linarith) (by linarith)
    · rw [h, Real.tanh_neg, abs_of_nonpos]
      rw [tanh_eq_exp]
      have h1 : Real.exp (2 * x) ≤ 1 := Real.exp_le_one_iff.2 (by linarith)
      have := Real.exp_pos (2 * x)
      exact div_nonpos_of_nonpos_of_nonneg (by linarith) (by linarith)
  obtain ⟨X, hX⟩ : ∃ X, X = |x| := ⟨_, rfl⟩
  rw [← hX] at hT h0 hm
  have hlow : (2 : ℝ) ^ (-(m : ℤ)) ≤ 2 * X := by
    rw [zpow_neg, zpow_natCast, inv_le_comm₀ (by positivity) (by linarith), ← one_div]
    exact hm
  have hL1 : (2 : ℝ) ^ (-(m : ℤ)) ≤ 1 := zpow_le_one_of_nonpos₀ (by norm_num) (by omega)
  have hL0 : (0 : ℝ) < 2 ^ (-(m : ℤ)) := by positivity
  have hTl : (2 : ℝ) ^ (-(m : ℤ)) / 4 ≤ Real.tanh X := by
    rw [tanh_eq_exp]
    have h1 := Real.add_one_le_exp (2 * X)
    rw [div_le_div_iff₀ (by norm_num) (by linarith)]
    nlinarith
  refine MidRange.of_bounds ?_ ?_
  · rw [hT]
    refine le_trans ?_ hTl
    rw [show (4 : ℝ) = 2 ^ (2 : ℤ) by norm_num, ← zpow_sub₀ (by norm_num)]
    exact zpow_le_zpow_right₀ (by norm_num) (by omega)
  · rw [hT]
    refine lt_of_lt_of_le (tanh_lt_one' X) ?_
    exact one_le_zpow₀ (by norm_num) (by omega)

/-- Twice the magnitude of the argument, which starts the loop of `tanh`. -/
theorem tanh_init {x : Num} (hx : x.WF) (hz : x.isZero = false) (he : EMIN < x.e) (he' : x.e < EMAX) {ap w : Nat}
    (hw : 64 * x.m.m.length ≤ w + ap) {c : ConstCache (Num × Num)} (hc : CacheOk ERep EValOk c) (k : Nat) :
    TanhInv x ap w ((({ x with inexact := false } : Num).setSign .pos).setExponent (x.e + 1), c, k) := by
  have hy : (({ x with inexact := false } : Num).setSign .pos).WF := ⟨hx.wf, hx.bits, hx.emin, hx.emax, hx.norm, hx.sized⟩
  obtain ⟨a1, a2, a3, a4, a5, a6⟩ := setExponent_normal hy hz he (e := x.e + 1) (by omega) (by omega)
  have hyK : ((({ x with inexact := false } : Num).setSign .pos).toK : ℝ) = |(x.toK : ℝ)| := by
    rw [setSign_toK]
    have : (({ x with inexact := false } : Num).toK : ℝ) = x.toK := rfl
    rw [this]
    simp [Sign.toK]
  have hye : (({ x with inexact := false } : Num).setSign .pos).e = x.e := rfl
  have hx0 : 0 < |(x.toK : ℝ)| := by
    rw [abs_pos, Ne, hx.toK_eq_zero (K := ℝ), hz]; simp
  have hv : (((({ x with inexact := false } : Num).setSign .pos).setExponent (x.e + 1)).toK : ℝ) = 2 * |(x.toK : ℝ)| := by
    rw [a2, hyK, hye, show x.e + 1 - x.e = 1 by ring, zpow_one]; ring
  refine ⟨a1, ?_, hv, ?_, ?_, hc⟩
  · dsimp only
    rw [← Bool.not_eq_true, ← a1.toK_eq_zero (K := ℝ), hv]
    linarith
  · dsimp only; rw [a5]; rfl
  · dsimp only; rw [a3]; exact hw

/-- Arguments that do not take the path for small ones. -/
theorem tanh_args {x : Num} (hx : x.WF) (hz : x.isZero = false) {n : Nat} (hn : 64 ≤ n) (hn2 : n ≤ 2 ^ 22)
    (h : ¬ (n : ℤ) + 1 < -(x.e * 2 - 1)) :
    EMIN < x.e ∧ 0 < |(x.toK : ℝ)| ∧ ∃ m : Nat, (if x.e < 0 then 4 + x.e.natAbs else 4) = 4 + m ∧
      (1 : ℝ) / (2 * |(x.toK : ℝ)|) ≤ 2 ^ m ∧ m ≤ n := by
  have hE : EMIN = -2 ^ 31 := rfl
  obtain ⟨q, q1, -, q3, -⟩ := hx.mag (K := ℝ) hz
  have hqe : q = x.e := by omega
  rw [hqe] at q1
  have hx0 : 0 < |(x.toK : ℝ)| := lt_of_lt_of_le (by positivity) q1
  refine ⟨by omega, hx0, if x.e < 0 then x.e.natAbs else 0, by split <;> rfl, ?_, by split <;> omega⟩
  have h2 : (2 : ℝ) ^ x.e ≤ 2 * |(x.toK : ℝ)| := by
    rw [show x.e = x.e - 1 + 1 by ring, zpow_add₀ (by norm_num), zpow_one]
    linarith
  rw [div_le_iff₀ (by linarith)]
  split
  · rename_i he
    refine le_trans ?_ (mul_le_mul_of_nonneg_left h2 (by positivity))
    rw [← zpow_natCast, ← zpow_add₀ (by norm_num), show (x.e.natAbs : ℤ) + x.e = 0 by omega, zpow_zero]
  · rename_i he
    rw [pow_zero, one_mul]
    exact le_trans (one_le_zpow₀ (by norm_num) (by omega)) h2

/-- What `tanh` returns, for arguments other than zero. -/
theorem tanh_spec {x : Num} (hx : x.WF) (hz : x.isZero = false) (hlo : EMIN + 2 ≤ x.e)
    (htop : Real.exp (2 * |(x.toK : ℝ)|) ≤ 2 ^ (EMAX - 4) ∨ 2 ^ (EMAX + 4) ≤ Real.exp (2 * |(x.toK : ℝ)|))
    {p : Nat} (hp : ValidP p) (rm : RM) {f : Nat} {c c' : ConstCache (Num × Num)} (hc : CacheOk ERep EValOk c)
    {r : Except Err Num} {w : Nat} (h : x.tanh p rm f c = some (r, c', w)) (hw : w ≤ 2 ^ 22) (hpm : precBits p + 64 < PMAX) :
    CacheOk ERep EValOk c' ∧ ∃ v, r = .ok v ∧ FunRounded rm (precBits p) (Real.tanh x.toK) v := by
  have hp0 := hp.pos
  have hlt := hp.lt
  have hPM : PMAX = 2 ^ 62 - 2 ^ 31 - 1 := rfl
  obtain ⟨pw, hpw⟩ : ∃ pw, precBits p = 64 * pw := ⟨(p + 63) / 64, rfl⟩
  have hpw0 : 0 < pw := by unfold precBits at hpw; omega
  have hmb : x.m.maxBitLen = 64 * x.m.m.length := by unfold Mantissa.maxBitLen; omega
  unfold Num.tanh at h
  rw [hp.roundP, hpw, hmb] at h
  dsimp only at h
  rw [if_neg (by simp [hz])] at h
  rw [hpw] at hlt hpm ⊢
  by_cases ht : x.e = EMAX
  · rw [if_pos ht] at h
    obtain ⟨o, t, v, a1, a2, a3, -, a4⟩ := tanh_top hx hz ht hpw0 (by omega) rm
    rw [a1] at h
    dsimp only at h
    rw [a2] at h
    dsimp only at h
    rw [a3] at h
    simp only [Option.some.injEq, Prod.mk.injEq] at h
    obtain ⟨rfl, rfl, -⟩ := h
    exact ⟨hc, v, rfl, a4⟩
  rw [if_neg ht] at h
  have hem := hx.emax
  by_cases hs : ((max (64 * pw) (64 * x.m.m.length) : ℕ) : ℤ) + 1 < -(x.e * 2 - 1)
  · rw [if_pos hs] at h
    obtain ⟨v, v1, -, v3⟩ := tanh_small hx hz hlo hpw0 hs rm
    simp only [Option.some.injEq, Prod.mk.injEq] at h
    obtain ⟨rfl, rfl, -⟩ := h
    exact ⟨hc, v, v1, v3⟩
  · rw [if_neg hs] at h
    split at h
    · cases h
    · rename_i r' s' w' hl
      simp only [Option.some.injEq, Prod.mk.injEq] at h
      obtain ⟨rfl, rfl, rfl⟩ := h
      have hge := roundLoop_ge hl
      obtain ⟨e1, e2, m, e3, e4, e5⟩ := tanh_args hx hz (n := max (64 * pw) (64 * x.m.m.length)) (by omega) (by omega) hs
      rw [e3] at hl
      have := roundLoop_spec (Inv := TanhInv x (4 + m)) (Good := fun s => s.2.2 ≤ 2 ^ 22) (tanh_mid e2 e4 (by omega)) (W := 2 ^ 22)
        (w0 := max (64 * pw) (64 * x.m.m.length) + 64) hpw0 (by omega) (by omega) (by
          intro w s o s' hd hw1 hw2 hi hst hg
          exact tanhStep_spec e2 e4 rfl (by omega) htop hd (by omega) hpw0 hw2 hi hst hg)
          (fun w s o s' hst hg => le_trans (tanhStep_ghost hst).1 hg)
        (tanh_init hx hz e1 (by omega) (by omega) hc 0) (by omega) (by norm_num) (by norm_num) le_rfl hl (by omega) (by norm_num) (by omega)
      exact ⟨(this.1 _ le_rfl).cache, this.2⟩

theorem tanhStep_some {σ : Sign} {p ap fuel w : Nat} {rm : RM} {s : TanhState} {y : Num} {r : Except Err Num}
    {c : ConstCache (Num × Num)} {k : Nat} (h1 : s.1.setPrecision (w + ap) .none = .ok y)
    (h2 : y.exp (w + ap) .fromZero fuel s.2.1 = some (r, c, k)) :
    ∃ o s', tanhStep σ p rm ap fuel w s = some (o, s') ∧ s'.2.2 = max s.2.2 k := by
  unfold tanhStep
  dsimp only
  rw [h1]
  dsimp only
  rw [h2]
  cases r with
  | error e => cases e <;> exact ⟨_, _, rfl, rfl⟩
  | ok ex =>
    dsimp only
    split
    · exact ⟨_, _, rfl, rfl⟩
    · split
      · exact ⟨_, _, rfl, rfl⟩
      · split
        · exact ⟨_, _, rfl, rfl⟩
        · split
          · exact ⟨_, _, rfl, rfl⟩
          · exact ⟨_, _, rfl, rfl⟩

/-- The precision of the exponential in the first round of `tanh` (tanh.rs 40-61). -/
def tanhPrec (x : Num) (P : Nat) : Nat :=
  max P (64 * x.m.m.length) + 64 + if x.e < 0 then 4 + x.e.natAbs else 4

/-- The first round returns unless the digits of the exponential or of the result are exceptional. -/
theorem tanh_number {x : Num} {p : Nat} (hx : x.WF) (hz : x.isZero = false)
    (htop : Real.exp (2 * |(x.toK : ℝ)|) ≤ 2 ^ (EMAX - 4) ∧
        ¬ NearGrid (precBits (tanhPrec x (precBits p))) 63 (Real.exp (2 * |(x.toK : ℝ)|)) ∨
      2 ^ (EMAX + 4) ≤ Real.exp (2 * |(x.toK : ℝ)|))
    (hp : ValidP p) {rm : RM} {f : Nat} {c : ConstCache (Num × Num)} (hc : CacheOk ERep EValOk c)
    (hw : max (precBits p) (64 * x.m.m.length) + 64 ≤ 2 ^ 20)
    (hs : rm = .none ∨ rm.directed = true ∧ ¬ NearGrid (precBits p) 63 |Real.tanh x.toK|) :
    ∃ r c' w, x.tanh p rm (f + 1) c = some (r, c', w) ∧ w ≤ 2 ^ 22 := by
  have hp0 := hp.pos
  have hlt := hp.lt
  have hPM : PMAX = 2 ^ 62 - 2 ^ 31 - 1 := rfl
  obtain ⟨pw, hpw⟩ : ∃ pw, precBits p = 64 * pw := ⟨(p + 63) / 64, rfl⟩
  have hpw0 : 0 < pw := by unfold precBits at hpw; omega
  have hmb : x.m.maxBitLen = 64 * x.m.m.length := by unfold Mantissa.maxBitLen; omega
  rw [hpw] at hw hs hlt htop
  unfold Num.tanh
  rw [hp.roundP, hpw, hmb]
  dsimp only
  rw [if_neg (by simp [hz])]
  by_cases ht : x.e = EMAX
  · rw [if_pos ht]
    obtain ⟨o, t, v, a1, a2, a3, -, a4⟩ := tanh_top hx hz ht hpw0 (by omega) rm
    rw [a1]
    dsimp only
    rw [a2]
    dsimp only
    exact ⟨_, _, _, rfl, by norm_num⟩
  rw [if_neg ht]
  by_cases h : ((max (64 * pw) (64 * x.m.m.length) : ℕ) : ℤ) + 1 < -(x.e * 2 - 1)
  · rw [if_pos h]
    exact ⟨_, _, _, rfl, by norm_num⟩
  · rw [if_neg h]
    have hem := hx.emax
    obtain ⟨e1, e2, m, e3, e4, e5⟩ := tanh_args hx hz (n := max (64 * pw) (64 * x.m.m.length)) (by omega) (by omega) h
    unfold tanhPrec at htop
    rw [e3] at htop ⊢
    obtain ⟨w, hwe⟩ : ∃ w, w = max (64 * pw) (64 * x.m.m.length) + 64 := ⟨_, rfl⟩
    rw [← hwe] at hw htop ⊢
    have hi := tanh_init hx hz e1 (by omega) (ap := 4 + m) (w := w) (by omega) hc 0
    obtain ⟨y, y1, y2, y3, y4, y5⟩ := setPrecision_extend hi.wf (p := w + (4 + m)) (by omega) (by omega) hi.len .none
    rw [hi.sgn] at y5
    rw [hi.val] at y4
    have yz : y.isZero = false := by
      rw [← Bool.not_eq_true, ← y2.toK_eq_zero (K := ℝ), y4]
      linarith
    have yabs : |(y.toK : ℝ)| = 2 * |(x.toK : ℝ)| := by rw [y4, abs_of_pos (by linarith)]
    have hv : ValidP (w + (4 + m)) := ⟨by omega, by unfold precBits; omega⟩
    have hl : max (precBits (w + (4 + m))) (64 * y.m.m.length) + 64 ≤ 2 ^ 22 := by
      rw [y3]; unfold precBits wordLen; omega
    have hex : ∃ r c' k, y.exp (w + (4 + m)) .fromZero (f + 1) c = some (r, c', k) ∧ k ≤ 2 ^ 22 := by
      rcases htop with ⟨h1, h2⟩ | h1
      · refine exp_number y2 yz (by rw [yabs]; exact h1) hv hc hl (Or.inr ⟨rfl, ?_⟩)
        rw [y4]; exact h2
      · obtain ⟨c', c1, -⟩ := exp_over y2 yz y5 hv (by rw [yabs]; exact h1) (fun _ => hl) .fromZero hc f
        exact ⟨_, _, _, c1, hl⟩
    obtain ⟨r, c', k, k1, k2⟩ := hex
    obtain ⟨o, s', o1, o2⟩ := tanhStep_some (σ := x.s) (p := 64 * pw) (rm := rm) y1 k1
    have hg : s'.2.2 ≤ 2 ^ 22 := by rw [o2]; exact max_le (by norm_num) k2
    obtain ⟨-, o3⟩ := tanhStep_spec e2 e4 rfl (by omega) (htop.imp And.left id) (by omega) (by omega) hpw0 (by omega) hi o1 hg
    obtain ⟨r', hr'⟩ := roundLoop_number (ix := x.inexact) (tanh_mid e2 e4 (by omega)) hpw0 (by omega) (by omega) (by omega) o1 o3 hs f 64
    rw [hr']
    exact ⟨_, _, _, rfl, max_le (by omega) hg⟩

end AF
