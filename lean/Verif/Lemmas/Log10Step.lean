import Mathlib.Analysis.SpecialFunctions.Log.Base
import Verif.Model.LogBase
import Verif.Lemmas.PowFun
import Verif.Lemmas.PowDom
import Verif.Lemmas.ConstLn10
import Verif.Props.C50
/-!
# The rounds of `log10`
-/

namespace AF

open Num

/-- A truncated quotient of two approximations. -/
theorem quot_close {a b A C δ t : ℝ} (hC : C ≠ 0) (hδ0 : 0 < δ) (hδ : δ ≤ 1 / 2 ^ 190)
    (ha : |a - A| ≤ |A| * (δ * (1 + 2 ^ (-6 : ℤ)))) (hb : |b - C| ≤ |C| * (δ * (1 + 2 ^ (-6 : ℤ)))) :
    b ≠ 0 ∧ |a / b - A / C| ≤ |A / C| * (5 / 2 * δ) ∧ |A / C| * (1 / 2) ≤ |a / b| ∧ |a / b| ≤ |A / C| * 2 ∧
      (|t - a / b| ≤ |a / b| * δ → |t - A / C| ≤ |A / C| * (4 * δ)) := by
  have hδ' : δ ≤ 1 / 1000 := le_trans hδ (by norm_num)
  have h6 : (1 : ℝ) + 2 ^ (-6 : ℤ) = 65 / 64 := by norm_num
  rw [h6] at ha hb
  have hC0 : 0 < |C| := abs_pos.2 hC
  have hbl : |C| * (999 / 1000) ≤ |b| := by
    have h1 : |C| - |b| ≤ |b - C| := by rw [abs_sub_comm]; exact abs_sub_abs_le_abs_sub C b
    have h2 : |C| * (δ * (65 / 64)) ≤ |C| * (1 / 1000 * (65 / 64)) := by gcongr
    have h3 : |C| * (δ * (65 / 64)) ≤ |C| * (1 / 1000) := by
      refine mul_le_mul_of_nonneg_left ?_ hC0.le
      have : δ ≤ 1 / 2000 := le_trans hδ (by norm_num)
      linarith
    linarith
  have hb0 : 0 < |b| := lt_of_lt_of_le (by positivity) hbl
  have hbn : b ≠ 0 := abs_pos.1 hb0
  have key : |a / b - A / C| ≤ |A / C| * (5 / 2 * δ) := by
    have e1 : a / b - A / C = ((a - A) * C - A * (b - C)) / (b * C) := by field_simp; ring
    have e2 : |(a - A) * C - A * (b - C)| ≤ |A| * |C| * (130 / 64 * δ) := by
      refine le_trans (abs_sub _ _) ?_
      rw [abs_mul, abs_mul]
      have h1 := mul_le_mul_of_nonneg_right ha hC0.le
      have h2 := mul_le_mul_of_nonneg_left hb (abs_nonneg A)
      linarith
    rw [e1, abs_div, abs_mul, abs_div, div_le_iff₀ (by positivity)]
    refine le_trans e2 ?_
    have e3 : |A| / |C| * (5 / 2 * δ) * (|b| * |C|) = |A| * (5 / 2 * δ) * |b| := by field_simp
    rw [e3]
    have h1 : |A| * (5 / 2 * δ) * (|C| * (999 / 1000)) ≤ |A| * (5 / 2 * δ) * |b| :=
      mul_le_mul_of_nonneg_left hbl (by positivity)
    refine le_trans ?_ h1
    have : 0 ≤ |A| * |C| * δ := by positivity
    linarith
  have hq : 0 ≤ |A / C| := abs_nonneg _
  have h1 : |A / C| * (5 / 2 * δ) ≤ |A / C| * (1 / 300) := mul_le_mul_of_nonneg_left (by linarith) hq
  have h2 : |A / C| - |a / b| ≤ |a / b - A / C| := by rw [abs_sub_comm]; exact abs_sub_abs_le_abs_sub _ _
  have h3 : |a / b| - |A / C| ≤ |a / b - A / C| := abs_sub_abs_le_abs_sub _ _
  refine ⟨hbn, key, by linarith, by linarith, ?_⟩
  intro ht
  have h4 : |t - A / C| ≤ |t - a / b| + |a / b - A / C| := abs_sub_le _ _ _
  have h5 : |a / b| ≤ |A / C| * (11 / 10) := by linarith
  have h6 := mul_le_mul_of_nonneg_right h5 hδ0.le
  have : 0 ≤ |A / C| * δ := by positivity
  linarith

/-- `ln 10` in mode `None`. -/
abbrev Ln10Ok (c : Num.Ln2Cache) : Prop := CacheOk (LnRep 81 121) (LnValOk 81 121 6 (Real.log 10)) c

theorem ln10None_spec {pw : Nat} (hp : 0 < pw) (hpm : 64 * pw ≤ 2 ^ 20) {c : Num.Ln2Cache} (hc : Ln10Ok c) :
    ∃ v c', ln10ForPrec (64 * pw) .none c = some (.ok v, c') ∧ Ln10Ok c' ∧ v.WF ∧ 64 * v.m.m.length = 64 * pw ∧
      v.inexact = true ∧ |v.toK - Real.log 10| ≤ |Real.log 10| * (2 ^ (1 - ((64 * pw : ℕ) : ℤ)) * (1 + 2 ^ (-6 : ℤ))) := by
  have hr2 : roundP (64 * pw) = 64 * pw := by unfold roundP USIZE_MAX; omega
  obtain ⟨r, c', h1, h2, h3, h4, -⟩ := (ln10_loop hp (by unfold PMAX; omega) .none).forPrec ln10Series hc (by
      rw [hr2]; exact ln10_inv_start hp)
  obtain ⟨v, rfl⟩ := h4 (Or.inl rfl) (by omega)
  refine ⟨v, c', h1, h2, ?_⟩
  rcases h3 with ⟨v', e, h5⟩ | h3
  · injection e with e
    subst e
    exact ⟨h5.wf, h5.prec, h5.inexact, h5.none rfl⟩
  · cases h3

/-! ## Powers of ten among the numbers -/

theorem five_dvd {m a : ℤ} {n : ℕ} (h : (m : ℚ) * 2 ^ a = 10 ^ n) : (5 : ℤ) ^ n ∣ m := by
  have h10 : (10 : ℤ) ^ n = 5 ^ n * 2 ^ n := by rw [← mul_pow]; norm_num
  rcases le_total 0 a with ha | ha
  · obtain ⟨j, rfl⟩ := Int.eq_ofNat_of_zero_le ha
    have h1 : m * 2 ^ j = 10 ^ n := by rw [zpow_natCast] at h; exact_mod_cast h
    have hc : IsCoprime ((5 : ℤ) ^ n) (2 ^ j) := IsCoprime.pow (by rw [Int.isCoprime_iff_gcd_eq_one]; rfl)
    refine hc.dvd_of_dvd_mul_right ?_
    rw [h1, h10]
    exact Dvd.intro _ rfl
  · obtain ⟨j, hj⟩ := Int.eq_ofNat_of_zero_le (neg_nonneg.2 ha)
    have ha' : a = -(j : ℤ) := by omega
    rw [ha', zpow_neg, zpow_natCast, mul_inv_eq_iff_eq_mul₀ (by positivity)] at h
    have h1 : m = 10 ^ n * 2 ^ j := by exact_mod_cast h
    rw [h1, h10, mul_assoc]
    exact Dvd.intro _ rfl

theorem ten_inv {m a : ℤ} {n : ℕ} (hn : 1 ≤ n) (h : (m : ℚ) * 2 ^ a * 10 ^ n = 1) : False := by
  have h5 : (5 : ℤ) ∣ 10 ^ n := dvd_pow (by norm_num) (by omega)
  rcases le_total 0 a with ha | ha
  · obtain ⟨j, rfl⟩ := Int.eq_ofNat_of_zero_le ha
    have h1 : m * 2 ^ j * 10 ^ n = 1 := by rw [zpow_natCast] at h; exact_mod_cast h
    have : (5 : ℤ) ∣ 1 := by rw [← h1]; exact Dvd.dvd.mul_left h5 _
    omega
  · obtain ⟨j, hj⟩ := Int.eq_ofNat_of_zero_le (neg_nonneg.2 ha)
    have ha' : a = -(j : ℤ) := by omega
    rw [ha', zpow_neg, zpow_natCast, mul_assoc, mul_comm _ ((10 : ℚ) ^ n), ← mul_assoc, mul_inv_eq_iff_eq_mul₀ (by positivity), one_mul] at h
    have h1 : m * 10 ^ n = 2 ^ j := by exact_mod_cast h
    have h2 : (5 : ℤ) ∣ 2 ^ j := by rw [← h1]; exact Dvd.dvd.mul_left h5 _
    have h2' : (5 : ℕ) ∣ 2 ^ j := by exact_mod_cast h2
    have := Nat.prime_five.dvd_of_dvd_pow h2'
    omega

/-- A power of ten that is a number is not negative, and its exponent is less than the number of bits. -/
theorem ten_pow_num {x : Num} (hx : x.WF) {k : ℤ} (h : (x.toK : ℚ) = 10 ^ k) :
    ∃ n : ℕ, k = n ∧ 5 ^ n < 2 ^ (64 * x.m.m.length) := by
  obtain ⟨m, a, h1, h2⟩ := x.toK_int hx
  rw [h] at h1
  rcases le_or_gt 0 k with hk | hk
  · obtain ⟨n, rfl⟩ := Int.eq_ofNat_of_zero_le hk
    refine ⟨n, rfl, ?_⟩
    have h3 : (m : ℚ) * 2 ^ a = 10 ^ n := by rw [← h1, zpow_natCast]
    have h4 := five_dvd h3
    have hm : m ≠ 0 := by
      rintro rfl
      rw [Int.cast_zero, zero_mul] at h3
      exact absurd h3.symm (by positivity)
    have h5 := Int.le_of_dvd (abs_pos.2 hm) ((dvd_abs _ _).2 h4)
    have h6 : (5 : ℤ) ^ n < 2 ^ (64 * x.m.m.length) := lt_of_le_of_lt h5 h2
    exact_mod_cast h6
  · exfalso
    obtain ⟨n, hn⟩ := Int.eq_ofNat_of_zero_le (neg_nonneg.2 hk.le)
    refine ten_inv (m := m) (a := a) (n := n) (by omega) ?_
    rw [← h1, ← zpow_natCast, ← zpow_add₀ (by norm_num), show k + (n : ℤ) = 0 by omega, zpow_zero]

theorem ten_exp_lt {n L : ℕ} (h : 5 ^ n < 2 ^ L) : n < L := by
  by_contra hc
  have h1 : 2 ^ L ≤ 2 ^ n := Nat.pow_le_pow_right (by norm_num) (by omega)
  have h2 : 2 ^ n ≤ 5 ^ n := Nat.pow_le_pow_left (by norm_num) n
  omega

theorem TEN_spec : TEN.WF ∧ (TEN.toK : ℚ) = 10 ∧ TEN.isZero = false ∧ TEN.m.m.length = 2 := by
  refine ⟨Num.WF_of_check (by decide +kernel), ?_, by decide +kernel, rfl⟩
  rw [Num.toK_eq]
  norm_num [TEN, Sign.toK, Num.abs_val, AF.val, B]

/-- The powers of ten that are computed. -/
theorem ten_powi {n p : Nat} (hn : n < 2 ^ 20) (hp : ValidP p) (hP : precBits p ≤ 2 ^ 24) : ∃ v, TEN.powi n p .none = .ok v := by
  obtain ⟨t1, t2, t3, t4⟩ := TEN_spec
  have hE : EMIN = -2 ^ 31 := rfl
  have hE' : EMAX = 2 ^ 31 - 1 := rfl
  have hp0 := hp.pos
  have hb : precBits p = 64 * ((p + 63) / 64) := rfl
  by_cases h0 : n = 0
  · unfold Num.powi Num.powiInternal
    dsimp only
    rw [hp.roundP, if_pos h0]
    have h := fromWord_spec (K := ℚ) (d := 1) (p := precBits p) (by unfold B; norm_num) (by omega) (by unfold PMAX; omega)
    cases hr : Num.fromWord 1 (precBits p) with
    | ok v => exact ⟨v, rfl⟩
    | error e => rw [hr] at h; exact absurd h (by simp [ExactNum])
  by_cases h1 : n = 1
  · unfold Num.powi Num.powiInternal
    dsimp only
    rw [hp.roundP, if_neg h0, if_pos (by simp [h1])]
    have hD := setPrecision_delivers (K := ℚ) t1 (pw := (p + 63) / 64) (by omega) (by unfold PMAX; omega) .none
    rw [← hb, t2] at hD
    cases hr : TEN.setPrecision (precBits p) .none with
    | ok v => exact ⟨v, rfl⟩
    | error e =>
      exfalso
      rw [hr] at hD
      obtain ⟨-, t, g1, g2⟩ := hD
      have := g1.of_int (k := 10) (a := 0) (by norm_num) (by
        have : (2 : ℤ) ^ 64 ≤ 2 ^ precBits p := pow_le_pow_right₀ (by norm_num) (by omega)
        norm_num at this ⊢
        omega)
      rw [this] at g2
      have : (2 : ℚ) ^ (4 : ℤ) ≤ 2 ^ EMAX := zpow_le_zpow_right₀ (by norm_num) (by omega)
      norm_num at this g2
      linarith
  · have h10 : (10 : ℚ) ^ n ≤ 2 ^ ((4 * n : ℕ) : ℤ) := by
      rw [zpow_natCast, pow_mul]
      exact pow_le_pow_left₀ (by norm_num) (by norm_num) n
    have hR := powiInternal_spec t1 t3 (n := n) (p := p) (by omega) (by unfold B; omega) hp (by
      rw [t2]
      have : (1 : ℚ) ≤ 10 ^ n := one_le_pow₀ (by norm_num)
      refine le_trans (zpow_le_one_of_nonpos₀ (by norm_num) (by omega)) ?_
      rw [abs_of_pos (by norm_num)]; exact this) .none true
    unfold Num.powi
    cases hr : TEN.powiInternal n p .none true with
    | ok v => exact ⟨v, rfl⟩
    | error e =>
      exfalso
      rw [hr] at hR
      rcases hR with ⟨s, -, g, -⟩ | ⟨-, g⟩
      · rw [t2, abs_of_pos (by positivity)] at g
        have : (2 : ℚ) ^ ((4 * n : ℕ) : ℤ) < 2 ^ (EMAX - 2) := zpow_lt_zpow_right₀ (by norm_num) (by push_cast; omega)
        linarith
      · apply g
        rw [t4]
        omega

/-! ## A round -/

/-- No power of ten other than `x` itself is so close to `x` that the logarithms agree in the first `M + 124` bits. -/
def TenClear (M : Nat) (x : ℝ) : Prop :=
  ∀ k : ℤ, k ≠ 0 → x ≠ 10 ^ k → |(k : ℝ)| * 2 ^ (-(M : ℤ) - 124) < |Real.logb 10 x - k|

/-- What the loop of `log10` keeps. -/
structure Log10Inv (X : ℝ) (w : Nat) (s : Log10State) : Prop where
  wf : s.1.WF
  eq : s.1.toK = X
  len : 64 * s.1.m.m.length ≤ w
  l2 : Ln2Ok s.2.1
  l10 : Ln10Ok s.2.2

theorem log_bounds {x : Num} (hx : x.WF) (h0 : 0 < (x.toK : ℝ)) (h1 : (x.toK : ℝ) ≠ 1) (hl : 64 * x.m.m.length ≤ 2 ^ 16) :
    (2 : ℝ) ^ (-((2 ^ 16 + 1 : ℕ) : ℤ)) ≤ |Real.log x.toK| ∧ |Real.log x.toK| ≤ 2 ^ 41 := by
  have hm := lnSplit_spec hx h0
  obtain ⟨cnt, C, -, -, -, -, -, -, -, s8, -⟩ := lnSize_spec hm (by rw [hm.len]; omega) (fun h => h1 (hm.one.1 h))
  have h2 := log_low hx h0.ne' (by rw [abs_of_pos h0]; exact h1)
  rw [abs_of_pos h0] at h2
  exact ⟨le_trans (zpow_le_zpow_right₀ (by norm_num) (by push_cast; omega)) h2, s8⟩

theorem log10_bounds {x : Num} (hx : x.WF) (h0 : 0 < (x.toK : ℝ)) (h1 : (x.toK : ℝ) ≠ 1) (hl : 64 * x.m.m.length ≤ 2 ^ 16) :
    (2 : ℝ) ^ (-((2 ^ 16 + 3 : ℕ) : ℤ)) ≤ |Real.log x.toK / Real.log 10| ∧ |Real.log x.toK / Real.log 10| ≤ 2 ^ 40 := by
  obtain ⟨b1, b2⟩ := log_bounds hx h0 h1 hl
  obtain ⟨l1, l2⟩ := log_ten_small
  rw [abs_div, abs_of_pos (a := Real.log 10) (by linarith)]
  constructor
  · rw [le_div_iff₀ (by linarith)]
    refine le_trans ?_ b1
    have : (2 : ℝ) ^ (-((2 ^ 16 + 1 : ℕ) : ℤ)) = 4 * 2 ^ (-((2 ^ 16 + 3 : ℕ) : ℤ)) := by
      rw [show (4 : ℝ) = 2 ^ (2 : ℤ) by norm_num, ← zpow_add₀ (by norm_num)]; congr 1
    have h0 : (0 : ℝ) < 2 ^ (-((2 ^ 16 + 3 : ℕ) : ℤ)) := by positivity
    rw [this]
    generalize (2 : ℝ) ^ (-((2 ^ 16 + 3 : ℕ) : ℤ)) = u at *
    nlinarith only [h0, l1, l2]
  · rw [div_le_iff₀ (by linarith)]
    linarith

/-- The test for a power of ten. -/
theorem log10Test_spec {x r : Num} {X : ℝ} (hx : x.WF) (hxX : x.toK = X) (hl : 64 * x.m.m.length ≤ 2 ^ 16)
    (hr : r.WF) (hz : r.isZero = false) (hru : |(r.toK : ℝ)| < 2 ^ 63)
    (hint : ∀ k : ℤ, (r.toK : ℝ) = k → X = 10 ^ k) {p : Nat} (hp : ValidP p) (hP : precBits p ≤ 2 ^ 24) :
    ∃ b, log10Test x r p = .ok b ∧ (b = true → ∃ k : ℕ, (r.toK : ℝ) = k ∧ X = 10 ^ k) := by
  unfold log10Test
  by_cases hi : r.isInt = true
  · rw [if_pos hi]
    obtain ⟨k, hk⟩ := (isInt_spec r hr).1 hi
    have hkR : (r.toK : ℝ) = k := by rw [← toK_ratCast r, hk]; simp
    have hXk := hint k hkR
    have hxQ : (x.toK : ℚ) = 10 ^ k := by
      have : ((x.toK : ℚ) : ℝ) = ((10 ^ k : ℚ) : ℝ) := by rw [toK_ratCast, hxX, hXk]; push_cast; rfl
      exact_mod_cast this
    obtain ⟨n, hn, h5⟩ := ten_pow_num hx hxQ
    have hn2 := ten_exp_lt h5
    obtain ⟨q, q1, q2, q3, -⟩ := hr.mag (K := ℝ) hz
    have he : r.e ≤ 64 := by
      have := (zpow_lt_zpow_iff_right₀ (by norm_num : (1 : ℝ) < 2)).1 (lt_of_le_of_lt q1 (show |(r.toK : ℝ)| < 2 ^ (63 : ℤ) by exact_mod_cast hru))
      have hE : EMIN = -2 ^ 31 := rfl
      omega
    obtain ⟨n', n1, n2, n3⟩ := intAsUsize_spec hr hz he
    have : n' = n := by
      rw [hkR, hn, Int.cast_natCast, Nat.abs_cast, Int.floor_natCast] at n2
      exact_mod_cast n2
    rw [n1]
    dsimp only
    obtain ⟨v, hv⟩ := ten_powi (n := n') (p := p) (by omega) hp hP
    rw [hv]
    refine ⟨_, rfl, fun _ => ⟨n, ?_, ?_⟩⟩
    · rw [hkR, hn, Int.cast_natCast]
    · rw [hXk, hn, zpow_natCast]
  · rw [if_neg hi]
    exact ⟨_, rfl, fun h => by cases h⟩

theorem log10_exact {r : Num} (hr : r.WF) (hi : r.inexact = true) {k : ℕ} (hk : (r.toK : ℝ) = k) (hk0 : 0 < k) (hkl : k < 2 ^ 63)
    {pw : Nat} (hp : 0 < pw) (hpm : 64 * pw < PMAX) (rm : RM) :
    ∃ v, r.setPrecision (64 * pw) rm = .ok v ∧ FunRounded rm (64 * pw) (k : ℝ) v ∧ (v.toK : ℝ) = k := by
  have hE : EMIN = -2 ^ 31 := rfl
  have hE' : EMAX = 2 ^ 31 - 1 := rfl
  have hkQ : (r.toK : ℚ) = k := by
    have : ((r.toK : ℚ) : ℝ) = ((k : ℚ) : ℝ) := by rw [toK_ratCast, hk]; push_cast; rfl
    exact_mod_cast this
  have hD := setPrecision_delivers (K := ℚ) hr hp hpm rm
  rw [hkQ, hi] at hD
  have hk2 : |(k : ℤ)| < 2 ^ (64 * pw) := by
    have h1 : (2 : ℤ) ^ 63 ≤ 2 ^ (64 * pw) := pow_le_pow_right₀ (by norm_num) (by omega)
    rw [Nat.abs_cast]
    have : (k : ℤ) < 2 ^ 63 := by exact_mod_cast hkl
    omega
  have hk1 : (1 : ℚ) ≤ k := by exact_mod_cast hk0
  have hlo : (2 : ℚ) ^ (EMIN - 1) ≤ |(k : ℚ)| := by
    rw [Nat.abs_cast]
    exact le_trans (zpow_le_one_of_nonpos₀ (by norm_num) (by omega)) hk1
  cases hs : r.setPrecision (64 * pw) rm with
  | error e =>
    exfalso
    rw [hs] at hD
    obtain ⟨-, t, g1, g2⟩ := hD
    have := g1.of_int (k := k) (a := 0) (by simp) hk2
    rw [this, Nat.abs_cast] at g2
    have h1 : (2 : ℚ) ^ (63 : ℤ) ≤ 2 ^ EMAX := zpow_le_zpow_right₀ (by norm_num) (by omega)
    have h2 : (k : ℚ) < 2 ^ 63 := by exact_mod_cast hkl
    have h3 : (2 : ℚ) ^ (63 : ℤ) = 2 ^ 63 := by norm_num
    linarith
  | ok v =>
    rw [hs] at hD
    have hv : (v.toK : ℚ) = k := (hD.normal hlo).of_int (k := k) (a := 0) (by simp) hk2
    have hvR : (v.toK : ℝ) = k := by rw [← toK_ratCast v, hv]; simp
    have hv1 := hD.1
    have hv2 := hD.2.1
    have hv3 := hD.2.2.1 (by linarith)
    have hv5 : v.inexact = true := hD.2.2.2.2.1.2 (Or.inl rfl)
    refine ⟨v, rfl, ?_, hvR⟩
    have hk1R : (1 : ℝ) ≤ k := by exact_mod_cast hk0
    refine FunRounded.of_fmt ?_ hv1 hv2 (fun _ => hv3) (fun h => by linarith) hv5 ?_
    · rw [Nat.abs_cast]
      exact le_trans (zpow_le_one_of_nonpos₀ (by norm_num) (by omega)) hk1R
    · have := hv1.roundsFmt_self (K := ℝ) (P := 64 * pw) (by omega) rm
      rw [hvR] at this ⊢
      exact this

theorem log10Step_spec {X : ℝ} (hX : 0 < X) (hX1 : X ≠ 1) {M pw : Nat} (hp : 0 < pw) (hclr : TenClear M X) {w : Nat} (hd : 64 ∣ w)
    (hpw : 64 * pw + 64 ≤ w) (hM : M + 64 ≤ w) (h1 : 128 ≤ w) (h2 : w ≤ 2 ^ 15) {s : Log10State} (hs : Log10Inv X w s) (rm : RM) (f : Nat) :
    ∃ o s', log10Step (64 * pw) rm (f + 1) w s = some (o, s') ∧ (∀ w', w + 64 ≤ w' → Log10Inv X w' s') ∧
      StepOut rm (64 * pw) (Real.log X / Real.log 10) w o := by
  obtain ⟨hδ0, hδ, hδ2⟩ := wUnit_tiny h1
  have hE : EMIN = -2 ^ 31 := rfl
  have hE' : EMAX = 2 ^ 31 - 1 := rfl
  have hz : s.1.isZero = false := by
    rw [← Bool.not_eq_true, ← hs.wf.toK_eq_zero (K := ℝ), hs.eq]; exact hX.ne'
  obtain ⟨x, x1, x2, x3, -, x5, -, x7⟩ := hyp_extend (x := s.1) hs.wf hz rfl hd (by omega) (by omega) hs.len (k := 5) (by norm_num) (by norm_num)
  rw [hs.eq] at x7
  have hv := validP_w (w := w) (k := 5) (by omega) (by norm_num) (by norm_num)
  have hpb := precBits_w (w := w) (k := 5) hd (by norm_num) (by norm_num)
  obtain ⟨p1, c', w', l1, l2, l3, -, -⟩ := ln_none x2 (by rw [x7]; exact hX) (by rw [x7]; exact hX1) hv (f := f) hs.l2 (by rw [hpb]; omega)
  rw [hpb, x7] at l3
  have l4 := l3.none rfl
  rw [wUnit_eq] at l4
  obtain ⟨a, ha⟩ : ∃ a, w + 64 = 64 * a := ⟨w / 64 + 1, by omega⟩
  obtain ⟨p2, d, t1, t2, t3, t4, t5, t6⟩ := ln10None_spec (pw := a) (by omega) (by omega) hs.l10
  rw [← ha] at t1 t4 t6
  rw [wUnit_eq] at t6
  have l4' : |(p1.toK : ℝ) - Real.log X| ≤ |Real.log X| * (wUnit w * (1 + 2 ^ (-6 : ℤ))) := by
    refine le_trans l4 (mul_le_mul_of_nonneg_left (mul_le_mul_of_nonneg_left ?_ hδ0.le) (abs_nonneg _))
    norm_num
  have hl10 : Real.log 10 ≠ 0 := by have := log_ten_small; linarith [this.1]
  obtain ⟨b1, b2⟩ := log10_bounds x2 (by rw [x7]; exact hX) (by rw [x7]; exact hX1) (by omega)
  rw [x7] at b1 b2
  have hy0 : Real.log X / Real.log 10 ≠ 0 := by
    rw [← abs_pos]; exact lt_of_lt_of_le (by positivity) b1
  obtain ⟨hp2, q1, q2, q3, -⟩ := quot_close (t := 0) hl10 hδ0 hδ l4' t6
  have hz2 : p2.isZero = false := by rw [← Bool.not_eq_true, ← t3.toK_eq_zero (K := ℝ)]; exact hp2
  have hp5 := wUnit_PrecOk (w := w) hd (by omega) (k := 5) (by norm_num) (by norm_num)
  have hdv := div_spec (K := ℝ) l3.wf t3 hz2 hp5.pos (by rw [hp5.eq]; exact hp5.lt) .none
  rw [hp5.eq] at hdv
  obtain ⟨r, r1, r2, r3, r4, r5⟩ := tr_abs (by omega) hdv (by
      refine le_trans ?_ q2
      have h3 : (2 : ℝ) ^ (EMIN - 1) ≤ 2 ^ (-((2 ^ 16 + 3 : ℕ) : ℤ)) * 2⁻¹ := by
        rw [← zpow_sub_one₀ (by norm_num)]
        exact zpow_le_zpow_right₀ (by norm_num) (by push_cast; omega)
      linarith) (by
      refine le_trans q3 ?_
      have : (2 : ℝ) ^ (41 : ℤ) ≤ 2 ^ (EMAX - 2) := zpow_le_zpow_right₀ (by norm_num) (by omega)
      norm_num at this
      linarith)
  rw [wUnit_eq] at r4
  have hp1z : p1.isZero = false := by
    rw [← Bool.not_eq_true, ← l3.wf.toK_eq_zero (K := ℝ)]
    intro h
    rw [h, zero_div, abs_zero] at q2
    have := abs_pos.2 hy0
    linarith
  have r6 : r.inexact = true := r5 (by unfold divIx; rw [hp1z, if_neg Bool.false_ne_true, t5]; simp)
  obtain ⟨-, -, -, -, q4⟩ := quot_close (t := r.toK) hl10 hδ0 hδ l4' t6
  have hrc := q4 r4
  clear q4
  obtain ⟨y, hy⟩ : ∃ y, y = Real.log X / Real.log 10 := ⟨_, rfl⟩
  have hyb : y = Real.logb 10 X := hy
  rw [← hy] at b1 b2 hy0 q1 q2 q3 hrc ⊢
  have hyp : 0 < |y| := abs_pos.2 hy0
  have hw2 : (2 : ℝ) ^ (-(w : ℤ)) = 2 ^ 63 * wUnit w := by
    unfold wUnit
    rw [← zpow_natCast, ← zpow_add₀ (by norm_num)]; congr 1; push_cast; ring
  have htest : TestOk w y r := by
    refine TestOk.of_rel' r2 r6 (by omega) hy0 ?_ hrc
    refine mul_le_mul_of_nonneg_left ?_ (abs_nonneg _)
    rw [hw2]; linarith
  have hδs : wUnit w ≤ 1 / 1000 := le_trans hδ (by norm_num)
  have hsm : |y| * (4 * wUnit w) ≤ |y| * (1 / 250) := mul_le_mul_of_nonneg_left (by linarith) hyp.le
  have hra : |y| * (249 / 250) ≤ |(r.toK : ℝ)| := by
    have := abs_sub_abs_le_abs_sub y (r.toK : ℝ)
    rw [abs_sub_comm] at this
    linarith
  have hra2 : |(r.toK : ℝ)| ≤ |y| * (251 / 250) := by
    have := abs_sub_abs_le_abs_sub (r.toK : ℝ) y
    linarith
  have hrz : r.isZero = false := by
    rw [← Bool.not_eq_true, ← r2.toK_eq_zero (K := ℝ), ← abs_eq_zero]
    intro h; linarith
  have hint : ∀ k : ℤ, (r.toK : ℝ) = k → X = 10 ^ k := by
    intro k hk
    by_contra hne
    have hk0 : k ≠ 0 := by
      rintro rfl
      rw [hk, Int.cast_zero, abs_zero] at hra
      linarith
    have h3 := hclr k hk0 hne
    rw [← hyb, abs_sub_comm, ← hk] at h3
    have h4 : (2 : ℝ) ^ (-(w : ℤ) - 60) ≤ 2 ^ (-(M : ℤ) - 124) := zpow_le_zpow_right₀ (by norm_num) (by omega)
    have h5 : (2 : ℝ) ^ (-(w : ℤ) - 60) = 8 * wUnit w := by
      unfold wUnit
      rw [show (8 : ℝ) = 2 ^ (3 : ℤ) by norm_num, ← zpow_add₀ (by norm_num)]; congr 1; ring
    have h6 : |y| * (249 / 250) * (8 * wUnit w) ≤ |(r.toK : ℝ)| * 2 ^ (-(M : ℤ) - 124) := by
      rw [← h5]
      exact mul_le_mul hra h4 (by positivity) (abs_nonneg _)
    have h7 : 0 < |y| * wUnit w := by positivity
    linarith
  have hyX : ∀ k : ℕ, X = 10 ^ k → y = k := by
    intro k hk
    rw [hyb, hk, Real.logb_pow, Real.logb_self_eq_one (by norm_num), mul_one]
  obtain ⟨b, hb1, hb2⟩ := log10Test_spec x2 x7 (by omega) r2 hrz (by
    norm_num at b2 ⊢
    linarith) hint hv (by omega)
  unfold log10Step
  dsimp only
  rw [x1]
  dsimp only
  rw [l1]
  dsimp only
  rw [hp5.eq, t1]
  dsimp only
  rw [r1]
  dsimp only
  rw [hb1]
  cases b with
  | false => exact ⟨_, _, rfl, fun w' hw' => ⟨x2, x7, by dsimp only; omega, l2, t2⟩, htest⟩
  | true =>
    obtain ⟨k, hk, hkX⟩ := hb2 rfl
    have hyk := hyX k hkX
    have hk0 : 0 < k := by
      rcases Nat.eq_zero_or_pos k with h | h
      · rw [h] at hyk; simp at hyk; exact absurd hyk hy0
      · exact h
    have hkl : k < 2 ^ 63 := by
      rw [hyk, Nat.abs_cast] at b2
      have : k ≤ 2 ^ 40 := by exact_mod_cast b2
      omega
    obtain ⟨v, v1, v2, -⟩ := log10_exact r2 r6 hk hk0 hkl hp (by unfold PMAX; omega) rm
    refine ⟨_, _, rfl, fun w' hw' => ⟨x2, x7, by dsimp only; omega, l2, t2⟩, ?_⟩
    exact ⟨v, v1, by rw [hyk]; exact v2⟩

end AF
