import Verif.Lemmas.LogReal
import Verif.Lemmas.LogCost
import Verif.Lemmas.ExpSinh
import Verif.Lemmas.HypArith
/-!
# `ln_series`: the reduction of the argument and the error of the result
-/

namespace AF

set_option linter.unusedSectionVars false

variable {δ : ℝ} {P : Nat}

theorem atanhGenNew_spec {p : Nat} (hp : PrecOk δ p P) (hpm : p < PMAX) :
    ∃ g, atanhGenNew p = .ok g ∧ AtanhRep P 0 g ∧ g.cost = p + 64 := by
  unfold atanhGenNew
  obtain ⟨i, i1, i2, i3, i4, -⟩ := fromWord_spec (K := ℝ) (d := 1) (p := 1) (by unfold B; norm_num) (by norm_num)
    (by unfold PMAX; norm_num)
  obtain ⟨o, o1, o2, o3, o4, -⟩ := fromWord_spec (K := ℝ) (d := 1) (p := p) (by unfold B; norm_num) hp.pos hpm
  have hv := roundP_valid hp.pos (show roundP p < PMAX by rw [hp.eq]; exact hp.lt)
  rw [hv.2, hp.eq] at o3
  rw [i1]
  dsimp only
  rw [o1]
  have m1 : i.m.maxBitLen = 64 := by
    have : precBits 1 = 64 := by decide
    unfold Mantissa.maxBitLen; omega
  have m2 : 64 * i.m.m.length = 64 := by rw [i3]; decide
  rw [Nat.cast_one] at i4 o4
  refine ⟨_, rfl, ⟨o2, o3, o4, i2, m2, by rw [i4]; norm_num⟩, ?_⟩
  dsimp only
  rw [m1]
  rfl

/-- One square root of the reduction. -/
theorem lnSqrt_spec {x : Num} (hx : x.WF) {Q j : Nat} (hl : 64 * x.m.m.length = Q) (hQ : Q < PMAX) (hj : j + 1 ≤ Q)
    (h1 : 1 / 2 ≤ (x.toK : ℝ)) (h2 : (x.toK : ℝ) ≤ 1 - 2 ^ (-(j : ℤ))) :
    ∃ v, x.sqrt x.m.maxBitLen .up = .ok v ∧ v.WF ∧ 64 * v.m.m.length = Q ∧ 1 / 2 ≤ (v.toK : ℝ) ∧
      (v.toK : ℝ) ≤ 1 - 2 ^ (-((j + 1 : ℕ) : ℤ)) ∧
      Real.log x.toK / 2 ≤ Real.log v.toK ∧ Real.log v.toK ≤ Real.log x.toK / 2 + 2 ^ (1 - (Q : ℤ)) := by
  have hx0 : 0 < (x.toK : ℝ) := by linarith
  have m1 : x.m.maxBitLen = Q := by unfold Mantissa.maxBitLen; omega
  have hQ0 : 0 < Q := by omega
  have hrQ : roundP Q = Q := by
    rw [← hl]; unfold roundP USIZE_MAX; unfold PMAX at hQ; omega
  rw [m1]
  have hs := sqrt_spec (K := ℝ) hx (Or.inl (toK_sign_pos hx0)) hQ0 (by rw [hrQ]; exact hQ) .up
    (Real.sqrt_nonneg _) (Real.mul_self_sqrt hx0.le)
  rw [hrQ] at hs
  set Y := Real.sqrt (x.toK : ℝ) with hY
  have hYY : Y * Y = x.toK := Real.mul_self_sqrt hx0.le
  have hY0 : 0 ≤ Y := Real.sqrt_nonneg _
  have hYlo : 1 / 2 < Y := by nlinarith
  have hpj : (2 : ℝ) ^ (-((j + 1 : ℕ) : ℤ)) * 2 = 2 ^ (-(j : ℤ)) := by
    rw [← zpow_add_one₀ (by norm_num)]; congr 1; push_cast; ring
  have hpj0 : (0 : ℝ) < 2 ^ (-((j + 1 : ℕ) : ℤ)) := by positivity
  generalize hT : (2 : ℝ) ^ (-((j + 1 : ℕ) : ℤ)) = T at hpj hpj0
  have hT1 : T ≤ 1 / 2 := by
    rw [← hT, show (1 / 2 : ℝ) = 2 ^ (-1 : ℤ) by norm_num]
    exact zpow_le_zpow_right₀ (by norm_num) (by push_cast; omega)
  have hYhi : Y ≤ 1 - T := by
    by_contra hc
    push Not at hc
    have : (1 - T) * (1 - T) < Y * Y := mul_self_lt_mul_self (by linarith) hc
    nlinarith
  have ha : |Y| = Y := abs_of_nonneg hY0
  have key : ∀ {t : ℝ}, RoundsPrec .up Q Y t → Y ≤ t ∧ t < Y + 2 ^ (-(Q : ℤ)) ∧ t ≤ 1 - T := by
    intro t h
    rcases h with ⟨h, _⟩ | ⟨q, g1, g2, k, g3, g4, g5⟩
    · linarith
    rw [ha] at g1 g2
    have q1 : q = 0 := by
      have a1 : (2 : ℝ) ^ (q - 1) < 2 ^ (0 : ℤ) := by rw [zpow_zero]; linarith
      have a2 : (2 : ℝ) ^ (-1 : ℤ) < 2 ^ q := by
        rw [show (2 : ℝ) ^ (-1 : ℤ) = 1 / 2 by norm_num]; linarith
      have b1 := (zpow_lt_zpow_iff_right₀ (by norm_num : (1 : ℝ) < 2)).1 a1
      have b2 := (zpow_lt_zpow_iff_right₀ (by norm_num : (1 : ℝ) < 2)).1 a2
      omega
    rw [q1, zero_sub] at g3 g5
    refine ⟨g4, g5, ?_⟩
    -- `1 - T` is on the grid
    have hu : (0 : ℝ) < 2 ^ (-(Q : ℤ)) := by positivity
    have e1 : (1 - T) = (((2 : ℤ) ^ Q - 2 ^ (Q - (j + 1)) : ℤ) : ℝ) * 2 ^ (-(Q : ℤ)) := by
      push_cast
      rw [sub_mul, zpow_neg, zpow_natCast, mul_inv_cancel₀ (by positivity), ← hT, zpow_neg, zpow_natCast]
      congr 1
      rw [show (2 : ℝ) ^ Q = 2 ^ (Q - (j + 1)) * 2 ^ (j + 1) by rw [← pow_add]; congr 1; omega]
      field_simp
    rw [g3, e1]
    refine mul_le_mul_of_nonneg_right ?_ hu.le
    have : (k : ℝ) * 2 ^ (-(Q : ℤ)) < (((2 : ℤ) ^ Q - 2 ^ (Q - (j + 1)) + 1 : ℤ) : ℝ) * 2 ^ (-(Q : ℤ)) := by
      rw [← g3, Int.cast_add, Int.cast_one, add_mul, one_mul, ← e1]
      linarith
    have := lt_of_mul_lt_mul_right this hu.le
    have : k < (2 : ℤ) ^ Q - 2 ^ (Q - (j + 1)) + 1 := by exact_mod_cast this
    exact_mod_cast Int.lt_add_one_iff.1 this
  have hlog : Real.log Y = Real.log x.toK / 2 := by rw [hY, Real.log_sqrt hx0.le]
  cases hr : x.sqrt Q .up with
  | ok v =>
    rw [hr] at hs
    have hlo : (2 : ℝ) ^ (EMIN - 1) ≤ |Y| := by
      rw [ha]
      have : (2 : ℝ) ^ (EMIN - 1) ≤ 2 ^ (-1 : ℤ) := zpow_le_zpow_right₀ (by norm_num) (by unfold EMIN; norm_num)
      rw [show (2 : ℝ) ^ (-1 : ℤ) = 1 / 2 by norm_num] at this
      linarith
    obtain ⟨k1, k2, k3⟩ := key (hs.normal hlo)
    refine ⟨v, rfl, hs.1, hs.2.1, by linarith, k3, ?_, ?_⟩
    · rw [← hlog]
      exact Real.log_le_log (by linarith) k1
    · rw [← hlog]
      have hv0 : 0 < (v.toK : ℝ) := by linarith
      have e2 : Real.log v.toK - Real.log Y ≤ v.toK / Y - 1 := by
        rw [← Real.log_div hv0.ne' (by linarith)]
        exact Real.log_le_sub_one_of_pos (div_pos hv0 (by linarith))
      have e3 : (v.toK : ℝ) / Y - 1 ≤ 2 * 2 ^ (-(Q : ℤ)) := by
        rw [sub_le_iff_le_add, div_le_iff₀ (by linarith)]
        have : (0 : ℝ) < 2 ^ (-(Q : ℤ)) := by positivity
        nlinarith
      have e4 : (2 : ℝ) ^ (1 - (Q : ℤ)) = 2 * 2 ^ (-(Q : ℤ)) := by
        rw [show (1 - (Q : ℤ)) = 1 + -(Q : ℤ) by ring, zpow_add₀ (by norm_num), zpow_one]
      rw [e4]; linarith
  | error e =>
    exfalso
    rw [hr] at hs
    obtain ⟨_, t, h3, h4⟩ := hs
    obtain ⟨k1, k2, k3⟩ := key h3
    have : (2 : ℝ) ^ (0 : ℤ) ≤ 2 ^ EMAX := zpow_le_zpow_right₀ (by norm_num) (by unfold EMAX; norm_num)
    rw [zpow_zero] at this
    rw [abs_of_pos (by linarith)] at h4
    linarith

/-- The reduction of the argument. -/
theorem lnArgReduce_spec {Q : Nat} (hQ : Q < PMAX) : ∀ (n j : Nat) {x : Num}, x.WF → 64 * x.m.m.length = Q → j + n ≤ Q →
    1 / 2 ≤ (x.toK : ℝ) → (x.toK : ℝ) ≤ 1 - 2 ^ (-(j : ℤ)) →
    ∃ v, Num.lnArgReduce n x = .ok v ∧ v.WF ∧ 64 * v.m.m.length = Q ∧ 1 / 2 ≤ (v.toK : ℝ) ∧
      (v.toK : ℝ) ≤ 1 - 2 ^ (-((j + n : ℕ) : ℤ)) ∧
      Real.log x.toK ≤ 2 ^ n * Real.log v.toK ∧
      2 ^ n * Real.log v.toK ≤ Real.log x.toK + (2 ^ n * 2 - 2) * 2 ^ (1 - (Q : ℤ))
  | 0, j, x, hx, hl, _, h1, h2 => ⟨x, rfl, hx, hl, h1, h2, by simp, by simp⟩
  | n + 1, j, x, hx, hl, hj, h1, h2 => by
    obtain ⟨y, a1, a2, a3, a4, a5, a6, a7⟩ := lnSqrt_spec hx hl hQ (by omega) h1 h2
    obtain ⟨v, b1, b2, b3, b4, b5, b6, b7⟩ := lnArgReduce_spec hQ n (j + 1) a2 a3 (by omega) a4 a5
    refine ⟨v, ?_, b2, b3, b4, ?_, ?_, ?_⟩
    · rw [Num.lnArgReduce, a1]; exact b1
    · rw [show j + (n + 1) = j + 1 + n by omega]; exact b5
    · rw [pow_succ]; linarith
    · rw [pow_succ]; linarith

/-- The series after the reduction. -/
theorem lnSeriesArg_spec (hd : DOk δ) (hp : PrecOk δ P P) (hP1 : 192 ≤ P) (hP2 : P ≤ 2 ^ 17) {arg : Num} (hx : arg.WF) {J n ni : Nat}
    (hJ : J ≤ P + 64) (h1 : 1 / 2 ≤ (arg.toK : ℝ)) (h2 : (arg.toK : ℝ) ≤ 1 - 2 ^ (-(J : ℤ)))
    (hn : n ≤ 55) (hn3 : 3 ≤ n) (hnP : P ≤ 4 ^ (n + 1)) (hL : -Real.log arg.toK * 2 ^ n ≤ 7 / 10)
    (hni : 108 ≤ ni → 32 * ni ≤ P) (hni2 : ni ≤ 1100) {g : AtanhGen} (hg : AtanhRep P 0 g) :
    ∃ r, arg.lnSeriesArg P g n ni = .ok r ∧ r.WF ∧ 64 * r.m.m.length = P ∧ r.inexact = true ∧
      -Real.log arg.toK * 2 ^ n * (1 - 15 / 2 * δ) ≤ -r.toK ∧
      -(r.toK : ℝ) ≤ -Real.log arg.toK * 2 ^ n * (1 + 11 / 10 * δ) := by
  unfold Num.lnSeriesArg
  obtain ⟨a, ha⟩ : ∃ a : ℝ, a = arg.toK := ⟨_, rfl⟩
  rw [← ha] at h1 h2 hL ⊢
  have hd0 := hd.nonneg
  have hd1 : δ ≤ 1 / 2 ^ 20 := le_trans hd.small (by norm_num)
  have hJ0 : (0 : ℝ) < 2 ^ (-(J : ℤ)) := by positivity
  have hpm : roundP P < PMAX := by rw [hp.eq]; exact hp.lt
  -- the real quotient
  obtain ⟨z, hz⟩ : ∃ z : ℝ, z = (1 - a) / (1 + a) := ⟨_, rfl⟩
  have hz0 : 0 < z := by rw [hz]; exact div_pos (by linarith) (by linarith)
  have hzm : z * (1 + a) = 1 - a := by
    rw [hz, div_mul_cancel₀]; linarith
  have hp8 : (8 : ℝ) ≤ 2 ^ n := by
    calc (8 : ℝ) = 2 ^ 3 := by norm_num
      _ ≤ 2 ^ n := pow_le_pow_right₀ (by norm_num) hn3
  have hlog1 : 1 - a ≤ -Real.log a := by
    have := Real.log_le_sub_one_of_pos (show 0 < a by linarith)
    linarith
  have hl0 : 0 < -Real.log a := by linarith
  have hl8 : -Real.log a * 8 ≤ 7 / 10 := le_trans (mul_le_mul_of_nonneg_left hp8 hl0.le) hL
  have hz17 : z ≤ 1 / 17 := by nlinarith only [hzm, hz0, hlog1, hl8]
  have hatz : atanh2 z = -Real.log a := by
    unfold atanh2
    have e1 : 1 + z = 2 / (1 + a) := by
      rw [hz]
      have : (1 + a) ≠ 0 := by linarith
      field_simp; ring
    have e2 : 1 - z = 2 * a / (1 + a) := by
      rw [hz]
      have : (1 + a) ≠ 0 := by linarith
      field_simp; ring
    have ha0 : (a : ℝ) ≠ 0 := by linarith
    have ha1 : (1 + a : ℝ) ≠ 0 := by linarith
    rw [e1, e2, Real.log_div (by norm_num) ha1, Real.log_div (by positivity) ha1, Real.log_mul (by norm_num) ha0]
    ring
  have hzl := atanh2_ge hz0 (show z * z ≤ 1 / 16 by nlinarith only [hz0, hz17])
  rw [hatz] at hzl
  -- the two sums
  have s1 := addSub_spec (K := ℝ) hx ONE_WF hp.pos hpm false .none
  rw [if_neg (by simp), ONE_toK, ← ha] at s1
  obtain ⟨x1, b1, b2, -⟩ := LoN.step (N := 0) (ℓ := J) (X := 1 - a) hd hp s1 (by linarith) (by rw [pow_zero]; linarith)
    (by linarith) (by omega) (by norm_num) (by linarith)
  have s2 := addSub_spec (K := ℝ) hx ONE_WF hp.pos hpm true .none
  rw [if_pos rfl, ONE_toK, ← ha] at s2
  obtain ⟨x2, c1, c2, -⟩ := Lo.step (N := 0) (ℓ := 0) (X := 1 + a) hd hp s2 (by linarith) (by rw [pow_zero]; linarith)
    (by norm_num; linarith) (by norm_num) (by norm_num) (by linarith)
  rw [show arg.sub Num.ONE P .none = .ok x1 from b1]
  dsimp only
  rw [show arg.add Num.ONE P .none = .ok x2 from c1]
  dsimp only
  -- the quotient
  have c3 := c2.pos hd
  have b3 := b2.neg hd
  have s3 := div_spec (K := ℝ) b2.wf c2.wf (c2.nz hd) hp.pos hpm .none
  obtain ⟨X, hX⟩ : ∃ X : ℝ, X = -(x1.toK / x2.toK : ℝ) := ⟨_, rfl⟩
  have hXm : X * x2.toK = -x1.toK := by rw [hX, neg_mul, div_mul_cancel₀ _ c3.ne']
  have hX0 : 0 < X := by rw [hX, ← neg_div]; exact div_pos (by linarith) c3
  have bl := b2.le
  have bg := b2.ge
  have cl := c2.le
  have cg := c2.ge
  rw [Nat.zero_add, pow_one] at bg cg
  have hXu : X * (1 - δ) ≤ z := by
    have : X * ((1 + a) * (1 - δ)) ≤ z * (1 + a) := by
      rw [hzm]
      calc X * ((1 + a) * (1 - δ)) ≤ X * x2.toK := mul_le_mul_of_nonneg_left cg hX0.le
        _ ≤ 1 - a := by rw [hXm]; exact bl
    have h : X * (1 - δ) * (1 + a) ≤ z * (1 + a) := by linarith
    exact le_of_mul_le_mul_right h (by linarith)
  have hXl : z * (1 - δ) ≤ X := by
    have h : z * (1 - δ) * (1 + a) ≤ X * (1 + a) := by
      calc z * (1 - δ) * (1 + a) = (1 - a) * (1 - δ) := by rw [← hzm]; ring
        _ ≤ -x1.toK := bg
        _ = X * x2.toK := hXm.symm
        _ ≤ X * (1 + a) := mul_le_mul_of_nonneg_left cl hX0.le
    exact le_of_mul_le_mul_right h (by linarith)
  have hzJ : (2 : ℝ) ^ (-(J : ℤ)) * (1 / 2) ≤ z := by nlinarith only [hzm, hz0, h2, hJ0]
  have eJ : (2 : ℝ) ^ (-((J + 2 : ℕ) : ℤ)) = 2 ^ (-(J : ℤ)) * (1 / 2) * (1 / 2) := by
    rw [show (-((J + 2 : ℕ) : ℤ)) = -(J : ℤ) + -2 by push_cast; ring, zpow_add₀ (by norm_num)]
    norm_num; ring
  have eJ3 : (2 : ℝ) ^ (-((J + 3 : ℕ) : ℤ)) = 2 ^ (-((J + 2 : ℕ) : ℤ)) * (1 / 2) := by
    rw [show (-((J + 3 : ℕ) : ℤ)) = -((J + 2 : ℕ) : ℤ) + -1 by push_cast; ring, zpow_add₀ (by norm_num)]
    norm_num
  have hXJ : (2 : ℝ) ^ (-((J + 2 : ℕ) : ℤ)) ≤ X := by
    rw [eJ]
    nlinarith only [hXl, hzJ, hd0, hd1, hz0]
  have hX1 : X ≤ 1 := by nlinarith only [hXu, hz17, hd1, hX0]
  obtain ⟨zn, d1, d2, -⟩ := LoN.step (N := 0) (ℓ := J + 2) (X := X) hd hp s3 (by rw [hX])
    (by rw [pow_zero, hX]; linarith) hXJ (by omega) (by norm_num) (by linarith)
  rw [d1]
  dsimp only
  obtain ⟨A, hA⟩ : ∃ A : ℝ, A = -zn.toK := ⟨_, rfl⟩
  have dl := d2.le
  have dg := d2.ge
  rw [Nat.zero_add, pow_one] at dg
  rw [← hA] at dl dg
  have hA1 : z * (1 - δ) ^ 2 ≤ A := by
    refine le_trans ?_ dg
    rw [sq, ← mul_assoc]
    exact mul_le_mul_of_nonneg_right hXl hd.base.1
  have hA2 : A * (1 - δ) ≤ z := le_trans (mul_le_mul_of_nonneg_right dl hd.base.1) hXu
  have hAJ : (2 : ℝ) ^ (-((J + 3 : ℕ) : ℤ)) ≤ A := by
    rw [eJ3]
    refine le_trans ?_ dg
    exact mul_le_mul hXJ (by linarith) (by norm_num) hX0.le
  have hA0 : 0 < A := lt_of_lt_of_le (by positivity) hAJ
  have hAe : LoN δ P (J + 3) 0 A zn := LoN.exact d2.wf d2.len hA.symm hAJ
  have hAz : A ≤ z * (1 + 1 / 2 ^ 10) := by nlinarith only [hA2, hd1, hA0, hz0]
  have hA16 : A ≤ 1 / 16 := by linarith only [hAz, hz17]
  have hAA : A * A ≤ 1 / 16 := by nlinarith only [hA0, hA16]
  obtain ⟨xs, e1, e2⟩ := hAe.sq hd hp (by omega) (by norm_num) (le_trans hAA (by norm_num))
  obtain ⟨xf, f1, f2⟩ := hAe.mul hd hp e2 (by omega) (by norm_num) (by
      have : A * (A * A) ≤ 1 * 1 := mul_le_mul (by linarith only [hA16]) (by linarith only [hAA]) (by positivity) (by norm_num)
      exact le_trans this (by norm_num))
  rw [e1]; dsimp only
  rw [f1]; dsimp only
  -- the size of the square
  have hAn : A * 2 ^ n ≤ 351 / 1000 := by
    have : A * 2 ^ n ≤ z * (1 + 1 / 2 ^ 10) * 2 ^ n := mul_le_mul_of_nonneg_right hAz (by positivity)
    have h3 : 2 * z * 2 ^ n ≤ 7 / 10 := le_trans (mul_le_mul_of_nonneg_right hzl (by positivity)) hL
    linarith only [this, h3]
  have hAn2 : A * A * 4 ^ n ≤ 124 / 1000 := by
    rw [show (4 : ℝ) ^ n = 2 ^ n * 2 ^ n by rw [← mul_pow]; norm_num, show A * A * (2 ^ n * 2 ^ n) = A * 2 ^ n * (A * 2 ^ n) by ring]
    have h0 : 0 ≤ A * 2 ^ n := by positivity
    generalize A * 2 ^ n = q at hAn h0
    nlinarith only [hAn, h0]
  have hPn : (P : ℝ) ≤ 4 * 4 ^ n := by
    have : (P : ℝ) ≤ 4 ^ (n + 1) := by exact_mod_cast hnP
    rw [pow_succ] at this; linarith
  have hAA0 : 0 < A * A := by positivity
  have hXP : 2 * (A * A) * P ≤ 1 := by
    have := mul_le_mul_of_nonneg_left hPn hAA0.le
    linarith
  have h64 : (64 : ℝ) ≤ 4 ^ n := by
    calc (64 : ℝ) = 4 ^ 3 := by norm_num
      _ ≤ 4 ^ n := pow_le_pow_right₀ (by norm_num) hn3
  have hX256 : A * A < 1 / 256 := by
    have := mul_le_mul_of_nonneg_left h64 hAA0.le
    linarith
  obtain ⟨v, N, v1, v2, v3, v4, v5⟩ := seriesRun_atanh (niter := ni) hd hp hAe (f2.mono hd (by norm_num) le_rfl) e2 hg
    (by linarith) hX256 hXP hni (by omega) (by
      have : (J + 3 + (J + 3)) * (4 * ni) ≤ (J + 3 + (J + 3)) * (4 * 1100) := Nat.mul_le_mul_left _ (by omega)
      omega)
  rw [v1]; dsimp only
  have ser := atanh2_series hA0 hAA N
  have cmb := atanh2_combine hd hz0 hz17 hA1 hA2 ser.1 (by
    have := ser.2
    rw [← mul_assoc] at this ⊢
    exact this) v5 v4.le v4.ge
  rw [hatz] at cmb
  -- the exponent
  have hve := v4.exp hd (by omega) (by norm_num)
  have hvz := v4.nz hd
  have hlo : (2 : ℝ) ^ (-(2 ^ 19 : ℤ)) ≤ -v.toK := by
    refine le_trans ?_ v4.ge
    have q := hd.pow (N := 4) (by norm_num)
    refine le_trans ?_ (mul_le_mul_of_nonneg_left q v4.Xpos.le)
    have := v4.lb
    have h5 : (2 : ℝ) ^ (-(2 ^ 19 : ℤ)) ≤ 2 ^ (-((J + 3 : ℕ) : ℤ)) * (1 / 2) := by
      rw [show (1 / 2 : ℝ) = 2 ^ (-1 : ℤ) by norm_num, ← zpow_add₀ (by norm_num)]
      exact zpow_le_zpow_right₀ (by norm_num) (by push_cast; omega)
    linarith
  have hup : -(v.toK : ℝ) ≤ 2 ^ (0 : ℤ) := by
    rw [zpow_zero]
    have : -Real.log a * (1 + 11 / 10 * δ) ≤ 7 / 80 * 2 :=
      mul_le_mul (by linarith only [hl8]) (by linarith only [hd1]) (by linarith only [hd0]) (by norm_num)
    linarith only [this, cmb.2]
  have k1 := (zpow_lt_zpow_iff_right₀ (by norm_num : (1 : ℝ) < 2)).1 (lt_of_le_of_lt hlo hve.2)
  have k2 := (zpow_le_zpow_iff_right₀ (by norm_num : (1 : ℝ) < 2)).1 (le_trans hve.1 hup)
  have hE1 : EMIN = -2 ^ 31 := rfl
  have hE2 : EMAX = 2 ^ 31 - 1 := rfl
  obtain ⟨w1, w2, w3, w4, -⟩ := setExponent_normal (e := v.e + ((n + 1 : ℕ) : ℤ)) v4.wf hvz (by omega) (by omega) (by omega)
  refine ⟨_, rfl, w1, by rw [w3]; exact v4.len, by rw [w4]; exact v2, ?_, ?_⟩
  · rw [w2, show v.e + ((n + 1 : ℕ) : ℤ) - v.e = ((n + 1 : ℕ) : ℤ) by ring, zpow_natCast, pow_succ]
    have := mul_le_mul_of_nonneg_right cmb.1 (show (0 : ℝ) ≤ 2 ^ n by positivity)
    linarith
  · rw [w2, show v.e + ((n + 1 : ℕ) : ℤ) - v.e = ((n + 1 : ℕ) : ℤ) by ring, zpow_natCast, pow_succ]
    have := mul_le_mul_of_nonneg_right cmb.2 (show (0 : ℝ) ≤ 2 ^ n by positivity)
    linarith

/-- `ln_series` of a number in `[1/2, 1)`. -/
theorem lnSeries_spec (hP1 : 192 ≤ P) (hP2 : P ≤ 2 ^ 17) {x : Num} (hx : x.WF) (hl : 64 * x.m.m.length = P) {j : Nat}
    (hj : j ≤ P) (h1 : 1 / 2 ≤ (x.toK : ℝ)) (h2 : (x.toK : ℝ) ≤ 1 - 2 ^ (-(j : ℤ))) :
    ∃ r, x.lnSeries = .ok r ∧ r.WF ∧ 64 * r.m.m.length = P ∧ r.inexact = true ∧
      -Real.log x.toK - (15 / 2 * -Real.log x.toK + 1 / 2 ^ 8) * 2 ^ (1 - (P : ℤ)) ≤ -r.toK ∧
      -(r.toK : ℝ) ≤ -Real.log x.toK + 11 / 10 * -Real.log x.toK * 2 ^ (1 - (P : ℤ)) := by
  have hPm : P < PMAX := by unfold PMAX; omega
  have hrP : roundP P = P := by rw [← hl]; unfold roundP USIZE_MAX; omega
  obtain ⟨δ, hδ⟩ : ∃ δ : ℝ, δ = 2 ^ (1 - (P : ℤ)) := ⟨_, rfl⟩
  rw [← hδ]
  have hd : DOk δ := by
    refine ⟨by rw [hδ]; positivity, ?_⟩
    rw [hδ, show (1 / 2 ^ 100 : ℝ) = 2 ^ (-100 : ℤ) by norm_num]
    exact zpow_le_zpow_right₀ (by norm_num) (by omega)
  have hp : PrecOk δ P P := ⟨by omega, hrP, hPm, by rw [hδ]⟩
  have m1 : x.m.maxBitLen = P := by unfold Mantissa.maxBitLen; omega
  obtain ⟨g, g1, g2, g3⟩ := atanhGenNew_spec hp hPm
  obtain ⟨n, ni, m, c1, c2, c3, c4, c5, c6, c7⟩ := lnCost_spec hP1 hP2 ⟨x.m.m.length, hl.symm⟩
  unfold Num.lnSeries
  dsimp only
  rw [m1, g1]
  dsimp only
  rw [g3, c1]
  dsimp only
  rw [if_neg (by omega : ¬ m < 3)]
  obtain ⟨q, hq, hq1, hq2⟩ : ∃ q, q = P + (if (7 - (m : ℤ)) > 0 then (7 - (m : ℤ)).toNat else 5) ∧ P < q ∧ q ≤ P + 64 := by
    refine ⟨_, rfl, ?_, ?_⟩ <;> split <;> omega
  rw [← hq]
  obtain ⟨y, y1, y2, y3, y4, -⟩ := setPrecision_extendN hx (p := q) (by omega) (by unfold PMAX; omega)
    (by unfold wordLen; omega)
  rw [y1]
  dsimp only
  rw [if_pos (by omega : n > 0)]
  have yl : 64 * y.m.m.length = P + 64 := by rw [y3]; unfold wordLen; omega
  rw [← y4] at h1 h2
  obtain ⟨arg, a1, a2, a3, a4, a5, a6, a7⟩ := lnArgReduce_spec (Q := P + 64) (by unfold PMAX; omega) n j y2 yl (by omega) h1 h2
  rw [a1]
  dsimp only
  have hl2 : -Real.log y.toK ≤ 7 / 10 := by
    have := Real.log_le_log (by norm_num) h1
    rw [one_div, Real.log_inv] at this
    have := Real.log_two_lt_d9
    linarith
  have hl0 : 0 ≤ -Real.log y.toK := by
    have : (0 : ℝ) < 2 ^ (-(j : ℤ)) := by positivity
    have := Real.log_nonpos (by linarith) (show (y.toK : ℝ) ≤ 1 by linarith)
    linarith
  obtain ⟨r, r1, r2, r3, r4, r5, r6⟩ := lnSeriesArg_spec (n := n) hd hp hP1 hP2 a2 (J := j + n) (by omega) a4 a5 c2 c3 c4
    (by linarith) c6 c7 g2
  refine ⟨r, r1, r2, r3, r4, ?_, ?_⟩
  · rw [← y4]
    refine le_trans ?_ r5
    have hd0 := hd.nonneg
    have hd1 : δ ≤ 1 / 2 ^ 20 := le_trans hd.small (by norm_num)
    have e1 : (2 : ℝ) ^ (1 - ((P + 64 : ℕ) : ℤ)) = δ * (1 / 2 ^ 64) := by
      rw [hδ, show (1 / 2 ^ 64 : ℝ) = 2 ^ (-64 : ℤ) by norm_num, ← zpow_add₀ (by norm_num)]
      congr 1; push_cast; ring
    rw [e1] at a7
    have e2 : (2 : ℝ) ^ n ≤ 2 ^ 55 := pow_le_pow_right₀ (by norm_num) c2
    have e3 : ((2 : ℝ) ^ n * 2 - 2) * (δ * (1 / 2 ^ 64)) ≤ 2 ^ 56 * (δ * (1 / 2 ^ 64)) := by
      refine mul_le_mul_of_nonneg_right ?_ (by positivity)
      norm_num at e2 ⊢
      linarith
    have e4 : (2 : ℝ) ^ 56 * (δ * (1 / 2 ^ 64)) = 1 / 2 ^ 8 * δ := by norm_num; ring
    rw [e4] at e3
    have e5 : -Real.log y.toK - 1 / 2 ^ 8 * δ ≤ -Real.log arg.toK * 2 ^ n := by linarith only [a7, e3]
    refine le_trans ?_ (mul_le_mul_of_nonneg_right e5 (by linarith only [hd1]))
    have : 0 ≤ δ * δ := mul_nonneg hd0 hd0
    nlinarith only [this]
  · rw [← y4]
    refine le_trans r6 ?_
    have e1 : -Real.log arg.toK * 2 ^ n ≤ -Real.log y.toK := by linarith
    have := mul_le_mul_of_nonneg_right e1 (show 0 ≤ 1 + 11 / 10 * δ by linarith [hd.nonneg])
    linarith

end AF
