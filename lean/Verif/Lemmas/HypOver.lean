import Verif.Lemmas.Tanh
/-!
# Hyperbolic functions when the exponential overflows
-/

namespace AF

open Num

/-- `exp` at large precisions. -/
theorem exp_over_prec {y : Num} (hy : y.WF) (hz : y.isZero = false) (hs : y.s = .pos) (he : y.e ≤ 64)
    (h1 : 1 ≤ |(y.toK : ℝ)|) {p : Nat} (hp : 2 ^ 32 ≤ p)
    (hw : max (precBits p) (64 * y.m.m.length) + 128 < PMAX) (rm : RM)
    {c : ConstCache (Num × Num)} (hc : CacheOk ERep EValOk c) (f : Nat) :
    ∃ c', y.exp p rm (f + 1) c = some (.error (.exponentOverflow .pos), c', max (precBits p) (64 * y.m.m.length) + 64) ∧
      CacheOk ERep EValOk c' := by
  have hPM : PMAX = 2 ^ 62 - 2 ^ 31 - 1 := rfl
  have hye : 0 < y.e := hy.e_of_abs (k := 0) (by rw [zpow_zero]; exact h1)
  have hneg : y.isNegative = false := by unfold Num.isNegative; rw [hs]; rfl
  have hns : ¬ ((max (precBits p) (64 * y.m.m.length) : ℕ) : ℤ) + 1 < -y.e := by omega
  have hpv : ValidP p := ⟨by omega, by unfold precBits at hw ⊢; omega⟩
  obtain ⟨c', c1, c2⟩ := expPositive_prec hy hz he h1 (w := max (precBits p) (64 * y.m.m.length) + 64) (by unfold precBits; omega)
    (by unfold precBits; omega) (by omega) hc
  have := exp_of_over hz hpv hns rm c1 f
  rw [hneg] at this
  exact ⟨c', this, c2⟩

theorem extend_any {y : Num} (hy : y.WF) (hz : y.isZero = false) {w : Nat} (hd : 64 ∣ w)
    (h1 : w + 4 < PMAX) (hl : 64 * y.m.m.length ≤ w) :
    ∃ v, y.setPrecision (w + 4) .none = .ok v ∧ v.WF ∧ v.isZero = false ∧ |(v.toK : ℝ)| = |(y.toK : ℝ)| ∧
      64 * v.m.m.length = w + 64 ∧ v.s = y.s := by
  obtain ⟨v, v1, v2, v3, v4, v5⟩ := setPrecision_extend hy (p := w + 4) (by omega) h1 (by omega) .none
  refine ⟨v, v1, v2, ?_, by rw [v4], ?_, v5⟩
  · rw [← Bool.not_eq_true, ← v2.toK_eq_zero (K := ℝ), v4, hy.toK_eq_zero (K := ℝ), hz]; simp
  · rw [v3]; unfold wordLen; omega

/-- The exponential overflows for every number of the magnitude of `x` and the length `W + 64`. -/
def ExpOver (x : Num) (W f : Nat) (c : ConstCache (Num × Num)) : Prop :=
  ∀ y : Num, y.WF → y.isZero = false → y.s = .pos → |(y.toK : ℝ)| = |(x.toK : ℝ)| → 64 * y.m.m.length = W + 64 →
    ∃ c' k, y.exp (W + 4) .none (f + 1) c = some (.error (.exponentOverflow .pos), c', k) ∧ CacheOk ERep EValOk c'

theorem cosh_over {x : Num} (hx : x.WF) (hz : x.isZero = false) (he : 0 < x.e) {p : Nat} (hp : ValidP p) (rm : RM) {W f : Nat}
    {c : ConstCache (Num × Num)} (hW : W = max (precBits p) (64 * x.m.m.length) + 64) (hWm : W + 4 < PMAX)
    (h : ExpOver x W f c) :
    ∃ c', x.cosh p rm (f + 1) c = some (.error (.exponentOverflow .pos), c', W) ∧ CacheOk ERep EValOk c' := by
  have hp0 := hp.pos
  have hmb : x.m.maxBitLen = 64 * x.m.m.length := by unfold Mantissa.maxBitLen; omega
  have hd : 64 ∣ W := by rw [hW]; unfold precBits; omega
  obtain ⟨v, v1, v2, v3, v4, v5, v6⟩ := extend_any (y := { x with inexact := false })
    ⟨hx.wf, hx.bits, hx.emin, hx.emax, hx.norm, hx.sized⟩ hz hd hWm (by dsimp only; omega)
  have e0 : (({ x with inexact := false } : Num).toK : ℝ) = x.toK := rfl
  rw [e0] at v4
  obtain ⟨c', k, c1, c2⟩ := h (v.setSign .pos) ⟨v2.wf, v2.bits, v2.emin, v2.emax, v2.norm, v2.sized⟩ v3 rfl
    (by rw [setSign_toK, v4]; simp [Sign.toK]) v5
  refine ⟨c', ?_, c2⟩
  unfold Num.cosh
  rw [hp.roundP, hmb]
  dsimp only
  rw [if_neg (by simp [hz]), if_neg (by omega), ← hW, roundLoop]
  have hst : coshStep (f + 1) W ({ x with inexact := false }, c) =
      some (.ret (.error (.exponentOverflow .pos)), (v.setSign .pos, c')) := by
    unfold coshStep
    dsimp only
    rw [v1]
    dsimp only
    unfold coshSum
    rw [c1]
  rw [hst]

theorem sinh_over {x : Num} (hx : x.WF) (hz : x.isZero = false) (he : 1 ≤ |(x.toK : ℝ)|) {p : Nat} (hp : ValidP p) (rm : RM) {W f : Nat}
    {c : ConstCache (Num × Num)} (hW : W = max (precBits p) (64 * x.m.m.length) + 64) (hWm : W + 4 < PMAX)
    (h : ExpOver x W f c) :
    ∃ c', x.sinh p rm (f + 1) c = some (.error (.exponentOverflow x.s), c', W) ∧ CacheOk ERep EValOk c' := by
  have hp0 := hp.pos
  have hxe : 0 < x.e := hx.e_of_abs (k := 0) (by rw [zpow_zero]; exact he)
  have hmb : x.m.maxBitLen = 64 * x.m.m.length := by unfold Mantissa.maxBitLen; omega
  have hd : 64 ∣ W := by rw [hW]; unfold precBits; omega
  obtain ⟨v, v1, v2, v3, v4, v5, v6⟩ := extend_any (y := ({ x with inexact := false } : Num).setSign .pos)
    ⟨hx.wf, hx.bits, hx.emin, hx.emax, hx.norm, hx.sized⟩ hz hd hWm (by have : (({ x with inexact := false } : Num).setSign .pos).m = x.m := rfl
                                                                        rw [this]; omega)
  have e0 : |((({ x with inexact := false } : Num).setSign .pos).toK : ℝ)| = |(x.toK : ℝ)| := by
    rw [setSign_toK]
    have e0 : (({ x with inexact := false } : Num).toK : ℝ) = x.toK := rfl
    rw [e0]; simp [Sign.toK]
  rw [e0] at v4
  have hve : 0 < v.e := v2.e_of_abs (k := 0) (by rw [zpow_zero, v4]; exact he)
  obtain ⟨c', k, c1, c2⟩ := h v v2 v3 (by rw [v6]; rfl) v4 v5
  refine ⟨c', ?_, c2⟩
  unfold Num.sinh
  rw [hp.roundP, hmb]
  dsimp only
  rw [if_neg (by simp [hz]), if_neg (by omega), ← hW, roundLoop]
  have hst : sinhStep x.s ((max x.e.natAbs 1 - 1) * 2) (f + 1) W (({ x with inexact := false } : Num).setSign .pos, c) =
      some (.ret (.error (.exponentOverflow x.s)), (v, c')) := by
    unfold sinhStep
    dsimp only
    rw [v1]
    dsimp only
    rw [if_neg (by omega)]
    unfold sinhDiff
    rw [c1]
    rfl
  rw [hst]

theorem big_abs {t : ℝ} (h : (2 : ℝ) ^ (EMAX + 4) ≤ Real.exp |t|) : 1 ≤ |t| := by
  by_contra hc
  push Not at hc
  have h3 : Real.exp |t| ≤ Real.exp 1 := Real.exp_le_exp.2 hc.le
  have h4 : (2 : ℝ) ^ (2 : ℤ) ≤ 2 ^ (EMAX + 4) := zpow_le_zpow_right₀ (by norm_num) (by unfold EMAX; norm_num)
  have h5 : (2 : ℝ) ^ (2 : ℤ) = 4 := by norm_num
  rw [h5] at h4
  linarith [Real.exp_one_lt_d9]

theorem expOver_big {x : Num} (hbig : (2 : ℝ) ^ (EMAX + 4) ≤ Real.exp |(x.toK : ℝ)|) {W : Nat}
    (hd : 64 ∣ W) (hW : W + 128 ≤ 2 ^ 22) {c : ConstCache (Num × Num)} (hc : CacheOk ERep EValOk c) (f : Nat) : ExpOver x W f c := by
  intro y h1 h2 h3 h4 h5
  have hpb : precBits (W + 4) = W + 64 := by unfold precBits; omega
  obtain ⟨c', c1, c2⟩ := exp_over h1 h2 h3 (p := W + 4) ⟨by omega, by rw [hpb]; omega⟩ (by rw [h4]; exact hbig)
    (by intro _; rw [hpb]; omega) .none hc f
  exact ⟨c', _, c1, c2⟩

theorem expOver_prec {x : Num} (h1 : 1 ≤ |(x.toK : ℝ)|) (h2 : |(x.toK : ℝ)| < 2 ^ (64 : ℤ)) {W : Nat} (hd : 64 ∣ W)
    (hW : 2 ^ 32 ≤ W) (hWm : W + 192 < PMAX) {c : ConstCache (Num × Num)} (hc : CacheOk ERep EValOk c) (f : Nat) : ExpOver x W f c := by
  intro y g1 g2 g3 g4 g5
  have hpb : precBits (W + 4) = W + 64 := by unfold precBits; omega
  have hye : y.e ≤ 64 := by
    obtain ⟨q, q1, -, q3, -⟩ := g1.mag (K := ℝ) g2
    rw [g4] at q1
    have h3 := (zpow_lt_zpow_iff_right₀ (by norm_num : (1 : ℝ) < 2)).1 (lt_of_le_of_lt q1 h2)
    have hE : EMIN = -2 ^ 31 := rfl
    omega
  obtain ⟨c', c1, c2⟩ := exp_over_prec g1 g2 g3 hye (by rw [g4]; exact h1) (p := W + 4) (by omega)
    (by rw [hpb]; omega) .none hc f
  exact ⟨c', _, c1, c2⟩

end AF
