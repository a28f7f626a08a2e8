import Mathlib.Analysis.Complex.ExponentialBounds
import Verif.Lemmas.ConstLn
/-!
# The constant `ln 2`
-/

namespace AF

set_option linter.unusedSectionVars false

theorem ln2Series : SeriesOk ln2Leaf lnMerge (LnRep 1 9) (2 ^ 26) (2 ^ 27) := by
  refine lnSeries (c := 31) (c' := 29) ln2Leaf (by norm_num) (by norm_num) ?_ (by norm_num) (by norm_num) (by norm_num)
    (by norm_num) (by norm_num) (by norm_num)
  intro a ha
  obtain ⟨v, h1, h2⟩ := IsNat.fromWord (d := 1) (by norm_num) (by unfold B; norm_num)
  unfold ln2Leaf
  rw [h1]
  refine ⟨_, rfl, h2, IsNat.fromUsize (by omega) (by unfold B; omega), ?_⟩
  rw [Nat.mul_one]
  exact IsNat.fromUsize (by omega) (by unfold B; omega)

theorem THREE_WF : Num.THREE.WF := Num.WF_of_check (by decide)

theorem THREE_nz : Num.THREE.isZero = false := by decide

theorem THREE_toK : (Num.THREE.toK : ℝ) = 3 := by
  have h : val Num.THREE.m.m = 3 * 2 ^ 126 := by decide
  unfold Num.toK
  rw [h]
  show Sign.toK Sign.pos * ((3 * 2 ^ 126 : ℕ) : ℝ) * (2 : ℝ) ^ ((2 : ℤ) - ((64 * 2 : ℕ) : ℤ)) = 3
  push_cast
  norm_num [Sign.toK]

theorem hasSum_ln2 : HasSum (fun j : ℕ => (((1 : ℕ) : ℝ) / (9 : ℕ)) ^ j / (2 * j + 1)) (3 / 2 * Real.log 2) := by
  have h := hasSum_ln (x := 1 / 3) (X := ((1 : ℕ) : ℝ) / (9 : ℕ)) (A := 3 / 2) (by norm_num) (by norm_num)
    (by norm_num) (by norm_num)
  rw [← Real.log_div (by norm_num) (by norm_num), show (1 + 1 / 3 : ℝ) / (1 - 1 / 3) = 2 by norm_num] at h
  exact h

/-- Adding one to the exponent of a number of moderate size. -/
theorem double_exponent {v : Num} (hv : v.WF) (h1 : (1 / 8 : ℝ) ≤ v.toK) (h2 : (v.toK : ℝ) ≤ 8) :
    (v.setExponent (v.e + 1)).WF ∧ (v.setExponent (v.e + 1)).m = v.m ∧
    (v.setExponent (v.e + 1)).inexact = v.inexact ∧ ((v.setExponent (v.e + 1)).toK : ℝ) = 2 * v.toK := by
  have hz : v.isZero = false := by
    rw [← Bool.not_eq_true, ← hv.toK_eq_zero (K := ℝ)]
    linarith
  obtain ⟨q, q1, q2, q3, q4⟩ := hv.mag (K := ℝ) hz
  rw [abs_of_pos (by linarith)] at q1 q2
  have r1 : q - 1 < 4 := by
    refine (zpow_lt_zpow_iff_right₀ (by norm_num : (1 : ℝ) < 2)).1 (lt_of_le_of_lt (le_trans q1 h2) ?_)
    norm_num
  have r2 : -4 < q := by
    refine (zpow_lt_zpow_iff_right₀ (by norm_num : (1 : ℝ) < 2)).1 (lt_of_le_of_lt (le_trans ?_ h1) q2)
    norm_num
  have he : v.e = q := by rw [← q3]; unfold EMIN; omega
  have hs : v.isSubnormal = false := by
    have := hv.norm
    cases hsub : v.isSubnormal with
    | false => rfl
    | true =>
      exfalso
      unfold Num.isSubnormal Mantissa.isSubnormal at hsub
      simp only [decide_eq_true_eq] at hsub
      have h3 := hv.norm (by have := hsub; unfold Mantissa.maxBitLen at this; omega)
        (by have := hsub; unfold Mantissa.maxBitLen at this; omega)
      rw [he] at h3
      unfold EMIN at h3
      omega
  have hset : v.setExponent (v.e + 1) = { v with e := v.e + 1 } := by
    unfold Num.setExponent
    rw [hz, hs]
    simp
  rw [hset]
  refine ⟨⟨hv.wf, hv.bits, ?_, ?_, ?_, hv.sized⟩, rfl, rfl, ?_⟩
  · show EMIN ≤ v.e + 1
    have := hv.emin; omega
  · show v.e + 1 ≤ EMAX
    rw [he]; unfold EMAX; omega
  · intro g1 g2
    have := hv.norm g1 g2
    rw [he] at this
    unfold EMIN at this
    omega
  · unfold Num.toK
    dsimp only
    rw [show v.e + 1 - ((64 * v.m.m.length : ℕ) : ℤ) = 1 + (v.e - ((64 * v.m.m.length : ℕ) : ℤ)) by ring,
      zpow_one_add₀ (by norm_num)]
    ring

theorem log_two_small : (0.69 : ℝ) ≤ Real.log 2 ∧ Real.log 2 ≤ 0.7 := by
  have h1 := Real.log_two_gt_d9
  have h2 := Real.log_two_lt_d9
  constructor <;> linarith

theorem ln2_value {t : Num × Num × Num} {n : Nat} (h : LnRep 1 9 t 0 n) :
    ∃ v, ln2Calc t = .ok v ∧ LnValOk 1 9 3 (Real.log 2) n v := by
  obtain ⟨hl1, hl2⟩ := log_two_small
  obtain ⟨L, f, v, h1, h2, h3, h4, h5, h6, h7, h8, h9, h10, h11, h12⟩ := ln_quot (by norm_num) (by norm_num)
    (by norm_num) (by norm_num) (fun l _ hl => ⟨fun hd => by have := Nat.le_of_dvd (by norm_num) hd; omega,
      fun hd => by have := Nat.le_of_dvd (by norm_num) hd; omega⟩) hasSum_ln2 (by linarith) h
  unfold ln2Calc
  dsimp only
  rw [h1, h5]
  dsimp only
  rw [h6]
  dsimp only
  have hd := div_spec (K := ℝ) h7 THREE_WF THREE_nz (p := 64 * L) (by omega) (by rw [h3]; exact h4) .none
  rw [THREE_toK, h3] at hd
  obtain ⟨w, k1, k2, k3, k4, k5, k6⟩ := none_step (by norm_num; linarith)
    (show (v.toK : ℝ) / 3 ≤ 2 ^ 64 from le_trans (show (v.toK : ℝ) / 3 ≤ 1 by linarith) (by norm_num)) hd
  rw [k1]
  obtain ⟨δ, hδ⟩ : ∃ δ : ℝ, δ = 2 ^ (1 - ((64 * L : ℕ) : ℤ)) := ⟨_, rfl⟩
  have hδ0 : 0 < δ := by rw [hδ]; positivity
  have hδ1 : δ ≤ 1 / 8 := by
    rw [hδ, show (1 / 8 : ℝ) = 2 ^ (-3 : ℤ) by norm_num]
    exact zpow_le_zpow_right₀ (by norm_num) (by push_cast; omega)
  rw [← hδ] at k5 h9
  obtain ⟨g1, g2, g3, g4⟩ := double_exponent k2 (by nlinarith) (by linarith)
  refine ⟨_, rfl, fun h64 => ⟨g1, ?_, ?_, ?_⟩⟩
  · rw [g3, k6]
    left
    unfold divIx
    have hz : v.isZero = false := by
      rw [← Bool.not_eq_true, ← h7.toK_eq_zero (K := ℝ)]
      linarith
    rw [if_neg (by rw [hz]; simp), h11 h64]; rfl
  · rw [g2, k3]
    have q1 : 2 ^ (3 * n) < 2 ^ (64 * L + 1) := by
      refine lt_of_le_of_lt ?_ h12
      rw [pow_mul]
      exact Nat.pow_le_pow_left (by norm_num) n
    have := (Nat.pow_lt_pow_iff_right (by norm_num : 1 < 2)).1 q1
    omega
  · rw [g2, g4, k3, ← hδ]
    have hS : (0 : ℝ) ≤ (lnP 1 9 0 n : ℝ) / lnQ 9 0 n := by positivity
    obtain ⟨c, c1, c2⟩ := ln_value_bound (A := 2 / 3) (x := 2 * w.toK) (by norm_num) (by norm_num) (by norm_num)
      hasSum_ln2 h64 (by norm_num) hδ0 hδ1 (by
        have e1 : (1 + (lnP 1 9 0 n : ℝ) / lnQ 9 0 n) * (1 - 4 * δ) ≤
            (1 + (lnP 1 9 0 n : ℝ) / lnQ 9 0 n) * (1 - 2 * δ) * (1 - δ) := by
          rw [mul_assoc]
          refine mul_le_mul_of_nonneg_left ?_ (by linarith)
          nlinarith
        have e2 := mul_le_mul_of_nonneg_right h9 (show 0 ≤ 1 - δ by linarith)
        nlinarith) (by linarith)
    exact ⟨c, by rw [c1]; ring, c2⟩

/-! ## The loop -/

/-- The accuracy of the value against the working precision. -/
theorem ln2_error {b w len : Nat} (h1 : w + 8 ≤ 3 * b) (h2 : w + 64 ≤ len) :
    (((1 : ℕ) : ℝ) / (9 : ℕ)) ^ b / 64 + 4 * 2 ^ (1 - (len : ℤ)) ≤ 2 ^ (-(w : ℤ) - 2) := by
  have e1 : (((1 : ℕ) : ℝ) / (9 : ℕ)) ^ b ≤ 2 ^ (-(w : ℤ) - 8) := by
    calc (((1 : ℕ) : ℝ) / (9 : ℕ)) ^ b ≤ (1 / 8) ^ b := pow_le_pow_left₀ (by positivity) (by norm_num) b
      _ = 2 ^ (-((3 * b : ℕ) : ℤ)) := by
        rw [zpow_neg, zpow_natCast, pow_mul, one_div, inv_pow]; norm_num
      _ ≤ 2 ^ (-(w : ℤ) - 8) := zpow_le_zpow_right₀ (by norm_num) (by push_cast; omega)
  have e2 : (2 : ℝ) ^ (1 - (len : ℤ)) ≤ 2 ^ (-(w : ℤ) - 8) := zpow_le_zpow_right₀ (by norm_num) (by omega)
  have e3 : (2 : ℝ) ^ (-(w : ℤ) - 2) = 64 * 2 ^ (-(w : ℤ) - 8) := by
    rw [show (64 : ℝ) = 2 ^ (6 : ℤ) by norm_num, ← zpow_add₀ (by norm_num)]; congr 1; ring
  have e4 : (0 : ℝ) < 2 ^ (-(w : ℤ) - 8) := by positivity
  rw [e3]
  linarith

theorem pow_ge_64 {j : Nat} (h : 32 < 2 ^ j) : 64 ≤ 2 ^ j := by
  by_contra hc
  have h1 : 5 < j := (Nat.pow_lt_pow_iff_right (by norm_num : 1 < 2)).1 (by omega)
  have : 2 ^ 6 ≤ 2 ^ j := Nat.pow_le_pow_right (by norm_num) h1
  omega

theorem log_two_binade : (2 : ℝ) ^ ((0 : ℤ) - 1) ≤ Real.log 2 * (7 / 8) ∧ Real.log 2 * (9 / 8) ≤ (2 : ℝ) ^ (0 : ℤ) := by
  obtain ⟨h1, h2⟩ := log_two_small
  constructor <;> norm_num <;> linarith

/-- The loop invariant for the precision `k`. -/
def Ln2Inv (k i w b : Nat) : Prop := 64 ∣ i ∧ 64 ∣ w ∧ i ≤ w ∧ k + 64 ≤ w ∧ (b ≤ k / 2 + 4 → w = k + 64) ∧
  (k / 2 + 4 < b → w + 8 ≤ 3 * b)

theorem ln2_inv_start {pw j : Nat} (hp : 0 < pw) : Ln2Inv (64 * pw) 64 (64 * pw + 64) (2 ^ j) := by
  refine ⟨by norm_num, by omega, by omega, le_refl _, fun _ => rfl, fun h => ?_⟩
  have := pow_ge_64 (j := j) (by omega)
  omega

theorem roundP_le_add (x : Nat) : roundP x ≤ x + 63 := by unfold roundP; omega

theorem ln2_loop {pw : Nat} (hp : 0 < pw) (hpm : 64 * pw < PMAX) (rm : RM) :
    LoopOk ln2Calc (LnRep 1 9) (fun _ => 64 * pw / 2 + 4) (64 * pw) rm (LnValOk 1 9 3 (Real.log 2))
      (Ln2Inv (64 * pw))
      (fun v => DecOk rm (64 * pw) (Real.log 2) v ∧ v.inexact = true)
      (rm = .none ∨ rm.directed = true ∧ ¬ NearGrid (64 * pw) 63 (Real.log 2)) where
  value := fun h => ln2_value h
  test := by
    rintro i w j v ⟨-, hw, -, hwp, -, hacc⟩ hk hv
    have h64 := pow_ge_64 (j := j) (by omega)
    have ha := hacc hk
    obtain ⟨v1, v2, v3, c, v4, v5⟩ := hv h64
    have hwl : w + 64 ≤ 64 * v.m.m.length := by omega
    exact apx_test v1 v2 (q := 0) (by norm_num) log_two_binade.1 log_two_binade.2 v4
      (le_trans v5 (ln2_error ha hwl)) hp hpm hwp hw (by omega) rm
  fail := by
    rintro i w j j' ⟨hi, hw, hiw, hwp, -, hacc⟩ hk hj
    have ha := hacc hk
    have := roundP_le_add ((w + i) / 5)
    exact ⟨roundP_dvd _, by omega, by omega, by omega, fun h => by omega, fun h => by omega⟩
  grow := by
    rintro i w j j' ⟨hi, hw, hiw, hwp, hlow, hacc⟩ hj hj'
    have hwk := hlow hj
    have h64 := pow_ge_64 (j := j') (by omega)
    exact ⟨hi, hw, hiw, hwp, fun h => by omega, fun h => by omega⟩

theorem ln_new {leaf : Nat → Except Err (Num × Num × Num)} {value : Num × Num × Num → Except Err Num}
    {bmax nmax u s e0 : Nat} {y : ℝ}
    (hser : SeriesOk leaf lnMerge (LnRep u s) bmax nmax) (hb : 1 ≤ bmax)
    (hval : ∀ {t n}, LnRep u s t 0 n → ∃ v, value t = .ok v ∧ LnValOk u s e0 y n v) :
    ∃ c, lnNew leaf value = .ok c ∧ CacheOk (LnRep u s) (LnValOk u s e0 y) c := by
  unfold lnNew
  rcases hser.split 63 0 1 (by norm_num) (by norm_num) (by norm_num) with ⟨t, h1, h2⟩ | ⟨h1, h2⟩
  · rw [Nat.zero_add] at h1
    rw [h1]
    dsimp only
    obtain ⟨v, h3, h4⟩ := hval h2
    rw [h3]
    exact ⟨_, rfl, h2, ⟨0, rfl⟩, h4⟩
  · exact absurd h2 (by omega)

end AF
