import Verif.Lemmas.PowLoop
/-!
# Rounding of an approximation from either side
-/

namespace AF

variable {K : Type*} [Field K] [LinearOrder K] [IsStrictOrderedRing K]
set_option linter.unusedSectionVars false

/-- What an accepted result `v` of a conversion is, for the exact value `y`. -/
structure DecOk (rm : RM) (P : Nat) (y : K) (v : Num) : Prop where
  wf : v.WF
  len : 64 * v.m.m.length = P
  pos : 0 < y → v.s = .pos
  neg : y < 0 → v.s = .neg
  exact : v.inexact = false → v.toK = y
  flag : rm.directed = true → v.inexact = true → v.toK ≠ y
  directed : rm.directed = true → RoundsFmt rm P y v.toK
  nearest : rm.nearest = true → |v.toK - y| ≤ |y| * (2 ^ (-(P : ℤ)) * (1 + 2 ^ (-60 : ℤ)))
  none : rm = .none → |v.toK - y| ≤ |y| * (2 ^ (1 - (P : ℤ)) * (1 + 2 ^ (-60 : ℤ)))

/-- Truncation changes the value by less than one unit. -/
theorem RoundsPrec.none_abs {P : Nat} {A r : K} (h : RoundsPrec .none P A r) : |r - A| ≤ |A| * 2 ^ (1 - (P : ℤ)) := by
  obtain ⟨h1, h2, h3⟩ := h.none_rel
  have h4 : |r - A| = |A| - |r| := by
    rcases le_total 0 A with hA | hA
    · rcases hA.eq_or_lt with h0 | h0
      · rw [← h0, abs_zero] at h1
        have : r = 0 := abs_eq_zero.1 (le_antisymm h1 (abs_nonneg _))
        rw [← h0, this]; simp
      · have hr : 0 ≤ r := by
          by_contra hc
          push Not at hc
          nlinarith
        rw [abs_of_nonneg hA, abs_of_nonneg hr] at *
        rw [abs_of_nonpos (by linarith)]; ring
    · rcases hA.eq_or_lt with h0 | h0
      · rw [h0, abs_zero] at h1
        have : r = 0 := abs_eq_zero.1 (le_antisymm h1 (abs_nonneg _))
        rw [h0, this]; simp
      · have hr : r ≤ 0 := by
          by_contra hc
          push Not at hc
          nlinarith
        rw [abs_of_nonpos hA, abs_of_nonpos hr] at *
        rw [abs_of_nonneg (by linarith)]; ring
  rw [h4]; linarith

/-- An approximation `t` of `y` within `2^-w`, rounded by `try_set_precision(.., w)` to the words of `p < w`. -/
theorem tryPrec_apx [Archimedean K] {t : Num} (ht : t.WF) {y c : K} (hy : (2 : K) ^ (EMIN - 1) ≤ |y|)
    (htlo : (2 : K) ^ (EMIN - 1) ≤ |(t.toK : K)|) (hc : t.toK = y * c)
    {w : Nat} (c2 : |c - 1| ≤ 2 ^ (-(w : ℤ) - 2)) (he : t.inexact = false → t.toK = y)
    {pw : Nat} (hp : 0 < pw) (hpm : 64 * pw < PMAX) (hpw : 64 * pw + 64 ≤ w) (hw : 64 ∣ w)
    (hwl : w ≤ 64 * t.m.m.length) {rm : RM} {v : Num} (h : t.trySetPrecision (64 * pw) rm w = .ok (true, v)) :
    DecOk rm (64 * pw) y v ∧ (t.inexact = true → v.inexact = true) := by
  have hy0 : y ≠ 0 := by
    intro h; rw [h, abs_zero] at hy
    exact absurd hy (not_le.2 (by positivity))
  have hya : 0 < |y| := abs_pos.2 hy0
  obtain ⟨c3, c4⟩ := abs_le.1 c2
  have hε : (2 : K) ^ (-(w : ℤ) - 2) ≤ 1 / 4 := by
    rw [show (1 / 4 : K) = 2 ^ (-2 : ℤ) by norm_num]
    exact zpow_le_zpow_right₀ (by norm_num) (by omega)
  have hc0 : 0 < c := by linarith
  have htabs : |(t.toK : K)| = |y| * c := by rw [hc, abs_mul, abs_of_pos hc0]
  have hpos : 0 < y → t.s = .pos := fun h => toK_sign_pos (K := K) (by rw [hc]; exact mul_pos h hc0)
  have hneg : y < 0 → t.s = .neg := fun h => toK_sign_neg (K := K) (by rw [hc]; exact mul_neg_of_neg_of_pos h hc0)
  have hdist : |y - t.toK| ≤ |y| * 2 ^ (-(w : ℤ) - 2) := by
    rw [hc, show y - y * c = -(y * (c - 1)) by ring, abs_neg, abs_mul]
    exact mul_le_mul_of_nonneg_left c2 (abs_nonneg _)
  have h2y : |y| ≤ 2 * |(t.toK : K)| := by rw [htabs]; nlinarith
  have hsplit : (2 : K) ^ (-(w : ℤ)) = 4 * 2 ^ (-(w : ℤ) - 2) := by
    rw [show (4 : K) = 2 ^ (2 : ℤ) by norm_num, ← zpow_add₀ (by norm_num)]; congr 1; ring
  have hlim : ∀ y' : K, |y' - y| ≤ |y| * 2 ^ (-(w : ℤ) - 2) → |y' - t.toK| < 2 ^ (t.e - (w : ℤ)) := by
    intro y' hy'
    have h1 := ht.abs_lt_zpow (K := K)
    have h4 : |y' - t.toK| ≤ |y' - y| + |y - t.toK| := by
      have := abs_add_le (y' - y) (y - t.toK); simpa using this
    rw [show t.e - (w : ℤ) = t.e + -(w : ℤ) by ring, zpow_add₀ (by norm_num), hsplit]
    set d : K := 2 ^ (-(w : ℤ) - 2) with hd'
    have hd0 : 0 < d := by positivity
    have h5 : |y| * d ≤ 2 * |(t.toK : K)| * d := mul_le_mul_of_nonneg_right h2y hd0.le
    have h6 : |(t.toK : K)| * d < 2 ^ t.e * d := mul_lt_mul_of_pos_right h1 hd0
    linarith
  have hdist' : |y - t.toK| < 2 ^ (t.e - (w : ℤ)) := hlim y (by rw [sub_self, abs_zero]; positivity)
  by_cases hd : t.inexact = true ∧ rm.directed = true
  · obtain ⟨hi, hdir⟩ := hd
    have hrn : rm ≠ .none := by intro h; rw [h] at hdir; cases hdir
    have hnear : rm.nearest = true → w = 64 * t.m.m.length := by
      intro h; cases rm <;> simp_all [RM.nearest, RM.directed]
    obtain ⟨b, d1, d2, d3, d4, d5⟩ := tryPrec_accept (K := K) ht hi (by omega) (by omega) hwl hw hrn hnear h
    have hR := roundable_spec (K := K) ht (by omega) (by omega) hwl hnear b hdist'
    rw [← d5] at hR
    refine ⟨?_, fun _ => d4⟩
    refine ⟨d1, by rw [d2, wordLen_mul], fun h => by rw [d3, hpos h], fun h => by rw [d3, hneg h],
      (by intro h; rw [d4] at h; cases h), fun _ _ hvy => ?_, fun _ => hR, fun hn => ?_, fun hn => absurd hn hrn⟩
    · have hball : ∀ y' : K, |y' - y| ≤ |y| * 2 ^ (-(w : ℤ) - 2) → RoundsFmt rm (64 * pw) y' v.toK := by
        intro y' hy'
        rw [d5]
        exact roundable_spec (K := K) ht (by omega) (by omega) hwl hnear b (hlim y' hy')
      set d : K := 2 ^ (-(w : ℤ) - 2) with hd'
      have hd0 : 0 < d := by positivity
      have hd1 : d < 1 := by linarith
      have hyd : 0 < |y| * d := by positivity
      have b1 := (hball (y + |y| * d) (by rw [add_sub_cancel_left, abs_of_pos hyd])).rounds
      have b2 := (hball (y - |y| * d) (by rw [sub_sub_cancel_left, abs_neg, abs_of_pos hyd])).rounds
      have b3 := (hball (y * (1 + d)) (by
        rw [show y * (1 + d) - y = y * d by ring, abs_mul, abs_of_pos hd0])).rounds
      have b4 := (hball (y * (1 - d)) (by
        rw [show y * (1 - d) - y = -(y * d) by ring, abs_neg, abs_mul, abs_of_pos hd0])).rounds
      rw [hvy] at b1 b2 b3 b4
      obtain ⟨u1, _, k1, _, b1⟩ := b1
      obtain ⟨u2, _, k2, _, b2⟩ := b2
      obtain ⟨u3, _, k3, _, b3⟩ := b3
      obtain ⟨u4, _, k4, _, b4⟩ := b4
      cases rm with
      | up => have := b1.1; linarith
      | down => have := b2.1; linarith
      | fromZero =>
        have := b3.1
        rw [abs_mul, abs_of_pos (show 0 < 1 + d by linarith)] at this
        nlinarith
      | toZero =>
        have := b4.1
        rw [abs_mul, abs_of_pos (show 0 < 1 - d by linarith)] at this
        nlinarith
      | none => cases hdir
      | toEven => cases hdir
      | toOdd => cases hdir
    · cases rm <;> simp_all [RM.nearest, RM.directed]
  · have hc' : t.inexact = false ∨ rm = .none ∨ rm = .toEven ∨ rm = .toOdd := by
      cases hi : t.inexact with
      | false => exact Or.inl rfl
      | true =>
        right
        rw [hi] at hd
        cases rm <;> simp_all [RM.directed]
    obtain ⟨_, hS⟩ := tryPrec_eq_setPrec (by omega) (by omega) hwl (by omega) hc' h (Or.inr (Or.inr rfl))
    have hD := setPrecision_delivers (K := K) ht hp hpm rm
    rw [hS] at hD
    have hN := hD.normal htlo
    obtain ⟨g1, g2, g3, g4, g5, g6⟩ := hD
    have hfmt : t.inexact = false → RoundsFmt rm (64 * pw) y v.toK := by
      intro hi
      rw [he hi] at g6
      rcases g6 with g6 | ⟨_, g6, _⟩
      · exact g6
      · exact absurd hy (not_le.2 g6)
    have hw1 : (2 : K) ^ (-(w : ℤ) - 2) ≤ 2 ^ (-((64 * pw : ℕ) : ℤ) - 64) :=
      zpow_le_zpow_right₀ (by norm_num) (by push_cast; omega)
    refine ⟨?_, fun h => g5.2 (Or.inl h)⟩
    refine ⟨g1, g2, fun h => ?_, fun h => ?_, fun h => ?_, fun hdir h => ?_, fun hdir => ?_, fun hn => ?_, fun hn => ?_⟩
    · exact g3 (by rw [hc]; exact mul_pos h hc0)
    · exact g4 (by rw [hc]; exact mul_neg_of_neg_of_pos h hc0)
    · rw [h] at g5
      simp only [Bool.false_eq_true, false_iff, not_or, not_not] at g5
      rw [g5.2, he (by simpa using g5.1)]
    · have hi : t.inexact = false := by
        cases hi : t.inexact with
        | false => rfl
        | true => exact absurd ⟨hi, hdir⟩ hd
      rw [hi, he hi] at g5
      simpa using g5.1 h
    · apply hfmt
      cases hi : t.inexact with
      | false => rfl
      | true => exact absurd ⟨hi, hdir⟩ hd
    · have h1 := hN.nearest_rel hn
      rw [htabs] at h1
      set e : K := 2 ^ (-((64 * pw : ℕ) : ℤ)) with hee
      have he0 : 0 < e := by positivity
      have he1 : e ≤ 1 := zpow_le_one_of_nonpos₀ (by norm_num) (by push_cast; omega)
      have h2 : (2 : K) ^ (-(w : ℤ) - 2) ≤ e * 2 ^ (-64 : ℤ) := by
        rw [hee, ← zpow_add₀ (by norm_num)]; exact hw1
      have h3 : |v.toK - y| ≤ |v.toK - t.toK| + |y - t.toK| := by
        have := abs_add_le (v.toK - t.toK : K) (t.toK - y)
        rw [abs_sub_comm (t.toK) y] at this
        simpa using this
      have h4 : |y| * c * e ≤ |y| * (e * (1 + e * 2 ^ (-64 : ℤ))) := by
        rw [mul_assoc]
        refine mul_le_mul_of_nonneg_left ?_ hya.le
        rw [mul_comm]
        exact mul_le_mul_of_nonneg_left (by linarith) he0.le
      have h5 : |y| * (2 : K) ^ (-(w : ℤ) - 2) ≤ |y| * (e * 2 ^ (-64 : ℤ)) :=
        mul_le_mul_of_nonneg_left h2 hya.le
      have h6 : e * (1 + e * (2 : K) ^ (-64 : ℤ)) + e * 2 ^ (-64 : ℤ) ≤ e * (1 + 2 ^ (-60 : ℤ)) := by
        rw [← mul_add]
        refine mul_le_mul_of_nonneg_left ?_ he0.le
        have : e * (2 : K) ^ (-64 : ℤ) ≤ 2 ^ (-64 : ℤ) := mul_le_of_le_one_left (by positivity) he1
        have h7 : (2 : K) ^ (-64 : ℤ) + 2 ^ (-64 : ℤ) ≤ 2 ^ (-60 : ℤ) := by norm_num
        linarith
      have h8 := mul_le_mul_of_nonneg_left h6 hya.le
      rw [mul_add] at h8
      linarith
    · subst hn
      have h1 := hN.none_abs
      rw [htabs] at h1
      set e : K := 2 ^ (1 - ((64 * pw : ℕ) : ℤ)) with hee
      have he0 : 0 < e := by positivity
      have he1 : e ≤ 1 := zpow_le_one_of_nonpos₀ (by norm_num) (by push_cast; omega)
      have h2 : (2 : K) ^ (-(w : ℤ) - 2) ≤ e * 2 ^ (-64 : ℤ) := by
        rw [hee, ← zpow_add₀ (by norm_num)]
        exact zpow_le_zpow_right₀ (by norm_num) (by push_cast; omega)
      have h3 : |v.toK - y| ≤ |v.toK - t.toK| + |y - t.toK| := by
        have := abs_add_le (v.toK - t.toK : K) (t.toK - y)
        rw [abs_sub_comm (t.toK) y] at this
        simpa using this
      have h4 : |y| * c * e ≤ |y| * (e * (1 + e * 2 ^ (-64 : ℤ))) := by
        rw [mul_assoc]
        refine mul_le_mul_of_nonneg_left ?_ hya.le
        rw [mul_comm]
        exact mul_le_mul_of_nonneg_left (by linarith) he0.le
      have h5 : |y| * (2 : K) ^ (-(w : ℤ) - 2) ≤ |y| * (e * 2 ^ (-64 : ℤ)) :=
        mul_le_mul_of_nonneg_left h2 hya.le
      have h6 : e * (1 + e * (2 : K) ^ (-64 : ℤ)) + e * 2 ^ (-64 : ℤ) ≤ e * (1 + 2 ^ (-60 : ℤ)) := by
        rw [← mul_add]
        refine mul_le_mul_of_nonneg_left ?_ he0.le
        have : e * (2 : K) ^ (-64 : ℤ) ≤ 2 ^ (-64 : ℤ) := mul_le_of_le_one_left (by positivity) he1
        have h7 : (2 : K) ^ (-64 : ℤ) + 2 ^ (-64 : ℤ) ≤ 2 ^ (-60 : ℤ) := by norm_num
        linarith
      have h8 := mul_le_mul_of_nonneg_left h6 hya.le
      rw [mul_add] at h8
      linarith

end AF
