import Verif.Lemmas.ConstLn2
/-!
# The constant `ln 10`
-/

namespace AF

set_option linter.unusedSectionVars false

theorem ln10Series : SeriesOk ln10Leaf lnMerge (LnRep 81 121) (2 ^ 25) (2 ^ 26) := by
  refine lnSeries (c := 33) (c' := 32) ln10Leaf (by norm_num) (by norm_num) ?_ (by norm_num) (by norm_num) (by norm_num)
    (by norm_num) (by norm_num) (by norm_num)
  intro a ha
  obtain ⟨v, h1, h2⟩ := IsNat.fromWord (d := 81) (by norm_num) (by unfold B; norm_num)
  unfold ln10Leaf
  rw [h1]
  exact ⟨_, rfl, h2, IsNat.fromUsize (by omega) (by unfold B; omega), IsNat.fromUsize (by omega) (by unfold B; omega)⟩

theorem hasSum_ln10 : HasSum (fun j : ℕ => (((81 : ℕ) : ℝ) / (121 : ℕ)) ^ j / (2 * j + 1)) (11 / 18 * Real.log 10) := by
  have h := hasSum_ln (x := 9 / 11) (X := ((81 : ℕ) : ℝ) / (121 : ℕ)) (A := 11 / 18) (by norm_num) (by norm_num)
    (by norm_num) (by norm_num)
  rw [← Real.log_div (by norm_num) (by norm_num), show (1 + 9 / 11 : ℝ) / (1 - 9 / 11) = 10 by norm_num] at h
  exact h

theorem log_ten_small : (2.3 : ℝ) ≤ Real.log 10 ∧ Real.log 10 ≤ 2.32 := by
  have h1 := Real.log_two_gt_d9
  have h2 := Real.log_two_lt_d9
  have h3 : 3 * Real.log 10 = Real.log 1000 := by
    rw [show (1000 : ℝ) = 10 ^ 3 by norm_num, Real.log_pow]; norm_num
  have h4 : Real.log 1024 = 10 * Real.log 2 := by
    rw [show (1024 : ℝ) = 2 ^ 10 by norm_num, Real.log_pow]; norm_num
  have h5 : Real.log 1000 = Real.log 1024 + Real.log (1000 / 1024) := by
    rw [← Real.log_mul (by norm_num) (by norm_num)]; norm_num
  have h6 := Real.one_sub_inv_le_log_of_pos (x := 1000 / 1024) (by norm_num)
  have h7 := Real.log_le_sub_one_of_pos (x := 1000 / 1024) (by norm_num)
  constructor <;> norm_num at * <;> linarith

theorem ln10_value {t : Num × Num × Num} {n : Nat} (h : LnRep 81 121 t 0 n) :
    ∃ v, ln10Calc t = .ok v ∧ LnValOk 81 121 6 (Real.log 10) n v := by
  obtain ⟨hl1, hl2⟩ := log_ten_small
  obtain ⟨L, f, v, h1, h2, h3, h4, h5, h6, h7, h8, h9, h10, h11, h12⟩ := ln_quot (by norm_num) (by norm_num)
    (by norm_num) (by norm_num) (fun l hp hl => ⟨fun hd => by
        have := Nat.le_of_dvd (by norm_num) (hp.dvd_of_dvd_pow (show l ∣ 3 ^ 4 from hd)); omega,
      fun hd => by
        have := Nat.le_of_dvd (by norm_num) (hp.dvd_of_dvd_pow (show l ∣ 11 ^ 2 from hd)); omega⟩)
    hasSum_ln10 (by linarith) h
  obtain ⟨f0, a1, a2⟩ := IsNat.fromWord (d := 18) (by norm_num) (by unfold B; norm_num)
  obtain ⟨f1, b1, b2⟩ := IsNat.fromWord (d := 11) (by norm_num) (by unfold B; norm_num)
  unfold ln10Calc
  dsimp only
  rw [h1, h5]
  dsimp only
  rw [h6]
  dsimp only
  rw [a1]
  dsimp only
  rw [b1]
  dsimp only
  have hm := mulGeneral_spec (K := ℝ) h7 a2.wf (p := 64 * L) (by omega) (by rw [h3]; exact h4) .none
  have hc18 : ((18 : ℕ) : ℝ) = 18 := by norm_num
  have hc11 : ((11 : ℕ) : ℝ) = 11 := by norm_num
  rw [a2.eq, hc18, h3] at hm
  obtain ⟨x, g1, g2, g3, g4, g5, g6⟩ := none_step (by norm_num; linarith)
    (show (v.toK : ℝ) * 18 ≤ 2 ^ 64 from le_trans (show (v.toK : ℝ) * 18 ≤ 36 by linarith) (by norm_num)) hm
  unfold Num.mul
  rw [g1]
  dsimp only
  obtain ⟨δ, hδ⟩ : ∃ δ : ℝ, δ = 2 ^ (1 - ((64 * L : ℕ) : ℤ)) := ⟨_, rfl⟩
  have hδ0 : 0 < δ := by rw [hδ]; positivity
  have hδ1 : δ ≤ 1 / 8 := by
    rw [hδ, show (1 / 8 : ℝ) = 2 ^ (-3 : ℤ) by norm_num]
    exact zpow_le_zpow_right₀ (by norm_num) (by push_cast; omega)
  rw [← hδ] at g5 h9
  have hx1 : (1 : ℝ) ≤ x.toK := by nlinarith
  have hd := div_spec (K := ℝ) g2 b2.wf b2.nz (p := 64 * L) (by omega) (by rw [h3]; exact h4) .none
  rw [b2.eq, hc11, h3] at hd
  obtain ⟨w, k1, k2, k3, k4, k5, k6⟩ := none_step (by norm_num; linarith)
    (show (x.toK : ℝ) / 11 ≤ 2 ^ 64 from le_trans (show (x.toK : ℝ) / 11 ≤ 36 by linarith) (by norm_num)) hd
  rw [← hδ] at k5
  refine ⟨w, k1, fun h64 => ⟨k2, ?_, ?_, ?_⟩⟩
  · rw [k6]
    left
    unfold divIx
    have hvz : v.isZero = false := by
      rw [← Bool.not_eq_true, ← h7.toK_eq_zero (K := ℝ)]
      linarith
    have hxz : x.isZero = false := by
      rw [← Bool.not_eq_true, ← g2.toK_eq_zero (K := ℝ)]
      linarith
    have hxi : x.inexact = true := by
      rw [g6]
      left
      unfold mulIx
      rw [if_neg (by rw [hvz, a2.nz]; simp), h11 h64]; rfl
    rw [if_neg (by rw [hxz]; simp), hxi]; rfl
  · rw [k3]
    have q1 : 2 ^ (6 * n) < 2 ^ (64 * L + 1) := by
      refine lt_of_le_of_lt ?_ h12
      rw [pow_mul]
      exact Nat.pow_le_pow_left (by norm_num) n
    have := (Nat.pow_lt_pow_iff_right (by norm_num : 1 < 2)).1 q1
    omega
  · rw [k3, ← hδ]
    have hS : (0 : ℝ) ≤ (lnP 81 121 0 n : ℝ) / lnQ 121 0 n := by positivity
    obtain ⟨c, c1, c2⟩ := ln_value_bound (A := 18 / 11) (x := w.toK) (by norm_num) (by norm_num) (by norm_num)
      hasSum_ln10 h64 (by norm_num) hδ0 hδ1 (by
        have e1 : (1 + (lnP 81 121 0 n : ℝ) / lnQ 121 0 n) * (1 - 4 * δ) ≤
            (1 + (lnP 81 121 0 n : ℝ) / lnQ 121 0 n) * (1 - 2 * δ) * ((1 - δ) * (1 - δ)) := by
          rw [mul_assoc]
          refine mul_le_mul_of_nonneg_left ?_ (by linarith)
          have q1 : (1 - 4 * δ) ≤ (1 - 2 * δ) * (1 - 2 * δ) := by nlinarith
          have q2 : (1 - 2 * δ) * (1 - 2 * δ) ≤ (1 - 2 * δ) * ((1 - δ) * (1 - δ)) :=
            mul_le_mul_of_nonneg_left (by nlinarith) (by linarith)
          linarith
        have e2 := mul_le_mul_of_nonneg_right h9 (show 0 ≤ (1 - δ) * (1 - δ) by nlinarith)
        have e3 := mul_le_mul_of_nonneg_right g5 (show 0 ≤ 1 - δ by linarith)
        nlinarith) (by linarith)
    exact ⟨c, by rw [c1]; ring, c2⟩

/-! ## The loop -/

theorem pow_terms {x : ℝ} (h0 : 0 ≤ x) (h1 : x ≤ 1) {A N k b : Nat} (hN : 0 < N) (hA : x ^ A * 2 ^ N ≤ 1)
    (h4 : x ^ 4 * 2 ^ 2 ≤ 1) (h : k * A + 4 * N ≤ N * b) : x ^ b ≤ 2 ^ (-(k : ℤ) - 2) := by
  have e1 : x ^ b * 2 ^ (k + 2) ≤ 1 := by
    refine (pow_le_one_iff_of_nonneg (by positivity) hN.ne').1 ?_
    calc (x ^ b * 2 ^ (k + 2)) ^ N = x ^ (N * b) * 2 ^ (N * (k + 2)) := by
          rw [mul_pow, ← pow_mul, ← pow_mul, Nat.mul_comm b, Nat.mul_comm (k + 2)]
      _ ≤ x ^ (k * A + 4 * N) * 2 ^ (N * (k + 2)) :=
          mul_le_mul_of_nonneg_right (pow_le_pow_of_le_one h0 h1 h) (by positivity)
      _ = (x ^ A * 2 ^ N) ^ k * (x ^ 4 * 2 ^ 2) ^ N := by
          rw [mul_pow, mul_pow, ← pow_mul, ← pow_mul, ← pow_mul, ← pow_mul, pow_add, Nat.mul_comm k A,
            show N * (k + 2) = N * k + 2 * N by ring, pow_add]
          ring
      _ ≤ 1 := mul_le_one₀ (pow_le_one₀ (by positivity) hA) (by positivity) (pow_le_one₀ (by positivity) h4)
  rw [show -(k : ℤ) - 2 = -((k + 2 : ℕ) : ℤ) by push_cast; ring, zpow_neg, zpow_natCast, ← one_div,
    le_div_iff₀ (by positivity)]
  exact e1

theorem div_pow_mul_le {a c A N : Nat} (hc : 0 < c) (h : a ^ A * 2 ^ N ≤ c ^ A) : ((a : ℝ) / c) ^ A * 2 ^ N ≤ 1 := by
  have hc' : (0 : ℝ) < c := by exact_mod_cast hc
  rw [div_pow, div_mul_eq_mul_div, div_le_one (by positivity)]
  exact_mod_cast h

/-- The number of terms is enough for slightly more than `k` bits. -/
theorem ln10_terms {k b : Nat} (h : k * 1728 / 1000 + 4 < b) : (((81 : ℕ) : ℝ) / (121 : ℕ)) ^ b ≤ 2 ^ (-(k : ℤ) - 2) :=
  pow_terms (A := 1728) (N := 1000) (by positivity) (by norm_num) (by norm_num)
    (div_pow_mul_le (by norm_num) (by decide +kernel)) (div_pow_mul_le (by norm_num) (by decide +kernel)) (by omega)

/-- The accuracy of the value against the precision of the result. -/
theorem ln10_error {k b len : Nat} (h1 : k * 1728 / 1000 + 4 < b) (h2 : k + 64 ≤ len) :
    (((81 : ℕ) : ℝ) / (121 : ℕ)) ^ b / 64 + 4 * 2 ^ (1 - (len : ℤ)) ≤ 2 ^ (-(k : ℤ) - 7) := by
  have e1 := ln10_terms h1
  have e2 : (2 : ℝ) ^ (1 - (len : ℤ)) ≤ 2 ^ (-(k : ℤ) - 60) := zpow_le_zpow_right₀ (by norm_num) (by omega)
  have e3 : (2 : ℝ) ^ (-(k : ℤ) - 2) = 32 * 2 ^ (-(k : ℤ) - 7) := by
    rw [show (32 : ℝ) = 2 ^ (5 : ℤ) by norm_num, ← zpow_add₀ (by norm_num)]; congr 1; ring
  have e4 : (2 : ℝ) ^ (-(k : ℤ) - 60) = 2 ^ (-53 : ℤ) * 2 ^ (-(k : ℤ) - 7) := by
    rw [← zpow_add₀ (by norm_num)]; congr 1; ring
  have e5 : (2 : ℝ) ^ (-53 : ℤ) ≤ 1 / 16 := by norm_num
  have e6 : (0 : ℝ) < 2 ^ (-(k : ℤ) - 7) := by positivity
  have e7 := mul_le_mul_of_nonneg_right e5 e6.le
  rw [← e4] at e7
  have e8 := le_trans e2 e7
  rw [e3] at e1
  generalize (2 : ℝ) ^ (-(k : ℤ) - 7) = ε at *
  generalize (((81 : ℕ) : ℝ) / (121 : ℕ)) ^ b = X at *
  generalize (2 : ℝ) ^ (1 - (len : ℤ)) = Y at *
  linarith

theorem log_ten_binade : (2 : ℝ) ^ ((2 : ℤ) - 1) ≤ Real.log 10 * (7 / 8) ∧ Real.log 10 * (9 / 8) ≤ (2 : ℝ) ^ (2 : ℤ) := by
  obtain ⟨h1, h2⟩ := log_ten_small
  constructor <;> norm_num <;> linarith

/-- An approximation rounded by `try_set_precision`, seen from the value that it approximates. -/
theorem close_test {t : Num} (ht : t.WF) (hix : t.inexact = true) {y c : ℝ} {q : ℤ} (hq : |q| ≤ 4)
    (hy1 : (2 : ℝ) ^ (q - 1) * (513 / 512) ≤ y * (7 / 8)) (hy2 : y * (9 / 8) * (513 / 512) ≤ 2 ^ q)
    (hc : t.toK = y * c) {pw : Nat} (hp : 0 < pw) (c2 : |c - 1| ≤ 2 ^ (-((64 * pw : ℕ) : ℤ) - 7)) {w : Nat}
    (hpm : 64 * pw < PMAX) (hpw : 64 * pw + 64 ≤ w) (hw : 64 ∣ w) (hwl : w ≤ 64 * t.m.m.length) (rm : RM) :
    ∃ a v', t.trySetPrecision (64 * pw) rm w = .ok (a, v') ∧
      (a = true → ConstClose rm (64 * pw) y v') ∧
      (rm = .none ∨ rm.directed = true ∧ ¬ NearGrid (64 * pw) 6 y → a = true) := by
  have hqlo : (0 : ℝ) < 2 ^ (q - 1) := by positivity
  have hy0 : 0 < y := by linarith
  have hε : (2 : ℝ) ^ (-((64 * pw : ℕ) : ℤ) - 7) ≤ 1 / 1024 := by
    rw [show (1 / 1024 : ℝ) = 2 ^ (-10 : ℤ) by norm_num]
    exact zpow_le_zpow_right₀ (by norm_num) (by push_cast; omega)
  obtain ⟨c3, c4⟩ := abs_le.1 c2
  have hc0 : 0 < c := by linarith
  have ht0 : (0 : ℝ) < t.toK := by rw [hc]; positivity
  have hdist : |t.toK - y| ≤ y * 2 ^ (-((64 * pw : ℕ) : ℤ) - 7) := by
    rw [hc, show y * c - y = y * (c - 1) by ring, abs_mul, abs_of_pos hy0]
    exact mul_le_mul_of_nonneg_left c2 hy0.le
  obtain ⟨a, v', h1, h2, h3⟩ := apx_test ht hix hq (y := t.toK) (c := 1)
    (show (2 : ℝ) ^ (q - 1) ≤ t.toK * (7 / 8) by rw [hc]; nlinarith)
    (show t.toK * (9 / 8) ≤ (2 : ℝ) ^ q by rw [hc]; nlinarith) (by rw [mul_one])
    (w := w) (by rw [sub_self, abs_zero]; positivity) hp hpm hpw hw hwl rm
  refine ⟨a, v', h1, fun ha => ?_, ?_⟩
  · obtain ⟨d1, d2⟩ := h2 ha
    obtain ⟨e, he⟩ : ∃ e : ℝ, e = 2 ^ (-((64 * pw : ℕ) : ℤ)) := ⟨_, rfl⟩
    have he0 : 0 < e := by rw [he]; positivity
    have hd7 : (2 : ℝ) ^ (-((64 * pw : ℕ) : ℤ) - 7) = e / 128 := by
      rw [he, show (128 : ℝ) = 2 ^ (7 : ℤ) by norm_num, ← zpow_sub₀ (by norm_num)]
    have he1 : (2 : ℝ) ^ (1 - ((64 * pw : ℕ) : ℤ)) = 2 * e := by
      rw [he, ← zpow_one_add₀ (by norm_num)]; congr 1
    have hes : e ≤ 1 / 512 := by
      rw [he, show (1 / 512 : ℝ) = 2 ^ (-9 : ℤ) by norm_num]
      exact zpow_le_zpow_right₀ (by norm_num) (by push_cast; omega)
    have htri : |v'.toK - y| ≤ |v'.toK - t.toK| + |t.toK - y| := by
      have := abs_add_le (v'.toK - t.toK : ℝ) (t.toK - y)
      simpa using this
    have hty : (t.toK : ℝ) ≤ y * (1 + e / 128) := by
      rw [hc]
      refine mul_le_mul_of_nonneg_left ?_ hy0.le
      rw [hd7] at c4
      linarith
    have hn60 : (2 : ℝ) ^ (-60 : ℤ) ≤ 1 / 1024 := by norm_num
    have hbound : ∀ m : ℝ, 0 ≤ m → m ≤ 2 * e → e ≤ m → |v'.toK - t.toK| ≤ |(t.toK : ℝ)| * (m * (1 + 2 ^ (-60 : ℤ))) →
        |v'.toK - y| ≤ |y| * (m * (1 + 2 ^ (-6 : ℤ))) := by
      intro m hm0 hm1 hm2 hm
      rw [abs_of_pos ht0] at hm
      rw [abs_of_pos hy0]
      rw [hd7] at hdist
      have q1 : (t.toK : ℝ) * (m * (1 + 2 ^ (-60 : ℤ))) ≤ y * (1 + e / 128) * (m * (1 + 1 / 1024)) :=
        mul_le_mul hty (mul_le_mul_of_nonneg_left (by linarith) hm0) (by positivity) (by positivity)
      have q2 : (1 + e / 128) * (m * (1 + 1 / 1024)) + e / 128 ≤ m * (1 + 2 ^ (-6 : ℤ)) := by
        norm_num
        nlinarith
      have q3 := mul_le_mul_of_nonneg_left q2 hy0.le
      rw [mul_add] at q3
      rw [mul_assoc] at q1
      exact le_trans htri (le_trans (add_le_add (le_trans hm q1) hdist) q3)
    refine ⟨d1.wf, d1.len, d1.pos ht0, d2, ?_, ?_, ?_⟩
    · intro hd
      exact ⟨t.toK, hdist, by rcases hd with rfl | rfl | rfl | rfl <;> exact d1.directed rfl⟩
    · intro hn
      refine hbound _ (by positivity) (by rw [← he]; linarith) (by rw [← he]) ?_
      rcases hn with rfl | rfl <;> exact d1.nearest rfl
    · intro hn
      refine hbound _ (by positivity) (by rw [he1]) (by rw [he1]; linarith) ?_
      exact d1.none hn
  · rintro (rfl | ⟨hdir, hng⟩)
    · exact h3 (Or.inl rfl)
    · refine h3 (Or.inr ⟨hdir, ?_⟩)
      rintro ⟨q', n1, n2, j, n3⟩
      have hqe : q' = q := by
        have r1 : (2 : ℝ) ^ (q - 1) < 2 ^ q' := lt_of_le_of_lt (show (2 : ℝ) ^ (q - 1) ≤ t.toK by rw [hc]; nlinarith) n2
        have r2 : (2 : ℝ) ^ (q' - 1) < 2 ^ q := lt_of_le_of_lt n1 (show (t.toK : ℝ) < 2 ^ q by rw [hc]; nlinarith)
        have r3 := (zpow_lt_zpow_iff_right₀ (by norm_num : (1 : ℝ) < 2)).1 r1
        have r4 := (zpow_lt_zpow_iff_right₀ (by norm_num : (1 : ℝ) < 2)).1 r2
        omega
      subst hqe
      refine hng (nearGrid_of_reject (q := q') (by linarith) (by linarith) hdist
        (zpow_le_zpow_right₀ (by norm_num) (by omega)) (w := ((64 * pw : ℕ) : ℤ) + 63) (by omega) (j := j) ?_)
      rw [show q' - (((64 * pw : ℕ) : ℤ) + 63) = q' - ((64 * pw : ℕ) : ℤ) - ((63 : ℕ) : ℤ) by push_cast; ring]
      exact n3

/-- A value rounded from close by is rounded correctly unless there are grid points close by. -/
theorem ConstClose.rounded {rm : RM} (hd : rm = .up ∨ rm = .down ∨ rm = .toZero ∨ rm = .fromZero) {P : Nat} {y : ℝ}
    {q : ℤ} (hq : EMIN ≤ q) (hP : 1 ≤ P)
    (hy1 : (2 : ℝ) ^ (q - 1) ≤ y * (7 / 8)) (hy2 : y * (9 / 8) ≤ 2 ^ q)
    (hg : ¬ NearGrid P 6 y) {v : Num} (h : ConstClose rm P y v) : ConstRounded rm P y v := by
  have hqlo : (0 : ℝ) < 2 ^ (q - 1) := by positivity
  have hy0 : 0 < y := by linarith
  refine ⟨h.wf, h.prec, h.sign, h.inexact, fun _ => ?_, ?_, ?_⟩
  · obtain ⟨t, t1, t2⟩ := h.directed hd
    have hε : (2 : ℝ) ^ (-(P : ℤ) - 7) ≤ 1 / 16 := by
      rw [show (1 / 16 : ℝ) = 2 ^ (-4 : ℤ) by norm_num]
      exact zpow_le_zpow_right₀ (by norm_num) (by omega)
    obtain ⟨t3, t4⟩ := abs_le.1 t1
    have ht1 : (2 : ℝ) ^ (q - 1) ≤ t := by nlinarith
    have ht2 : t < (2 : ℝ) ^ q := by nlinarith
    have ht0 : 0 < t := by linarith
    have hno : ∀ j : ℤ, |y - j * 2 ^ (q - (P : ℤ))| ≤ |t - y| → False := by
      intro j hj
      refine hg ⟨q, by linarith, by linarith, j, le_trans hj (le_trans t1 ?_)⟩
      rw [show q - (P : ℤ) - ((6 : ℕ) : ℤ) = q + (-(P : ℤ) - 6) by push_cast; ring, zpow_add₀ (by norm_num)]
      refine mul_le_mul (by linarith) (zpow_le_zpow_right₀ (by norm_num) (by omega)) (by positivity) (by positivity)
    rcases t2 with ⟨t2, -⟩ | ⟨q', q1, q2, hr⟩
    · exact absurd t2 ht0.ne'
    rw [abs_of_pos ht0] at q1 q2
    have hqe : q' = q := by
      have r3 := (zpow_lt_zpow_iff_right₀ (by norm_num : (1 : ℝ) < 2)).1 (lt_of_le_of_lt ht1 q2)
      have r4 := (zpow_lt_zpow_iff_right₀ (by norm_num : (1 : ℝ) < 2)).1 (lt_of_le_of_lt q1 ht2)
      omega
    subst hqe
    right
    refine ⟨q', by rw [abs_of_pos hy0]; linarith, by rw [abs_of_pos hy0]; linarith, ?_⟩
    rw [max_eq_left hq] at hr ⊢
    obtain ⟨k, hk, hr⟩ := hr
    obtain ⟨U, hU⟩ : ∃ U : ℝ, U = 2 ^ (q' - (P : ℤ)) := ⟨_, rfl⟩
    rw [← hU] at hk hr hno ⊢
    have hU0 : 0 < U := by rw [hU]; positivity
    -- no grid point lies between
    have hb1 : ∀ j : ℤ, t ≤ j * U → y ≤ j * U := by
      intro j hj
      by_contra hc
      push Not at hc
      refine hno j ?_
      rw [abs_of_pos (by linarith), abs_of_nonpos (by linarith)]
      linarith
    have hb2 : ∀ j : ℤ, j * U ≤ t → j * U ≤ y := by
      intro j hj
      by_contra hc
      push Not at hc
      refine hno j ?_
      rw [abs_of_neg (by linarith), abs_of_nonneg (by linarith)]
      linarith
    have hb3 : ∀ j : ℤ, t < j * U → y < j * U := by
      intro j hj
      refine lt_of_le_of_ne (hb1 j hj.le) fun hc => hno j ?_
      rw [hc, sub_self, abs_zero]; exact abs_nonneg _
    have hb4 : ∀ j : ℤ, j * U < t → j * U < y := by
      intro j hj
      refine lt_of_le_of_ne (hb2 j hj.le) fun hc => hno j ?_
      rw [hc, sub_self, abs_zero]; exact abs_nonneg _
    have hs1 : ((k - 1 : ℤ) : ℝ) * U = v.toK - U := by push_cast; rw [hk]; ring
    have hs2 : ((k + 1 : ℤ) : ℝ) * U = v.toK + U := by push_cast; rw [hk]; ring
    refine ⟨k, hk, ?_⟩
    have hv0 : (0 : ℝ) ≤ v.toK := by
      have hsg := h.sign
      unfold Num.toK
      rw [hsg]
      simp only [Sign.toK, one_mul]
      positivity
    have c1 := hb1 k
    have c2 := hb2 k
    have c3 := hb3 (k + 1)
    have c4 := hb4 (k - 1)
    rw [← hk] at c1 c2
    rw [hs2] at c3
    rw [hs1] at c4
    rcases hd with rfl | rfl | rfl | rfl
    · exact ⟨c1 hr.1, by linarith [c4 (by linarith [hr.2])]⟩
    · exact ⟨c2 hr.1, c3 hr.2⟩
    · dsimp only at hr ⊢
      rw [abs_of_nonneg hv0, abs_of_pos ht0] at hr
      rw [abs_of_nonneg hv0, abs_of_pos hy0]
      exact ⟨c2 hr.1, c3 hr.2.1, by positivity⟩
    · dsimp only at hr ⊢
      rw [abs_of_nonneg hv0, abs_of_pos ht0] at hr
      rw [abs_of_nonneg hv0, abs_of_pos hy0]
      exact ⟨c1 hr.1, by linarith [c4 (by linarith [hr.2.1])], by positivity⟩
  · rintro (rfl | rfl) <;> simp at hd
  · rintro rfl; simp at hd

/-- The loop invariant for the precision `k`. -/
def Ln10Inv (k i w b : Nat) : Prop := 64 ∣ i ∧ 64 ∣ w ∧ i ≤ w ∧ k + 64 ≤ w ∧
  (b ≤ k * 1728 / 1000 + 4 → w = k + 64) ∧ (k * 1728 / 1000 + 4 < b → w + 8 ≤ 6 * b)

theorem ln10_inv_start {pw b : Nat} (hp : 0 < pw) : Ln10Inv (64 * pw) 64 (64 * pw + 64) b :=
  ⟨by norm_num, by omega, by omega, le_refl _, fun _ => rfl, fun h => by omega⟩

theorem ln10_loop {pw : Nat} (hp : 0 < pw) (hpm : 64 * pw < PMAX) (rm : RM) :
    LoopOk ln10Calc (LnRep 81 121) (fun _ => 64 * pw * 1728 / 1000 + 4) (64 * pw) rm (LnValOk 81 121 6 (Real.log 10))
      (Ln10Inv (64 * pw)) (fun v => ConstClose rm (64 * pw) (Real.log 10) v)
      (rm = .none ∨ rm.directed = true ∧ ¬ NearGrid (64 * pw) 6 (Real.log 10)) where
  value := fun h => ln10_value h
  test := by
    rintro i w j v ⟨-, hw, -, hwp, -, hacc⟩ hk hv
    have h64 := pow_ge_64 (j := j) (by omega)
    have ha := hacc hk
    obtain ⟨v1, v2, v3, c, v4, v5⟩ := hv h64
    have hwl : w + 64 ≤ 64 * v.m.m.length := by omega
    obtain ⟨hl1, hl2⟩ := log_ten_small
    exact close_test v1 v2 (q := 2) (by norm_num) (by norm_num; linarith) (by norm_num; linarith) v4 hp
      (le_trans v5 (ln10_error hk (by omega))) hpm hwp hw (by omega) rm
  fail := by
    rintro i w j j' ⟨hi, hw, hiw, hwp, -, hacc⟩ hk hj
    have ha := hacc hk
    have := roundP_le_add ((w + i) / 5)
    exact ⟨roundP_dvd _, by omega, by omega, by omega, fun h => by omega, fun h => by omega⟩
  grow := by
    rintro i w j j' ⟨hi, hw, hiw, hwp, hlow, hacc⟩ hj hj'
    have hwk := hlow hj
    exact ⟨hi, hw, hiw, hwp, fun h => by omega, fun h => by omega⟩

end AF
