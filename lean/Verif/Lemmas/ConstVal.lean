import Mathlib.Analysis.Complex.ExponentialBounds
import Mathlib.Data.Nat.Prime.Int
import Verif.Lemmas.TryReject
import Verif.SpecConst
import Verif.Lemmas.ConstNum
import Verif.Lemmas.ConstLoop
/-!
# Bounds shared by the constants
-/

namespace AF

set_option linter.unusedSectionVars false

/-- A truncated operation on a value of moderate size. -/
theorem none_step {P : Nat} {X : ℝ} (h1 : 2 ^ (-64 : ℤ) ≤ X) (h2 : X ≤ 2 ^ 64) {ix : Bool} {r : Except Err Num}
    (h : Delivers .none P X ix r) : ∃ v, r = .ok v ∧ v.WF ∧ 64 * v.m.m.length = P ∧ v.toK ≤ X ∧
      X * (1 - 2 ^ (1 - (P : ℤ))) ≤ v.toK ∧ (v.inexact = true ↔ ix = true ∨ (v.toK : ℝ) ≠ X) := by
  have hX : 0 < X := lt_of_lt_of_le (by positivity) h1
  have ha : |X| = X := abs_of_pos hX
  cases r with
  | ok v =>
    have hlo : (2 : ℝ) ^ (EMIN - 1) ≤ |X| := by
      rw [ha]
      exact le_trans (zpow_le_zpow_right₀ (by norm_num) (by unfold EMIN; norm_num)) h1
    obtain ⟨g1, g2, g3⟩ := (h.normal hlo).none_rel
    have hv : (0 : ℝ) ≤ v.toK := by
      by_contra hc
      push Not at hc
      nlinarith
    rw [ha, abs_of_nonneg hv] at g1 g2
    exact ⟨v, rfl, h.1, h.2.1, g1, g2, h.2.2.2.2.1⟩
  | error e =>
    exfalso
    obtain ⟨_, t, h3, h4⟩ := h
    obtain ⟨g1, -, -⟩ := h3.none_rel
    rw [ha] at g1
    have : (2 : ℝ) ^ (65 : ℤ) ≤ 2 ^ EMAX := zpow_le_zpow_right₀ (by norm_num) (by unfold EMAX; norm_num)
    have h5 : (2 : ℝ) ^ (65 : ℤ) = 2 * 2 ^ 64 := by norm_num
    have : (0 : ℝ) < 2 ^ 64 := by positivity
    linarith

/-- The odd part of an integer fits in the words that hold it. -/
theorem IsNat.lt_len {x : Num} {N s : Nat} (h : IsNat x N) (hs : ¬ 2 ^ s ∣ N) : N < 2 ^ (64 * x.m.m.length + s) := by
  have hv : val x.m.m < 2 ^ (64 * x.m.m.length) := by
    have := val_lt h.wf.wf
    rwa [B_eq, ← pow_mul] at this
  have hsg : x.s = .pos := toK_sign_pos (K := ℝ) (by rw [h.eq]; exact_mod_cast h.pos)
  have he := h.eq
  unfold Num.toK at he
  rw [hsg] at he
  simp only [Sign.toK, one_mul] at he
  rcases le_total 0 (x.e - (64 * x.m.m.length : ℕ)) with hz | hz
  · obtain ⟨j, hj⟩ := Int.eq_ofNat_of_zero_le hz
    rw [hj, zpow_natCast] at he
    have he' : val x.m.m * 2 ^ j = N := by exact_mod_cast he
    have hjs : j < s := by
      by_contra hc
      push Not at hc
      exact hs (dvd_trans (pow_dvd_pow 2 hc) ⟨val x.m.m, by rw [← he']; ring⟩)
    rw [← he', pow_add]
    exact Nat.mul_lt_mul_of_lt_of_le hv (Nat.pow_le_pow_right (by norm_num) hjs.le) (by positivity)
  · have h1 : (N : ℝ) ≤ val x.m.m := by
      rw [← he]
      exact mul_le_of_le_one_right (by positivity) (zpow_le_one_of_nonpos₀ (by norm_num) hz)
    have h2 : N ≤ val x.m.m := by exact_mod_cast h1
    calc N < 2 ^ (64 * x.m.m.length) := lt_of_le_of_lt h2 hv
      _ ≤ _ := Nat.pow_le_pow_right (by norm_num) (by omega)

/-- `n^n <= n! * 3^n`. -/
theorem pow_self_le (n : Nat) : n ^ n ≤ n.factorial * 3 ^ n := by
  have h1 := Real.pow_div_factorial_le_exp (x := (n : ℝ)) (by positivity) n
  have h2 : Real.exp n ≤ 3 ^ n := by
    rw [show (n : ℝ) = n * 1 by ring, Real.exp_nat_mul]
    exact pow_le_pow_left₀ (Real.exp_pos _).le Real.exp_one_lt_three.le n
  rw [div_le_iff₀ (by positivity)] at h1
  have h3 : (n : ℝ) ^ n ≤ 3 ^ n * n.factorial := le_trans h1 (mul_le_mul_of_nonneg_right h2 (by positivity))
  have h4 : n ^ n ≤ 3 ^ n * n.factorial := by exact_mod_cast h3
  rw [Nat.mul_comm]; exact h4

/-- A number of `c * 2^i` bits is out of range from `c * 2^i = 2^31` on. -/
theorem emax_le_of_pow {N c n : Nat} (h : 2 ^ 31 ≤ c * n) (hN : 2 ^ (c * n) ≤ N) : (2 : ℝ) ^ EMAX ≤ N := by
  have h1 : (2 : ℝ) ^ (c * n) ≤ N := by exact_mod_cast hN
  refine le_trans ?_ h1
  rw [← zpow_natCast]
  refine zpow_le_zpow_right₀ (by norm_num) ?_
  unfold EMAX
  have : (2 ^ 31 : ℤ) ≤ ((c * n : ℕ) : ℤ) := by exact_mod_cast h
  omega

theorem lt_emax_of_pow {N c n : Nat} (h : c * n < 2 ^ 31) (hN : N < 2 ^ (c * n)) : (N : ℝ) < 2 ^ EMAX := by
  have h1 : (N : ℝ) < 2 ^ (c * n) := by exact_mod_cast hN
  refine lt_of_lt_of_le h1 ?_
  rw [← zpow_natCast]
  refine zpow_le_zpow_right₀ (by norm_num) ?_
  unfold EMAX
  have : ((c * n : ℕ) : ℤ) < (2 ^ 31 : ℤ) := by exact_mod_cast h
  omega

theorem serP_le {p q r : Nat → Nat} (hp : ∀ j, p (j + 1) ≤ q (j + 1)) (hr : ∀ j, r (j + 1) ≤ q (j + 1)) (a : Nat) :
    ∀ n, serQ r a n ≤ serQ q a n ∧ serP p q r a n ≤ n * serQ q a n
  | 0 => by simp [serQ, serP]
  | n + 1 => by
    obtain ⟨h1, h2⟩ := serP_le hp hr a n
    refine ⟨Nat.mul_le_mul h1 (hr _), ?_⟩
    rw [serP, serQ]
    have h3 := Nat.mul_le_mul_right (q (a + n + 1)) h2
    have h4 := Nat.mul_le_mul h1 (hp (a + n))
    linarith

theorem serQ_le {q : Nat → Nat} {a M : Nat} : ∀ {n}, (∀ j < n, q (a + j + 1) ≤ M) → serQ q a n ≤ M ^ n
  | 0, _ => by simp [serQ]
  | n + 1, h => by
    rw [serQ, pow_succ]
    exact Nat.mul_le_mul (serQ_le fun j hj => h j (by omega)) (h n (by omega))

/-- A positive value away from the ends of the range, tried at `w` bits. -/
theorem try_cases {t : Num} (ht : t.WF) {q : ℤ} (hq1 : EMIN < q) (hq2 : q < EMAX)
    (ht1 : (2 : ℝ) ^ (q - 1) ≤ t.toK) (ht2 : (t.toK : ℝ) < 2 ^ q) {w pw : Nat} (hp : 0 < pw)
    (hpm : 64 * pw < PMAX) (hpw : 64 * pw + 64 ≤ w) (hw : 64 ∣ w) (hwl : w ≤ 64 * t.m.m.length) (rm : RM) :
    ∃ a v', t.trySetPrecision (64 * pw) rm w = .ok (a, v') ∧ (rm = .none → a = true) ∧
      (rm.directed = true → a = false → ∃ j : ℤ, |t.toK - (j : ℝ) * 2 ^ (q - ((64 * pw : ℕ) : ℤ))| ≤ (2 : ℝ) ^ (q - (w : ℤ))) := by
  have hqlo : (0 : ℝ) < 2 ^ (q - 1) := by positivity
  have hfz : t.isZero = false := by
    rw [← Bool.not_eq_true, ← ht.toK_eq_zero (K := ℝ)]
    linarith
  obtain ⟨q', q1, q2, q3, _⟩ := ht.mag (K := ℝ) hfz
  rw [abs_of_pos (by linarith)] at q1 q2
  have r1 := (zpow_lt_zpow_iff_right₀ (by norm_num : (1 : ℝ) < 2)).1 (lt_of_le_of_lt q1 ht2)
  have r2 := (zpow_lt_zpow_iff_right₀ (by norm_num : (1 : ℝ) < 2)).1 (lt_of_le_of_lt ht1 q2)
  have hte : t.e = q := by omega
  cases htr : t.trySetPrecision (64 * pw) rm w with
  | error e =>
    exfalso
    obtain ⟨_, h2⟩ := tryPrec_error (by omega) hpm (by omega) hwl htr
    omega
  | ok b =>
    obtain ⟨a, v'⟩ := b
    refine ⟨a, v', rfl, ?_, ?_⟩
    · rintro rfl
      exact (tryPrec_eq_setPrec (by omega) (by omega) hwl (by omega) (Or.inr (Or.inl rfl)) htr
        (Or.inr (Or.inl rfl))).1
    · intro hdir ha
      rw [ha] at htr
      obtain ⟨-, j, hj⟩ := tryPrec_reject (K := ℝ) ht hp hpw hw hwl hdir htr
      rw [hte, abs_of_pos (show (0 : ℝ) < t.toK by linarith)] at hj
      exact ⟨j, by rw [Int.cast_natCast]; exact hj⟩

/-- The place of a rejected value, seen from the value that it approximates. -/
theorem nearGrid_of_reject {P g : Nat} {y t η : ℝ} {q j : ℤ} (hy1 : (2 : ℝ) ^ (q - 1) ≤ y) (hy2 : y < 2 ^ q)
    (h1 : |t - y| ≤ y * η) (hη : η ≤ 2 ^ (-(P : ℤ) - g - 1)) {w : ℤ} (hw : P + g + 1 ≤ w)
    (hj : |t - j * 2 ^ (q - (P : ℤ))| ≤ (2 : ℝ) ^ (q - w)) : NearGrid P g y := by
  refine ⟨q, hy1, hy2, j, ?_⟩
  have hy0 : 0 < y := lt_of_lt_of_le (by positivity) hy1
  have hη0 : 0 ≤ η := by
    have := le_trans (abs_nonneg _) h1
    by_contra hc
    push Not at hc
    nlinarith
  have h2 : |y - (j : ℝ) * 2 ^ (q - (P : ℤ))| ≤ |t - y| + |t - (j : ℝ) * 2 ^ (q - (P : ℤ))| := by
    have := abs_add_le (y - t) (t - (j : ℝ) * 2 ^ (q - (P : ℤ)))
    rw [sub_add_sub_cancel, abs_sub_comm y t] at this
    exact this
  have h3 : y * η ≤ 2 ^ (q - (P : ℤ) - g - 1) := by
    rw [show q - (P : ℤ) - g - 1 = q + (-(P : ℤ) - g - 1) by ring, zpow_add₀ (by norm_num)]
    exact mul_le_mul hy2.le hη hη0 (by positivity)
  have h4 : (2 : ℝ) ^ (q - w) ≤ 2 ^ (q - (P : ℤ) - g - 1) := zpow_le_zpow_right₀ (by norm_num) (by omega)
  have h5 : (2 : ℝ) ^ (q - (P : ℤ) - g) = 2 * 2 ^ (q - (P : ℤ) - g - 1) := by
    rw [← zpow_one_add₀ (by norm_num)]; congr 1; ring
  linarith

/-- A value with a known relative error, tried at `w` bits. -/
theorem apx_test {t : Num} (ht : t.WF) (hix : t.inexact = true) {y c : ℝ} {q : ℤ} (hq : |q| ≤ 4)
    (hy1 : (2 : ℝ) ^ (q - 1) ≤ y * (7 / 8)) (hy2 : y * (9 / 8) ≤ 2 ^ q)
    (hc : t.toK = y * c) {w : Nat} (c2 : |c - 1| ≤ 2 ^ (-(w : ℤ) - 2)) {pw : Nat} (hp : 0 < pw)
    (hpm : 64 * pw < PMAX) (hpw : 64 * pw + 64 ≤ w) (hw : 64 ∣ w) (hwl : w ≤ 64 * t.m.m.length) (rm : RM) :
    ∃ a v', t.trySetPrecision (64 * pw) rm w = .ok (a, v') ∧
      (a = true → DecOk rm (64 * pw) y v' ∧ v'.inexact = true) ∧
      (rm = .none ∨ rm.directed = true ∧ ¬ NearGrid (64 * pw) 63 y → a = true) := by
  obtain ⟨hq1, hq2⟩ := abs_le.1 hq
  have hqlo : (0 : ℝ) < 2 ^ (q - 1) := by positivity
  have hy0 : 0 < y := by linarith
  have hε : (2 : ℝ) ^ (-(w : ℤ) - 2) ≤ 1 / 16 := by
    rw [show (1 / 16 : ℝ) = 2 ^ (-4 : ℤ) by norm_num]
    exact zpow_le_zpow_right₀ (by norm_num) (by omega)
  obtain ⟨c3, c4⟩ := abs_le.1 c2
  have ht1 : (2 : ℝ) ^ (q - 1) ≤ t.toK := by rw [hc]; nlinarith
  have ht2 : (t.toK : ℝ) < 2 ^ q := by rw [hc]; nlinarith
  have hsm : (2 : ℝ) ^ (EMIN - 1) ≤ 2 ^ (q - 1) := zpow_le_zpow_right₀ (by norm_num) (by unfold EMIN; omega)
  obtain ⟨a, v', htr, hn, hd⟩ := try_cases ht (q := q) (by unfold EMIN; omega) (by unfold EMAX; omega) ht1 ht2 hp hpm hpw hw hwl rm
  refine ⟨a, v', htr, ?_, ?_⟩
  · rintro rfl
    have := tryPrec_apx (K := ℝ) ht (by rw [abs_of_pos hy0]; exact le_trans hsm (by linarith))
      (by rw [abs_of_pos (by linarith)]; exact le_trans hsm (by linarith)) hc c2 (fun h => by rw [hix] at h; cases h)
      hp hpm hpw hw hwl htr
    exact ⟨this.1, this.2 hix⟩
  · rintro (rfl | ⟨hdir, hng⟩)
    · exact hn rfl
    · by_contra ha
      have ha : a = false := by simpa using ha
      obtain ⟨j, hj⟩ := hd hdir ha
      refine hng (nearGrid_of_reject (q := q) (by linarith) (by linarith) (η := 2 ^ (-(w : ℤ) - 2)) ?_ ?_ (w := w)
        (by push_cast; omega) hj)
      · rw [hc, show y * c - y = y * (c - 1) by ring, abs_mul, abs_of_pos hy0]
        exact mul_le_mul_of_nonneg_left c2 hy0.le
      · exact zpow_le_zpow_right₀ (by norm_num) (by push_cast; omega)

/-- Turning bounds on the value into a relative error. -/
theorem apx_of_bounds {y t η : ℝ} (hy : 0 < y) (h1 : y * (1 - η) ≤ t) (h2 : t ≤ y) : ∃ c, t = y * c ∧ |c - 1| ≤ η := by
  refine ⟨t / y, by field_simp, ?_⟩
  have h3 : 1 - η ≤ t / y := by rw [le_div_iff₀ hy]; linarith
  have h4 : t / y ≤ 1 := by rw [div_le_one hy]; exact h2
  rw [abs_le]
  constructor <;> linarith

/-- A quotient is not a number of the library when an odd prime divides the denominator only. -/
theorem not_dyadic {v : Num} {P Q l : Nat} (hl : l.Prime) (h2 : l ≠ 2) (hQ : 0 < Q) (h3 : l ∣ Q) (h4 : ¬ l ∣ P) :
    (v.toK : ℝ) ≠ (P : ℝ) / Q := by
  intro h
  unfold Num.toK at h
  have hQ' : (Q : ℝ) ≠ 0 := by positivity
  rw [eq_div_iff hQ'] at h
  obtain ⟨z, hz⟩ : ∃ z : ℤ, (Sign.toK v.s : ℝ) * (val v.m.m : ℝ) = z := by
    cases v.s with
    | pos => exact ⟨val v.m.m, by simp [Sign.toK]⟩
    | neg => exact ⟨-val v.m.m, by simp [Sign.toK]⟩
  rw [hz] at h
  have hlp : Prime (l : ℤ) := Nat.prime_iff_prime_int.1 hl
  have key : ∀ (a b : ℕ), z * 2 ^ a * Q = P * 2 ^ b → False := by
    intro a b hab
    have h5 : (l : ℤ) ∣ P * 2 ^ b := by
      rw [← hab]
      exact Dvd.dvd.mul_left (by exact_mod_cast h3) _
    rcases hlp.dvd_or_dvd h5 with h6 | h6
    · exact h4 (by exact_mod_cast h6)
    · have h7 : l ∣ 2 ^ b := by exact_mod_cast h6
      exact h2 ((Nat.prime_dvd_prime_iff_eq hl Nat.prime_two).1 (hl.dvd_of_dvd_pow h7))
  rcases le_total 0 (v.e - (64 * v.m.m.length : ℕ)) with hs | hs
  · obtain ⟨j, hj⟩ := Int.eq_ofNat_of_zero_le hs
    rw [hj, zpow_natCast] at h
    refine key j 0 ?_
    have : ((z * 2 ^ j * Q : ℤ) : ℝ) = ((P * 2 ^ 0 : ℤ) : ℝ) := by push_cast; rw [h]; ring
    exact_mod_cast this
  · obtain ⟨j, hj⟩ := Int.eq_ofNat_of_zero_le (neg_nonneg.2 hs)
    rw [show v.e - (64 * v.m.m.length : ℕ) = -(j : ℤ) by rw [← hj]; ring, zpow_neg, zpow_natCast] at h
    refine key 0 j ?_
    have : ((z * 2 ^ 0 * Q : ℤ) : ℝ) = ((P * 2 ^ j : ℤ) : ℝ) := by
      push_cast
      rw [← h]
      have : (2 : ℝ) ^ j ≠ 0 := by positivity
      field_simp
    exact_mod_cast this

theorem DecOk.rounded {rm : RM} {P : Nat} {y : ℝ} (hy : 0 < y) {v : Num} (h : DecOk rm P y v) (hi : v.inexact = true) :
    ConstRounded rm P y v where
  wf := h.wf
  prec := h.len
  sign := h.pos hy
  inexact := hi
  directed := by rintro (rfl | rfl | rfl | rfl) <;> exact h.directed rfl
  nearest := by rintro (rfl | rfl) <;> exact h.nearest rfl
  none := h.none

end AF

namespace AF

/-- Two well-formed numbers of the same length with the same value have the same digits. -/
theorem Num.WF.eq_of_toK {x y : Num} (hx : x.WF) (hy : y.WF) (hl : x.m.m.length = y.m.m.length) (hs : x.s = y.s)
    (hi : x.inexact = y.inexact) (h : (x.toK : ℝ) = y.toK) (h0 : (x.toK : ℝ) ≠ 0) : x = y := by
  have hxz : x.isZero = false := by rw [← Bool.not_eq_true, ← hx.toK_eq_zero (K := ℝ)]; exact h0
  have hyz : y.isZero = false := by rw [← Bool.not_eq_true, ← hy.toK_eq_zero (K := ℝ), ← h]; exact h0
  obtain ⟨q, q1, q2, q3, _⟩ := hx.mag (K := ℝ) hxz
  obtain ⟨r, r1, r2, r3, _⟩ := hy.mag (K := ℝ) hyz
  rw [← h] at r1 r2
  have k1 := (zpow_lt_zpow_iff_right₀ (by norm_num : (1 : ℝ) < 2)).1 (lt_of_le_of_lt q1 r2)
  have k2 := (zpow_lt_zpow_iff_right₀ (by norm_num : (1 : ℝ) < 2)).1 (lt_of_le_of_lt r1 q2)
  have hqr : q = r := by omega
  have he : x.e = y.e := by rw [← q3, ← r3, hqr]
  have hv : val x.m.m = val y.m.m := by
    have hsg : (Sign.toK y.s : ℝ) ≠ 0 := by cases y.s <;> simp [Sign.toK]
    unfold Num.toK at h
    rw [hs, hl, he] at h
    have h2 : (2 : ℝ) ^ (y.e - (64 * y.m.m.length : ℕ)) ≠ 0 := by positivity
    have h3 := mul_left_cancel₀ hsg (mul_right_cancel₀ h2 h)
    exact_mod_cast h3
  have hm : x.m.m = y.m.m := val_inj hx.wf hy.wf hl hv
  have hn : x.m.n = y.m.n := by rw [hx.bits, hy.bits, hv]
  obtain ⟨xe, xs, ⟨xm, xn⟩, xi⟩ := x
  obtain ⟨ye, ys, ⟨ym, yn⟩, yi⟩ := y
  simp_all

/-- A number of the normal range rounded in a directed mode is not zero. -/
theorem RoundsFmt.ne_zero_normal {rm : RM} (hd : rm = .up ∨ rm = .down ∨ rm = .toZero ∨ rm = .fromZero) {P : Nat}
    (hP : 1 ≤ P) {y r : ℝ} (hy : (2 : ℝ) ^ (EMIN - 1) ≤ y) (h : RoundsFmt rm P y r) : r ≠ 0 := by
  intro hr
  have hy0 : 0 < y := lt_of_lt_of_le (by positivity) hy
  rcases h with ⟨h, -⟩ | ⟨q, h1, h2, k, -, h3⟩
  · linarith
  rw [abs_of_pos hy0] at h1 h2
  have hq : EMIN - 1 < q := (zpow_lt_zpow_iff_right₀ (by norm_num : (1 : ℝ) < 2)).1 (lt_of_le_of_lt hy h2)
  have hu : (2 : ℝ) ^ (max q EMIN - (P : ℤ)) ≤ y := by
    refine le_trans (zpow_le_zpow_right₀ (by norm_num) ?_) h1
    omega
  rw [hr] at h3
  rcases hd with rfl | rfl | rfl | rfl <;> simp only [abs_zero, zero_add, abs_of_pos hy0] at h3
  · linarith [h3.1]
  · linarith [h3.2]
  · linarith [h3.2.1]
  · linarith [h3.1]

/-- A function value in a directed mode is determined by the mode and the precision. -/
theorem ConstRounded.unique_normal {rm : RM} (hd : rm = .up ∨ rm = .down ∨ rm = .toZero ∨ rm = .fromZero) {P : Nat}
    (hP : 64 ≤ P) {y : ℝ} (hy : (2 : ℝ) ^ (EMIN - 1) ≤ y) {v v' : Num}
    (h : ConstRounded rm P y v) (h' : ConstRounded rm P y v') : v = v' := by
  refine h.wf.eq_of_toK h'.wf ?_ (by rw [h.sign, h'.sign]) (by rw [h.inexact, h'.inexact])
    ((h.directed hd).unique (by omega) (h'.directed hd)) ((h.directed hd).ne_zero_normal hd (by omega) hy)
  have := h.prec
  have := h'.prec
  omega

/-- A constant in a directed mode is determined by the mode and the precision. -/
theorem ConstRounded.unique {rm : RM} (hd : rm = .up ∨ rm = .down ∨ rm = .toZero ∨ rm = .fromZero) {P : Nat}
    (hP : 64 ≤ P) {y : ℝ} (hy : 1 / 32 ≤ y) {v v' : Num}
    (h : ConstRounded rm P y v) (h' : ConstRounded rm P y v') : v = v' := by
  refine h.unique_normal hd hP (le_trans ?_ hy) h'
  rw [show (1 / 32 : ℝ) = 2 ^ (-5 : ℤ) by norm_num]
  exact zpow_le_zpow_right₀ (by norm_num) (by unfold EMIN; norm_num)

end AF
