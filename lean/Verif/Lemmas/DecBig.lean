import Verif.Lemmas.DecNone
/-!
# The conversion of large numbers to decimal digits

When the exponent of a number exceeds the working precision the number is divided by a power of ten.
-/

namespace AF

set_option exponentiation.threshold 100000 in
theorem ten_pow_le_two {n : Nat} (hn : n ≤ 1500000000) : 10 ^ (n * 301029996 / 1000000000) ≤ 2 ^ (n + 2) := by
  set q := n * 301029996 / 1000000000 with hq
  have h1 : q * 70777 ≤ (n + 2) * 21306 := by omega
  have h2 : (10 : ℕ) ^ 21306 ≤ 2 ^ 70777 := by decide +kernel
  by_contra hc
  have h3 : (2 ^ (n + 2)) ^ 21306 < (10 ^ q) ^ 21306 := Nat.pow_lt_pow_left (by omega) (by norm_num)
  have h4 : ((10 : ℕ) ^ q) ^ 21306 ≤ 2 ^ (q * 70777) := by
    rw [← pow_mul, Nat.mul_comm q 21306, pow_mul, Nat.mul_comm q 70777, pow_mul]
    exact Nat.pow_le_pow_left h2 _
  have h5 : (2 : ℕ) ^ (q * 70777) ≤ 2 ^ ((n + 2) * 21306) := Nat.pow_le_pow_right (by norm_num) h1
  rw [pow_mul 2 (n + 2)] at h5
  omega

/-- A negative power of ten within the limit takes one division. -/
theorem toDecScale_div {x : Num} (hx : x.WF) (hx0 : (x.toK : ℚ) ≠ 0) {k w : Nat} (hk : 1 ≤ k)
    (hk2 : k ≤ TEN_PWR_MAX_TO_DEC) (hw1 : 1 ≤ w) (hw : 64 * w ≤ 2 ^ 30) (hlo : (2 : ℚ) ^ EMIN ≤ |x.toK * (10 ^ k)⁻¹|)
    (hhi : |(x.toK : ℚ) * (10 ^ k)⁻¹| < 2 ^ (EMAX - 1)) :
    ∃ y, x.toDecScale (-(k : ℤ)) (64 * w) = .ok (y, 3) ∧ ScApx (x.toK * (10 ^ k)⁻¹) (2 ^ (1 - ((64 * w : ℕ) : ℤ))) 2 y ∧
      64 * y.m.m.length = 64 * w := by
  have hrp : roundP (64 * w) = 64 * w := by unfold roundP USIZE_MAX; omega
  have hpm : 64 * w < PMAX := lt_of_le_of_lt hw (by decide)
  have hT1 : TEN_PWR_MAX_TO_DEC = 536870911 := by decide
  have hT2 : TEN_PWR_MAX_FROM_DEC = 646456991 := by decide
  have hδ : (2 : ℚ) ^ (1 - ((64 * w : ℕ) : ℤ)) ≤ 2 ^ (-63 : ℤ) := zpow_le_zpow_right₀ (by norm_num) (by omega)
  have hδ' : (2 : ℚ) ^ (1 - ((64 * w : ℕ) : ℤ)) ≤ 1 / 100 := hδ.trans (by norm_num)
  have hδ0 : (0 : ℚ) < (2 : ℚ) ^ (1 - ((64 * w : ℕ) : ℤ)) := by positivity
  rcases powi_ten (n := k) (px := 64 * w) hk (by omega) (by omega) with ⟨t, d, t1, t2, t3, t4, t5, t6, _⟩ | ⟨t1, t2⟩
  swap
  · rw [hrp] at t2
    exact absurd t2 (by omega)
  rw [hrp] at t5
  have hx1 : ScApx x.toK (2 ^ (1 - ((64 * w : ℕ) : ℤ))) 0 x := ⟨hx, ⟨1, by ring, by simp, by simp⟩, fun _ => rfl⟩
  obtain ⟨v, v1, v2, v3, _⟩ := scaleLoop_spec (T := 10 ^ k) (P := 64 * w) (px := 64 * w) (by positivity) hδ0 (by linarith) le_rfl
    t3 t4 t5 t6 (by omega) (by rw [hrp]; exact hpm) hrp true 1 0 x.toK x hx0 hx1
    (by generalize (2 : ℚ) ^ (1 - ((64 * w : ℕ) : ℤ)) = δ at *; norm_num; nlinarith)
    (by generalize (2 : ℚ) ^ (1 - ((64 * w : ℕ) : ℤ)) = δ at *; norm_num; nlinarith) (by
      intro j h1 h2
      obtain rfl : j = 1 := by omega
      simp only [if_true, pow_one]
      exact ⟨hlo, hhi⟩)
  simp only [if_true, pow_one, mul_one, zero_add] at v2
  refine ⟨v, ?_, v2, v3 (by norm_num)⟩
  unfold Num.toDecScale
  simp only [Int.natAbs_neg, Int.natAbs_natCast]
  rw [if_neg (by omega), if_neg (by omega)]
  dsimp only
  rw [if_pos (by omega), Nat.zero_mul, Nat.sub_zero, t1]
  dsimp only
  rw [show decide (-(k : ℤ) < 0) = true from by simp; omega, v1]

/-- The integer made from a scaled number that has at least the working precision. -/
theorem scaled_core {x y : Num} {T : ℚ} {w : Nat} (hw1 : 1 ≤ w) (hT : 0 < T)
    (hXlo : (2 : ℚ) ^ (((64 * w : ℕ) : ℤ) - 1) * (1 + 1 / 2 ^ 16) ≤ |x.toK| * T)
    (hXhi : |(x.toK : ℚ)| * T < 2 ^ (((64 * w : ℕ) : ℤ) + 9))
    (y2 : ScApx (x.toK * T) (2 ^ (1 - ((64 * w : ℕ) : ℤ))) 2 y) (y3 : 64 * y.m.m.length = 64 * w) :
    ∃ (shift : Nat) (m : Mantissa), ((64 * w : ℕ) : ℤ) ≤ y.e ∧ shift = (y.e - ((64 * w : ℕ) : ℤ)).toNat ∧
      m = (if shift > 0 then y.m.shiftLeftResize shift else y.m) ∧ shift ≤ 10 ∧
      Wf m.m ∧ m.n = Nat.size (val m.m) ∧ m.n = 64 * w + shift ∧ |(|x.toK| * T : ℚ) - val m.m| ≤ 2 ^ (shift + 3) ∧
      2 ^ (64 * w - 1) ≤ val m.m ∧ (y.inexact = false → (val m.m : ℚ) = |x.toK| * T) := by
  have hEM : EMIN = -2147483648 := rfl
  have habs : |(x.toK : ℚ) * T| = |x.toK| * T := by rw [abs_mul, abs_of_pos hT]
  obtain ⟨c, c1, c2, c3⟩ := y2.ex
  have hδ0 : (0 : ℚ) < 2 ^ (1 - ((64 * w : ℕ) : ℤ)) := by positivity
  have hδ1 : (2 : ℚ) ^ (1 - ((64 * w : ℕ) : ℤ)) ≤ 1 / 2 ^ 20 :=
    le_trans (zpow_le_zpow_right₀ (by norm_num) (show 1 - ((64 * w : ℕ) : ℤ) ≤ -20 by omega)) (by norm_num)
  have hδe : (2 : ℚ) ^ (1 - ((64 * w : ℕ) : ℤ)) = 2 * (2 ^ ((64 * w : ℕ) : ℤ))⁻¹ := by
    rw [zpow_sub₀ (by norm_num), zpow_one]; rfl
  set δ : ℚ := 2 ^ (1 - ((64 * w : ℕ) : ℤ)) with hδ
  set X : ℚ := |x.toK| * T with hX
  have hcl : 1 - 2 * δ ≤ c := by nlinarith
  have hch : c ≤ 1 + 3 * δ := by nlinarith
  have hc0 : 0 < c := by linarith
  have hya : |(y.toK : ℚ)| = X * c := by rw [c1, abs_mul, habs, abs_of_pos hc0]
  have hp1 : (2 : ℚ) ^ (((64 * w : ℕ) : ℤ) - 1) = 2 ^ (64 * w - 1) := by
    rw [← zpow_natCast]; congr 1; omega
  rw [hp1] at hXlo
  have hX0 : 0 < X := by
    have : (0 : ℚ) < 2 ^ (64 * w - 1) := by positivity
    nlinarith
  have hylo : (2 : ℚ) ^ (64 * w - 1) ≤ |y.toK| := by
    rw [hya]
    have h0 : (0 : ℚ) < 2 ^ (64 * w - 1) := by positivity
    generalize (2 : ℚ) ^ (64 * w - 1) = t at *
    have : t * (1 + 1 / 2 ^ 16) * (1 - 2 * δ) ≤ X * c := mul_le_mul hXlo hcl (by linarith) hX0.le
    have h2 : 1 ≤ (1 + 1 / 2 ^ 16) * (1 - 2 * δ) := by nlinarith
    nlinarith
  have hy0 : (y.toK : ℚ) ≠ 0 := by
    intro h; rw [h, abs_zero] at hylo
    have : (0 : ℚ) < 2 ^ (64 * w - 1) := by positivity
    linarith
  have hye : ((64 * w : ℕ) : ℤ) ≤ y.e := by
    have h1 : (2 : ℚ) ^ (((64 * w : ℕ) : ℤ) - 1) < 2 ^ y.e := by
      rw [hp1]; exact lt_of_le_of_lt hylo y2.wf.abs_lt_zpow
    have := (zpow_lt_zpow_iff_right₀ (by norm_num : (1 : ℚ) < 2)).1 h1
    omega
  have hye2 : y.e ≤ ((64 * w : ℕ) : ℤ) + 10 := by
    have h1 : (2 : ℚ) ^ (y.e - 1) < 2 ^ (((64 * w : ℕ) : ℤ) + 10) := by
      refine lt_of_le_of_lt (normal_of_e y2.wf hy0 (by omega)).2 ?_
      rw [hya, show ((64 * w : ℕ) : ℤ) + 10 = ((64 * w : ℕ) : ℤ) + 9 + 1 by ring, zpow_add_one₀ (by norm_num)]
      have : c < 2 := by linarith
      nlinarith
    have := (zpow_lt_zpow_iff_right₀ (by norm_num : (1 : ℚ) < 2)).1 h1
    omega
  obtain ⟨m1, m2, m3, m4⟩ := toDec_int y2.wf y3 hw1 hye hy0
  set shift := (y.e - ((64 * w : ℕ) : ℤ)).toNat with hshift
  set m := if shift > 0 then y.m.shiftLeftResize shift else y.m with hm
  have herr : |X - val m.m| ≤ 2 ^ (shift + 3) := by
    rw [m4, hya]
    rw [pow_add]
    refine scale_err hX0 hδ0 hδ1 hcl hch (t := 2 ^ (64 * w : ℕ)) ?_ ?_ (by positivity)
    · rw [← hya, ← pow_add, ← zpow_natCast]
      refine lt_of_lt_of_le y2.wf.abs_lt_zpow (zpow_le_zpow_right₀ (by norm_num) ?_)
      push_cast at hye ⊢
      omega
    · rw [hδe, zpow_natCast]; field_simp
  have hNlo : 2 ^ (64 * w - 1) ≤ val m.m := by
    rw [← m4] at hylo; exact_mod_cast hylo
  refine ⟨shift, m, hye, hshift, hm, by omega, m1, m2, m3, herr, hNlo, fun hi => ?_⟩
  rw [m4, y2.exact hi, habs]

/-- An integer that is a number with a large exponent scaled by a power of ten is even many times. -/
theorem dec_two_dvd {v N : Nat} {a nw : ℤ} (h1 : 14 ≤ a + nw) (h2 : 14 ≤ a) (h : (N : ℚ) = v * 2 ^ a * 10 ^ nw) : 2 ^ 14 ∣ N := by
  obtain ⟨b, hb⟩ : ∃ b : ℕ, a = b := ⟨a.toNat, by omega⟩
  subst hb
  rw [zpow_natCast] at h
  rcases le_total 0 nw with hn | hn
  · obtain ⟨k, rfl⟩ := Int.eq_ofNat_of_zero_le hn
    have h3 : N = v * 2 ^ b * 10 ^ k := by
      rw [zpow_natCast] at h
      exact_mod_cast h
    rw [h3]
    exact Dvd.dvd.mul_right (Dvd.dvd.mul_left (pow_dvd_pow 2 (by omega)) _) _
  · obtain ⟨k, hk⟩ := Int.eq_ofNat_of_zero_le (neg_nonneg.2 hn)
    have hk' : nw = -(k : ℤ) := by omega
    subst hk'
    have h3 : N * 10 ^ k = v * 2 ^ b := by
      rw [zpow_neg, zpow_natCast] at h
      have : (N : ℚ) * 10 ^ k = v * 2 ^ b := by rw [h]; field_simp
      exact_mod_cast this
    have h4 : 2 ^ k * 2 ^ 14 ∣ 2 ^ k * (N * 5 ^ k) := by
      rw [show 2 ^ k * (N * 5 ^ k) = N * 10 ^ k by rw [show (10 : ℕ) = 2 * 5 from rfl, mul_pow]; ring, h3, ← pow_add]
      exact Dvd.dvd.mul_left (pow_dvd_pow 2 (by omega)) _
    have h5 := Nat.dvd_of_mul_dvd_mul_left (by positivity) h4
    exact Nat.Coprime.dvd_of_dvd_mul_right (Nat.Coprime.pow 14 k (by decide)) h5

/-- The power of ten a round uses for a large number. -/
theorem toDec_scaled_big {x : Num} (hx : x.WF) (hx0 : (x.toK : ℚ) ≠ 0) {w : Nat} (hw1 : 1 ≤ w) (hw : 64 * w ≤ 2 ^ 30)
    (he1 : ((64 * w : ℕ) : ℤ) ≤ x.e + 64) (he2 : x.e ≤ 1500000000) (hlen : 64 * x.m.m.length + 128 ≤ 64 * w)
    (he3 : ¬ (((64 * w : ℕ) : ℤ) + 4 ≤ x.e ∧ x.e ≤ ((64 * w : ℕ) : ℤ) + 6)) :
    ∃ (nw : ℤ) (y : Num) (shift : Nat) (m : Mantissa),
      Int.tdiv ((((64 * w : ℕ) : ℤ) - x.e + (0 : ℕ)) * 301029996) 1000000000 + 1 = nw ∧ -500000000 ≤ nw ∧ nw ≤ 100 ∧
      ({ x with inexact := false } : Num).toDecScale nw (64 * w) = .ok (y, 3) ∧
      ((64 * w : ℕ) : ℤ) ≤ y.e ∧ shift = (y.e - ((64 * w : ℕ) : ℤ)).toNat ∧
      m = (if shift > 0 then y.m.shiftLeftResize shift else y.m) ∧ shift ≤ 10 ∧
      Wf m.m ∧ m.n = Nat.size (val m.m) ∧ m.n = 64 * w + shift ∧ |(|x.toK| * 10 ^ nw : ℚ) - val m.m| ≤ 2 ^ (shift + 3) ∧
      2 ^ (64 * w - 1) ≤ val m.m ∧ (y.inexact = false → (|x.toK| * 10 ^ nw : ℚ) = val m.m ∧ 2 ^ 14 ∣ val m.m) := by
  have hEM : EMIN = -2147483648 := rfl
  have hEX : EMAX = 2147483647 := rfl
  have hT1 : TEN_PWR_MAX_TO_DEC = 536870911 := by decide
  have hz : ∀ a b : ℤ, (2 : ℚ) ^ a * 2 ^ b = 2 ^ (a + b) := fun a b => (zpow_add₀ (by norm_num) a b).symm
  have hxlt : |(x.toK : ℚ)| < 2 ^ x.e := hx.abs_lt_zpow
  have hxge : (2 : ℚ) ^ (x.e - 1) ≤ |x.toK| := (normal_of_e hx hx0 (by omega)).2
  have hx' : ({ x with inexact := false } : Num).WF := ⟨hx.wf, hx.bits, hx.emin, hx.emax, hx.norm, hx.sized⟩
  -- the power of ten and its size
  have hpow : ∃ nw : ℤ, Int.tdiv ((((64 * w : ℕ) : ℤ) - x.e + (0 : ℕ)) * 301029996) 1000000000 + 1 = nw ∧
      nw ≠ 0 ∧ -500000000 ≤ nw ∧ nw ≤ 100 ∧ 14 ≤ x.e - (64 * x.m.m.length : ℕ) + nw ∧
      (2 : ℚ) ^ (((64 * w : ℕ) : ℤ) - x.e) * (1 + 1 / 2 ^ 16) ≤ 10 ^ nw ∧ (10 : ℚ) ^ nw ≤ 2 ^ (((64 * w : ℕ) : ℤ) - x.e + 9) := by
    rcases le_total x.e (64 * w : ℕ) with h | h
    · obtain ⟨j, hj⟩ : ∃ j : ℕ, ((64 * w : ℕ) : ℤ) - x.e = j := ⟨(((64 * w : ℕ) : ℤ) - x.e).toNat, by omega⟩
      refine ⟨_, nwrk_eq hj rfl, by omega, by omega, by omega, by omega, ?_, ?_⟩
      · rw [hj, zpow_natCast, zpow_natCast]
        exact ten_pow_ge j
      · have h1 := ten_pow_le (n := j) (by omega)
        have h2 : (10 : ℚ) ^ (j * 301029996 / 1000000000) ≤ 2 ^ (j + 5) := by exact_mod_cast h1
        rw [hj, show (j : ℤ) + 9 = ((j + 9 : ℕ) : ℤ) by push_cast; ring, zpow_natCast, zpow_natCast, pow_succ,
          show j + 9 = j + 5 + 4 by ring, pow_add 2 (j + 5)]
        nlinarith [show (0 : ℚ) < 10 ^ (j * 301029996 / 1000000000) by positivity]
    · obtain ⟨J, hJ⟩ : ∃ J : ℕ, x.e - ((64 * w : ℕ) : ℤ) = J := ⟨(x.e - ((64 * w : ℕ) : ℤ)).toNat, by omega⟩
      have hnw : Int.tdiv ((((64 * w : ℕ) : ℤ) - x.e + (0 : ℕ)) * 301029996) 1000000000 + 1 =
          1 - ((J * 301029996 / 1000000000 : ℕ) : ℤ) := by
        rw [show (((64 * w : ℕ) : ℤ) - x.e + (0 : ℕ)) * 301029996 = -((J : ℤ) * 301029996) by push_cast at hJ ⊢; linarith,
          Int.neg_tdiv, Int.tdiv_eq_ediv_of_nonneg (by positivity)]
        push_cast
        ring
      have hJe : ((64 * w : ℕ) : ℤ) - x.e = -(J : ℤ) := by omega
      rw [hnw, hJe]
      by_cases hJ3 : J ≤ 3
      · rw [show J * 301029996 / 1000000000 = 0 by omega]
        refine ⟨_, rfl, by norm_num, by norm_num, by norm_num, by push_cast; omega, ?_, ?_⟩
        · have h1 : (2 : ℚ) ^ (-(J : ℤ)) ≤ 2 ^ (0 : ℤ) := zpow_le_zpow_right₀ (by norm_num) (by omega)
          norm_num at h1 ⊢
          linarith
        · have h1 : (2 : ℚ) ^ (6 : ℤ) ≤ 2 ^ (-(J : ℤ) + 9) := zpow_le_zpow_right₀ (by norm_num) (by omega)
          refine le_trans (by norm_num) h1
      · obtain ⟨K, hK⟩ : ∃ K, J * 301029996 / 1000000000 = K + 1 := ⟨J * 301029996 / 1000000000 - 1, by omega⟩
        have hK1 : 1 ≤ K := by omega
        have hT : (0 : ℚ) < 10 ^ K := by positivity
        have hE : (0 : ℚ) < 2 ^ J := by positivity
        refine ⟨-(K : ℤ), by rw [hK]; push_cast; ring, by omega, by omega, by omega, by omega, ?_, ?_⟩
        · have h1 := ten_pow_le_two (n := J) (by omega)
          rw [hK] at h1
          have h2 : (10 : ℚ) ^ (K + 1) ≤ 2 ^ (J + 2) := by exact_mod_cast h1
          rw [pow_succ, pow_add 2 J] at h2
          rw [zpow_neg, zpow_neg, zpow_natCast, zpow_natCast, ← div_eq_inv_mul, div_le_iff₀ hE, inv_mul_eq_div, le_div_iff₀ hT]
          nlinarith
        · have h1 := ten_pow_ge J
          rw [hK, show (10 : ℚ) ^ (K + 1 + 1) = 100 * 10 ^ K by ring] at h1
          rw [zpow_add₀ (by norm_num), zpow_neg, zpow_neg, zpow_natCast, zpow_natCast, inv_le_iff_one_le_mul₀ hT]
          rw [show ((2 : ℚ) ^ J)⁻¹ * 2 ^ (9 : ℤ) * 10 ^ K = (512 * 10 ^ K) / 2 ^ J by norm_num; field_simp, le_div_iff₀ hE]
          nlinarith
  obtain ⟨nw, n1, n2, n3, n4, n5, n6, n7⟩ := hpow
  have hT : (0 : ℚ) < 10 ^ nw := by positivity
  have hXlo : (2 : ℚ) ^ (((64 * w : ℕ) : ℤ) - 1) * (1 + 1 / 2 ^ 16) ≤ |x.toK| * 10 ^ nw := by
    calc (2 : ℚ) ^ (((64 * w : ℕ) : ℤ) - 1) * (1 + 1 / 2 ^ 16) = 2 ^ (x.e - 1) * (2 ^ (((64 * w : ℕ) : ℤ) - x.e) * (1 + 1 / 2 ^ 16)) := by
          rw [← mul_assoc, hz]; congr 2; ring
      _ ≤ _ := mul_le_mul hxge n6 (by positivity) (abs_nonneg _)
  have hXhi : |(x.toK : ℚ)| * 10 ^ nw < 2 ^ (((64 * w : ℕ) : ℤ) + 9) := by
    calc |(x.toK : ℚ)| * 10 ^ nw < 2 ^ x.e * 10 ^ nw := mul_lt_mul_of_pos_right hxlt hT
      _ ≤ 2 ^ x.e * 2 ^ (((64 * w : ℕ) : ℤ) - x.e + 9) := mul_le_mul_of_nonneg_left n7 (by positivity)
      _ = _ := by rw [hz]; congr 1; ring
  have habs : |(x.toK : ℚ) * 10 ^ nw| = |x.toK| * 10 ^ nw := by rw [abs_mul, abs_of_pos hT]
  have hlo : (2 : ℚ) ^ EMIN ≤ |x.toK * 10 ^ nw| := by
    rw [habs]
    refine le_trans ?_ hXlo
    have h1 : (2 : ℚ) ^ EMIN ≤ 2 ^ (((64 * w : ℕ) : ℤ) - 1) := zpow_le_zpow_right₀ (by norm_num) (by omega)
    have h2 : (0 : ℚ) < 2 ^ (((64 * w : ℕ) : ℤ) - 1) := by positivity
    generalize (2 : ℚ) ^ (((64 * w : ℕ) : ℤ) - 1) = t at *
    generalize (2 : ℚ) ^ EMIN = t' at *
    nlinarith
  have hhi : |(x.toK : ℚ) * 10 ^ nw| < 2 ^ (EMAX - 1) := by
    rw [habs]
    exact lt_of_lt_of_le hXhi (zpow_le_zpow_right₀ (by norm_num) (by omega))
  have hy : ∃ y, ({ x with inexact := false } : Num).toDecScale nw (64 * w) = .ok (y, 3) ∧
      ScApx (x.toK * 10 ^ nw) (2 ^ (1 - ((64 * w : ℕ) : ℤ))) 2 y ∧ 64 * y.m.m.length = 64 * w := by
    rcases lt_or_gt_of_ne n2 with h | h
    · obtain ⟨K, hK⟩ : ∃ K : ℕ, nw = -(K : ℤ) := ⟨nw.natAbs, by omega⟩
      subst hK
      rw [zpow_neg, zpow_natCast] at hlo hhi ⊢
      exact toDecScale_div (x := { x with inexact := false }) hx' hx0 (by omega) (by omega) hw1 hw hlo hhi
    · obtain ⟨K, hK⟩ : ∃ K : ℕ, nw = (K : ℤ) := ⟨nw.natAbs, by omega⟩
      subst hK
      rw [zpow_natCast] at hlo hhi ⊢
      obtain ⟨y, y1, y2, y3, _⟩ := toDecScale_one (x := { x with inexact := false }) hx' hx0 (by omega) (by omega) hw1 hw hlo hhi
      exact ⟨y, y1, y2, y3⟩
  obtain ⟨y, y1, y2, y3⟩ := hy
  obtain ⟨shift, m, c1, c2, c3, c4, c5, c6, c7, c8, c9, c10⟩ := scaled_core (x := x) hw1 hT hXlo hXhi y2 y3
  refine ⟨nw, y, shift, m, n1, n3, n4, y1, c1, c2, c3, c4, c5, c6, c7, c8, c9, fun hi => ⟨(c10 hi).symm, ?_⟩⟩
  refine dec_two_dvd (v := val x.m.m) (a := x.e - (64 * x.m.m.length : ℕ)) (nw := nw) n5 (by omega) ?_
  rw [c10 hi, Num.abs_val]

/-- The exponent enters the rounding attempt only as a summand. -/
theorem toDecTail_shift {s : Sign} {rm : RM} {n shift acc : Nat} {ix : Bool} {ds : List Nat} {nw : ℤ}
    (hlen : ds.length ≤ 2 ^ 30 + 20) (h1 : -500000000 ≤ nw) (h2 : nw ≤ 100) :
    Num.toDecTail s rm n nw shift acc ix ds = match Num.toDecTail s rm n 0 shift acc ix ds with
      | .done (.ok d) => .done (.ok (d.1, d.2.1, d.2.2 - nw))
      | o => o := by
  have hEM : EMIN = -2147483648 := rfl
  have hEX : EMAX = 2147483647 := rfl
  unfold Num.toDecTail
  dsimp only
  rw [show (EMIN - ((ds.length : ℤ) - nw)).toNat = 0 by omega, show (EMIN - ((ds.length : ℤ) - 0)).toNat = 0 by omega,
    show max ((ds.length : ℤ) - nw) EMIN = (ds.length : ℤ) - nw by omega,
    show max ((ds.length : ℤ) - 0) EMIN = (ds.length : ℤ) by omega]
  generalize (ds.length : ℤ) - ((shift + acc) * 301029996 / 1000000000 : ℕ) - 1 = valid
  by_cases hc : ds.length > n ∧ valid > n
  swap
  · rw [if_neg hc, if_neg hc]
  rw [if_pos hc, if_pos hc]
  unfold tryRoundDec
  by_cases hn : n > 0
  swap
  · rw [if_neg hn, if_neg hn]
    simp [Num.toDecFinish]
  rw [if_pos hn, if_pos hn]
  dsimp only
  generalize roundDec (ds.take valid.toNat) n rm s.isPos ix = r
  rcases r with ⟨ds', fl, chk⟩
  cases chk
  · cases fl
    · simp [Num.toDecFinish]
    · simp only [Bool.false_eq_true, if_false, if_true]
      rw [if_neg (by omega), if_neg (by omega)]
      simp [Num.toDecFinish]
      ring
  · simp

theorem toDecTail_exp {s : Sign} {rm : RM} {n shift acc : Nat} {ix : Bool} {ds : List Nat} {d : Digits}
    (hlen : ds.length ≤ 2 ^ 30 + 20) (h : Num.toDecTail s rm n 0 shift acc ix ds = .done (.ok d)) :
    0 ≤ d.2.2 ∧ d.2.2 ≤ 2 ^ 30 + 21 := by
  have hEM : EMIN = -2147483648 := rfl
  have hEX : EMAX = 2147483647 := rfl
  unfold Num.toDecTail at h
  dsimp only at h
  rw [show (EMIN - ((ds.length : ℤ) - 0)).toNat = 0 by omega,
    show max ((ds.length : ℤ) - 0) EMIN = (ds.length : ℤ) by omega] at h
  generalize (ds.length : ℤ) - ((shift + acc) * 301029996 / 1000000000 : ℕ) - 1 = valid at h
  by_cases hc : ds.length > n ∧ valid > n
  swap
  · rw [if_neg hc] at h; cases h
  rw [if_pos hc] at h
  unfold tryRoundDec at h
  by_cases hn : n > 0
  swap
  · rw [if_neg hn] at h
    simp only [Num.toDecFinish, gt_iff_lt, lt_irrefl, false_and, if_false] at h
    injection h with h
    injection h with h
    subst h
    dsimp only
    omega
  rw [if_pos hn] at h
  dsimp only at h
  generalize roundDec (ds.take valid.toNat) n rm s.isPos ix = r at h
  rcases r with ⟨ds', fl, chk⟩
  cases chk
  · cases fl
    · simp only [Bool.false_eq_true, if_false, Num.toDecFinish, gt_iff_lt, lt_irrefl, false_and] at h
      injection h with h
      injection h with h
      subst h
      dsimp only
      omega
    · simp only [Bool.false_eq_true, if_false, if_true] at h
      rw [if_neg (by omega)] at h
      simp only [if_false, Num.toDecFinish, gt_iff_lt, lt_irrefl, false_and] at h
      injection h with h
      injection h with h
      subst h
      dsimp only
      omega
  · simp at h

theorem radixVal_shift (d : Digits) (nw : ℤ) : (radixVal 10 (d.1, d.2.1, d.2.2 - nw) : ℚ) = radixVal 10 d * 10 ^ (-nw) := by
  unfold radixVal
  dsimp only
  rw [mul_assoc _ _ ((10 : ℚ) ^ (-nw)), show d.2.2 - nw - (d.2.1.length : ℤ) = d.2.2 - d.2.1.length + -nw by ring]
  congr 1
  exact zpow_add₀ (by norm_num) _ _

theorem roundsDec_shift {rm : RM} {n : Nat} {x r : ℚ} (h : RoundsDec rm n x r) (a : ℤ) :
    RoundsDec rm n (x * 10 ^ a) (r * 10 ^ a) := by
  obtain ⟨q, h1, h2, h3⟩ := h
  have ha : (0 : ℚ) < 10 ^ a := by positivity
  refine ⟨q + a, ?_, ?_, ?_⟩
  · rw [abs_mul, abs_of_pos ha, show q + a - 1 = q - 1 + a by ring, zpow_add₀ (by norm_num)]
    exact mul_le_mul_of_nonneg_right h1 ha.le
  · rw [abs_mul, abs_of_pos ha, zpow_add₀ (by norm_num)]
    exact mul_lt_mul_of_pos_right h2 ha
  · rw [show q + a - n = q - n + a by ring, zpow_add₀ (by norm_num)]
    exact rounds_scale h3 ha

theorem closeDec_shift {n : Nat} {x r : ℚ} (h : CloseDec n x r) (a : ℤ) : CloseDec n (x * 10 ^ a) (r * 10 ^ a) := by
  obtain ⟨q, h1, h2, h3⟩ := h
  have ha : (0 : ℚ) < 10 ^ a := by positivity
  refine ⟨q + a, ?_, ?_, ?_⟩
  · rw [abs_mul, abs_of_pos ha, show q + a - 1 = q - 1 + a by ring, zpow_add₀ (by norm_num)]
    exact mul_le_mul_of_nonneg_right h1 ha.le
  · rw [abs_mul, abs_of_pos ha, zpow_add₀ (by norm_num)]
    exact mul_lt_mul_of_pos_right h2 ha
  · rw [show q + a - n = q - n + a by ring, zpow_add₀ (by norm_num), ← sub_mul, abs_mul, abs_of_pos ha, mul_right_comm]
    exact mul_le_mul_of_nonneg_right h3 ha.le

/-- A round on a large number: its digits and the rounding attempt. -/
theorem toDecBody_big {x : Num} (hx : x.WF) (hx0 : (x.toK : ℚ) ≠ 0) {w n : Nat} (rm : RM) (hw : 64 * w ≤ 2 ^ 30)
    (he1 : ((64 * w : ℕ) : ℤ) ≤ x.e + 64) (he2 : x.e ≤ 1500000000) (hlen : 64 * x.m.m.length + 128 ≤ 64 * w)
    (he3 : ¬ (((64 * w : ℕ) : ℤ) + 4 ≤ x.e ∧ x.e ≤ ((64 * w : ℕ) : ℤ) + 6)) (hnw : 10 ^ (n + 17) ≤ 2 ^ (64 * w - 1))
    {tp : List TenPow} (htp : TenHist tp)
    (hgap : ∀ (k : ℤ) (v : ℕ), v < 2 ^ (64 * w + 10) → |(|x.toK| * 10 ^ k : ℚ) - v| ≤ 2 ^ 13 → GapFree v) :
    ∃ (nw : ℤ) (shift : Nat) (ix : Bool) (ds : List Nat) (tp' : List TenPow), TenHist tp' ∧
      x.toDecBody rm n 0 64 (64 * w) tp = (Num.toDecTail x.s rm n nw shift 3 ix ds, tp') ∧ -500000000 ≤ nw ∧ nw ≤ 100 ∧
      shift ≤ 10 ∧ (∀ d ∈ ds, d ≤ 9) ∧ ds.head? ≠ some 0 ∧ n + 17 ≤ ds.length ∧ ds.length ≤ 2 ^ 30 + 20 ∧
      |(|x.toK| * 10 ^ nw : ℚ) - digNat 10 ds| ≤ 2 ^ (shift + 3) ∧ 2 ^ (64 * w - 1) ≤ digNat 10 ds ∧
      (ix = false → (|x.toK| * 10 ^ nw : ℚ) = digNat 10 ds ∧ ∃ c, 10 ^ 4 < c ∧ c ∣ 10 ^ 14 ∧ c ∣ digNat 10 ds) := by
  obtain ⟨nw, y, shift, m, n1, n3, n4, y1, hye, hshift, hm, hsh, m1, m2, m3, herr, hNlo, hexact⟩ :=
    toDec_scaled_big hx hx0 (by omega) hw he1 he2 hlen he3
  have herr13 : |(|x.toK| * 10 ^ nw : ℚ) - val m.m| ≤ 2 ^ 13 := herr.trans (pow_le_pow_right₀ (by norm_num) (by omega))
  have hNhi : val m.m < 2 ^ (64 * w + shift) := by
    rw [← m3, m2]; exact Nat.lt_size_self _
  have hNhi10 : val m.m < 2 ^ (64 * w + 10) := lt_of_lt_of_le hNhi (Nat.pow_le_pow_right (by norm_num) (by omega))
  obtain ⟨ds, d1, d2, d3, d4⟩ := C33_to_dec_partial tp htp m m1 m2 (by omega) (hgap _ _ hNhi10 herr13)
  have hdlt := digNat_lt (b := 10) (ds := ds) (by norm_num) (fun d h => by have := d3 d h; omega)
  rw [d2] at hdlt
  have hlen1 : n + 17 < ds.length := by
    by_contra hc
    have : 10 ^ ds.length ≤ 10 ^ (n + 17) := Nat.pow_le_pow_right (by norm_num) (by omega)
    omega
  have hdge : 10 ^ (ds.length - 1) ≤ val m.m := by
    rw [← d2]
    cases ds with
    | nil => simp at hlen1
    | cons a l =>
      have ha : a ≠ 0 := by
        intro h; exact d4 (by simp [h])
      simpa using digNat_ge (b := 10) (ds := l) ha
  have hlen2 : ds.length ≤ 2 ^ 30 + 20 := by
    by_contra hc
    have h1 : 2 ^ (ds.length - 1) ≤ 10 ^ (ds.length - 1) := Nat.pow_le_pow_left (by norm_num) _
    have h2 : 2 ^ (64 * w + shift) ≤ 2 ^ (ds.length - 1) := Nat.pow_le_pow_right (by norm_num) (by omega)
    omega
  have hbody : x.toDecBody rm n 0 64 (64 * w) tp =
      (Num.toDecTail x.s rm n nw shift 3 y.inexact ds, tenpowers tp (Num.decDepth m.n)) := by
    have hb : x.toDecBody rm n 0 64 (64 * w) tp = Num.toDecDigits x.s rm n 64 (64 * w) nw y 3 tp := by
      unfold Num.toDecBody
      simp only [n1, y1]
    rw [hb]
    unfold Num.toDecDigits
    rw [if_neg (show ¬ 3 > 64 by omega), if_neg (not_lt.2 hye)]
    dsimp only
    rw [← hshift, ← hm]
    exact toDecConv_eq d1
  rw [← d2] at herr hNlo hexact
  exact ⟨nw, shift, y.inexact, ds, _, TenHist.request _ htp, hbody, n3, n4, hsh, d3, d4, by omega, hlen2, herr, hNlo,
    fun hi => ⟨(hexact hi).1, 2 ^ 14, by norm_num, by norm_num, (hexact hi).2⟩⟩

/-- A round on a large number ends the loop. -/
theorem toDecLoop_big {x : Num} (hx : x.WF) (hx0 : (x.toK : ℚ) ≠ 0) {w n : Nat} (rm : RM) (hw : 64 * w ≤ 2 ^ 30) (hn0 : 0 < n)
    (he1 : ((64 * w : ℕ) : ℤ) ≤ x.e + 64) (he2 : x.e ≤ 1500000000) (hlen : 64 * x.m.m.length + 128 ≤ 64 * w)
    (he3 : ¬ (((64 * w : ℕ) : ℤ) + 4 ≤ x.e ∧ x.e ≤ ((64 * w : ℕ) : ℤ) + 6)) (hnw : 10 ^ (n + 17) ≤ 2 ^ (64 * w - 1))
    {tp : List TenPow} (htp : TenHist tp)
    (hgap : ∀ (k : ℤ) (v : ℕ), v < 2 ^ (64 * w + 10) → |(|x.toK| * 10 ^ k : ℚ) - v| ≤ 2 ^ 13 → GapFree v)
    (hfar : rm ≠ .none → ∀ (z : ℕ) (q : ℤ), 10 ^ (q - 1) ≤ 2 * |(x.toK : ℚ)| → |(x.toK : ℚ)| < 2 * 10 ^ q →
        40000 * 10 ^ q / 2 ^ (64 * w) ≤ |(|x.toK| : ℚ) - z * 10 ^ (q - n - 1)|) (f c : Nat) :
    ∃ d : Digits, (x.toDecLoop rm n 0 (f + 1) 64 (64 * w) c tp).1 = .ok d ∧ (d.1 = x.s ∧ EMIN ≤ d.2.2 ∧ d.2.2 ≤ EMAX) ∧ d.2.1.length ≤ n ∧
      (∀ v ∈ d.2.1, v ≤ 9) ∧ if rm = .none then CloseDec n x.toK (radixVal 10 d) else RoundsDec rm n x.toK (radixVal 10 d) := by
  have hEM : EMIN = -2147483648 := rfl
  have hEX : EMAX = 2147483647 := rfl
  obtain ⟨nw, shift, ix, ds, tp', b0, b1, b2, b3, b4, b5, b6, b7, b8, b9, b10, b11⟩ := toDecBody_big hx hx0 (n := n) rm hw he1 he2
    hlen he3 hnw htp hgap
  have hT : (0 : ℚ) < 10 ^ nw := by positivity
  set X : ℚ := |x.toK| * 10 ^ nw with hX
  have hsx : (x.s.toK : ℚ) * X / 10 ^ 0 * 10 ^ (-nw) = x.toK := by
    rw [hX, pow_zero, div_one, zpow_neg, ← mul_assoc, mul_assoc (_ * _ : ℚ), mul_inv_cancel₀ hT.ne', mul_one]
    rw [Num.abs_val]; unfold Num.toK; ring
  have hloop : ∀ d : Digits, Num.toDecTail x.s rm n 0 shift 3 ix ds = .done (.ok d) →
      (x.toDecLoop rm n 0 (f + 1) 64 (64 * w) c tp).1 = .ok (d.1, d.2.1, d.2.2 - nw) := by
    intro d hd
    rw [toDecTail_shift b8 b2 b3, hd] at b1
    unfold Num.toDecLoop
    rw [b1]
  by_cases hrm : rm = .none
  · subst hrm
    obtain ⟨d, t1, ⟨t2, t2a, t2b⟩, t3, t4, t5⟩ := toDecTail_none (s := x.s) (n := n) (k := 0) (ix := ix) b5 b6 (by omega) (by omega) b8 b4 b7 b9
    refine ⟨_, hloop d t1, ⟨t2, ?_, ?_⟩, t3, t4, ?_⟩
    · have := toDecTail_exp b8 t1; dsimp only; omega
    · have := toDecTail_exp b8 t1; dsimp only; omega
    · rw [if_pos rfl, radixVal_shift, ← hsx]
      exact closeDec_shift t5 _
  · rcases toDecTail_spec (s := x.s) (n := n) (k := 0) (ix := ix) hrm b5 b6 (by omega) (by omega) b8 b4 b7 b9 b11 with
      ⟨t1, t0, z, t2⟩ | ⟨d, t1, ⟨t2, t2a, t2b⟩, t3, t4, t5⟩
    · exfalso
      have hdlt := digNat_lt (b := 10) (ds := ds) (by norm_num) (fun d h => by have := b5 d h; omega)
      have hdge : 10 ^ (ds.length - 1) ≤ digNat 10 ds := by
        cases ds with
        | nil => simp at b7
        | cons a l =>
          have ha : a ≠ 0 := by
            intro h; exact b6 (by simp [h])
          simpa using digNat_ge (b := 10) (ds := l) ha
      have hNq : (2 : ℚ) ^ (64 * w - 1) ≤ digNat 10 ds := by exact_mod_cast b10
      have hp63 : (2 : ℚ) ^ 63 ≤ 2 ^ (64 * w - 1) := pow_le_pow_right₀ (by norm_num) (by omega)
      have herr13 : |X - digNat 10 ds| ≤ 2 ^ 13 := b9.trans (pow_le_pow_right₀ (by norm_num) (by omega))
      obtain ⟨e1, e2⟩ := abs_le.1 herr13
      norm_num at e1 e2 hp63
      have hz : ∀ a : ℤ, (10 : ℚ) ^ (a - nw) = 10 ^ a / 10 ^ nw := fun a => zpow_sub₀ (by norm_num) _ _
      have g1 : (10 : ℚ) ^ (ds.length - 1) ≤ digNat 10 ds := by exact_mod_cast hdge
      have g2 : (digNat 10 ds : ℚ) < 10 ^ ds.length := by exact_mod_cast hdlt
      have hq1 : (10 : ℚ) ^ ((ds.length : ℤ) - nw - 1) = 10 ^ (ds.length - 1) / 10 ^ nw := by
        rw [show (ds.length : ℤ) - nw - 1 = ((ds.length - 1 : ℕ) : ℤ) - nw by omega, hz, zpow_natCast]
      have hq2 : (10 : ℚ) ^ ((ds.length : ℤ) - nw) = 10 ^ ds.length / 10 ^ nw := by rw [hz, zpow_natCast]
      have hq3 : (10 : ℚ) ^ ((ds.length : ℤ) - nw - n - 1) = 10 ^ (ds.length - n - 1) / 10 ^ nw := by
        rw [show (ds.length : ℤ) - nw - n - 1 = ((ds.length - n - 1 : ℕ) : ℤ) - nw by omega, hz, zpow_natCast]
      have key := hfar hrm z ((ds.length : ℤ) - nw)
        (by rw [hq1, div_le_iff₀ hT, mul_assoc, ← hX]; linarith)
        (by rw [hq2, mul_div_assoc', lt_div_iff₀ hT, ← hX]; linarith)
      have h2 : |(|x.toK| : ℚ) - z * 10 ^ ((ds.length : ℤ) - nw - n - 1)| = |X - z * 10 ^ (ds.length - n - 1)| / 10 ^ nw := by
        rw [hq3, hX, ← abs_of_pos hT, ← abs_div, abs_of_pos hT]
        congr 1
        field_simp
      rw [h2, hq2, mul_div_assoc', div_right_comm, div_le_div_iff_of_pos_right hT, div_le_iff₀ (by positivity)] at key
      have h3 : (2 : ℚ) ^ (64 * w) = 2 * 2 ^ (64 * w - 1) := by rw [← pow_succ']; congr 1; omega
      have h4 : |X - z * 10 ^ (ds.length - n - 1)| * 2 ^ (64 * w) < 20000 * 2 ^ (64 * w) :=
        mul_lt_mul_of_pos_right t2 (by positivity)
      linarith
    · refine ⟨_, hloop d t1, ⟨t2, ?_, ?_⟩, t3, t4, ?_⟩
      · have := toDecTail_exp b8 t1; dsimp only; omega
      · have := toDecTail_exp b8 t1; dsimp only; omega
      · rw [if_neg hrm, radixVal_shift, ← hsx]
        exact roundsDec_shift t5 _

/-- With an exponent slightly above the working precision the number is not scaled and a round ends without digits. -/
theorem toDecBody_mid {x : Num} (hx : x.WF) (hx0 : (x.toK : ℚ) ≠ 0) {w : Nat} (rm : RM) (hw : 64 * w ≤ 2 ^ 30)
    (he1 : ((64 * w : ℕ) : ℤ) + 4 ≤ x.e) (he2 : x.e ≤ ((64 * w : ℕ) : ℤ) + 6) (hlen : 64 * x.m.m.length ≤ 2 ^ 28)
    {tp : List TenPow} (htp : TenHist tp)
    (hgap : ∀ j : ℕ, j ≤ 6 → GapFree (val x.m.m * 2 ^ j)) :
    ∃ tp', TenHist tp' ∧ x.toDecBody rm (decDigits (64 * x.m.m.length)) 0 64 (64 * w) tp = (.more, tp') := by
  have hEM : EMIN = -2147483648 := rfl
  obtain ⟨hxn, _⟩ := normal_of_e hx hx0 (by omega)
  obtain ⟨J, hJ⟩ : ∃ J : ℕ, x.e - ((64 * w : ℕ) : ℤ) = J := ⟨(x.e - ((64 * w : ℕ) : ℤ)).toNat, by omega⟩
  have hnw : Int.tdiv ((((64 * w : ℕ) : ℤ) - x.e + (0 : ℕ)) * 301029996) 1000000000 + 1 = 0 := by
    rw [show (((64 * w : ℕ) : ℤ) - x.e + (0 : ℕ)) * 301029996 = -((J : ℤ) * 301029996) by push_cast at hJ ⊢; linarith,
      Int.neg_tdiv, Int.tdiv_eq_ediv_of_nonneg (by positivity)]
    omega
  set m := x.m.shiftLeftResize J with hm
  obtain ⟨s1, s2⟩ := shiftLeftResize_val (x := x.m) ⟨hx.wf, hx.bits⟩ J
  have hv0 : val x.m.m ≠ 0 := by
    intro h; apply hx0; unfold Num.toK; rw [h]; simp
  have m3 : m.n = 64 * x.m.m.length + J := by rw [← hxn]; rfl
  have m2 : m.n = Nat.size (val m.m) := by
    rw [hm, s2, ← Nat.shiftLeft_eq, Nat.size_shiftLeft hv0, ← hx.bits]; rfl
  obtain ⟨ds, d1, d2, d3, d4⟩ := C33_to_dec_partial tp htp m s1 m2 (by omega) (by rw [hm, s2]; exact hgap J (by omega))
  have hsc : ({ x with inexact := false } : Num).toDecScale 0 (64 * w) = .ok ({ x with inexact := false }, 0) := by
    unfold Num.toDecScale
    simp [TEN_PWR_MAX_TO_DEC]
  have hb : x.toDecBody rm (decDigits (64 * x.m.m.length)) 0 64 (64 * w) tp =
      (Num.toDecTail x.s rm (decDigits (64 * x.m.m.length)) 0 J 0 false ds, tenpowers tp (Num.decDepth m.n)) := by
    unfold Num.toDecBody
    simp only [hnw, hsc]
    unfold Num.toDecDigits
    rw [if_neg (by omega), if_neg (show ¬ (x.e < ((64 * w : ℕ) : ℤ)) by omega)]
    dsimp only
    rw [show (x.e - ((64 * w : ℕ) : ℤ)).toNat = J by omega, if_pos (by omega)]
    exact toDecConv_eq d1
  refine ⟨_, TenHist.request (Num.decDepth m.n) htp, ?_⟩
  rw [hb]
  congr 1
  unfold Num.toDecTail
  dsimp only
  rw [if_neg]
  rintro ⟨h1, h2⟩
  rw [show (J + 0) * 301029996 / 1000000000 = 1 by omega] at h2
  have hdge : 10 ^ (ds.length - 1) ≤ val m.m := by
    rw [← d2]
    cases ds with
    | nil => simp at h1
    | cons a l =>
      have ha : a ≠ 0 := by
        intro h; exact d4 (by simp [h])
      simpa using digNat_ge (b := 10) (ds := l) ha
  have hNhi : val m.m < 2 ^ (64 * x.m.m.length + J) := by
    rw [← m3, m2]; exact Nat.lt_size_self _
  have h3 : 2 ^ (64 * x.m.m.length + J) ≤ 2 ^ (64 * x.m.m.length) * 2 ^ 6 := by
    rw [← pow_add]; exact Nat.pow_le_pow_right (by norm_num) (by omega)
  have h4 : 2 ^ (64 * x.m.m.length) < 10 ^ decDigits (64 * x.m.m.length) := two_pow_lt_ten_pow (64 * x.m.m.length)
  have h5 : 10 ^ decDigits (64 * x.m.m.length) * 10 ^ 2 ≤ 10 ^ (ds.length - 1) := by
    rw [← pow_add]; exact Nat.pow_le_pow_right (by norm_num) (by push_cast at h2; omega)
  omega

theorem toDecLoop_more {x : Num} {rm : RM} {n f p q c : Nat} {tp tp' : List TenPow} (h : x.toDecBody rm n 0 64 p tp = (.more, tp'))
    (hq : p + c = q) : x.toDecLoop rm n 0 (f + 1) 64 p c tp = x.toDecLoop rm n 0 f 64 q (roundP ((p + c) / 5)) tp' := by
  rw [Num.toDecLoop, h, ← hq]

/-- The whole conversion of a large number, when the first round with a scaled number accepts its digits. -/
theorem convToDec_big {x : Num} (hx : x.WF) (hx0 : (x.toK : ℚ) ≠ 0) (he2 : x.e ≤ 1500000000)
    (hl : 64 * x.m.m.length ≤ 2 ^ 28) (rm : RM) {tp : List TenPow} (htp : TenHist tp) {n p : Nat}
    (hn : n = decDigits (64 * x.m.m.length)) (hp : p = decStart n) (he1 : (p : ℤ) ≤ x.e + 64)
    (hgap : ∀ (k : ℤ) (v : ℕ), (v < 2 ^ (p + 10) ∨ (p + 4 ≤ x.e ∧ x.e ≤ p + 6) ∧ v < 2 ^ (p + 74)) →
      |(|x.toK| * 10 ^ k : ℚ) - v| ≤ 2 ^ 13 → GapFree v)
    (hgap2 : ∀ j : ℕ, j ≤ 6 → GapFree (val x.m.m * 2 ^ j))
    (hfar : rm ≠ .none → ∀ (z : ℕ) (q : ℤ), 10 ^ (q - 1) ≤ 2 * |(x.toK : ℚ)| → |(x.toK : ℚ)| < 2 * 10 ^ q →
        40000 * 10 ^ q / 2 ^ p ≤ |(|x.toK| : ℚ) - z * 10 ^ (q - n - 1)|) :
    ∃ d : Digits, (x.convToDec rm tp).1 = .ok d ∧ (d.1 = x.s ∧ EMIN ≤ d.2.2 ∧ d.2.2 ≤ EMAX) ∧ d.2.1.length ≤ n ∧
      (∀ v ∈ d.2.1, v ≤ 9) ∧ if rm = .none then CloseDec n x.toK (radixVal 10 d) else RoundsDec rm n x.toK (radixVal 10 d) := by
  have hEM : EMIN = -2147483648 := rfl
  have hlen0 : 0 < x.m.m.length := by
    rcases Nat.eq_zero_or_pos x.m.m.length with h | h
    · exfalso
      apply hx0
      unfold Num.toK
      rw [List.length_eq_zero_iff.1 h]; simp [val]
    · exact h
  have hnb : n ≤ 600000000 := by rw [hn]; unfold decDigits; omega
  have hnc : n ≤ 90000000 := by rw [hn]; unfold decDigits; omega
  have h3 := ten_pow_start hnb
  have hw : p = 64 * ((n * 3321928095 / 1000000000 + 65 + 63) / 64) := by rw [hp]; rfl
  obtain ⟨hxn, _⟩ := normal_of_e hx hx0 (by omega)
  set w := (n * 3321928095 / 1000000000 + 65 + 63) / 64 with hwd
  have hn1 : n = 64 * x.m.m.length * 301029996 / 1000000000 + 1 := by rw [hn]; rfl
  have hconv : x.convToDec rm tp = x.toDecLoop rm n 0 400 64 (64 * w) 64 tp := by
    unfold Num.convToDec
    rw [if_neg (by omega)]
    have h4 : x.m.maxBitLen = 64 * x.m.m.length := by unfold Mantissa.maxBitLen; omega
    dsimp only
    rw [h4, hxn, Nat.sub_self, ← hn1, roundP_dec (by omega), hwd]
  rw [hw] at he1 hgap hfar
  have h5 : (10 : ℕ) ^ 17 ≤ 2 ^ 57 := by norm_num
  have h6 : 10 ^ (n + 17) ≤ 2 ^ (64 * w - 1) := by
    calc 10 ^ (n + 17) = 10 ^ n * 10 ^ 17 := by rw [pow_add]
      _ ≤ 2 ^ (n * 3321928095 / 1000000000 + 5) * 2 ^ 57 := Nat.mul_le_mul h3 h5
      _ = 2 ^ (n * 3321928095 / 1000000000 + 62) := by rw [← pow_add]
      _ ≤ _ := Nat.pow_le_pow_right (by norm_num) (by omega)
  rw [hconv]
  by_cases he3 : ((64 * w : ℕ) : ℤ) + 4 ≤ x.e ∧ x.e ≤ ((64 * w : ℕ) : ℤ) + 6
  · obtain ⟨tp', ht', hb⟩ := toDecBody_mid hx hx0 (w := w) rm (by omega) he3.1 he3.2 hl htp hgap2
    rw [← hn] at hb
    have hstep : x.toDecLoop rm n 0 (398 + 1 + 1) 64 (64 * w) 64 tp =
        x.toDecLoop rm n 0 (398 + 1) 64 (64 * (w + 1)) (roundP ((64 * w + 64) / 5)) tp' := by
      exact toDecLoop_more hb (by ring)
    rw [show 400 = 398 + 1 + 1 from rfl, hstep]
    refine toDecLoop_big hx hx0 rm (by omega) (by omega) (by push_cast; push_cast at he3; omega) he2 (by omega)
      (by push_cast; push_cast at he3; omega) (h6.trans (Nat.pow_le_pow_right (by norm_num) (by omega))) ht'
      (fun k v hv => hgap k v (Or.inr ⟨he3, by rwa [show 64 * (w + 1) + 10 = 64 * w + 74 by ring] at hv⟩)) (fun hrm z q z1 z2 => ?_) _ _
    refine le_trans ?_ (hfar hrm z q z1 z2)
    exact div_le_div_of_nonneg_left (by positivity) (by positivity) (pow_le_pow_right₀ (by norm_num) (by omega))
  · exact toDecLoop_big hx hx0 rm (by omega) (by omega) he1 he2 (by omega) he3 h6 htp
      (fun k v hv => hgap k v (Or.inl hv)) hfar 399 64

end AF
