import Verif.Lemmas.Powi
/-!
# The loop of `powi`
-/

namespace AF

variable {K : Type*} [Field K] [LinearOrder K] [IsStrictOrderedRing K]
set_option linter.unusedSectionVars false

/-- The directed modes. -/
def RM.directed : RM → Bool
  | .up | .down | .toZero | .fromZero => true
  | _ => false

theorem RoundsPrec.nearest_rel {rm : RM} (hr : rm.nearest = true) {P : Nat} {A r : K}
    (h : RoundsPrec rm P A r) : |r - A| ≤ |A| * 2 ^ (-(P : ℤ)) := by
  rcases h with ⟨h1, h2⟩ | ⟨q, h1, h2, k, _, h4⟩
  · rw [h1, h2]; simp
  · have h5 : |A - r| ≤ 2 ^ (q - (P : ℤ)) / 2 := by
      cases rm <;> simp [RM.nearest] at hr <;> exact h4.1
    rw [abs_sub_comm]
    refine h5.trans ?_
    rw [show (2 : K) ^ (q - (P : ℤ)) / 2 = 2 ^ (q - 1) * 2 ^ (-(P : ℤ)) by
      rw [← zpow_add₀ (by norm_num), div_eq_iff (by norm_num), ← zpow_add_one₀ (by norm_num)]; congr 1; ring]
    exact mul_le_mul_of_nonneg_right h1 (by positivity)

theorem RoundsPrec.none_rel {P : Nat} {A r : K} (h : RoundsPrec .none P A r) :
    |r| ≤ |A| ∧ |A| * (1 - 2 ^ (1 - (P : ℤ))) ≤ |r| ∧ 0 ≤ A * r := by
  rcases h with ⟨h1, h2⟩ | ⟨q, h1, h2, k, _, h3, h4, h5⟩
  · rw [h1, h2]; simp
  · refine ⟨h3, ?_, h5⟩
    have h6 : (2 : K) ^ (q - (P : ℤ)) ≤ |A| * 2 ^ (1 - (P : ℤ)) := by
      rw [show q - (P : ℤ) = (q - 1) + (1 - P) by ring, zpow_add₀ (by norm_num)]
      exact mul_le_mul_of_nonneg_right h1 (by positivity)
    linarith

/-- What an accepted result `v` of `powi` is, for the exact power `y`. -/
structure PowOk (rm : RM) (P : Nat) (y : ℚ) (ix : Bool) (v : Num) : Prop where
  wf : v.WF
  len : 64 * v.m.m.length = P
  pos : 0 < y → v.s = .pos
  neg : y < 0 → v.s = .neg
  exact : v.inexact = false → ix = false ∧ v.toK = y
  flag : rm.directed = true → v.inexact = true → ix = true ∨ v.toK ≠ y
  directed : rm.directed = true → RoundsFmt rm P y v.toK
  nearest : rm.nearest = true → |v.toK - y| ≤ |y| * (2 ^ (-(P : ℤ)) * (1 + 2 ^ (-60 : ℤ)))
  none : rm = .none → |y| * (1 - 2 ^ (1 - (P : ℤ))) ≤ |v.toK| ∧ |v.toK| ≤ |y| * (1 + 2 ^ (-(P : ℤ) - 64)) ∧
    0 ≤ y * v.toK

theorem toK_sign_pos {x : Num} (h : 0 < (x.toK : K)) : x.s = .pos := by
  cases hs : x.s with
  | pos => rfl
  | neg =>
    exfalso
    rw [Num.toK_eq, hs] at h
    simp only [Sign.toK] at h
    have := abs_nonneg (x.toK : K)
    linarith

theorem toK_sign_neg {x : Num} (h : (x.toK : K) < 0) : x.s = .neg := by
  cases hs : x.s with
  | neg => rfl
  | pos =>
    exfalso
    rw [Num.toK_eq, hs] at h
    simp only [Sign.toK] at h
    have := abs_nonneg (x.toK : K)
    linarith

/-- An approximation `t` of `y` from the far side of zero, within `2^-w`, rounded by
`try_set_precision(.., w)` to the words of `p < w`. -/
theorem tryPrec_pow {t : Num} (ht : t.WF) {y c : ℚ} (hy : (2 : ℚ) ^ (EMIN - 1) ≤ |y|) (hc : t.toK = y * c)
    (c1 : 1 ≤ c) {w : Nat} (c2 : c ≤ 1 + 2 ^ (-(w : ℤ) - 1)) (he : t.inexact = false → t.toK = y)
    {pw : Nat} (hp : 0 < pw) (hpm : 64 * pw < PMAX) (hpw : 64 * pw + 64 ≤ w) (hw : 64 ∣ w)
    (hwl : w ≤ 64 * t.m.m.length) {rm : RM} {v : Num} (h : t.trySetPrecision (64 * pw) rm w = .ok (true, v)) :
    PowOk rm (64 * pw) y false v := by
  have hy0 : y ≠ 0 := by
    intro h; rw [h, abs_zero] at hy
    exact absurd hy (not_le.2 (by positivity))
  have hya : 0 < |y| := abs_pos.2 hy0
  have htabs : |(t.toK : ℚ)| = |y| * c := by rw [hc, abs_mul, abs_of_pos (show 0 < c by linarith)]
  have htlo : (2 : ℚ) ^ (EMIN - 1) ≤ |(t.toK : ℚ)| := by rw [htabs]; nlinarith
  have hpos : 0 < y → t.s = .pos := fun h => toK_sign_pos (by rw [hc]; exact mul_pos h (by linarith))
  have hneg : y < 0 → t.s = .neg := fun h => toK_sign_neg (by rw [hc]; exact mul_neg_of_neg_of_pos h (by linarith))
  have hdist : |y - t.toK| ≤ |y| * 2 ^ (-(w : ℤ) - 1) := by
    rw [hc, show y - y * c = y * (1 - c) by ring, abs_mul, abs_of_nonpos (show 1 - c ≤ 0 by linarith)]
    exact mul_le_mul_of_nonneg_left (by linarith) (abs_nonneg _)
  have hdist' : |y - t.toK| < 2 ^ (t.e - (w : ℤ)) := by
    have h1 := ht.abs_lt_zpow (K := ℚ)
    have h2 : |y| ≤ |(t.toK : ℚ)| := by rw [htabs]; nlinarith
    have h3 : (2 : ℚ) ^ (-(w : ℤ) - 1) < 2 ^ (-(w : ℤ)) := zpow_lt_zpow_right₀ (by norm_num) (by omega)
    calc |y - t.toK| ≤ |y| * 2 ^ (-(w : ℤ) - 1) := hdist
      _ < |y| * 2 ^ (-(w : ℤ)) := mul_lt_mul_of_pos_left h3 hya
      _ ≤ 2 ^ t.e * 2 ^ (-(w : ℤ)) := mul_le_mul_of_nonneg_right (by linarith) (by positivity)
      _ = 2 ^ (t.e - (w : ℤ)) := by rw [← zpow_add₀ (by norm_num)]; congr 1
  by_cases hd : t.inexact = true ∧ rm.directed = true
  · obtain ⟨hi, hdir⟩ := hd
    have hrn : rm ≠ .none := by intro h; rw [h] at hdir; cases hdir
    have hnear : rm.nearest = true → w = 64 * t.m.m.length := by
      intro h; cases rm <;> simp_all [RM.nearest, RM.directed]
    obtain ⟨b, d1, d2, d3, d4, d5⟩ := tryPrec_accept (K := ℚ) ht hi (by omega) (by omega) hwl hw hrn hnear h
    have hR := roundable_spec (K := ℚ) ht (by omega) (by omega) hwl hnear b hdist'
    rw [← d5] at hR
    refine ⟨d1, by rw [d2, wordLen_mul], fun h => by rw [d3, hpos h], fun h => by rw [d3, hneg h],
      (by intro h; rw [d4] at h; cases h), fun _ _ => Or.inr (fun hvy => ?_), fun _ => hR, fun hn => ?_, fun hn => absurd hn hrn⟩
    · have hball : ∀ y' : ℚ, |y' - y| ≤ |y| * 2 ^ (-(w : ℤ) - 1) → RoundsFmt rm (64 * pw) y' v.toK := by
        intro y' hy'
        rw [d5]
        refine roundable_spec (K := ℚ) ht (by omega) (by omega) hwl hnear b ?_
        have h1 := ht.abs_lt_zpow (K := ℚ)
        have h2 : |y| ≤ |(t.toK : ℚ)| := by rw [htabs]; nlinarith
        have h3 : (2 : ℚ) ^ (-(w : ℤ)) = 2 ^ (-(w : ℤ) - 1) + 2 ^ (-(w : ℤ) - 1) := by
          rw [← two_mul, ← zpow_one_add₀ (by norm_num)]; congr 1; ring
        have h4 : |y' - t.toK| ≤ |y' - y| + |y - t.toK| := by
          have := abs_add_le (y' - y) (y - t.toK); simpa using this
        have h5 : |y' - t.toK| ≤ |y| * 2 ^ (-(w : ℤ)) := by rw [h3, mul_add]; linarith
        calc |y' - t.toK| ≤ |y| * 2 ^ (-(w : ℤ)) := h5
          _ < 2 ^ t.e * 2 ^ (-(w : ℤ)) := mul_lt_mul_of_pos_right (by linarith) (by positivity)
          _ = 2 ^ (t.e - (w : ℤ)) := by rw [← zpow_add₀ (by norm_num)]; congr 1
      set d : ℚ := 2 ^ (-(w : ℤ) - 1) with hd'
      have hd0 : 0 < d := by positivity
      have hd1 : d < 1 := zpow_lt_one_of_neg₀ (by norm_num) (by omega)
      have hyd : 0 < |y| * d := by positivity
      have b1 := (hball (y + |y| * d) (by rw [add_sub_cancel_left, abs_of_pos hyd])).rounds
      have b2 := (hball (y - |y| * d) (by rw [sub_sub_cancel_left, abs_neg, abs_of_pos hyd])).rounds
      have b3 := (hball (y * (1 + d)) (by
        rw [show y * (1 + d) - y = y * d by ring, abs_mul, abs_of_pos hd0])).rounds
      have b4 := (hball (y * (1 - d)) (by
        rw [show y * (1 - d) - y = -(y * d) by ring, abs_neg, abs_mul, abs_of_pos hd0])).rounds
      rw [hvy] at b1 b2 b3 b4
      obtain ⟨u1, _, k1, _, b1⟩ := b1
      obtain ⟨u2, _, k2, _, b2⟩ := b2
      obtain ⟨u3, _, k3, _, b3⟩ := b3
      obtain ⟨u4, _, k4, _, b4⟩ := b4
      cases rm with
      | up => have := b1.1; linarith
      | down => have := b2.1; linarith
      | fromZero =>
        have := b3.1
        rw [abs_mul, abs_of_pos (show 0 < 1 + d by linarith)] at this
        nlinarith
      | toZero =>
        have := b4.1
        rw [abs_mul, abs_of_pos (show 0 < 1 - d by linarith)] at this
        nlinarith
      | none => cases hdir
      | toEven => cases hdir
      | toOdd => cases hdir
    · cases rm <;> simp_all [RM.nearest, RM.directed]
  · have hc' : t.inexact = false ∨ rm = .none ∨ rm = .toEven ∨ rm = .toOdd := by
      cases hi : t.inexact with
      | false => exact Or.inl rfl
      | true =>
        right
        rw [hi] at hd
        cases rm <;> simp_all [RM.directed]
    obtain ⟨_, hS⟩ := tryPrec_eq_setPrec (by omega) (by omega) hwl (by omega) hc' h (Or.inr (Or.inr rfl))
    have hD := setPrecision_delivers (K := ℚ) ht hp hpm rm
    rw [hS] at hD
    have hN := hD.normal htlo
    obtain ⟨g1, g2, g3, g4, g5, g6⟩ := hD
    have hfmt : t.inexact = false → RoundsFmt rm (64 * pw) y v.toK := by
      intro hi
      rw [he hi] at g6
      rcases g6 with g6 | ⟨_, g6, _⟩
      · exact g6
      · exact absurd hy (not_le.2 g6)
    have hw1 : (2 : ℚ) ^ (-(w : ℤ) - 1) ≤ 2 ^ (-((64 * pw : ℕ) : ℤ) - 64) :=
      zpow_le_zpow_right₀ (by norm_num) (by push_cast; omega)
    refine ⟨g1, g2, fun h => ?_, fun h => ?_, fun h => ?_, fun hdir h => ?_, fun hdir => ?_, fun hn => ?_,
      fun hn => ?_⟩
    · exact g3 (by rw [hc]; exact mul_pos h (by linarith))
    · exact g4 (by rw [hc]; exact mul_neg_of_neg_of_pos h (by linarith))
    · rw [h] at g5
      simp only [Bool.false_eq_true, false_iff, not_or, not_not] at g5
      exact ⟨rfl, by rw [g5.2, he (by simpa using g5.1)]⟩
    · have hi : t.inexact = false := by
        cases hi : t.inexact with
        | false => rfl
        | true => exact absurd ⟨hi, hdir⟩ hd
      rw [hi, he hi] at g5
      simpa using g5.1 h
    · apply hfmt
      cases hi : t.inexact with
      | false => rfl
      | true => exact absurd ⟨hi, hdir⟩ hd
    · have h1 := hN.nearest_rel hn
      rw [htabs] at h1
      set e : ℚ := 2 ^ (-((64 * pw : ℕ) : ℤ)) with hee
      have he0 : 0 < e := by positivity
      have he1 : e ≤ 1 := zpow_le_one_of_nonpos₀ (by norm_num) (by push_cast; omega)
      have h2 : (2 : ℚ) ^ (-(w : ℤ) - 1) ≤ e * 2 ^ (-64 : ℤ) := by
        rw [hee, ← zpow_add₀ (by norm_num)]; exact hw1
      have h3 : |v.toK - y| ≤ |v.toK - t.toK| + |y - t.toK| := by
        have := abs_add_le (v.toK - t.toK : ℚ) (t.toK - y)
        rw [abs_sub_comm (t.toK) y] at this
        simpa using this
      have h4 : |y| * c * e ≤ |y| * (e * (1 + e * 2 ^ (-64 : ℤ))) := by
        rw [mul_assoc]
        refine mul_le_mul_of_nonneg_left ?_ hya.le
        rw [mul_comm]
        exact mul_le_mul_of_nonneg_left (by linarith) he0.le
      have h5 : |y| * (2 : ℚ) ^ (-(w : ℤ) - 1) ≤ |y| * (e * 2 ^ (-64 : ℤ)) :=
        mul_le_mul_of_nonneg_left h2 hya.le
      have h6 : e * (1 + e * (2 : ℚ) ^ (-64 : ℤ)) + e * 2 ^ (-64 : ℤ) ≤ e * (1 + 2 ^ (-60 : ℤ)) := by
        rw [← mul_add]
        refine mul_le_mul_of_nonneg_left ?_ he0.le
        have : e * (2 : ℚ) ^ (-64 : ℤ) ≤ 2 ^ (-64 : ℤ) := by
          nlinarith [show (0 : ℚ) < 2 ^ (-64 : ℤ) by positivity]
        have h7 : (2 : ℚ) ^ (-64 : ℤ) + 2 ^ (-64 : ℤ) ≤ 2 ^ (-60 : ℤ) := by norm_num
        linarith
      have h8 := mul_le_mul_of_nonneg_left h6 hya.le
      rw [mul_add] at h8
      linarith
    · subst hn
      obtain ⟨h1, h2, h3⟩ := hN.none_rel
      rw [htabs] at h1 h2
      refine ⟨?_, ?_, ?_⟩
      · refine le_trans ?_ h2
        have : (0 : ℚ) ≤ 1 - 2 ^ (1 - ((64 * pw : ℕ) : ℤ)) := by
          have := zpow_le_one_of_nonpos₀ (a := (2 : ℚ)) (by norm_num)
            (show 1 - ((64 * pw : ℕ) : ℤ) ≤ 0 by push_cast; omega)
          linarith
        refine mul_le_mul_of_nonneg_right ?_ this
        nlinarith
      · refine h1.trans (mul_le_mul_of_nonneg_left ?_ hya.le)
        linarith
      · rw [hc] at h3
        have : 0 < c := by linarith
        by_contra hcon
        have : y * c * v.toK = (y * v.toK) * c := by ring
        rw [this] at h3
        nlinarith

/-! ## The loop -/

theorem roundP_step {x : Nat} (hx : x < 2 ^ 63) (h64 : 64 ∣ x) :
    64 ∣ roundP (x / 5) ∧ x ≤ 5 * roundP (x / 5) ∧ roundP (x / 5) ≤ x / 5 + 63 := by
  have hU : USIZE_MAX = 2 ^ 64 - 1 := rfl
  have e : roundP (x / 5) = (x / 5 + 63) / 64 * 64 := by
    unfold roundP
    rw [Nat.min_eq_left (by omega)]
  rw [e]
  omega

theorem roundP_ge {p : Nat} (h : roundP p < PMAX) : p ≤ roundP p ∧ 64 ∣ roundP p ∧ roundP p ≤ p + 63 := by
  rw [roundP_eq h]; unfold wordLen; omega

/-- The sign of a power. -/
theorem pow_sign {x : Num} {n : Nat} :
    (0 < (x.toK : ℚ) ^ n → (if x.isNegative && decide (n &&& 1 = 1) then Sign.neg else .pos) = .pos) ∧
    ((x.toK : ℚ) ^ n < 0 → (if x.isNegative && decide (n &&& 1 = 1) then Sign.neg else .pos) = .neg) := by
  rw [Nat.and_one_is_mod]
  by_cases hn : n % 2 = 1
  · have ho : Odd n := Nat.odd_iff.2 hn
    constructor
    · intro h
      have h1 := toK_sign_pos (x := x) (by rwa [ho.pow_pos_iff] at h)
      simp [Num.isNegative, h1]
    · intro h
      have h1 := toK_sign_neg (x := x) (by rwa [ho.pow_neg_iff] at h)
      simp [Num.isNegative, h1, hn]
  · have he : Even n := Nat.even_iff.2 (by omega)
    constructor
    · intro _; simp [hn]
    · intro h
      exact absurd (he.pow_nonneg (x.toK : ℚ)) (not_le.2 h)

/-- The outcome of `powi`. -/
def PowRes (x : Num) (n P : Nat) (rm : RM) (upd : Bool) (big : Prop) : Except Err Num → Prop
  | .ok v => PowOk rm P ((x.toK : ℚ) ^ n) (upd && x.inexact) v
  | .error e =>
    (∃ s, e = .exponentOverflow s ∧ (2 : ℚ) ^ (EMAX - 2) ≤ |(x.toK : ℚ) ^ n| ∧
      (0 < (x.toK : ℚ) ^ n → s = .pos) ∧ ((x.toK : ℚ) ^ n < 0 → s = .neg)) ∨ (e = .invalidArgument ∧ big)

theorem powLoop_spec {x : Num} (hx : x.WF) (hz : x.isZero = false) {n bp pw : Nat} (hb : bp < 64) (hb1 : 1 ≤ bp)
    (hbn : 2 ^ bp ≤ n) (hnb : n < 2 ^ (bp + 1)) (hp : 0 < pw) (hpm : 64 * pw < PMAX)
    (hlo : (2 : ℚ) ^ (EMIN - 1) ≤ |(x.toK : ℚ)| ^ n) (rm : RM) (upd : Bool) (S : Prop)
    (hS : S → 64 * x.m.m.length * n ≤ 2 ^ 60) :
    ∀ (f pwrk pinc : Nat), 64 ∣ pwrk → 64 ∣ pinc → 64 * pw + 64 ≤ pwrk → 64 * x.m.m.length ≤ pwrk →
      pinc ≤ pwrk + 64 → 5 ^ f * PMAX ≤ 6 ^ f * (pwrk + pinc) →
      (S → pwrk ≤ 2 ^ 61 ∧ pinc ≤ pwrk / 5 + 127) →
      PowRes x n (64 * pw) rm upd (¬ S)
        (x.powLoop n (64 * pw) rm upd bp ((n - 2 ^ bp) * 2 ^ (64 - bp)) (f + 2) pwrk pinc) := by
  have hX : (x.toK : ℚ) ≠ 0 := by
    intro h; rw [hx.toK_eq_zero.1 h] at hz; cases hz
  have hsg := pow_sign (x := x) (n := n)
  -- a single round
  have hround : ∀ (rest : Except Err Num) (pwrk : Nat), 64 ∣ pwrk → 64 * pw + 64 ≤ pwrk →
      64 * x.m.m.length ≤ pwrk → (S → pwrk ≤ 2 ^ 61) →
      (roundP (pwrk + bp * 2) < PMAX → (S → pwrk ≤ 2 ^ 60) →
        PowRes x n (64 * pw) rm upd (¬ S) rest) →
      PowRes x n (64 * pw) rm upd (¬ S)
        (match x.powTry (pwrk + bp * 2) bp ((n - 2 ^ bp) * 2 ^ (64 - bp)) with
        | .error e => .error (Num.powErr x n e)
        | .ok r =>
          if r.e = EMIN ∧ r.m.n = 1 then
            (if upd then { r with inexact := r.inexact || x.inexact } else r).setPrecision (64 * pw) rm
          else match r.trySetPrecision (64 * pw) rm pwrk with
            | .error e => .error e
            | .ok (true, r2) => .ok (if upd then { r2 with inexact := r2.inexact || x.inexact } else r2)
            | .ok (false, _) => rest) := by
    intro rest pwrk h64 hpw hlen hsm hrest
    by_cases hv : roundP (pwrk + bp * 2) < PMAX
    · obtain ⟨r1, r2, r3⟩ := roundP_ge hv
      have herr := pow_error_small hb hb1 hnb h64 r2 (by omega : pwrk + 2 * bp ≤ roundP (pwrk + bp * 2))
      have hw2 : (2 : ℚ) ^ (-(pwrk : ℤ) - 1) ≤ 1 :=
        zpow_le_one_of_nonpos₀ (by norm_num) (by omega)
      have hEM : ∀ a : ℤ, (2 : ℚ) ^ a = 2 * 2 ^ (a - 1) := by
        intro a
        rw [← zpow_one_add₀ (by norm_num)]; congr 1; ring
      rcases powTry_spec hx hz hb hbn hnb (by omega) hv (by omega) hlo with ⟨t, ht, hA⟩ | ⟨sg, ht, hA⟩
      · rw [ht]
        dsimp only
        obtain ⟨c, hc, c1, c2⟩ := hA.ex
        have c3 : c ≤ 1 + 2 ^ (-(pwrk : ℤ) - 1) :=
          (c2.trans (pow_le_pow_right₀ (by have : (0 : ℚ) ≤ 2 ^ (1 - (roundP (pwrk + bp * 2) : ℤ)) := by positivity
                                           linarith) (by omega))).trans herr
        have hylo : (2 : ℚ) ^ (EMIN - 1) ≤ |(x.toK : ℚ) ^ n| := by rw [abs_pow]; exact hlo
        have htabs : |(t.toK : ℚ)| = |(x.toK : ℚ) ^ n| * c := by
          rw [hc, abs_mul, abs_of_pos (show 0 < c by linarith)]
        have htlo : (2 : ℚ) ^ (EMIN - 1) ≤ |(t.toK : ℚ)| := by
          rw [htabs]; nlinarith [abs_nonneg ((x.toK : ℚ) ^ n)]
        have hnot : ¬ (t.e = EMIN ∧ t.m.n = 1) := by
          rintro ⟨h1, h2⟩
          have hval : val t.m.m < 2 := by
            have := hA.wf.bits
            rw [h2] at this
            exact Nat.size_le.1 this.symm.le
          rw [Num.abs_val, h1] at htlo
          have hl : 64 * 1 ≤ 64 * t.m.m.length := by have := hA.len; omega
          have h3 : (val t.m.m : ℚ) * 2 ^ (EMIN - (64 * t.m.m.length : ℕ)) ≤ 2 ^ (EMIN - 64) := by
            have hv1 : (val t.m.m : ℚ) ≤ 1 := by exact_mod_cast (by omega : val t.m.m ≤ 1)
            calc (val t.m.m : ℚ) * 2 ^ (EMIN - (64 * t.m.m.length : ℕ)) ≤ 1 * 2 ^ (EMIN - (64 * t.m.m.length : ℕ)) :=
                  mul_le_mul_of_nonneg_right hv1 (by positivity)
              _ ≤ 2 ^ (EMIN - 64) := by rw [one_mul]; exact zpow_le_zpow_right₀ (by norm_num) (by omega)
          have h4 : (2 : ℚ) ^ (EMIN - 64) < 2 ^ (EMIN - 1) := zpow_lt_zpow_right₀ (by norm_num) (by omega)
          linarith
        rw [if_neg hnot]
        have hwl : pwrk ≤ 64 * t.m.m.length := by rw [hA.len]; omega
        cases htr : t.trySetPrecision (64 * pw) rm pwrk with
        | error e =>
          dsimp only
          left
          obtain ⟨e1, e2⟩ := tryPrec_error (by omega) hpm (by omega) hwl htr
          refine ⟨t.s, e1, ?_, fun h => toK_sign_pos (by rw [hc]; exact mul_pos h (by linarith)),
            fun h => toK_sign_neg (by rw [hc]; exact mul_neg_of_neg_of_pos h (by linarith))⟩
          have htz : t.isZero = false := by
            rw [← Bool.not_eq_true, ← hA.wf.toK_eq_zero (K := ℚ), hc]
            exact mul_ne_zero (pow_ne_zero _ hX) (by linarith)
          obtain ⟨q, q1, q2, q3, q4⟩ := hA.wf.mag (K := ℚ) htz
          have hq : q = EMAX := by
            rw [e2] at q3
            have := EMIN_lt_EMAX
            omega
          rw [hq, htabs] at q1
          have h5 := hEM (EMAX - 1)
          rw [show EMAX - 1 - 1 = EMAX - 2 by ring] at h5
          nlinarith [abs_nonneg ((x.toK : ℚ) ^ n)]
        | ok b =>
          obtain ⟨b, w⟩ := b
          have hacc : b = true → PowOk rm (64 * pw) ((x.toK : ℚ) ^ n) false w := by
            intro hb
            rw [hb] at htr
            exact tryPrec_pow hA.wf hylo hc c1 c3 hA.exact hp hpm hpw h64 hwl htr
          cases b with
          | true =>
            have hk := hacc rfl
            cases upd with
            | true =>
              simp only [if_true]
              refine ⟨⟨hk.wf.wf, hk.wf.bits, hk.wf.emin, hk.wf.emax, hk.wf.norm, hk.wf.sized⟩, hk.len, hk.pos,
                hk.neg, ?_, ?_, hk.directed, hk.nearest, hk.none⟩
              · intro h
                simp only [Bool.or_eq_false_iff] at h
                exact ⟨by simp [h.2], (hk.exact h.1).2⟩
              · intro hdir h
                simp only [Bool.or_eq_true] at h
                rcases h with h | h
                · rcases hk.flag hdir h with h | h
                  · cases h
                  · exact Or.inr h
                · left; simp [h]
            | false =>
              simp only [Bool.false_eq_true, if_false]
              exact hk
          | false =>
            apply hrest hv
            intro hs
            by_contra hcon
            have hix : t.inexact = false := hA.small (by have := hS hs; omega)
            obtain ⟨h1, _⟩ := tryPrec_eq_setPrec (by omega) (by omega) hwl (by omega) (Or.inl hix) htr (Or.inl hix)
            cases h1
      · rw [ht]
        dsimp only [Num.powErr]
        left
        refine ⟨_, rfl, ?_, hsg.1, hsg.2⟩
        rw [mul_pow] at hA
        have h2 : (1 + (2 : ℚ) ^ (1 - (roundP (pwrk + bp * 2) : ℤ))) ^ n ≤ 2 := by linarith
        have h3 := hEM EMAX
        have h4 := hEM (EMAX - 1)
        rw [show EMAX - 1 - 1 = EMAX - 2 by ring] at h4
        have h5 : (0 : ℚ) < 2 ^ (EMAX - 2) := by positivity
        rw [abs_pow]
        have h6 : (0 : ℚ) ≤ |(x.toK : ℚ)| ^ n := by positivity
        nlinarith
    · rw [powTry_invalid (by omega) (by omega) (by omega) hv]
      right
      refine ⟨rfl, ?_⟩
      intro hs
      have := hsm hs
      apply hv
      have hU : USIZE_MAX = 2 ^ 64 - 1 := rfl
      unfold roundP
      rw [Nat.min_eq_left (by omega)]
      unfold PMAX
      omega
  intro f
  induction f with
  | zero =>
    intro pwrk pinc h1 h2 h3 h4 h5 h6 h7
    unfold Num.powLoop
    apply hround _ pwrk h1 h3 h4 (fun h => (h7 h).1)
    intro hv hs
    unfold Num.powLoop
    have hbig : PMAX ≤ pwrk + pinc := by simpa using h6
    apply hround _ (pwrk + pinc) (Nat.dvd_add h1 h2) (by omega) (by omega)
    · intro h; have := hs h; have := h7 h; omega
    · intro hv'
      obtain ⟨r1, r2, r3⟩ := roundP_ge hv'
      omega
  | succ f ih =>
    intro pwrk pinc h1 h2 h3 h4 h5 h6 h7
    unfold Num.powLoop
    apply hround _ pwrk h1 h3 h4 (fun h => (h7 h).1)
    intro hv hs
    obtain ⟨r1, r2, r3⟩ := roundP_ge hv
    have hP : PMAX = 4611686016279904255 := rfl
    obtain ⟨s1, s2, s3⟩ := roundP_step (x := pwrk + pinc) (by omega) (Nat.dvd_add h1 h2)
    refine ih (pwrk + pinc) (roundP ((pwrk + pinc) / 5)) (Nat.dvd_add h1 h2) s1 (by omega) (by omega) (by omega) ?_ ?_
    · have h8 : 6 * (pwrk + pinc) ≤ 5 * (pwrk + pinc + roundP ((pwrk + pinc) / 5)) := by omega
      have h9 : 6 ^ f * (6 * (pwrk + pinc)) ≤ 6 ^ f * (5 * (pwrk + pinc + roundP ((pwrk + pinc) / 5))) :=
        Nat.mul_le_mul_left _ h8
      have h10 : 5 ^ (f + 1) * PMAX = 5 * (5 ^ f * PMAX) := by rw [pow_succ]; ring
      have h11 : 6 ^ (f + 1) * (pwrk + pinc) = 6 ^ f * (6 * (pwrk + pinc)) := by rw [pow_succ]; ring
      have h12 : 6 ^ f * (5 * (pwrk + pinc + roundP ((pwrk + pinc) / 5))) =
          5 * (6 ^ f * (pwrk + pinc + roundP ((pwrk + pinc) / 5))) := by ring
      omega
    · intro h; have := hs h; have := h7 h; omega

/-- `powi_internal` for exponents from two. -/
theorem powiInternal_spec {x : Num} (hx : x.WF) (hz : x.isZero = false) {n p : Nat} (hn : 2 ≤ n) (hnB : n < B)
    (hp : ValidP p) (hlo : (2 : ℚ) ^ (EMIN - 1) ≤ |(x.toK : ℚ)| ^ n) (rm : RM) (upd : Bool) :
    PowRes x n (precBits p) rm upd (¬ (64 * x.m.m.length * n ≤ 2 ^ 60 ∧ precBits p ≤ 2 ^ 60))
      (x.powiInternal n p rm upd) := by
  obtain ⟨bp, b1, b2, b3, b4⟩ := powStrip_spec (n := n) (by omega) hnB
  have hb1 : 1 ≤ bp := by
    by_contra hc
    have : bp = 0 := by omega
    rw [this] at b3; omega
  have hq : precBits p = 64 * ((p + 63) / 64) := rfl
  have hp0 := hp.pos
  have hlt := hp.lt
  have hPM : PMAX = 2 ^ 62 - 2 ^ 31 - 1 := rfl
  have hpp : ValidP (precBits p) := ⟨by omega, by
    have : precBits (precBits p) = precBits p := by unfold precBits; omega
    rw [this]; exact hlt⟩
  have hidem : precBits (precBits p) = precBits p := by unfold precBits; omega
  have hmax : Nat.max (precBits p) x.m.maxBitLen = max (precBits p) (64 * x.m.m.length) := by
    unfold Mantissa.maxBitLen; rw [mul_comm]
  have hsz := hx.sized
  unfold Num.powiInternal
  dsimp only
  rw [hp.roundP, if_neg (by omega), if_neg (by simp [hz]; omega), hpp.roundP, hidem, b4, hmax]
  dsimp only
  have h64 : 64 ∣ max (precBits p) (64 * x.m.m.length) := by
    rcases max_choice (precBits p) (64 * x.m.m.length) with h | h <;> rw [h]
    · rw [hq]; exact Nat.dvd_mul_right _ _
    · exact Nat.dvd_mul_right _ _
  have hle : 64 * x.m.m.length ≤ 64 * x.m.m.length * n := Nat.le_mul_of_pos_right _ (by omega)
  have key := powLoop_spec hx hz b1 hb1 b2 b3 (pw := (p + 63) / 64) (by omega) (by omega) hlo rm upd
    (64 * x.m.m.length * n ≤ 2 ^ 60 ∧ precBits p ≤ 2 ^ 60) (fun h => h.1) 398
    (max (precBits p) (64 * x.m.m.length) + 64) 64 (by omega) (by omega) (by omega) (by omega) (by omega) ?_ ?_
  · exact key
  · have h1 : 5 ^ 398 * PMAX ≤ 6 ^ 398 * 192 := by decide +kernel
    exact h1.trans (Nat.mul_le_mul_left _ (by omega))
  · intro h; omega

end AF
