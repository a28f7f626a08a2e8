import Verif.Lemmas.Finish
/-!
# Number-level lemmas: zero test, normalisation, comparison, precision change, add/sub
-/

namespace AF

set_option linter.unusedSectionVars false

variable {K : Type*} [Field K] [LinearOrder K] [IsStrictOrderedRing K]

theorem Num.WF.isZero_iff {x : Num} (h : x.WF) : x.isZero = true ↔ val x.m.m = 0 := by
  simp only [Num.isZero, Mantissa.isZero, beq_iff_eq, h.bits, Nat.size_eq_zero]

theorem Num.WF.val_ne {x : Num} (h : x.WF) (hz : x.isZero = false) : val x.m.m ≠ 0 := by
  intro hc; rw [h.isZero_iff.2 hc] at hz; simp at hz

theorem Num.WF.n_pos {x : Num} (h : x.WF) (hz : x.isZero = false) : 0 < x.m.n := by
  rw [h.bits]; exact Nat.size_pos.2 (Nat.pos_of_ne_zero (h.val_ne hz))

theorem Num.WF.n_le {x : Num} (h : x.WF) : x.m.n ≤ 64 * x.m.m.length := by
  rw [h.bits, Nat.size_le]; exact val_lt_two_pow h.wf

theorem Num.WF.toK_eq_zero {x : Num} (h : x.WF) : (x.toK : K) = 0 ↔ x.isZero = true := by
  rw [h.isZero_iff]
  unfold Num.toK
  rw [mul_eq_zero, mul_eq_zero]
  constructor
  · rintro ((h1 | h1) | h1)
    · exact absurd h1 (toK_ne_zero _)
    · exact_mod_cast h1
    · exact absurd h1 (two_zpow_pos _).ne'
  · intro h1; left; right; exact_mod_cast h1

theorem Num.toK_of_zero {x : Num} (h : val x.m.m = 0) : (x.toK : K) = 0 := by
  unfold Num.toK; rw [h]; simp

theorem Num.toK_eq (x : Num) : (x.toK : K) = x.s.toK * |(x.toK : K)| := by
  rw [Num.abs_val]; unfold Num.toK; ring

theorem Num.isSubnormal_iff (x : Num) : x.isSubnormal = true ↔ x.m.n < 64 * x.m.m.length := by
  unfold Num.isSubnormal Mantissa.isSubnormal Mantissa.maxBitLen
  rw [decide_eq_true_iff, mul_comm]

/-- `normalize` succeeds and gives the magnitude as a fraction in `[1/2, 1)` times a power. -/
theorem normalize_spec {x : Num} (hx : x.WF) (hz : x.isZero = false) :
    ∃ e1 m1, x.normalize = .ok (e1, m1) ∧ Normd m1.m ∧
      |(x.toK : K)| = frac m1.m * 2 ^ e1 ∧ m1.m.length = x.m.m.length ∧ m1.n = 64 * m1.m.length ∧
      e1 = x.e - ((64 * x.m.m.length - x.m.n : ℕ) : ℤ) := by
  have hv := hx.val_ne hz
  have hn := hx.n_pos hz
  have hn2 := hx.n_le
  have hL : 0 < x.m.m.length := by omega
  have hemin := hx.emin
  have hsz := hx.sized
  have hsize := hx.bits
  unfold Num.normalize
  by_cases hs : x.isSubnormal = true
  · rw [if_pos hs]
    have hlt : x.m.n < 64 * x.m.m.length := x.isSubnormal_iff.1 hs
    have hsh : x.m.maxBitLen - x.m.n = 64 * x.m.m.length - x.m.n := by
      unfold Mantissa.maxBitLen; omega
    set sh := 64 * x.m.m.length - x.m.n with hshd
    have hnz : x.m.normilize = (sh, { m := shiftLeft x.m.m sh, n := x.m.maxBitLen }) := by
      unfold Mantissa.normilize
      rw [hsh]
      simp only []
      rw [if_pos (by omega)]
    rw [hnz]
    simp only []
    have hVlo : 2 ^ (x.m.n - 1) ≤ val x.m.m := by
      rw [← Nat.lt_size, ← hsize]; omega
    have hVhi : val x.m.m < 2 ^ x.m.n := by
      rw [← Nat.size_le, hsize]
    have hval : val (shiftLeft x.m.m sh) = val x.m.m * 2 ^ sh := by
      rw [val_shiftLeft hx.wf]
      apply Nat.mod_eq_of_lt
      rw [B_pow]
      calc val x.m.m * 2 ^ sh < 2 ^ x.m.n * 2 ^ sh :=
            Nat.mul_lt_mul_of_pos_right hVhi (by positivity)
        _ = 2 ^ (64 * x.m.m.length) := by rw [← pow_add]; congr 1; omega
    have hlen : (shiftLeft x.m.m sh).length = x.m.m.length := shiftLeft_length _ _
    rw [if_neg (by unfold IMIN2; unfold EMIN at hemin; omega)]
    refine ⟨_, _, rfl, ⟨shiftLeft_wf hx.wf _, by dsimp only; omega, ?_⟩, ?_, hlen, ?_, rfl⟩
    · dsimp only
      rw [hlen, hval]
      calc 2 ^ (64 * x.m.m.length - 1) = 2 ^ (x.m.n - 1) * 2 ^ sh := by
            rw [← pow_add]; congr 1; omega
        _ ≤ _ := Nat.mul_le_mul_right _ hVlo
    · rw [Num.abs_val]
      unfold frac
      dsimp only
      rw [hlen, hval]
      push_cast
      rw [two_zpow_sub, two_zpow_sub, ← Nat.cast_ofNat (R := ℤ), ← Nat.cast_mul, zpow_natCast,
        zpow_natCast]
      field_simp
    · dsimp only; rw [hlen]; unfold Mantissa.maxBitLen; omega
  · rw [if_neg hs]
    have hnn : x.m.n = 64 * x.m.m.length := by
      rw [x.isSubnormal_iff] at hs
      omega
    refine ⟨_, _, rfl, ⟨hx.wf, hL, ?_⟩, ?_, rfl, hnn, by rw [hnn]; simp⟩
    · rw [← Nat.lt_size, ← hsize]; omega
    · rw [Num.abs_val]
      unfold frac
      rw [two_zpow_sub, zpow_natCast]
      field_simp

/-- Word-by-word comparison from the top compares the fractions. -/
theorem cmpIters_spec (as bs : List Nat) (ha : Wf as) (hb : Wf bs) :
    (0 < cmpIters (min as.length bs.length) as bs ↔
      val bs.reverse * B ^ as.length < val as.reverse * B ^ bs.length) ∧
    (cmpIters (min as.length bs.length) as bs < 0 ↔
      val as.reverse * B ^ bs.length < val bs.reverse * B ^ as.length) := by
  induction as generalizing bs with
  | nil =>
    simp only [List.length_nil, Nat.zero_min, cmpIters, List.any_nil, Bool.false_eq_true, if_false,
      List.reverse_nil, val_nil, pow_zero, mul_one, zero_mul]
    by_cases h : bs.any (· ≠ 0) = true
    · rw [if_pos h]
      have : 0 < val bs.reverse := by
        apply Nat.pos_of_ne_zero
        intro hc
        rw [val_eq_zero_iff] at hc
        rw [List.any_eq_true] at h
        obtain ⟨y, hy, hy2⟩ := h
        have := hc y (by simpa using hy)
        simp [this] at hy2
      constructor <;> constructor <;> intro h <;> omega
    · rw [if_neg h]
      have : val bs.reverse = 0 := by
        rw [val_eq_zero_iff]
        intro y hy
        by_contra hc
        apply h
        rw [List.any_eq_true]
        exact ⟨y, by simpa using hy, by simpa using hc⟩
      rw [this]; simp
  | cons a as ih =>
    cases bs with
    | nil =>
      simp only [List.length_nil, Nat.min_zero, cmpIters, List.any_nil, Bool.false_eq_true, if_false,
        List.reverse_nil, val_nil, pow_zero, mul_one, zero_mul]
      by_cases h : (a :: as).any (· ≠ 0) = true
      · rw [if_pos h]
        have : 0 < val (a :: as).reverse := by
          apply Nat.pos_of_ne_zero
          intro hc
          rw [val_eq_zero_iff] at hc
          rw [List.any_eq_true] at h
          obtain ⟨y, hy, hy2⟩ := h
          have := hc y (List.mem_reverse.2 hy)
          simp [this] at hy2
        constructor <;> constructor <;> intro h <;> omega
      · rw [if_neg h]
        have : val (a :: as).reverse = 0 := by
          rw [val_eq_zero_iff]
          intro y hy
          by_contra hc
          apply h
          rw [List.any_eq_true]
          exact ⟨y, List.mem_reverse.1 hy, by simpa using hc⟩
        rw [this]; simp
    | cons b bs =>
      obtain ⟨ha1, ha2⟩ := wf_cons.1 ha
      obtain ⟨hb1, hb2⟩ := wf_cons.1 hb
      have ih := ih bs ha2 hb2
      have e1 : val (a :: as).reverse = val as.reverse + B ^ as.length * a := by
        rw [List.reverse_cons, val_append, List.length_reverse]; simp
      have e2 : val (b :: bs).reverse = val bs.reverse + B ^ bs.length * b := by
        rw [List.reverse_cons, val_append, List.length_reverse]; simp
      have hva : val as.reverse < B ^ as.length := by
        have := val_lt (wf_reverse.2 ha2); rwa [List.length_reverse] at this
      have hvb : val bs.reverse < B ^ bs.length := by
        have := val_lt (wf_reverse.2 hb2); rwa [List.length_reverse] at this
      have hm : min (a :: as).length (b :: bs).length = min as.length bs.length + 1 := by
        simp only [List.length_cons]; omega
      rw [hm]
      simp only [cmpIters]
      have hBp := B_pos
      -- cancel the common factor
      have f1 : val (a :: as).reverse * B ^ (b :: bs).length =
          (val as.reverse * B ^ bs.length + (B ^ as.length * B ^ bs.length) * a) * B := by
        rw [e1, List.length_cons, pow_succ]; ring
      have f2 : val (b :: bs).reverse * B ^ (a :: as).length =
          (val bs.reverse * B ^ as.length + (B ^ as.length * B ^ bs.length) * b) * B := by
        rw [e2, List.length_cons, pow_succ]; ring
      rw [f1, f2, Nat.mul_lt_mul_right hBp, Nat.mul_lt_mul_right hBp]
      have g1 : val as.reverse * B ^ bs.length < B ^ as.length * B ^ bs.length :=
        Nat.mul_lt_mul_of_pos_right hva (B_pow_pos _)
      have g2 : val bs.reverse * B ^ as.length < B ^ as.length * B ^ bs.length := by
        rw [mul_comm (B ^ as.length)]
        exact Nat.mul_lt_mul_of_pos_right hvb (B_pow_pos _)
      set T := B ^ as.length * B ^ bs.length
      by_cases hab : a = b
      · subst hab
        rw [if_neg (by simp)]
        constructor
        · rw [ih.1]; omega
        · rw [ih.2]; omega
      · rw [if_pos (by omega)]
        rcases Nat.lt_or_gt_of_ne hab with h | h
        · have : T * a + T ≤ T * b := by
            calc T * a + T = T * (a + 1) := by ring
              _ ≤ _ := Nat.mul_le_mul_left _ h
          constructor <;> constructor <;> intro h2 <;> omega
        · have : T * b + T ≤ T * a := by
            calc T * b + T = T * (b + 1) := by ring
              _ ≤ _ := Nat.mul_le_mul_left _ h
          constructor <;> constructor <;> intro h2 <;> omega

/-- `abs_cmp` on non-zero numbers compares the magnitudes. -/
theorem absCmp_spec {x y : Num} (hx : x.WF) (hy : y.WF) (hxz : x.isZero = false)
    (hyz : y.isZero = false) :
    (0 < x.absCmp y ↔ |(y.toK : K)| < |(x.toK : K)|) ∧
    (x.absCmp y < 0 ↔ |(x.toK : K)| < |(y.toK : K)|) := by
  obtain ⟨e1, m1, _, hm1, hv1, hl1, _, he1⟩ := normalize_spec (K := K) hx hxz
  obtain ⟨e2, m2, _, hm2, hv2, hl2, _, he2⟩ := normalize_spec (K := K) hy hyz
  have hn1 := hx.n_le
  have hn2 := hy.n_le
  have hf1 := half_le_frac (K := K) hm1
  have hf2 := half_le_frac (K := K) hm2
  have hf1' := frac_lt_one (K := K) hm1.1
  have hf2' := frac_lt_one (K := K) hm2.1
  have key : ∀ (f g : K) (a b : ℤ), 1 / 2 ≤ g → f < 1 → a < b → f * 2 ^ a < g * 2 ^ b := by
    intro f g a b hg hf hab
    have h1 : f * (2:K) ^ a < 2 ^ a := by
      have := mul_lt_mul_of_pos_right hf (two_zpow_pos (K := K) a)
      rwa [one_mul] at this
    have h2 : (2:K) ^ (b - 1) ≤ g * 2 ^ b := by
      rw [two_zpow_sub, zpow_one]
      have := mul_le_mul_of_nonneg_right hg (two_zpow_pos (K := K) b).le
      linarith
    have h3 : (2:K) ^ a ≤ 2 ^ (b - 1) := zpow_mono_two (by omega)
    linarith
  unfold Num.absCmp
  rw [if_neg (by simp [hxz])]
  have hd : x.e - (((x.m.maxBitLen : ℕ) : ℤ) - (x.m.n : ℤ)) - y.e +
      (((y.m.maxBitLen : ℕ) : ℤ) - (y.m.n : ℤ)) = e1 - e2 := by
    unfold Mantissa.maxBitLen; omega
  simp only [hd]
  rcases lt_trichotomy e1 e2 with h | h | h
  · rw [if_neg (by omega), if_pos (by omega)]
    have := key (frac m1.m) (frac m2.m) e1 e2 hf2 hf1' h
    rw [← hv1, ← hv2] at this
    refine ⟨⟨fun h => absurd h (by norm_num), fun h => absurd h (not_lt.2 this.le)⟩,
      ⟨fun _ => this, fun _ => by norm_num⟩⟩
  · rw [if_neg (by omega), if_neg (by omega)]
    -- equal normalised exponents force equal shifts
    have hnn : (64 * x.m.m.length - x.m.n : ℕ) = 64 * y.m.m.length - y.m.n := by
      have a1 := hx.n_pos hxz
      have a2 := hy.n_pos hyz
      have b1 := hx.norm a1
      have b2 := hy.norm a2
      have c1 := hx.emin
      have c2 := hy.emin
      by_cases d1 : x.m.n < 64 * x.m.m.length
      · by_cases d2 : y.m.n < 64 * y.m.m.length
        · have := b1 d1; have := b2 d2; omega
        · have := b1 d1; omega
      · by_cases d2 : y.m.n < 64 * y.m.m.length
        · have := b2 d2; omega
        · omega
    have hee : x.e = y.e := by omega
    have hdec : decide (((x.m.maxBitLen : ℕ) : ℤ) - (x.m.n : ℤ) =
        ((y.m.maxBitLen : ℕ) : ℤ) - (y.m.n : ℤ)) = true := by
      rw [decide_eq_true_eq]; unfold Mantissa.maxBitLen; omega
    rw [hdec]
    unfold Mantissa.absCmp
    simp only [if_true, Mantissa.len]
    have hc := cmpIters_spec x.m.m.reverse y.m.m.reverse (wf_reverse.2 hx.wf) (wf_reverse.2 hy.wf)
    simp only [List.length_reverse, List.reverse_reverse] at hc
    have hvx : |(x.toK : K)| * 2 ^ (64 * x.m.m.length + 64 * y.m.m.length) =
        ((val x.m.m * B ^ y.m.m.length : ℕ) : K) * 2 ^ x.e := by
      rw [Num.abs_val, two_zpow_sub, zpow_natCast, pow_add, B_pow]
      push_cast; field_simp
    have hvy : |(y.toK : K)| * 2 ^ (64 * x.m.m.length + 64 * y.m.m.length) =
        ((val y.m.m * B ^ x.m.m.length : ℕ) : K) * 2 ^ x.e := by
      rw [Num.abs_val, two_zpow_sub, zpow_natCast, pow_add, B_pow, hee]
      push_cast; field_simp
    have hT : (0:K) < 2 ^ (64 * x.m.m.length + 64 * y.m.m.length) := by positivity
    have hE := two_zpow_pos (K := K) x.e
    have t1 : (|(y.toK : K)| < |(x.toK : K)| ↔
        val y.m.m * B ^ x.m.m.length < val x.m.m * B ^ y.m.m.length) := by
      rw [← mul_lt_mul_iff_left₀ hT, hvx, hvy, mul_lt_mul_iff_left₀ hE, Nat.cast_lt]
    have t2 : (|(x.toK : K)| < |(y.toK : K)| ↔
        val x.m.m * B ^ y.m.m.length < val y.m.m * B ^ x.m.m.length) := by
      rw [← mul_lt_mul_iff_left₀ hT, hvx, hvy, mul_lt_mul_iff_left₀ hE, Nat.cast_lt]
    rw [t1, t2]
    exact hc
  · rw [if_pos (by omega)]
    have := key (frac m2.m) (frac m1.m) e2 e1 hf1 hf2' h
    rw [← hv1, ← hv2] at this
    refine ⟨⟨fun _ => this, fun _ => by norm_num⟩,
      ⟨fun h => absurd h (by norm_num), fun h => absurd h (not_lt.2 this.le)⟩⟩

end AF
