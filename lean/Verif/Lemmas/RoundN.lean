import Verif.Lemmas.SetPrec
/-!
# Rounding to `n` fractional binary digits
-/

namespace AF

variable {K : Type*} [Field K] [LinearOrder K] [IsStrictOrderedRing K]
set_option linter.unusedSectionVars false

theorem clzLoop_spec (l : List Nat) : ∀ (w ret : Nat), w < B → Wf l →
    ((w = 0 ∧ val l = 0) → (clzLoop w l ret).1 = 0 ∧ (clzLoop w l ret).2 = ret + 64 * (l.length + 1)) ∧
    (¬ (w = 0 ∧ val l = 0) → 0 < (clzLoop w l ret).1 ∧ (clzLoop w l ret).1 < B ∧
      (clzLoop w l ret).2 ≤ ret + 64 * l.length) := by
  induction l with
  | nil =>
    intro w ret hw _
    unfold clzLoop
    by_cases h : w = 0
    · simp [h, val]
    · simp [h, val]; omega
  | cons v vs ih =>
    intro w ret hw hl
    obtain ⟨hv, hvs⟩ := wf_cons.1 hl
    unfold clzLoop
    have hB := B_pos
    have hz : val (v :: vs) = 0 ↔ v = 0 ∧ val vs = 0 := by
      simp only [val]
      constructor
      · intro h
        have h1 : v = 0 := by omega
        have h2 : B * val vs = 0 := by omega
        rcases Nat.mul_eq_zero.1 h2 with h3 | h3
        · omega
        · exact ⟨h1, h3⟩
      · rintro ⟨rfl, h⟩; rw [h]; rfl
    by_cases h : w = 0
    · rw [if_pos h]
      obtain ⟨i1, i2⟩ := ih v (ret + 64) hv hvs
      refine ⟨fun h2 => ?_, fun h2 => ?_⟩
      · obtain ⟨a, b⟩ := i1 (hz.1 h2.2)
        exact ⟨a, by rw [b]; simp; omega⟩
      · obtain ⟨a, b, c⟩ := i2 (fun h3 => h2 ⟨h, hz.2 h3⟩)
        exact ⟨a, b, by simp; omega⟩
    · rw [if_neg h]
      refine ⟨fun h2 => absurd h2.1 h, fun _ => ⟨by omega, hw, by omega⟩⟩

/-- `count_leading_zeroes_skip_first` recognises a power of two with the top bit set. -/
theorem clzSkip_spec {m : List Nat} (hm : Wf m) (hl : 0 < m.length) :
    countLeadingZeroesSkipFirst m ≠ 64 * m.length ↔ val m % 2 ^ (64 * m.length - 1) ≠ 0 := by
  obtain ⟨lo, v, rfl⟩ : ∃ lo v, m = lo ++ [v] := by
    rcases List.eq_nil_or_concat m with h | ⟨lo, v, h⟩
    · rw [h] at hl; simp at hl
    · exact ⟨lo, v, by simpa using h⟩
  obtain ⟨w1, w2⟩ := wf_append.1 hm
  have hv : v < B := w2 v (by simp)
  unfold countLeadingZeroesSkipFirst
  rw [List.reverse_append]
  simp only [List.reverse_cons, List.reverse_nil, List.nil_append, List.cons_append]
  rw [show WMAX >>> 1 = 2 ^ 63 - 1 by decide, Nat.and_two_pow_sub_one_eq_mod]
  have hlt : v % 2 ^ 63 < B := lt_of_le_of_lt (Nat.mod_le _ _) hv
  obtain ⟨c1, c2⟩ := clzLoop_spec lo.reverse (v % 2 ^ 63) 0 hlt (wf_reverse.2 w1)
  have hval : val (lo ++ [v]) % 2 ^ (64 * (lo ++ [v]).length - 1) =
      val lo + 2 ^ (64 * lo.length) * (v % 2 ^ 63) := by
    have e : 2 ^ (64 * (lo ++ [v]).length - 1) = 2 ^ (64 * lo.length) * 2 ^ 63 := by
      rw [← pow_add]; congr 1; simp; omega
    rw [e, val_append, B_pow, Nat.mod_mul]
    have h1 := val_lt_two_pow w1
    have h2 : val [v] = v := by simp [val]
    rw [h2, Nat.add_mul_mod_self_left, Nat.mod_eq_of_lt h1, Nat.add_mul_div_left _ _ (by positivity),
      Nat.div_eq_of_lt h1, Nat.zero_add]
  rw [hval]
  have hrev : val lo.reverse = 0 ↔ val lo = 0 := by
    rw [val_eq_zero_iff, val_eq_zero_iff]; simp
  have hpos : 0 < 2 ^ (64 * lo.length) := by positivity
  have hlen : (lo ++ [v]).length = lo.length + 1 := by simp
  rw [hlen]
  generalize clzLoop (v % 2 ^ 63) lo.reverse 0 = r at *
  rw [List.length_reverse, Nat.zero_add] at c1 c2
  by_cases hz : v % 2 ^ 63 = 0 ∧ val lo = 0
  · obtain ⟨a, b⟩ := c1 ⟨hz.1, hrev.2 hz.2⟩
    rw [hz.1, hz.2, if_neg (by simp [a]), b]
    simp
  · obtain ⟨a, b, c⟩ := c2 (fun h => hz ⟨h.1, hrev.1 h.2⟩)
    rw [if_pos (by omega)]
    have := lz_le a b
    refine ⟨fun _ h => hz ?_, fun _ => by omega⟩
    have h1 : val lo = 0 := by omega
    have h2 : 2 ^ (64 * lo.length) * (v % 2 ^ 63) = 0 := by omega
    rcases Nat.mul_eq_zero.1 h2 with h3 | h3
    · omega
    · exact ⟨h3, h1⟩

theorem RMag_self (rm : RM) (pos : Bool) (k : Nat) : RMag rm pos (k : K) k := by
  cases rm <;> cases pos <;> simp [RMag]

/-- The word buffer with only the top bit set. -/
theorem top_words (L : Nat) (hL : 0 < L) :
    Wf ((List.replicate L 0).set (L - 1) MSB) ∧
    val ((List.replicate L 0).set (L - 1) MSB) = 2 ^ (64 * L - 1) := by
  have e : (List.replicate L 0).set (L - 1) MSB = List.replicate (L - 1) 0 ++ [MSB] := by
    obtain ⟨l, rfl⟩ : ∃ l, L = l + 1 := ⟨L - 1, by omega⟩
    rw [Nat.add_sub_cancel, List.replicate_succ', List.set_append_right _ _ (by simp)]
    simp
  rw [e]
  refine ⟨wf_append.2 ⟨wf_zeros _, by intro a ha; simp at ha; subst ha; decide⟩, ?_⟩
  rw [val_zeros_append, B_pow]
  have : val [MSB] = 2 ^ 63 := by decide
  rw [this, ← pow_add]; congr 1; omega

theorem msb_and (w : Nat) (hw : w < B) : w &&& MSB ≠ 0 ↔ 2 ^ 63 ≤ w := by
  rw [show MSB = 2 ^ 63 by decide, Nat.and_two_pow]
  have hb : w.testBit 63 = decide (2 ^ 63 ≤ w) := by
    rw [Nat.testBit_eq_decide_div_mod_eq]
    have h2 : w / 2 ^ 63 % 2 = 1 ↔ 2 ^ 63 ≤ w := by
      unfold B at hw
      omega
    simp only [h2]
  rw [hb]
  by_cases h : 2 ^ 63 ≤ w <;> simp [h]

theorem round_WF {x : Num} (hx : x.WF) (n : Nat) (rm : RM) {v : Num} (hv : x.round n rm = .ok v) :
    v.WF ∧ v.m.m.length = x.m.m.length ∧ v.s = x.s := by
  have hmb : x.m.maxBitLen = 64 * x.m.m.length := by unfold Mantissa.maxBitLen; ring
  unfold Num.round at hv
  rw [hmb] at hv
  split at hv
  · exact absurd hv (by simp)
  dsimp only at hv
  split at hv
  swap
  · injection hv with hv; subst hv; exact ⟨hx, rfl, rfl⟩
  rename_i hcnd
  obtain ⟨he0, hen, hz⟩ := hcnd
  have hz : x.isZero = false := by simpa using hz
  have hn0 := hx.n_pos hz
  have hnl := hx.n_le
  have hL : 0 < x.m.m.length := by omega
  have hem := hx.emin
  obtain ⟨m, hm⟩ : ∃ m, m = ((((64 * x.m.m.length : ℕ) : ℤ) - x.e).toNat - n) := ⟨_, rfl⟩
  rw [← hm] at hv
  have hm0 : 0 < m := by omega
  split at hv
  · rename_i hge
    split at hv
    · split at hv
      · rename_i hlow
        exfalso; omega
      · injection hv with hv; subst hv
        obtain ⟨t1, t2⟩ := top_words _ hL
        refine ⟨⟨?_, ?_, ?_, ?_, ?_, ?_⟩, ?_, rfl⟩ <;> dsimp only [Mantissa.setZero]
        · simpa using t1
        · rw [List.length_replicate, t2, size_two_pow_sub (by omega)]
          simp [Mantissa.maxBitLen]; ring
        · omega
        · unfold EMAX; omega
        · intro _ h; simp [Mantissa.maxBitLen] at h; omega
        · simpa using hx.sized
        · simp
    · injection hv with hv; subst hv
      refine ⟨⟨?_, ?_, ?_, ?_, ?_, ?_⟩, ?_, rfl⟩ <;> dsimp only [Mantissa.setZero]
      · exact wf_zeros _
      · simp [val_replicate_zero]
      · decide
      · decide
      · intro h; omega
      · simpa using hx.sized
      · simp
  · rename_i hlt
    have hlt : m < 64 * x.m.m.length := by omega
    by_cases hrm : rm = .none
    · subst hrm
      rw [roundMantissa_none hx.wf hm0 hlt] at hv
      simp only [Bool.false_eq_true, if_false] at hv
      split at hv
      · rename_i ha
        rw [isAllZero_iff] at ha
        exact absurd ha (hx.val_ne hz)
      · split at hv
        · rename_i hs
          injection hv with hv; subst hv
          refine ⟨⟨hx.wf, ?_, hx.emin, hx.emax, ?_, hx.sized⟩, rfl, rfl⟩
          · exact findBitLen_eq hx.wf
          · intro _ _
            apply hx.norm hn0
            have := of_decide_eq_true hs
            simp only [Mantissa.maxBitLen] at this
            omega
        · injection hv with hv; subst hv
          exact ⟨⟨hx.wf, hx.bits, hx.emin, hx.emax, hx.norm, hx.sized⟩, rfl, rfl⟩
    · obtain ⟨_, hi, hl2, hwf2, hlt2, hge2⟩ :=
        roundMantissa_spec hx.wf hm0 hlt hrm x.isPositive (64 * x.m.m.length) x.inexact
      set Q := roundMantissa x.m.m m rm x.isPositive false (64 * x.m.m.length) x.inexact with hQ
      set k := rndN rm x.isPositive (val x.m.m) m with hk
      split at hv
      · rename_i hr
        split at hv
        · exact absurd hv (by simp)
        · rename_i hne
          injection hv with hv; subst hv
          have h1 : val Q.m = 2 ^ (64 * x.m.m.length - 1) := by
            rcases Nat.lt_or_ge (k * 2 ^ m) (2 ^ (64 * x.m.m.length)) with h | h
            · rw [(hlt2 h).1] at hr; simp at hr
            · exact (hge2 h).2
          have hnn : x.m.n = 64 * x.m.m.length := by
            by_contra hcn
            have h2 : val x.m.m < 2 ^ (64 * x.m.m.length - 1) := by
              have := Nat.lt_size_self (val x.m.m)
              rw [← hx.bits] at this
              exact lt_of_lt_of_le this (Nat.pow_le_pow_right (by norm_num) (by omega))
            have h3 := rndN_le rm x.isPositive (val x.m.m) m
            rw [← hk] at h3
            have h4 : val x.m.m / 2 ^ m < 2 ^ (64 * x.m.m.length - 1 - m) := by
              rw [Nat.div_lt_iff_lt_mul (by positivity), ← pow_add]
              exact lt_of_lt_of_le h2 (Nat.pow_le_pow_right (by norm_num) (by omega))
            have h5 : k * 2 ^ m ≤ 2 ^ (64 * x.m.m.length - 1 - m) * 2 ^ m :=
              Nat.mul_le_mul_right _ (by omega)
            rw [← pow_add, show 64 * x.m.m.length - 1 - m + m = 64 * x.m.m.length - 1 by omega] at h5
            have h6 : k * 2 ^ m < 2 ^ (64 * x.m.m.length) :=
              lt_of_le_of_lt h5 (Nat.pow_lt_pow_right (by norm_num) (by omega))
            rw [(hlt2 h6).1] at hr; simp at hr
          refine ⟨⟨hwf2, ?_, ?_, ?_, ?_, ?_⟩, hl2, rfl⟩ <;> dsimp only
          · rw [h1, size_two_pow_sub (by omega), hnn]
          · omega
          · have := hx.emax; omega
          · intro _ h; rw [hl2] at h; omega
          · rw [hl2]; exact hx.sized
      · rename_i hr
        have hvk : val Q.m = k * 2 ^ m := by
          rcases Nat.lt_or_ge (k * 2 ^ m) (2 ^ (64 * x.m.m.length)) with h | h
          · exact (hlt2 h).2
          · exact absurd (hge2 h).1 hr
        split at hv
        · rename_i ha
          rw [isAllZero_iff] at ha
          injection hv with hv; subst hv
          refine ⟨⟨hwf2, ?_, ?_, ?_, ?_, ?_⟩, hl2, rfl⟩ <;> dsimp only at ha ⊢
          · rw [ha]; simp
          · decide
          · decide
          · intro h; omega
          · rw [hl2]; exact hx.sized
        · rename_i ha
          split at hv
          · rename_i hs
            injection hv with hv; subst hv
            have hs : x.m.n < 64 * x.m.m.length := by
              simpa [Mantissa.isSubnormal, Mantissa.maxBitLen, hl2, Nat.mul_comm] using hs
            refine ⟨⟨hwf2, findBitLen_eq hwf2, hx.emin, hx.emax, ?_, ?_⟩, hl2, rfl⟩
            · intro _ _; exact hx.norm hn0 hs
            · show 64 * Q.m.length ≤ _; rw [hl2]; exact hx.sized
          · rename_i hs
            injection hv with hv; subst hv
            have hnn : x.m.n = 64 * x.m.m.length := by
              have : ¬ x.m.n < 64 * x.m.m.length := by
                simpa [Mantissa.isSubnormal, Mantissa.maxBitLen, hl2, Nat.mul_comm] using hs
              omega
            refine ⟨⟨hwf2, ?_, hx.emin, hx.emax, ?_, ?_⟩, hl2, rfl⟩ <;> dsimp only
            · have h1 : 2 ^ (64 * x.m.m.length - 1) ≤ val Q.m := by
                have h2 : 2 ^ (64 * x.m.m.length - 1) ≤ val x.m.m := by
                  rw [← Nat.lt_size, ← hx.bits]; omega
                have h3 : 2 ^ (64 * x.m.m.length - 1 - m) ≤ k := by
                  refine le_trans ?_ (rndN_ge rm x.isPositive (val x.m.m) m)
                  rw [Nat.le_div_iff_mul_le (by positivity), ← pow_add]
                  exact le_trans (le_of_eq (by congr 1; omega)) h2
                rw [hvk]
                calc 2 ^ (64 * x.m.m.length - 1) = 2 ^ (64 * x.m.m.length - 1 - m) * 2 ^ m := by
                      rw [← pow_add]; congr 1; omega
                  _ ≤ _ := Nat.mul_le_mul_right _ h3
              have : Normd Q.m := ⟨hwf2, by omega, by rw [hl2]; exact h1⟩
              rw [this.size, hl2, hnn]
            · intro _ h; rw [hl2] at h; omega
            · rw [hl2]; exact hx.sized


/-- The test `most_significant_word() & WORD_SIGNIFICANT_BIT` looks at the word holding the highest
set bit, so it only says that the bit length is a multiple of the word size. -/
theorem msw_bit {x : Num} (hx : x.WF) (hz : x.isZero = false) :
    x.m.mostSignificantWord &&& MSB ≠ 0 ↔ x.m.n % 64 = 0 := by
  have hn0 := hx.n_pos hz
  have hnl := hx.n_le
  unfold Mantissa.mostSignificantWord
  rw [if_pos hn0]
  have hi : (x.m.n - 1) / 64 < x.m.m.length := by omega
  rw [msb_and _ (wd_lt hx.wf hi)]
  have hb := wd_bit hx.wf hi (show 63 < 64 by norm_num)
  have hw := wd_lt hx.wf hi
  generalize hj : (x.m.n - 1) / 64 = j at *
  have h1 : 2 ^ 63 ≤ wd x.m.m j ↔ (wd x.m.m j / 2 ^ 63) % 2 = 1 := by
    unfold B at hw; omega
  rw [Nat.and_one_is_mod, Nat.shiftRight_eq_div_pow] at hb
  rw [h1, hb]
  have hlt : val x.m.m < 2 ^ x.m.n := by rw [hx.bits]; exact Nat.lt_size_self _
  constructor
  · intro h
    by_contra hc
    have : val x.m.m < 2 ^ (64 * j + 63) :=
      lt_of_lt_of_le hlt (Nat.pow_le_pow_right (by norm_num) (by omega))
    rw [Nat.div_eq_of_lt this] at h
    simp at h
  · intro h
    have e : x.m.n = 64 * j + 64 := by omega
    have h2 : 2 ^ (64 * j + 63) ≤ val x.m.m := by
      rw [← Nat.lt_size, ← hx.bits]; omega
    have h3 : val x.m.m / 2 ^ (64 * j + 63) = 1 := by
      rw [Nat.div_eq_iff (by positivity)]
      rw [e, pow_succ] at hlt
      omega
    rw [h3]

/-- A value below one rounded to nearest. -/
theorem near_small {V L m : Nat} (hV0 : 0 < V) (hV : V < 2 ^ (64 * L)) (hL : 0 < L) (hm : 64 * L ≤ m)
    {rm : RM} (hrm : rm.nearest = true) (pos : Bool) :
    RMag rm pos ((V : K) / 2 ^ m)
      (if (m = 64 * L ∧ 2 ^ (64 * L - 1) ≤ V ∧ (rm = .toOdd ∨ V % 2 ^ (64 * L - 1) ≠ 0)) then 1
        else 0) := by
  set X : K := (V : K) / 2 ^ m with hX
  have hX0 : 0 < X := div_pos (by exact_mod_cast hV0) (by positivity)
  have hX1 : X < 1 := by
    rw [hX, div_lt_one (by positivity)]
    have : V < 2 ^ m := lt_of_lt_of_le hV (Nat.pow_le_pow_right (by norm_num) hm)
    exact_mod_cast this
  have key : ∀ j : Nat, 2 ^ m = 2 * j → ((X < 1 / 2 ↔ V < j) ∧ (X = 1 / 2 ↔ V = j)) := by
    intro j hj
    have hjK : (2 : K) ^ m = 2 * j := by exact_mod_cast hj
    have hj0 : (0 : K) < j := by
      have : (0 : K) < 2 ^ m := by positivity
      rw [hjK] at this; linarith
    rw [hX, hjK]
    constructor
    · rw [div_lt_iff₀ (by positivity)]
      rw [show (1 / 2 : K) * (2 * j) = j by ring]
      exact Nat.cast_lt
    · rw [div_eq_iff (by positivity)]
      rw [show (1 / 2 : K) * (2 * j) = j by ring]
      exact Nat.cast_inj
  have hp : 2 ^ m = 2 * 2 ^ (m - 1) := two_pow_split m (by omega)
  obtain ⟨k1, k2⟩ := key _ hp
  have a0 : |X - ((0 : ℕ) : K)| = X := by rw [Nat.cast_zero, sub_zero, abs_of_pos hX0]
  have a1 : |X - ((1 : ℕ) : K)| = 1 - X := by
    rw [Nat.cast_one, abs_of_neg (by linarith)]; ring
  split
  · rename_i h
    obtain ⟨h1, h2, h3⟩ := h
    subst h1
    have hge : 1 / 2 ≤ X := by
      rw [← not_lt, k1]; omega
    cases rm <;> simp [RM.nearest] at hrm <;> simp only [RMag, a1]
    · refine ⟨by linarith, fun h => ?_⟩
      exfalso
      rcases h3 with h3 | h3
      · simp at h3
      · have : V = 2 ^ (64 * L - 1) := k2.1 (by linarith)
        rw [this] at h3; simp at h3
    · exact ⟨by linarith, fun _ => by decide⟩
  · rename_i h
    have hle : X ≤ 1 / 2 ∧ (X = 1 / 2 → rm = .toEven) := by
      by_cases hm2 : m = 64 * L
      · subst hm2
        rcases Nat.lt_or_ge V (2 ^ (64 * L - 1)) with h2 | h2
        · have := k1.2 h2
          exact ⟨this.le, fun h => absurd h this.ne⟩
        · have h3 : ¬ (rm = .toOdd ∨ V % 2 ^ (64 * L - 1) ≠ 0) := fun h3 => h ⟨rfl, h2, h3⟩
          push Not at h3
          have h4 : V = 2 ^ (64 * L - 1) := by
            have h5 := Nat.div_add_mod V (2 ^ (64 * L - 1))
            have h6 : V / 2 ^ (64 * L - 1) < 2 := by
              rw [Nat.div_lt_iff_lt_mul (by positivity)]; omega
            have h7 : 1 ≤ V / 2 ^ (64 * L - 1) := by
              rw [Nat.le_div_iff_mul_le (by positivity)]; omega
            have h8 : V / 2 ^ (64 * L - 1) = 1 := by omega
            rw [h8, h3.2] at h5; omega
          refine ⟨(k2.2 h4).le, fun _ => ?_⟩
          cases rm <;> simp [RM.nearest] at hrm h3 ⊢
      · have : X < 1 / 2 := by
          rw [k1]
          exact lt_of_lt_of_le hV (Nat.pow_le_pow_right (by norm_num) (by omega))
        exact ⟨this.le, fun h => absurd h this.ne⟩
    cases rm <;> simp [RM.nearest] at hrm <;> simp only [RMag, a0]
    · exact ⟨hle.1, fun _ => by decide⟩
    · exact ⟨hle.1, fun h => by simpa using hle.2 h⟩

theorem round_spec {x : Num} (hx : x.WF) {n : Nat} (hn : n < ISIZE_MAX / 2) {rm : RM}
    (hrm : rm ≠ .none)
    (hex : rm.nearest = true → (n : ℤ) = -x.e → x.m.n % 64 = 0 → x.m.n = 64 * x.m.m.length ∨ x.m.n = 0) :
    match x.round n rm with
    | .ok v => Rounds rm (x.toK : K) ((2 : K) ^ (-(n : ℤ))) v.toK ∧
        (v.inexact = true ↔ x.inexact = true ∨ (v.toK : K) ≠ x.toK)
    | .error er => er = .exponentOverflow x.s ∧
        ∃ r : K, Rounds rm (x.toK : K) ((2 : K) ^ (-(n : ℤ))) r ∧ (2 : K) ^ EMAX ≤ |r| := by
  have hmb : x.m.maxBitLen = 64 * x.m.m.length := by unfold Mantissa.maxBitLen; ring
  have hu := two_zpow_pos (K := K) (-(n : ℤ))
  -- a result of magnitude `k` units
  have fin : ∀ (r : K) (k : Nat), RMag rm x.s.isPos (|(x.toK : K)| / 2 ^ (-(n : ℤ))) k →
      r = x.s.toK * (k * 2 ^ (-(n : ℤ))) → Rounds rm (x.toK : K) ((2 : K) ^ (-(n : ℤ))) r := by
    intro r k h1 h2
    have := RMag.toRounds' (s := x.s) (abs_nonneg (x.toK : K)) hu h1
    rwa [← Num.toK_eq, ← h2] at this
  have hXu : |(x.toK : K)| / 2 ^ (-(n : ℤ)) =
      (val x.m.m : K) * 2 ^ (x.e - (64 * x.m.m.length : ℕ) + n) := by
    rw [Num.abs_val, mul_div_assoc, ← zpow_sub₀ (by norm_num)]
    congr 2; ring
  unfold Num.round
  rw [if_neg (by omega), hmb]
  dsimp only
  by_cases hc : ((64 * x.m.m.length : ℕ) : ℤ) - x.e > 0 ∧
      (((64 * x.m.m.length : ℕ) : ℤ) - x.e).toNat > n ∧ (!x.isZero) = true
  swap
  · rw [if_neg hc]
    refine ⟨?_, by simp⟩
    by_cases hz : x.isZero = true
    · have h0 : (x.toK : K) = 0 := Num.toK_of_zero (hx.isZero_iff.1 hz)
      apply fin _ 0
      · rw [h0, abs_zero, zero_div]
        exact_mod_cast RMag_self (K := K) rm x.s.isPos 0
      · rw [h0]; simp
    · have hge : 0 ≤ x.e - (64 * x.m.m.length : ℕ) + n := by
        by_contra hlt
        apply hc
        simp only [Bool.not_eq_true] at hz
        refine ⟨?_, ?_, by simp [hz]⟩ <;> omega
      obtain ⟨j, hj⟩ := Int.eq_ofNat_of_zero_le hge
      apply fin _ (val x.m.m * 2 ^ j)
      · rw [hXu, hj, zpow_natCast]
        exact_mod_cast RMag_self (K := K) rm x.s.isPos (val x.m.m * 2 ^ j)
      · rw [Num.toK_eq, Num.abs_val]
        congr 1
        push_cast
        rw [mul_assoc, ← zpow_natCast, two_zpow_mul]
        congr 2; omega
  rw [if_pos hc]
  obtain ⟨hc1, hc2, hz⟩ := hc
  have hz : x.isZero = false := by simpa using hz
  obtain ⟨m, hm⟩ : ∃ m, m = ((((64 * x.m.m.length : ℕ) : ℤ) - x.e).toNat - n) := ⟨_, rfl⟩
  rw [← hm]
  have hm0 : 0 < m := by omega
  have hmZ : (m : ℤ) = ((64 * x.m.m.length : ℕ) : ℤ) - x.e - n := by omega
  have hn0 := hx.n_pos hz
  have hnl := hx.n_le
  have hL : 0 < x.m.m.length := by omega
  have hem := hx.emin
  have hV0 : 0 < val x.m.m := Nat.pos_of_ne_zero (hx.val_ne hz)
  have hV := val_lt_two_pow hx.wf
  have hXm : |(x.toK : K)| / 2 ^ (-(n : ℤ)) = (val x.m.m : K) / 2 ^ m := by
    rw [hXu, div_eq_mul_inv, ← zpow_natCast, ← zpow_neg]; congr 2; omega
  have hxa : |(x.toK : K)| = (val x.m.m : K) / 2 ^ m * 2 ^ (-(n : ℤ)) := by
    rw [← hXm, div_mul_cancel₀ _ hu.ne']
  by_cases hge : m ≥ 64 * x.m.m.length
  · rw [if_pos hge]
    have hX0 : (0 : K) < (val x.m.m : K) / 2 ^ m := div_pos (by exact_mod_cast hV0) (by positivity)
    have hX1 : (val x.m.m : K) / 2 ^ m < 1 := by
      rw [div_lt_one (by positivity)]
      have : val x.m.m < 2 ^ m := lt_of_lt_of_le hV (Nat.pow_le_pow_right (by norm_num) hge)
      exact_mod_cast this
    set cnd := (Num.directedUp rm x.isPositive
            || (decide (m = 64 * x.m.m.length)
              && ((decide (x.m.mostSignificantWord &&& MSB ≠ 0) && rm == .toOdd)
                || (rm == .toEven && decide (x.m.mostSignificantWord &&& MSB ≠ 0)
                  && decide (countLeadingZeroesSkipFirst x.m.m ≠ 64 * x.m.m.length))))) with hcnd
    have hmag : RMag rm x.s.isPos ((val x.m.m : K) / 2 ^ m) (if cnd = true then 1 else 0) := by
      by_cases hnr : rm.nearest = true
      · have h1 := near_small (K := K) hV0 hV hL hge hnr x.s.isPos
        have hdu : Num.directedUp rm x.isPositive = false := by
          cases rm <;> simp [RM.nearest] at hnr <;> simp [Num.directedUp]
        convert h1 using 2
        rw [hcnd, hdu]
        simp only [Bool.false_or, Bool.and_eq_true, decide_eq_true_eq]
        apply and_congr_right
        intro hmm
        have hmsw : x.m.mostSignificantWord &&& MSB ≠ 0 ↔ 2 ^ (64 * x.m.m.length - 1) ≤ val x.m.m := by
          rw [msw_bit hx hz, ← Nat.lt_size, ← hx.bits]
          have := hex hnr (by omega)
          omega
        have hclz := clzSkip_spec hx.wf hL
        rw [Bool.or_eq_true, Bool.and_eq_true, Bool.and_eq_true, Bool.and_eq_true,
          decide_eq_true_eq, decide_eq_true_eq, hmsw, hclz]
        cases rm <;> simp [RM.nearest] at hnr <;> simp
      · have hnr : rm.nearest = false := by simpa using hnr
        have : cnd = Num.directedUp rm x.s.isPos := by
          rw [hcnd]
          have h1 : (rm == RM.toOdd) = false := by cases rm <;> simp [RM.nearest] at hnr <;> rfl
          have h2 : (rm == RM.toEven) = false := by cases rm <;> simp [RM.nearest] at hnr <;> rfl
          rw [h1, h2]
          simp only [Bool.and_false, Bool.false_and, Bool.or_false, Bool.or_self]
          rfl
        rw [this]
        rcases directedUp_cases rm x.s hnr _ hX0 hX1 with ⟨h1, h2⟩ | ⟨h1, h2⟩
        · rw [h1]; simpa using h2
        · rw [h1]; simpa using h2
    rw [← hXm] at hmag
    have hne : ∀ k : Nat, (x.s.toK : K) * (k * 2 ^ (-(n : ℤ))) ≠ x.toK := by
      intro k h
      rw [Num.toK_eq (x := x), mul_right_inj' (toK_ne_zero _), hxa, mul_left_inj' hu.ne'] at h
      rw [← h] at hX0 hX1
      have h1 : 0 < k := by exact_mod_cast hX0
      have h2 : k < 1 := by exact_mod_cast hX1
      omega
    by_cases hcd : cnd = true
    · rw [if_pos hcd]
      rw [if_pos hcd] at hmag
      rw [if_neg (by omega)]
      obtain ⟨t1, t2⟩ := top_words _ hL
      have hv : (Num.toK (Num.mk (-((n : ℤ) - 1)) x.s
          ⟨(List.replicate x.m.m.length 0).set (x.m.m.length - 1) MSB, 64 * x.m.m.length⟩ true) : K) =
          x.s.toK * ((1 : ℕ) * 2 ^ (-(n : ℤ))) := by
        unfold Num.toK
        dsimp only
        rw [t2, List.length_set, List.length_replicate, mul_assoc]
        congr 1
        push_cast
        rw [← zpow_natCast, two_zpow_mul, one_mul]
        congr 1; omega
      have hzr : x.m.setZero.m = List.replicate x.m.m.length 0 := by simp [Mantissa.setZero]
      have hml : (x.m.setZero).maxBitLen = 64 * x.m.m.length := by
        simp [Mantissa.setZero, Mantissa.maxBitLen]; ring
      rw [hzr, List.length_replicate, hml]
      refine ⟨?_, ?_⟩
      · exact fin _ 1 hmag hv
      · dsimp only
        rw [hv]
        simp only [true_iff]
        exact Or.inr (hne 1)
    · rw [if_neg hcd]
      rw [if_neg hcd] at hmag
      have hv : (Num.toK (Num.mk 0 x.s x.m.setZero true) : K) = x.s.toK * ((0 : ℕ) * 2 ^ (-(n : ℤ))) := by
        rw [Num.toK_of_zero]
        · simp
        · simp [Mantissa.setZero, val_replicate_zero]
      refine ⟨fin _ 0 hmag hv, ?_⟩
      rw [hv]
      simp only [true_iff]
      exact Or.inr (hne 0)
  · rw [if_neg hge]
    have hlt : m < 64 * x.m.m.length := by omega
    obtain ⟨_, hi, hl2, hwf2, hlt2, hge2⟩ :=
      roundMantissa_spec hx.wf hm0 hlt hrm x.isPositive (64 * x.m.m.length) x.inexact
    have hmag := rndN_RMag (K := K) rm x.isPositive (val x.m.m) m
    set Q := roundMantissa x.m.m m rm x.isPositive false (64 * x.m.m.length) x.inexact with hQ
    set k := rndN rm x.isPositive (val x.m.m) m with hk
    have hixx : (x.inexact || Q.inexact) = (x.inexact || decide (val x.m.m % 2 ^ m ≠ 0)) := by
      rw [hi]; cases x.inexact <;> simp
    rw [hixx]
    -- the value
    have hvq : ∀ v : K, v = x.s.toK * (k * 2 ^ (-(n : ℤ))) →
        Rounds rm (x.toK : K) ((2 : K) ^ (-(n : ℤ))) v ∧
        ((x.inexact || decide (val x.m.m % 2 ^ m ≠ 0)) = true ↔ x.inexact = true ∨ v ≠ x.toK) := by
      intro v hv
      refine ⟨fin _ k (by rw [hXm]; exact hmag) hv, ?_⟩
      rw [Bool.or_eq_true, decide_eq_true_eq]
      apply or_congr_right
      rw [hv, Num.toK_eq (x := x), ne_eq (x.s.toK * _), mul_right_inj' (toK_ne_zero _), hxa,
        mul_left_inj' hu.ne', eq_div_iff (by positivity)]
      constructor
      · intro h heq
        have : k * 2 ^ m = val x.m.m := by exact_mod_cast heq
        rw [← this, Nat.mul_mod_left] at h; exact h rfl
      · intro h hc
        obtain ⟨c, hc⟩ := Nat.dvd_of_mod_eq_zero hc
        apply h
        have hkc : k = c := by
          have : (val x.m.m : K) / 2 ^ m = (c : K) := by
            rw [hc]; push_cast; field_simp
          rw [this] at hmag; exact hmag.of_int
        rw [hkc, hc]; push_cast; ring
    have hpw : (2 : K) ^ m * 2 ^ (x.e - (64 * x.m.m.length : ℕ)) = 2 ^ (-(n : ℤ)) := by
      rw [← zpow_natCast, two_zpow_mul]; congr 1; omega
    rcases Nat.lt_or_ge (k * 2 ^ m) (2 ^ (64 * x.m.m.length)) with hkl | hkl
    · obtain ⟨e1, e2⟩ := hlt2 hkl
      rw [e1]
      simp only [Bool.false_eq_true, if_false]
      have hval : ∀ (nn : Nat) (b : Bool), (Num.toK (Num.mk x.e x.s ⟨Q.m, nn⟩ b) : K) =
          x.s.toK * (k * 2 ^ (-(n : ℤ))) := by
        intro nn b
        unfold Num.toK
        dsimp only
        rw [hl2, e2]; push_cast
        push_cast at hpw
        rw [mul_assoc, mul_assoc, hpw]
      split
      · rename_i v heq
        split at heq
        · rename_i ha
          injection heq with heq
          subst heq
          apply hvq
          rw [isAllZero_iff] at ha
          dsimp only at ha
          have hk0 : k = 0 := by
            rw [ha] at e2
            rcases Nat.mul_eq_zero.1 e2.symm with h | h
            · exact h
            · exact absurd h (by positivity)
          rw [Num.toK_of_zero ha, hk0]; simp
        · split at heq <;> injection heq with heq <;> subst heq
          · exact hvq _ (hval _ _)
          · exact hvq _ (hval _ _)
      · rename_i heq
        split at heq
        · simp at heq
        · split at heq <;> simp at heq
    · obtain ⟨e1, e2⟩ := hge2 hkl
      rw [e1]
      simp only [if_true]
      have hkv : k = 2 ^ (64 * x.m.m.length - m) := by
        have h1 := rndN_le rm x.isPositive (val x.m.m) m
        have hpw2 : 2 ^ (64 * x.m.m.length) = 2 ^ (64 * x.m.m.length - m) * 2 ^ m := by
          rw [← pow_add]; congr 1; omega
        have h2 : val x.m.m / 2 ^ m < 2 ^ (64 * x.m.m.length - m) := by
          rw [Nat.div_lt_iff_lt_mul (by positivity), ← hpw2]; exact hV
        have h4 : 2 ^ (64 * x.m.m.length - m) ≤ k := by
          by_contra hcn
          rw [hpw2] at hkl
          have := Nat.mul_lt_mul_of_pos_right (show k < 2 ^ (64 * x.m.m.length - m) by omega)
            (show 0 < 2 ^ m by positivity)
          omega
        omega
      have hkK : (k : K) * 2 ^ (-(n : ℤ)) = 2 ^ x.e := by
        rw [hkv]; push_cast
        rw [← zpow_natCast, two_zpow_mul]; congr 1; omega
      by_cases hE : x.e = EMAX
      · rw [if_pos hE]
        refine ⟨rfl, _, (hvq _ rfl).1, ?_⟩
        rw [abs_toK, hkK, hE, abs_of_pos (two_zpow_pos _)]
      · rw [if_neg hE]
        apply hvq
        rw [hkK]
        unfold Num.toK
        dsimp only
        rw [hl2, e2, mul_assoc]
        congr 1
        push_cast
        rw [← zpow_natCast, two_zpow_mul]; congr 1; omega

end AF
