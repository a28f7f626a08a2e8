import Verif.Lemmas.AddSub
import Verif.SpecNum
/-!
# From a rounded mantissa to the delivered number: overflow check and gradual underflow
-/

namespace AF

set_option linter.unusedSectionVars false

variable {K : Type*} [Field K] [LinearOrder K] [IsStrictOrderedRing K]

theorem bsgn_isPos (s : Sign) : (bsgn s.isPos : K) = s.toK := by
  cases s <;> simp [bsgn, Sign.isPos, Sign.toK]

theorem abs_toK (s : Sign) (x : K) : |(s.toK : K) * x| = |x| := by
  cases s <;> simp [Sign.toK]

theorem toK_mul_self (s : Sign) : (s.toK : K) * s.toK = 1 := by cases s <;> simp [Sign.toK]

theorem Num.abs_val (x : Num) :
    |(x.toK : K)| = (val x.m.m : K) * 2 ^ (x.e - (64 * x.m.m.length : ℕ)) := by
  unfold Num.toK
  rw [mul_assoc, abs_toK, abs_of_nonneg]
  exact mul_nonneg (Nat.cast_nonneg _) (two_zpow_pos _).le

/-- Directed roundings to nested grids compose. -/
theorem RMag.comp {rm : RM} {pos : Bool} {Y : K} {k k2 j : Nat} (hrm : rm.nearest = false)
    (h1 : RMag rm pos Y k) (h2 : RMag rm pos ((k : K) / 2 ^ j) k2) :
    RMag rm pos (Y / 2 ^ j) k2 := by
  have hp : (0:K) < 2 ^ j := by positivity
  have fl : ((k : K) ≤ Y ∧ Y < k + 1) → ((k2 : K) ≤ (k : K) / 2 ^ j ∧ (k : K) / 2 ^ j < k2 + 1) →
      ((k2 : K) ≤ Y / 2 ^ j ∧ Y / 2 ^ j < k2 + 1) := by
    rintro ⟨a, b⟩ ⟨c, d⟩
    rw [le_div_iff₀ hp] at c ⊢
    rw [div_lt_iff₀ hp] at d ⊢
    have d' : k < (k2 + 1) * 2 ^ j := by exact_mod_cast d
    have d2 : ((k + 1 : ℕ) : K) ≤ (((k2 + 1) * 2 ^ j : ℕ) : K) := by exact_mod_cast d'
    push_cast at d2
    constructor <;> linarith
  have ce : (Y ≤ (k : K) ∧ (k : K) < Y + 1) → ((k : K) / 2 ^ j ≤ k2 ∧ (k2 : K) < (k : K) / 2 ^ j + 1) →
      (Y / 2 ^ j ≤ (k2 : K) ∧ (k2 : K) < Y / 2 ^ j + 1) := by
    rintro ⟨a, b⟩ ⟨c, d⟩
    rw [div_le_iff₀ hp] at c ⊢
    have d0 : (k2 : K) - 1 < k / 2 ^ j := by linarith
    rw [lt_div_iff₀ hp] at d0
    have d1 : (k2 : K) * 2 ^ j < k + 2 ^ j := by linarith
    have d2 : k2 * 2 ^ j < k + 2 ^ j := by exact_mod_cast d1
    have d3 : ((k2 * 2 ^ j + 1 : ℕ) : K) ≤ ((k + 2 ^ j : ℕ) : K) := by exact_mod_cast d2
    push_cast at d3
    refine ⟨by linarith, ?_⟩
    have : (k2 : K) - 1 < Y / 2 ^ j := by rw [lt_div_iff₀ hp]; linarith
    linarith
  cases rm <;> cases pos <;> simp only [RM.nearest, Bool.true_eq_false] at hrm <;>
    simp only [RMag] at h1 h2 ⊢ <;> first | exact fl h1 h2 | exact ce h1 h2

/-- `RMag` in the form needed by `Rounds`. -/
theorem RMag.toRounds' {rm : RM} {s : Sign} {X u : K} {k : Nat} (hX : 0 ≤ X) (hu : 0 < u)
    (h : RMag rm s.isPos (X / u) k) : Rounds rm (s.toK * X) u (s.toK * (k * u)) := by
  have := h.toRounds (div_nonneg hX hu.le) hu
  rw [bsgn_isPos] at this
  have e1 : (s.toK : K) * (X / u) * u = s.toK * X := by
    rw [mul_assoc, div_mul_cancel₀ _ hu.ne']
  have e2 : (s.toK : K) * k * u = s.toK * (k * u) := by ring
  rwa [e1, e2] at this

theorem NR.roundsPrec {rm : RM} {s : Sign} {P : Nat} (hP : 0 < P) {X : K} {w : Nat} {e : ℤ}
    (h : NR rm s.isPos P X w e) :
    RoundsPrec rm P ((s.toK : K) * X) (s.toK * (w * 2 ^ (e - P))) := by
  obtain ⟨_, _, q, k, h1, h2, h3, h4, _⟩ := h.facts hP
  have hX : 0 < X := lt_of_lt_of_le (two_zpow_pos _) h1
  refine Or.inr ⟨q, ?_, ?_, ?_⟩
  · rw [abs_toK, abs_of_pos hX]; exact h1
  · rw [abs_toK, abs_of_pos hX]; exact h2
  · rw [h4]
    apply RMag.toRounds' hX.le (two_zpow_pos _)
    have : X / (2 : K) ^ (q - (P : ℤ)) = X * 2 ^ ((P : ℤ) - q) := by
      rw [div_eq_mul_inv, ← zpow_neg]; congr 2; ring
    rw [this]; exact h3

theorem RMag.div_of_zpow {X : K} (q : ℤ) (P : Nat) :
    X / (2 : K) ^ (q - (P : ℤ)) = X * 2 ^ ((P : ℤ) - q) := by
  rw [div_eq_mul_inv, ← zpow_neg]; congr 2; ring

/-- A value that rounds up to the bottom of the normal range does so on the coarser grid too. -/
theorem RMag.carry {rm : RM} {pos : Bool} {Y : K} {k : Nat} (h : RMag rm pos Y (2 * k))
    (hY : Y < 2 * k) : RMag rm pos (Y / 2) k := by
  have near : |Y - ((2 * k : ℕ) : K)| ≤ 1 / 2 → |Y / 2 - k| < 1 / 2 := by
    intro h
    push_cast at h
    have e : Y / 2 - k = (Y - 2 * k) / 2 := by ring
    rw [e, abs_div, abs_of_pos (by norm_num : (0:K) < 2)]
    linarith
  cases rm <;> cases pos <;> simp only [RMag] at h ⊢ <;>
    first
    | (push_cast at h; constructor <;> linarith [h.1, h.2])
    | (have h1 := near h.1; exact ⟨h1.le, fun h2 => absurd h2 h1.ne⟩)

theorem roundsFmt_normal {rm : RM} {s : Sign} {P : Nat} (hP : 0 < P) {X : K} {w : Nat} {e : ℤ}
    (h : NR rm s.isPos P X w e) (he : EMIN ≤ e) :
    RoundsFmt rm P ((s.toK : K) * X) (s.toK * (w * 2 ^ (e - P))) := by
  obtain ⟨_, _, q, k, h1, h2, h3, h4, h5, h6, h7, _⟩ := h.facts hP
  have hX : 0 < X := lt_of_lt_of_le (two_zpow_pos _) h1
  refine Or.inr ⟨q, ?_, ?_, ?_⟩
  · rw [abs_toK, abs_of_pos hX]; exact h1
  · rw [abs_toK, abs_of_pos hX]; exact h2
  · by_cases hq : EMIN ≤ q
    · rw [max_eq_left hq, h4]
      apply RMag.toRounds' hX.le (two_zpow_pos _)
      rw [RMag.div_of_zpow]; exact h3
    · have he' : e = q + 1 := by omega
      have heM : e = EMIN := by omega
      obtain ⟨hw, hk⟩ := h7 he'
      rw [max_eq_right (by omega), ← heM]
      apply RMag.toRounds' hX.le (two_zpow_pos _)
      have hk2 : k = 2 * w := by rw [hk, hw]; exact two_pow_split P hP
      rw [hk2] at h3
      have e1 : X / (2 : K) ^ (e - (P : ℤ)) = X * 2 ^ ((P : ℤ) - q) / 2 := by
        rw [RMag.div_of_zpow, he', show (P : ℤ) - q = (P - (q + 1)) + 1 by ring, two_zpow_add,
          zpow_one]
        ring
      rw [e1]
      apply h3.carry
      have hk' : ((2 * w : ℕ) : K) = 2 ^ P := by rw [← hk2, hk]; push_cast; ring
      push_cast at hk'
      rw [hk']
      have e2 : ((2:K) ^ P) = 2 ^ q * 2 ^ ((P : ℤ) - q) := by
        rw [two_zpow_mul, ← zpow_natCast]; congr 1; omega
      rw [e2]
      exact mul_lt_mul_of_pos_right h2 (two_zpow_pos _)

theorem size_two_pow_sub {n : Nat} (h : 0 < n) : Nat.size (2 ^ (n - 1)) = n := by
  rw [Nat.size_pow]; omega

theorem Normd.size {m : List Nat} (h : Normd m) : Nat.size (val m) = 64 * m.length := by
  obtain ⟨h1, h2, h3⟩ := h
  apply le_antisymm
  · rw [Nat.size_le]; exact val_lt_two_pow h1
  · have := Nat.lt_size.2 h3; omega

/-- The shifting branch of `subnormalize`. -/
theorem subn_core {m : Mantissa} {p : Nat} (hlen : m.m.length = p) (hm : Normd m.m)
    (hn : m.n = 64 * p) (rm : RM) (s : Sign) (ix : Bool) {sh : Nat} (hsh0 : 0 < sh)
    (hsh : sh < 64 * p) :
    let R := Num.subnormalize { e := EMIN, s, m, inexact := ix } (EMIN - (sh : ℤ)) rm
    R.m.m.length = p ∧ Wf R.m.m ∧ R.m.n = Nat.size (val R.m.m) ∧
      val R.m.m = rndN rm s.isPos (val m.m) sh ∧ R.e = EMIN ∧ R.s = s ∧
      R.inexact = (ix || decide (val m.m % 2 ^ sh ≠ 0)) := by
  intro R
  have hR : R = Num.subnormalize { e := EMIN, s, m, inexact := ix } (EMIN - (sh : ℤ)) rm := rfl
  unfold Num.subnormalize at hR
  have hz : (Num.isZero { e := EMIN, s, m, inexact := ix }) = false := by
    simp only [Num.isZero, Mantissa.isZero, hn, beq_eq_false_iff_ne]; omega
  have hcond : ((Mantissa.maxBitLen m : ℕ) : ℤ) + (EMIN - (sh : ℤ)) > EMIN := by
    simp only [Mantissa.maxBitLen, hlen]; omega
  have hpos : Num.isPositive { e := EMIN, s, m, inexact := ix } = s.isPos := rfl
  rw [hz, if_neg (by simp), if_pos hcond] at hR
  dsimp only at hR
  rw [hpos, show (EMIN - (EMIN - (sh : ℤ))).toNat = sh by omega] at hR
  have hsh' : sh < 64 * m.m.length := by omega
  have hlt := hm.val_lt
  by_cases hrm : rm = .none
  · subst hrm
    rw [roundMantissa_none hm.1 hsh0 hsh'] at hR
    simp only [Bool.false_eq_true, if_false, if_pos hsh0] at hR
    have hv : val (shiftRight m.m sh) = rndN .none s.isPos (val m.m) sh := by
      rw [val_shiftRight hm.1, rndN_none]
    rw [hR]
    refine ⟨?_, shiftRight_wf hm.1 _, findBitLen_eq (shiftRight_wf hm.1 _), hv, rfl, rfl, ?_⟩
    · rw [shiftRight_length]; exact hlen
    · cases ix <;> simp
  · obtain ⟨hc, hi, hl2, hwf2, hlt2, hge2⟩ :=
      roundMantissa_spec hm.1 hsh0 hsh' hrm s.isPos m.maxBitLen ix
    set Q := roundMantissa m.m sh rm s.isPos false m.maxBitLen ix with hQ
    have hixx : (ix || Q.inexact) = (ix || decide (val m.m % 2 ^ sh ≠ 0)) := by
      rw [hi]; cases ix <;> simp
    by_cases hk : rndN rm s.isPos (val m.m) sh * 2 ^ sh < 2 ^ (64 * m.m.length)
    · obtain ⟨e1, e2⟩ := hlt2 hk
      rw [e1] at hR
      simp only [Bool.false_eq_true, if_false, if_pos hsh0] at hR
      have hv : val (shiftRight Q.m sh) = rndN rm s.isPos (val m.m) sh := by
        rw [val_shiftRight hwf2, e2, Nat.mul_div_cancel _ (by positivity)]
      rw [hR]
      refine ⟨?_, shiftRight_wf hwf2 _, findBitLen_eq (shiftRight_wf hwf2 _), hv, rfl, rfl, hixx⟩
      rw [shiftRight_length]; omega
    · obtain ⟨e1, e2⟩ := hge2 (by omega)
      rw [e1] at hR
      simp only [if_true] at hR
      -- the rounded integer is exactly `2^(64p - sh)`
      have hkv : rndN rm s.isPos (val m.m) sh = 2 ^ (64 * m.m.length - sh) := by
        have h1 := rndN_le rm s.isPos (val m.m) sh
        have h2 : val m.m / 2 ^ sh < 2 ^ (64 * m.m.length - sh) := by
          apply Nat.div_lt_of_lt_mul
          rw [← pow_add]
          exact lt_of_lt_of_eq hlt (by congr 1; omega)
        have h3 : 2 ^ (64 * m.m.length) = 2 ^ (64 * m.m.length - sh) * 2 ^ sh := by
          rw [← pow_add]; congr 1; omega
        rw [h3] at hk
        have h4 : 2 ^ (64 * m.m.length - sh) ≤ rndN rm s.isPos (val m.m) sh := by
          by_contra hc
          exact hk (Nat.mul_lt_mul_of_pos_right (by omega) (by positivity))
        omega
      by_cases h1 : sh - 1 > 0
      · rw [if_pos h1] at hR
        have hv : val (shiftRight Q.m (sh - 1)) = rndN rm s.isPos (val m.m) sh := by
          rw [val_shiftRight hwf2, e2, hkv, Nat.pow_div (by omega) (by norm_num)]
          congr 1; omega
        rw [hR]
        refine ⟨?_, shiftRight_wf hwf2 _, findBitLen_eq (shiftRight_wf hwf2 _), hv, rfl, rfl, hixx⟩
        rw [shiftRight_length]; omega
      · rw [if_neg h1] at hR
        have hs1 : sh = 1 := by omega
        rw [hR]
        refine ⟨by dsimp only; omega, hwf2, ?_, ?_, rfl, rfl, hixx⟩
        · dsimp only
          rw [e2, size_two_pow_sub (by omega), hn, hlen]
        · dsimp only
          rw [e2, hkv, hs1]

theorem NR.bounds {rm : RM} {pos : Bool} {P : Nat} (hP : 0 < P) {X : K} {w : Nat} {e : ℤ}
    (h : NR rm pos P X w e) :
    (2 : K) ^ (e - 1) ≤ (w : K) * 2 ^ (e - P) ∧ (w : K) * 2 ^ (e - P) < 2 ^ e := by
  obtain ⟨h1, h2, _⟩ := h.facts hP
  have hp := two_zpow_pos (K := K) (e - P)
  constructor
  · have : (2 : K) ^ (e - 1) = ((2 ^ (P - 1) : ℕ) : K) * 2 ^ (e - P) := by
      push_cast; rw [← zpow_natCast, two_zpow_mul]; congr 1; omega
    rw [this]
    exact mul_le_mul_of_nonneg_right (by exact_mod_cast h1) hp.le
  · have : (2 : K) ^ e = ((2 ^ P : ℕ) : K) * 2 ^ (e - P) := by
      push_cast; rw [← zpow_natCast, two_zpow_mul]; congr 1; omega
    rw [this]
    exact mul_lt_mul_of_pos_right (by exact_mod_cast h2) hp

theorem zpow_mono_two {a b : ℤ} (h : a ≤ b) : (2 : K) ^ a ≤ 2 ^ b :=
  zpow_le_zpow_right₀ (by norm_num) h

theorem sgn_pos {s : Sign} {X : K} (hX : 0 < X) : (0 < (s.toK : K) * X → s = .pos) := by
  cases s <;> simp [Sign.toK]
  linarith

theorem sgn_neg {s : Sign} {X : K} (hX : 0 < X) : ((s.toK : K) * X < 0 → s = .neg) := by
  cases s <;> simp [Sign.toK]
  linarith

theorem toK_ne_zero (s : Sign) : (s.toK : K) ≠ 0 := by cases s <;> simp [Sign.toK]

theorem directedUp_cases (rm : RM) (s : Sign) (hrm : rm.nearest = false) (X : K) (hX0 : 0 < X)
    (hX1 : X < 1) :
    (Num.directedUp rm s.isPos = true ∧ RMag rm s.isPos X 1) ∨
    (Num.directedUp rm s.isPos = false ∧ RMag rm s.isPos X 0) := by
  cases rm <;> cases s <;>
    simp [RM.nearest, Num.directedUp, Sign.isPos, RMag] at hrm ⊢ <;> constructor <;> linarith

theorem finish_spec {m : Mantissa} {p : Nat} (hp : 0 < p) (hlen : m.m.length = p)
    (hwf : Wf m.m) (hn : m.n = 64 * p) {rm : RM} {s : Sign} {e : ℤ} {X : K}
    (h : NR rm s.isPos (64 * p) X (val m.m) e) {ix ix' : Bool}
    (hix : ix' = true ↔ ix = true ∨ (val m.m : K) * 2 ^ (e - (64 * p : ℕ)) ≠ X)
    (hsz : 64 * p ≤ 2 ^ 62 - 2 ^ 31) :
    Delivers rm (64 * p) ((s.toK : K) * X) ix (Num.finish m s e rm ix') := by
  have hP : 0 < 64 * p := by omega
  obtain ⟨hw1, hw2, q, k, hq1, hq2, hmag, hwk, hqe, heq, _, _⟩ := h.facts hP
  have hX : 0 < X := lt_of_lt_of_le (two_zpow_pos _) hq1
  have hb := h.bounds hP
  have hm : Normd m.m := ⟨hwf, by omega, by rw [hlen]; exact hw1⟩
  have hrp := h.roundsPrec hP
  have habst : |(s.toK : K) * ((val m.m : K) * 2 ^ (e - ((64 * p : ℕ) : ℤ)))| =
      (val m.m : K) * 2 ^ (e - ((64 * p : ℕ) : ℤ)) := by
    rw [abs_toK, abs_of_nonneg]
    exact le_trans (two_zpow_pos _).le hb.1
  unfold Num.finish
  by_cases h1 : e > EMAX
  · rw [if_pos h1]
    refine ⟨?_, _, hrp, ?_⟩
    · cases s
      · right; simp [Sign.toK, hX]
      · left; simp [Sign.toK, hX]
    · rw [habst]
      exact le_trans (zpow_mono_two (by omega)) hb.1
  rw [if_neg h1]
  by_cases h2 : e < EMIN
  · rw [if_pos h2]
    -- below the normal range
    have hXlt : X < (2 : K) ^ (EMIN - 1) := by
      refine lt_of_lt_of_le hq2 (zpow_mono_two ?_)
      omega
    have htlt : (val m.m : K) * 2 ^ (e - ((64 * p : ℕ) : ℤ)) < 2 ^ (EMIN - 1) :=
      lt_of_lt_of_le hb.2 (zpow_mono_two (by omega))
    have hemax : (2 : K) ^ (EMIN - 1) ≤ 2 ^ EMAX := zpow_mono_two (by unfold EMIN EMAX; norm_num)
    set P := 64 * p with hPd
    set u : K := (2 : K) ^ (EMIN - (P : ℤ)) with hu
    have hu0 : 0 < u := two_zpow_pos _
    by_cases h3 : EMIN < (P : ℤ) + e
    · obtain ⟨sh, hsh⟩ : ∃ sh : ℕ, (sh : ℤ) = EMIN - e := ⟨(EMIN - e).toNat, by omega⟩
      have he : e = EMIN - (sh : ℤ) := by omega
      obtain ⟨r1, r2, r3, r4, r5, r6, r7⟩ :=
        subn_core hlen hm (by rw [hn]) rm s ix' (sh := sh) (by omega) (by omega)
      rw [← he] at r1 r2 r3 r4 r5 r6 r7
      set R := Num.subnormalize { e := EMIN, s, m, inexact := ix' } e rm with hR
      set k2 := rndN rm s.isPos (val m.m) sh with hk2
      have hmag2 := rndN_RMag (K := K) rm s.isPos (val m.m) sh
      rw [← hk2] at hmag2
      have hRv : (R.toK : K) = s.toK * (k2 * u) := by
        unfold Num.toK
        rw [r5, r6, r4, r1, mul_assoc]
      have htu : (val m.m : K) * 2 ^ (e - (P : ℤ)) / u = (val m.m : K) / 2 ^ sh := by
        rw [hu, mul_div_assoc, ← zpow_sub₀ (by norm_num), div_eq_mul_inv, ← zpow_natCast,
          ← zpow_neg]
        congr 2; omega
      have hsub : RoundsSub rm P ((s.toK : K) * (val m.m * 2 ^ (e - (P : ℤ)))) R.toK := by
        unfold RoundsSub
        rw [if_neg (fun hh => absurd hh.2.2 (not_lt.2 (by
          rw [habst]; exact le_trans (zpow_mono_two (by omega)) hb.1))), hRv]
        apply RMag.toRounds' (le_trans (two_zpow_pos _).le hb.1) hu0
        rw [htu]; exact hmag2
      refine ⟨?_, by rw [r1], ?_, ?_, ?_, ?_⟩
      · exact ⟨r2, r3, by rw [r5], by rw [r5]; unfold EMIN EMAX; norm_num, fun _ _ => r5,
          by rw [r1]; exact hsz⟩
      · intro h; rw [r6]; exact sgn_pos hX h
      · intro h; rw [r6]; exact sgn_neg hX h
      · -- inexact
        rw [r7, Bool.or_eq_true, decide_eq_true_eq, hix, hRv, or_assoc]
        have hcancel : (s.toK : K) * (k2 * u) ≠ s.toK * X ↔ (k2 : K) * u ≠ X := by
          rw [ne_eq, mul_right_inj' (toK_ne_zero s)]
        rw [hcancel]
        apply or_congr_right
        by_cases ht : (val m.m : K) * 2 ^ (e - (P : ℤ)) = X
        · have : ¬ ((val m.m : K) * 2 ^ (e - (P : ℤ)) ≠ X) := by rw [not_not]; exact ht
          simp only [this, false_or]
          rw [← ht]
          have e1 : (val m.m : K) * 2 ^ (e - (P : ℤ)) = (val m.m : K) / 2 ^ sh * u := by
            rw [← htu, div_mul_cancel₀ _ hu0.ne']
          rw [e1, ne_eq ((k2 : K) * u), mul_left_inj' hu0.ne', eq_div_iff (by positivity)]
          constructor
          · intro h heq
            have : k2 * 2 ^ sh = val m.m := by exact_mod_cast heq
            rw [← this, Nat.mul_mod_left] at h; exact h rfl
          · intro h hc
            obtain ⟨c, hc⟩ := Nat.dvd_of_mod_eq_zero hc
            apply h
            have hkc : k2 = c := by
              have : (val m.m : K) / 2 ^ sh = (c : K) := by rw [hc]; push_cast; field_simp
              rw [this] at hmag2; exact hmag2.of_int
            rw [hkc, hc]; push_cast; ring
        · simp only [ne_eq, ht, not_false_eq_true, true_or, true_iff]
          intro hc
          apply ht
          rw [hwk]
          obtain ⟨d, hd⟩ : ∃ d : ℕ, (d : ℤ) = EMIN - q := ⟨(EMIN - q).toNat, by omega⟩
          have e1 : X * (2 : K) ^ ((P : ℤ) - q) = ((k2 * 2 ^ d : ℕ) : K) := by
            rw [← hc, hu, mul_assoc, two_zpow_mul]
            push_cast
            rw [← zpow_natCast]; congr 2; omega
          have hmag' := hmag
          rw [e1] at hmag'
          rw [hmag'.of_int, ← e1, mul_assoc, two_zpow_mul]; simp
      · -- correct rounding in the directed modes
        by_cases hrm : rm.nearest = false
        · left
          refine Or.inr ⟨q, ?_, ?_, ?_⟩
          · rw [abs_toK, abs_of_pos hX]; exact hq1
          · rw [abs_toK, abs_of_pos hX]; exact hq2
          · rw [max_eq_right (by omega), hRv]
            apply RMag.toRounds' hX.le hu0
            obtain ⟨d, hd⟩ : ∃ d : ℕ, (d : ℤ) = EMIN - q := ⟨(EMIN - q).toNat, by omega⟩
            have e1 : X / u = X * (2 : K) ^ ((P : ℤ) - q) / 2 ^ d := by
              rw [hu, div_eq_mul_inv, ← zpow_neg, mul_div_assoc, ← zpow_natCast,
                ← zpow_sub₀ (by norm_num)]
              congr 2; omega
            have e2 : (val m.m : K) / 2 ^ sh = (k : K) / 2 ^ d := by
              rw [← htu, hwk, hu, mul_div_assoc, ← zpow_sub₀ (by norm_num), div_eq_mul_inv,
                ← zpow_natCast, ← zpow_neg]
              congr 2; omega
            rw [e2] at hmag2
            rw [e1]
            exact RMag.comp hrm hmag hmag2
        · right
          refine ⟨by simpa using hrm, ?_, _, hrp, ?_, hsub⟩
          · rw [abs_toK, abs_of_pos hX]; exact hXlt
          · rw [habst]; exact htlt
    · -- everything is shifted out
      have hXu : X / u < 1 := by
        rw [div_lt_one hu0]
        exact lt_of_lt_of_le hq2 (zpow_mono_two (by omega))
      have hXu0 : 0 < X / u := div_pos hX hu0
      have htu : (val m.m : K) * 2 ^ (e - (P : ℤ)) < u :=
        lt_of_lt_of_le hb.2 (zpow_mono_two (by omega))
      have ht0 : 0 < (val m.m : K) * 2 ^ (e - (P : ℤ)) := lt_of_lt_of_le (two_zpow_pos _) hb.1
      unfold Num.subnormalize
      have hz : (Num.isZero { e := EMIN, s, m, inexact := ix' }) = false := by
        simp only [Num.isZero, Mantissa.isZero, hn, beq_eq_false_iff_ne]; omega
      rw [hz, if_neg (by simp), if_neg (by simp only [Mantissa.maxBitLen, hlen]; omega)]
      have hpos : Num.isPositive { e := EMIN, s, m, inexact := ix' } = s.isPos := rfl
      rw [hpos]
      have hlen0 : (List.replicate m.m.length 0 : List Nat).length = p := by simp [hlen]
      have hfmt : ∀ kk : Nat, RMag rm s.isPos (X / u) kk →
          RoundsFmt rm P ((s.toK : K) * X) (s.toK * (kk * u)) := by
        intro kk hkk
        refine Or.inr ⟨q, ?_, ?_, ?_⟩
        · rw [abs_toK, abs_of_pos hX]; exact hq1
        · rw [abs_toK, abs_of_pos hX]; exact hq2
        · rw [max_eq_right (by omega)]
          exact RMag.toRounds' hX.le hu0 hkk
      have hsubr : ∀ kk : Nat, RMag rm s.isPos ((val m.m : K) * 2 ^ (e - (P : ℤ)) / u) kk →
          (val m.m : K) * 2 ^ (e - (P : ℤ)) < u / 2 → RoundsSub rm P ((s.toK : K) * (val m.m * 2 ^ (e - (P : ℤ)))) (s.toK * (kk * u)) := by
        intro kk hkk hlt
        unfold RoundsSub
        rw [if_neg (fun hh => absurd hh.2.1 (not_le.2 (by rw [habst]; exact hlt)))]
        exact RMag.toRounds' ht0.le hu0 hkk
      have hv1 : val ((List.replicate m.m.length 0).set 0 1) = 1 := by
        rw [hlen]; obtain ⟨d, rfl⟩ : ∃ d, p = d + 1 := ⟨p - 1, by omega⟩
        rw [List.replicate_succ, List.set_cons_zero, val_cons]
        have := val_append_zeros d []
        simp only [List.nil_append, val_nil] at this
        rw [this]; ring
      have hv0 : val (List.replicate m.m.length 0) = 0 := by
        have := val_append_zeros m.m.length []
        simpa using this
      by_cases hup : Num.directedUp rm s.isPos = true
      · rw [if_pos hup]
        have hrm : rm.nearest = false := by
          cases rm <;> first | rfl | (cases s <;> simp [Num.directedUp, Sign.isPos] at hup)
        have hr : ∀ Y : K, 0 < Y → Y < 1 → RMag rm s.isPos Y 1 := by
          intro Y hY0 hY1
          rcases directedUp_cases rm s hrm Y hY0 hY1 with h | h
          · exact h.2
          · rw [hup] at h; exact absurd h.1 (by simp)
        have hRv : (Num.toK (Num.mk EMIN s ⟨(List.replicate m.m.length 0).set 0 1, 1⟩ true) : K)
            = s.toK * ((1 : ℕ) * u) := by
          unfold Num.toK; dsimp only
          rw [hv1, List.length_set, hlen0, mul_assoc]
        refine ⟨?_, by dsimp only; rw [List.length_set, hlen0], sgn_pos hX, sgn_neg hX, ?_, ?_⟩
        · refine ⟨(wf_zeros _).set 0 one_lt_B, ?_, le_refl _, by unfold EMIN EMAX; norm_num, fun _ _ => rfl, ?_⟩
          · dsimp only; rw [hv1]; simp
          · dsimp only; rw [List.length_set, hlen0]; exact hsz
        · rw [hRv]
          simp only [true_iff]
          right
          rw [ne_eq, mul_right_inj' (toK_ne_zero s)]
          push_cast
          rw [div_lt_one hu0] at hXu
          rw [one_mul]; exact hXu.ne'
        · left; rw [hRv]; exact hfmt 1 (hr _ hXu0 hXu)
      · rw [if_neg hup]
        have hRv : (Num.toK ({ e := 0, s := s, m := m.setZero, inexact := true } : Num) : K) = 0 := by
          unfold Num.toK Mantissa.setZero; dsimp only
          rw [hv0]; simp
        have hz0 : (s.toK : K) * ((0 : ℕ) * u) = 0 := by simp
        refine ⟨?_, by simp [Mantissa.setZero]; omega, sgn_pos hX, sgn_neg hX, ?_, ?_⟩
        · refine ⟨wf_zeros _, ?_, by unfold EMIN; norm_num, by unfold EMAX; norm_num, ?_, ?_⟩
          · simp [Mantissa.setZero, hv0]
          · simp [Mantissa.setZero]
          · simp only [Mantissa.setZero, List.length_replicate]; rw [hlen]; exact hsz
        · rw [hRv]
          simp only [true_iff]
          right
          exact (mul_ne_zero (toK_ne_zero s) hX.ne').symm
        · by_cases hrm : rm.nearest = false
          · left
            rw [hRv, ← hz0]
            apply hfmt 0
            rcases directedUp_cases rm s hrm _ hXu0 hXu with h | h
            · exact absurd h.1 hup
            · exact h.2
          · right
            refine ⟨by simpa using hrm, by rw [abs_toK, abs_of_pos hX]; exact hXlt, _, hrp,
              by rw [habst]; exact htlt, ?_⟩
            rw [hRv]
            by_cases hhalf : u / 2 ≤ (val m.m : K) * 2 ^ (e - (P : ℤ))
            · unfold RoundsSub
              rw [habst, if_pos ⟨by simpa using hrm, hhalf, htu⟩]
            · rw [not_le] at hhalf
              rw [← hz0]
              refine hsubr 0 ?_ hhalf
              have hy : (val m.m : K) * 2 ^ (e - (P : ℤ)) / u < 1 / 2 := by
                rw [div_lt_iff₀ hu0]; linarith
              have hy0 : 0 < (val m.m : K) * 2 ^ (e - (P : ℤ)) / u := div_pos ht0 hu0
              have habs : |(val m.m : K) * 2 ^ (e - (P : ℤ)) / u - ((0 : ℕ) : K)| < 1 / 2 := by
                push_cast
                rw [sub_zero, abs_of_pos hy0]; exact hy
              cases rm <;> simp [RM.nearest] at hrm <;>
                exact ⟨habs.le, fun h => absurd h habs.ne⟩
  · rw [if_neg h2]
    have hRv : (Num.toK ({ e := e, s := s, m := m, inexact := ix' } : Num) : K)
        = s.toK * (val m.m * 2 ^ (e - ((64 * p : ℕ) : ℤ))) := by
      unfold Num.toK; dsimp only; rw [hlen, mul_assoc]
    refine ⟨?_, by dsimp only; rw [hlen], sgn_pos hX, sgn_neg hX, ?_, ?_⟩
    · refine ⟨hwf, ?_, by dsimp only; omega, by dsimp only; omega, ?_, by dsimp only; rw [hlen]; exact hsz⟩
      · dsimp only; rw [hm.size, hn, hlen]
      · intro _ h; dsimp only at h; rw [hlen, hn] at h; omega
    · rw [hRv, ne_eq, mul_right_inj' (toK_ne_zero s)]; exact hix
    · left; rw [hRv]; exact roundsFmt_normal hP h (by omega)

end AF
