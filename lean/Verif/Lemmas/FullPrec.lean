import Verif.Lemmas.Ext
import Verif.Lemmas.Mul
/-!
# Full-precision addition, subtraction and multiplication
-/

namespace AF

variable {K : Type*} [Field K] [LinearOrder K] [IsStrictOrderedRing K]
set_option linter.unusedSectionVars false

/-- The exact magnitude `X`, held by a normalised mantissa with exponent `-shift` and without trailing zero words. -/
def FullOk (X : K) (ix : Bool) (r : Int × Mantissa × Bool) : Prop :=
  Normd r.2.1.m ∧ r.2.1.n = 64 * r.2.1.m.length ∧ frac r.2.1.m * 2 ^ (-r.1) = X ∧ r.2.2 = ix ∧ wd r.2.1.m 0 ≠ 0

theorem takeWhile_zeros (m : List Nat) :
    m.take (m.takeWhile (· = 0)).length = List.replicate (m.takeWhile (· = 0)).length 0 := by
  induction m with
  | nil => rfl
  | cons a as ih =>
    by_cases h : a = 0
    · subst h
      simp only [List.takeWhile_cons, decide_true, if_true, List.length_cons, List.take_succ_cons,
        List.replicate_succ, ih]
    · simp [List.takeWhile_cons, h]

theorem shiftRight_words {m : List Nat} {n : Nat} (h : n < m.length) :
    shiftRight m (n * 64) = m.drop n ++ List.replicate n 0 := by
  unfold shiftRight
  dsimp only
  rw [Nat.mul_div_cancel _ (by norm_num), Nat.mul_mod_left, if_neg (by omega), if_neg (by omega)]
  split
  · rfl
  · have : n = 0 := by omega
    subst this; simp

theorem drop_takeWhile_length (m : List Nat) :
    m.drop (m.takeWhile (· = 0)).length = m.dropWhile (· = 0) := by
  induction m with
  | nil => rfl
  | cons a as ih =>
    by_cases h : a = 0
    · subst h; simpa using ih
    · simp [h]

/-- Cutting off trailing zero words keeps a normalised mantissa and its fraction. -/
theorem truncTrailing_spec {m : List Nat} (hm : Normd m) :
    Normd (truncTrailingZeroes m) ∧ (frac (truncTrailingZeroes m) : K) = frac m ∧ wd (truncTrailingZeroes m) 0 ≠ 0 := by
  obtain ⟨n, hn⟩ : ∃ n, n = (m.takeWhile (· = 0)).length := ⟨_, rfl⟩
  have htz := takeWhile_zeros m
  rw [← hn] at htz
  have hle : n ≤ m.length := by rw [hn]; exact (List.takeWhile_prefix _).length_le
  have hsplit : m = List.replicate n 0 ++ m.drop n := by
    conv_lhs => rw [← List.take_append_drop n m]
    rw [htz]
  have hlt : n < m.length := by
    rcases Nat.lt_or_ge n m.length with h | h
    · exact h
    · exfalso
      rw [List.drop_eq_nil_of_le h, List.append_nil] at hsplit
      have := hm.pos
      rw [hsplit, val_replicate_zero] at this
      omega
  have he : truncTrailingZeroes m = m.drop n := by
    unfold truncTrailingZeroes
    dsimp only
    rw [← hn]
    split
    · rw [shiftRight_words hlt, List.take_append_of_le_length (by simp),
        List.take_of_length_le (by simp)]
    · have : n = 0 := by omega
      subst this; simp
  have hv : val m = B ^ n * val (m.drop n) := by
    conv_lhs => rw [hsplit]
    exact val_zeros_append _ _
  have hlen : (m.drop n).length = m.length - n := by simp
  rw [he]
  refine ⟨⟨hm.1.drop n, by omega, ?_⟩, ?_, ?_⟩
  · have h := hm.2.2
    rw [hv, B_pow] at h
    have e1 : 2 ^ (64 * m.length - 1) = 2 ^ (64 * n) * 2 ^ (64 * (m.drop n).length - 1) := by
      rw [← pow_add]; congr 1; omega
    rw [e1] at h
    exact Nat.le_of_mul_le_mul_left h (by positivity)
  · unfold frac
    rw [hv, B_pow]
    have e1 : (2 : K) ^ (64 * m.length) = 2 ^ (64 * n) * 2 ^ (64 * (m.drop n).length) := by
      rw [← pow_add]; congr 1; omega
    rw [e1]; push_cast
    field_simp
  · rw [hn, drop_takeWhile_length]
    have h1 : m.dropWhile (· = 0) ≠ [] := by
      intro h
      rw [← drop_takeWhile_length, ← hn] at h
      rw [h] at hlen
      simp at hlen; omega
    have h2 := List.head_dropWhile_not (fun x => decide (x = 0)) h1
    cases hd : m.dropWhile (· = 0) with
    | nil => exact absurd hd h1
    | cons a as =>
      simp only [hd, List.head_cons, decide_eq_false_iff_not] at h2
      simpa [wd] using h2

/-- Words which, padded to `P` words, hold the exact magnitude hold it without padding as well. -/
theorem FullOk_of {M : List Nat} {P : Nat} (hP : M.length ≤ P) (hP0 : 0 < P) {c : ℤ} {pos : Bool} {X : K}
    (h : MantOk .none pos P X false
      (c - (if (adjustPrec M P .none pos false false).2.1 then 1 else 0),
        { m := (adjustPrec M P .none pos false false).1,
          n := (adjustPrec M P .none pos false false).1.length * 64 },
        (adjustPrec M P .none pos false false).2.2)) (q : Nat) (rm : RM) (pos' ix : Bool) :
    FullOk X ix (c - (if (adjustPrec M q rm pos' true ix).2.1 then 1 else 0),
        { m := (adjustPrec M q rm pos' true ix).1,
          n := (adjustPrec M q rm pos' true ix).1.length * 64 },
        (adjustPrec M q rm pos' true ix).2.2) := by
  have ha : adjustPrec M P .none pos false false = (List.replicate (P - M.length) 0 ++ M, false, false) := by
    unfold adjustPrec
    rw [if_neg (by simp)]
    split
    · rename_i hlt
      rw [tryExtend_eq hP, List.drop_append_of_le_length (by simp)]
      simp
    · rw [if_neg (by omega)]
      rw [Nat.sub_eq_zero_of_le (by omega)]; simp
  rw [ha] at h
  obtain ⟨_, hM, _, h4, h5⟩ := h
  dsimp only at hM h4 h5
  replace hM := (wf_append.1 hM).2
  simp only [Bool.false_eq_true, if_false, sub_zero, false_or, false_iff, not_not] at h4 h5
  have hlo := (h4.facts (by omega)).1
  rw [val_zeros_append, B_pow] at hlo h5
  have hL : 0 < M.length := by
    rcases Nat.eq_zero_or_pos M.length with h | h
    · rw [List.length_eq_zero_iff.1 h] at hlo
      have : 0 < 2 ^ (64 * P - 1) := by positivity
      simp [val] at hlo
    · exact h
  have hN : Normd M := by
    refine ⟨hM, hL, ?_⟩
    have e1 : 2 ^ (64 * P - 1) = 2 ^ (64 * (P - M.length)) * 2 ^ (64 * M.length - 1) := by
      rw [← pow_add]; congr 1; omega
    rw [e1] at hlo
    exact Nat.le_of_mul_le_mul_left hlo (by positivity)
  have hadj : adjustPrec M q rm pos' true ix = (truncTrailingZeroes M, false, ix) := by
    unfold adjustPrec; rw [if_pos rfl]
  rw [hadj]
  obtain ⟨t1, t2, t3⟩ := truncTrailing_spec (K := K) hN
  refine ⟨t1, by dsimp only; ring, ?_, rfl, t3⟩
  simp only [Bool.false_eq_true, if_false, sub_zero]
  rw [t2, ← h5]
  unfold frac
  have e1 : (2 : K) ^ (-c - ((64 * P : ℕ) : ℤ)) = 2 ^ (-c) / (2 ^ (64 * (P - M.length)) * 2 ^ (64 * M.length)) := by
    rw [two_zpow_sub, zpow_natCast, ← pow_add]
    congr 2; omega
  rw [e1]; push_cast
  field_simp


theorem absAdd_full {m1 m2 : List Nat} (h1 : Normd m1) (h2 : Normd m2) (sh p : Nat) (rm : RM)
    (pos ix : Bool) : FullOk (frac m1 + frac m2 / 2 ^ sh : K) ix (absAdd m1 m2 p sh rm pos true ix) := by
  obtain ⟨mc, hmc⟩ : ∃ mc : List Nat × Nat, ∀ P, sh < P →
      (∀ q rm pos ix, absAdd m1 m2 q sh rm pos true ix =
        (-(mc.2 : Int) - (if (adjustPrec mc.1 (wordLen q) rm pos true ix).2.1 then 1 else 0),
          { m := (adjustPrec mc.1 (wordLen q) rm pos true ix).1,
            n := (adjustPrec mc.1 (wordLen q) rm pos true ix).1.length * 64 },
          (adjustPrec mc.1 (wordLen q) rm pos true ix).2.2)) ∧
      (∀ rm pos ix, absAdd m1 m2 (64 * P) sh rm pos false ix =
        (-(mc.2 : Int) - (if (adjustPrec mc.1 P rm pos false ix).2.1 then 1 else 0),
          { m := (adjustPrec mc.1 P rm pos false ix).1,
            n := (adjustPrec mc.1 P rm pos false ix).1.length * 64 },
          (adjustPrec mc.1 P rm pos false ix).2.2)) := by
    refine ⟨if sh = 0 then
        ((addLoop 0 (RSS.take (max m1.length m2.length + 1)
            (RSS.new m1 1 0 (max m1.length m2.length + 1 - m1.length)))
          (RSS.take (max m1.length m2.length + 1)
            (RSS.new m2 1 0 (max m1.length m2.length + 1 - m2.length)))).1, 1)
      else
        let l := max m1.length ((sh + 63) / 64 + m2.length) + 1
        let r := addLoop 0 (extendedSlice m1 (l - m1.length))
          (RSS.take l (RSS.new m2 sh 0 (l - m2.length)))
        if r.2 > 0 then
          let s := shiftRight r.1 1
          (s.set (s.length - 1) (wd s (s.length - 1) ||| MSB), r.2)
        else (r.1, r.2), fun P hP => ⟨fun q rm pos ix => ?_, fun rm pos ix => ?_⟩⟩
    · unfold absAdd
      simp only [Bool.not_true, Bool.and_false, Bool.or_false, Bool.false_eq_true, if_false]
    · unfold absAdd
      rw [wordLen_mul]
      have hf : decide ((sh + 62) / 64 > P) = false := by
        rw [decide_eq_false_iff_not]; omega
      simp only [hf, Bool.and_false, Bool.false_and, Bool.or_false, Bool.false_eq_true, if_false]
  have hP : sh < sh + 1 + mc.1.length := by omega
  obtain ⟨ha, hb⟩ := hmc _ hP
  have h := absAdd_spec (K := K) h1 h2 (p := sh + 1 + mc.1.length) (by omega) sh .none true false
  rw [hb] at h
  rw [ha]
  exact FullOk_of (by omega) (by omega) h _ _ _ _

theorem absSub_full {m1 m2 : List Nat} (h1 : Normd m1) (h2 : Normd m2) (sh p : Nat) (rm : RM)
    (pos ix : Bool) (hgt : (frac m2 / 2 ^ sh : K) < frac m1) :
    FullOk (frac m1 - frac m2 / 2 ^ sh : K) ix (absSub m1 m2 p sh rm pos true ix) := by
  obtain ⟨mc, hmc⟩ : ∃ mc : List Nat × Nat, ∀ P, sh < P →
      (∀ q rm pos ix, absSub m1 m2 q sh rm pos true ix =
        ((mc.2 : Int) - (if (adjustPrec mc.1 (wordLen q) rm pos true ix).2.1 then 1 else 0),
          { m := (adjustPrec mc.1 (wordLen q) rm pos true ix).1,
            n := (adjustPrec mc.1 (wordLen q) rm pos true ix).1.length * 64 },
          (adjustPrec mc.1 (wordLen q) rm pos true ix).2.2)) ∧
      (∀ rm pos ix, absSub m1 m2 (64 * P) sh rm pos false ix =
        ((mc.2 : Int) - (if (adjustPrec mc.1 P rm pos false ix).2.1 then 1 else 0),
          { m := (adjustPrec mc.1 P rm pos false ix).1,
            n := (adjustPrec mc.1 P rm pos false ix).1.length * 64 },
          (adjustPrec mc.1 P rm pos false ix).2.2)) := by
    refine ⟨maximize (subLoop 0
        (extendedSlice m1 (max m1.length ((sh + 63) / 64 + m2.length) - m1.length))
        (RSS.take (max m1.length ((sh + 63) / 64 + m2.length))
          (RSS.new m2 sh 0 (max m1.length ((sh + 63) / 64 + m2.length) - m2.length)))).1,
      fun P hP => ⟨fun q rm pos ix => ?_, fun rm pos ix => ?_⟩⟩
    · unfold absSub
      simp only [Bool.not_true, Bool.and_false, Bool.or_false, Bool.false_eq_true, if_false]
    · unfold absSub
      rw [wordLen_mul]
      have hf : decide ((sh + 62) / 64 > P) = false := by
        rw [decide_eq_false_iff_not]; omega
      simp only [hf, Bool.false_and, Bool.or_false, Bool.false_eq_true, if_false]
  have hP : sh < sh + 1 + mc.1.length := by omega
  obtain ⟨ha, hb⟩ := hmc _ hP
  have h := absSub_spec (K := K) h1 h2 (p := sh + 1 + mc.1.length) (by omega) sh .none true false hgt
  rw [hb] at h
  rw [ha]
  exact FullOk_of (by omega) (by omega) h _ _ _ _

theorem mantMul_full {m1 m2 : List Nat} (h1 : Normd m1) (h2 : Normd m2) (p : Nat) (rm : RM)
    (pos ix : Bool) : FullOk (frac m1 * frac m2 : K) ix (mantMul m1 m2 p rm pos true ix) := by
  have hP : 0 < (maximize (mulWords m1 m2 (m1.length + m2.length))).1.length + 1 := by omega
  have h := mantMul_spec (K := K) h1 h2
    (p := 64 * ((maximize (mulWords m1 m2 (m1.length + m2.length))).1.length + 1))
    (by rw [wordLen_mul]; exact hP) .none true false
  unfold mantMul at h ⊢
  rw [wordLen_mul] at h
  exact FullOk_of (by omega) hP h _ _ _ _

/-- What a full-precision operation with exact result `X` returns: `X` itself when it is zero or in
the normal range, and an overflow with the sign of `X` from `2^EMAX` on. Nothing is said about
results below the normal range. -/
def FullDelivers (X : K) (ix : Bool) (r : Except Err Num) : Prop :=
  (X = 0 → ∃ v, r = .ok v ∧ (v.toK : K) = 0 ∧ v.inexact = ix) ∧
  ((2 : K) ^ (EMIN - 1) ≤ |X| → |X| < (2 : K) ^ EMAX → ∃ v, r = .ok v ∧ (v.toK : K) = X ∧
    v.inexact = ix ∧ Normd v.m.m ∧ v.m.n = 64 * v.m.m.length ∧ EMIN ≤ v.e ∧ v.e ≤ EMAX ∧ wd v.m.m 0 ≠ 0) ∧
  ((2 : K) ^ EMAX ≤ |X| →
    r = .error (.exponentOverflow .pos) ∧ 0 < X ∨ r = .error (.exponentOverflow .neg) ∧ X < 0)

theorem finish_full {s : Sign} {X : K} {ix : Bool} {r : Int × Mantissa × Bool} (h : FullOk X ix r)
    (e1 : ℤ) (rm : RM) :
    FullDelivers ((s.toK : K) * (X * 2 ^ e1)) ix (Num.finish r.2.1 s (e1 - r.1) rm r.2.2) := by
  obtain ⟨h1, h2, h3, h4, h5⟩ := h
  have f1 := half_le_frac (K := K) h1
  have f2 := frac_lt_one (K := K) h1.1
  have hv : X * 2 ^ e1 = frac r.2.1.m * 2 ^ (e1 - r.1) := by
    rw [← h3, mul_assoc, two_zpow_mul]; congr 2; ring
  rw [hv]
  obtain ⟨e, he⟩ : ∃ e, e = e1 - r.1 := ⟨_, rfl⟩
  rw [← he]
  have hpe := two_zpow_pos (K := K) e
  have hpos : (0 : K) < frac r.2.1.m * 2 ^ e := mul_pos (by linarith) hpe
  have habs : |(s.toK : K) * (frac r.2.1.m * 2 ^ e)| = frac r.2.1.m * 2 ^ e := by
    rw [abs_toK, abs_of_pos hpos]
  have hup : frac r.2.1.m * (2 : K) ^ e < 2 ^ e := by
    calc _ < 1 * (2 : K) ^ e := mul_lt_mul_of_pos_right f2 hpe
      _ = _ := one_mul _
  have hlo : (2 : K) ^ (e - 1) ≤ frac r.2.1.m * 2 ^ e := by
    have e2 : (2 : K) ^ (e - 1) = 1 / 2 * 2 ^ e := by
      rw [zpow_sub_one₀ (by norm_num)]; ring
    rw [e2]
    exact mul_le_mul_of_nonneg_right f1 hpe.le
  refine ⟨?_, ?_, ?_⟩
  · intro h0
    rw [← abs_eq_zero, habs] at h0
    exact absurd h0 hpos.ne'
  · intro hl hu
    rw [habs] at hl hu
    have g1 : e ≤ EMAX := by
      have := lt_of_le_of_lt hlo hu
      rw [zpow_lt_zpow_iff_right₀ (by norm_num)] at this
      omega
    have g2 : EMIN ≤ e := by
      have := lt_of_le_of_lt hl hup
      rw [zpow_lt_zpow_iff_right₀ (by norm_num)] at this
      omega
    refine ⟨Num.mk e s r.2.1 r.2.2, ?_, ?_, h4, h1, h2, g2, g1, h5⟩
    · unfold Num.finish
      rw [if_neg (by omega), if_neg (by omega)]
    · unfold Num.toK frac
      dsimp only
      rw [two_zpow_sub, zpow_natCast]; ring
  · intro hu
    rw [habs] at hu
    have g1 : EMAX < e := by
      have := lt_of_le_of_lt hu hup
      rwa [zpow_lt_zpow_iff_right₀ (by norm_num)] at this
    unfold Num.finish
    rw [if_pos (by omega)]
    cases s
    · right; exact ⟨rfl, by simpa [Sign.toK] using hpos⟩
    · left; exact ⟨rfl, by simpa [Sign.toK] using hpos⟩

theorem addSub_full {x y : Num} (hx : x.WF) (hy : y.WF) (hxz : x.isZero = false)
    (hyz : y.isZero = false) (op : Bool) (rm : RM) :
    FullDelivers ((x.toK : K) + (if op then y.toK else -y.toK)) (x.inexact || y.inexact)
      (x.addSub y 0 op rm true) := by
  unfold Num.addSub
  dsimp only
  rw [if_neg (show ¬ roundP 0 ≥ PMAX by decide), if_neg (show ¬ x.isZero = true by simp [hxz]),
    if_neg (show ¬ y.isZero = true by simp [hyz])]
  obtain ⟨e1, m1, hn1, hm1, hv1, hl1, hb1, he1⟩ := normalize_spec (K := K) hx hxz
  obtain ⟨e2, m2, hn2, hm2, hv2, hl2, hb2, he2⟩ := normalize_spec (K := K) hy hyz
  rw [hn1, hn2]
  dsimp only
  obtain ⟨hc1, hc2⟩ := absCmp_spec (K := K) hx hy hxz hyz
  obtain ⟨t, ht⟩ : ∃ t, t = if op then y.s else y.s.invert := ⟨_, rfl⟩
  have hY : (if op then (y.toK : K) else -y.toK) = t.toK * |(y.toK : K)| := by
    rw [ht]
    cases op
    · simp only [Bool.false_eq_true, if_false]
      rw [Sign.toK_invert, neg_mul, ← Num.toK_eq]
    · simp only [if_true]
      exact Num.toK_eq y
  have hcond : ((decide (x.s ≠ y.s) && op) || (!op && decide (x.s = y.s))) = decide (x.s ≠ t) := by
    rw [ht]; cases op <;> cases x.s <;> cases y.s <;> rfl
  rw [hcond, hY, ← ht]
  have hf : ∀ m : List Nat, ∀ a b : ℤ, b ≤ a → (frac m : K) / 2 ^ (a - b).toNat * 2 ^ a = frac m * 2 ^ b := by
    intro m a b hab
    rw [div_mul_eq_mul_div, mul_div_assoc, ← zpow_natCast, Int.toNat_of_nonneg (by omega),
      ← two_zpow_sub]
    congr 2; ring
  have hord : ∀ (m m' : List Nat) (a b : ℤ), Normd m → Normd m' →
      (frac m' : K) * 2 ^ b < frac m * 2 ^ a → b ≤ a := by
    intro m m' a b h h' hlt
    by_contra hc
    push Not at hc
    have h3 := half_le_frac (K := K) h'
    have h4 := frac_lt_one (K := K) h.1
    have h5 : (2 : K) ^ a ≤ 2 ^ (b - 1) := zpow_le_zpow_right₀ (by norm_num) (by omega)
    have h6 : (2 : K) ^ b = 2 ^ (b - 1) * 2 := by
      rw [← zpow_add_one₀ (by norm_num)]; congr 1; ring
    have hpa := two_zpow_pos (K := K) a
    have hpb := two_zpow_pos (K := K) b
    have h7 : frac m * 2 ^ a < 1 * (2 : K) ^ a := mul_lt_mul_of_pos_right h4 hpa
    have h8 : 1 / 2 * (2 : K) ^ b ≤ frac m' * 2 ^ b := mul_le_mul_of_nonneg_right h3 hpb.le
    rw [h6] at h8 hlt
    linarith
  by_cases hs : x.s = t
  · rw [if_neg (by simpa using hs)]
    by_cases hee : e1 ≥ e2
    · rw [if_pos hee]
      have h := finish_full (s := x.s) (absAdd_full (K := K) hm1 hm2 (e1 - e2).toNat (roundP 0) rm
        x.s.isPos (x.inexact || y.inexact)) e1 rm
      convert h using 1
      rw [Num.toK_eq, hv1, hv2, ← hs, add_mul, hf _ _ _ hee]; ring
    · rw [if_neg hee]
      have h := finish_full (s := x.s) (absAdd_full (K := K) hm2 hm1 (e2 - e1).toNat (roundP 0) rm
        x.s.isPos (x.inexact || y.inexact)) e2 rm
      convert h using 1
      rw [Num.toK_eq, hv1, hv2, ← hs, add_mul, hf _ _ _ (by omega)]; ring
  · rw [if_pos (by simpa using hs)]
    have hst := Sign.toK_of_ne (K := K) hs
    by_cases c1 : x.absCmp y > 0
    · rw [if_pos c1]
      have hlt := hc1.1 c1
      rw [hv1, hv2] at hlt
      have hle := hord _ _ _ _ hm1 hm2 hlt
      have h := finish_full (s := x.s) (absSub_full (K := K) hm1 hm2 (e1 - e2).toNat (roundP 0) rm
        x.s.isPos (x.inexact || y.inexact) (by
          rw [← hf _ _ _ hle] at hlt
          exact lt_of_mul_lt_mul_right hlt (two_zpow_pos _).le)) e1 rm
      convert h using 1
      rw [Num.toK_eq, hv1, hv2, hst, sub_mul, hf _ _ _ hle]; ring
    · rw [if_neg c1]
      by_cases c2 : x.absCmp y < 0
      · rw [if_pos c2]
        have hlt := hc2.1 c2
        rw [hv1, hv2] at hlt
        have hle := hord _ _ _ _ hm2 hm1 hlt
        have h := finish_full (s := t) (absSub_full (K := K) hm2 hm1 (e2 - e1).toNat (roundP 0) rm
          t.isPos (x.inexact || y.inexact) (by
            rw [← hf _ _ _ hle] at hlt
            exact lt_of_mul_lt_mul_right hlt (two_zpow_pos _).le)) e2 rm
        convert h using 1
        rw [Num.toK_eq, hv1, hv2, hst, sub_mul, hf _ _ _ hle]; ring
      · rw [if_neg c2]
        have heq : |(x.toK : K)| = |(y.toK : K)| :=
          le_antisymm (not_lt.1 (fun h => c1 (hc1.2 h))) (not_lt.1 (fun h => c2 (hc2.2 h)))
        have h0 : (x.toK : K) + t.toK * |(y.toK : K)| = 0 := by
          rw [Num.toK_eq, heq, hst]; ring
        rw [h0]
        refine ⟨fun _ => ⟨_, rfl, zero_toK _ _ _, rfl⟩, fun h => ?_, fun h => ?_⟩
        · rw [abs_zero] at h; exact absurd h (not_le.2 (two_zpow_pos _))
        · rw [abs_zero] at h; exact absurd h (not_le.2 (two_zpow_pos _))

theorem mulGeneral_full {x y : Num} (hx : x.WF) (hy : y.WF) (rm : RM) :
    FullDelivers ((x.toK : K) * y.toK) (mulIx x y) (x.mulGeneral y 0 rm true) := by
  unfold Num.mulGeneral mulIx
  dsimp only
  rw [if_neg (show ¬ roundP 0 ≥ PMAX by decide)]
  by_cases hz : (x.isZero || y.isZero) = true
  · rw [if_pos hz, if_pos hz]
    have h0 : (x.toK : K) * y.toK = 0 := by
      rw [Bool.or_eq_true] at hz
      rcases hz with h | h
      · rw [hx.toK_eq_zero.2 h, zero_mul]
      · rw [hy.toK_eq_zero.2 h, mul_zero]
    rw [h0]
    have e : ∀ s, (Num.zero (roundP 0) .pos false).setSign s = Num.zero (roundP 0) s false := fun s => rfl
    rw [e]
    refine ⟨fun _ => ⟨_, rfl, zero_toK _ _ _, rfl⟩, fun h => ?_, fun h => ?_⟩
    · rw [abs_zero] at h; exact absurd h (not_le.2 (two_zpow_pos _))
    · rw [abs_zero] at h; exact absurd h (not_le.2 (two_zpow_pos _))
  · rw [if_neg hz, if_neg hz]
    rw [Bool.not_eq_true, Bool.or_eq_false_iff] at hz
    obtain ⟨e1, m1, hn1, hm1, hv1, hl1, hb1, he1⟩ := normalize_spec (K := K) hx hz.1
    obtain ⟨e2, m2, hn2, hm2, hv2, hl2, hb2, he2⟩ := normalize_spec (K := K) hy hz.2
    rw [hn1, hn2]
    dsimp only
    have h := finish_full (s := if x.s = y.s then .pos else .neg) (mantMul_full (K := K) hm1 hm2
      (roundP 0) rm (Sign.isPos (if x.s = y.s then .pos else .neg)) (x.inexact || y.inexact))
      (e1 + e2) rm
    convert h using 1
    rw [Num.toK_eq x, Num.toK_eq y, hv1, hv2, zpow_add₀ (by norm_num)]
    have : (Sign.toK (if x.s = y.s then .pos else .neg) : K) = x.s.toK * y.s.toK := by
      cases x.s <;> cases y.s <;> simp [Sign.toK]
    rw [this]; ring

end AF
