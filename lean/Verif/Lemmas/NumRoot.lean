import Verif.Lemmas.SqrtRem
import Verif.Lemmas.CbrtRem
import Verif.Lemmas.ExtDiv
/-! # Square and cube roots of numbers -/

namespace AF
set_option linter.unusedSectionVars false

variable {K : Type*} [Field K] [LinearOrder K] [IsStrictOrderedRing K]

theorem maximize_shift_zero {t : List Nat} (ht : Wf t) (hl : 0 < t.length)
    (h : 2 ^ (64 * t.length - 1) ≤ val t) : (maximize t).2 = 0 := by
  have h0 : val t ≠ 0 := by
    have : 0 < 2 ^ (64 * t.length - 1) := by positivity
    omega
  rw [(maximize_spec ht h0).2.1]
  have := Nat.lt_size.2 h
  omega

/-- The shift made by `maximize` is zero when the truncated result has its top bit set. -/
theorem stickyRound_shift {q : List Nat} (hq : Wf q) (hl : 0 < q.length)
    (h : 2 ^ (64 * q.length - 1) ≤ val q) (r : List Nat) (p : Nat) (rm : RM) (pos ix : Bool) :
    (stickyRound q r p rm pos ix).2.1 = 0 := by
  unfold stickyRound
  dsimp only
  by_cases hs : r.any (· ≠ 0) = true
  · rw [if_pos hs]
    by_cases hn : (rm == .toEven || rm == .toOdd) = true
    · rw [if_pos hn]
      obtain ⟨l1, l2⟩ := set_low hq hl
      refine maximize_shift_zero l2 (by simpa using hl) ?_
      rw [l1, List.length_set]
      have : 2 ^ (64 * q.length - 1) = 2 ^ (64 * q.length - 2) * 2 := by
        rw [← pow_succ]; congr 1; omega
      omega
    · rw [if_neg hn]
      by_cases hd : Num.directedUp rm pos = true
      · rw [if_pos hd]
        obtain ⟨i1, i2, i3, i4⟩ := incWords_spec hq
        unfold addUlp
        by_cases hcar : (incWords q).2 = true
        · rw [if_pos hcar]
          obtain ⟨j1, j2⟩ := i4 hcar
          have hvt : val ((incWords q).1.set ((incWords q).1.length - 1) MSB) = 2 ^ (64 * q.length - 1) := by
            have hz := set_top (wf_zeros q.length) (by rw [List.length_replicate]; exact hl)
              (by rw [val_replicate_zero]; positivity)
            have hw0 : wd (List.replicate q.length 0) (q.length - 1) = 0 := by
              unfold wd; simp
            rw [List.length_replicate, hw0, Nat.zero_or, val_replicate_zero, Nat.zero_add] at hz
            rw [i1, j2]
            exact hz.1
          have hwt : Wf ((incWords q).1.set ((incWords q).1.length - 1) MSB) := by
            intro x hx
            rcases List.mem_or_eq_of_mem_set hx with h | h
            · exact i2 x h
            · rw [h]; unfold MSB B; norm_num
          refine maximize_shift_zero hwt (by rw [List.length_set, i1]; exact hl) ?_
          rw [hvt, List.length_set, i1]
        · rw [if_neg hcar]
          have i3' := i3 (by simpa using hcar)
          exact maximize_shift_zero i2 (by rw [i1]; exact hl) (by rw [i1, i3']; omega)
      · rw [if_neg hd]
        exact maximize_shift_zero hq hl h
  · rw [if_neg hs]
    exact maximize_shift_zero hq hl h

theorem ite_le_one (c : Prop) [Decidable c] : (if c then (1 : ℤ) else 0) ≤ 1 := by
  split <;> norm_num

theorem stickyRound_le (q r : List Nat) (p : Nat) (rm : RM) (pos ix : Bool) :
    (stickyRound q r p rm pos ix).1 ≤ 1 ∧ (stickyRound q r p rm pos ix).2.2.1 ≤ 1 := by
  unfold stickyRound
  dsimp only
  constructor
  · split
    · split
      · norm_num
      · split
        · split <;> norm_num
        · norm_num
    · norm_num
  · exact ite_le_one _

theorem mantSqrt_spec {m : List Nat} (hm : Normd m) {p : Nat} (hp : 0 < wordLen p) (rm : RM)
    (pos ix odd : Bool) {y : K} (hy : 0 ≤ y) (hyy : y * y = if odd then frac m / 2 else frac m) :
    MantOk rm pos (wordLen p) y ix
      (-(mantSqrt m p rm pos ix odd).1, (mantSqrt m p rm pos ix odd).2.1,
        (mantSqrt m p rm pos ix odd).2.2) ∧ (mantSqrt m p rm pos ix odd).1 ≤ 2 := by
  unfold mantSqrt
  dsimp only
  generalize wordLen p = pw at *
  obtain ⟨h, hh⟩ : ∃ h, h = max pw m.length + 1 := ⟨_, rfl⟩
  rw [← hh]
  have hml : m.length < h := by omega
  have hpl : pw < h := by omega
  have hmp := hm.2.1
  have hw : Wf (List.replicate (h * 2 - m.length) 0 ++ m) := ext_wf hm.1 _
  have hl : (List.replicate (h * 2 - m.length) 0 ++ m).length = h * 2 := by simp; omega
  have hv : val (List.replicate (h * 2 - m.length) 0 ++ m) = B ^ (h * 2 - m.length) * val m :=
    val_zeros_append _ _
  -- the radicand
  have hrad : ∃ X : List Nat, X = (if odd = true then shiftRight (List.replicate (h * 2 - m.length) 0 ++ m) 1
      else List.replicate (h * 2 - m.length) 0 ++ m) ∧ Wf X ∧ X.length = h * 2 ∧
      (val X : K) = y * y * 2 ^ (64 * (h * 2)) ∧ 2 ^ (64 * (h * 2) - 2) ≤ val X := by
    refine ⟨_, rfl, ?_, ?_, ?_, ?_⟩
    · split
      · exact shiftRight_wf hw _
      · exact hw
    · split
      · rw [shiftRight_length, hl]
      · exact hl
    all_goals
      have e0 : h * 2 - m.length = (h * 2 - m.length - 1) + 1 := by omega
      have e1 : B ^ (h * 2 - m.length) = 2 * (B ^ (h * 2 - m.length - 1) * 2 ^ 63) := by
        conv_lhs => rw [e0]
        rw [pow_succ, B_eq]; ring
    · have e2 : ((B ^ (h * 2 - m.length) * val m : ℕ) : K) = frac m * 2 ^ (64 * (h * 2)) := by
        unfold frac
        rw [Nat.cast_mul, B_pow, Nat.cast_pow, Nat.cast_ofNat,
          pow_split (show 64 * (h * 2) = 64 * (h * 2 - m.length) + 64 * m.length by omega)]
        field_simp
      rw [hyy]
      split
      · rw [val_shiftRight hw, hv, e1, pow_one, Nat.mul_assoc, Nat.mul_div_cancel_left _ (by norm_num)]
        rw [e1, Nat.mul_assoc, Nat.cast_mul, Nat.cast_ofNat] at e2
        linear_combination e2 / 2
      · rw [hv]; exact e2
    · have h3 : 2 ^ (64 * (h * 2) - 1) ≤ B ^ (h * 2 - m.length) * val m := by
        rw [B_pow]
        calc 2 ^ (64 * (h * 2) - 1) = 2 ^ (64 * (h * 2 - m.length)) * 2 ^ (64 * m.length - 1) := by
              rw [← pow_add]; congr 1; omega
          _ ≤ _ := Nat.mul_le_mul_left _ hm.2.2
      have h4 : 2 ^ (64 * (h * 2) - 1) = 2 ^ (64 * (h * 2) - 2) * 2 := by
        rw [← pow_succ]; congr 1; omega
      split
      · rw [val_shiftRight hw, hv, pow_one]; omega
      · rw [hv]; omega
  obtain ⟨X, hX, x1, x2, x3, x4⟩ := hrad
  rw [← hX]
  clear hX hw hl hv hyy
  have hT : TopNz X := by
    refine ⟨x1, by omega, le_trans ?_ x4⟩
    rw [B_pow, x2]
    exact Nat.pow_le_pow_right (by norm_num) (by omega)
  obtain ⟨s1, s2, s3, s4, s5⟩ := sqrtRem_spec hT
  generalize sqrtRem X = sr at *
  obtain ⟨s, r⟩ := sr
  dsimp only at *
  have hXlt := val_lt_two_pow x1
  rw [x2] at hXlt
  have hpw2 : 2 ^ (64 * (h * 2)) = 2 ^ (64 * h) * 2 ^ (64 * h) := by rw [← pow_add]; congr 1; omega
  have hslow : 2 ^ (64 * h - 1) ≤ val s := by
    by_contra hc
    have h5 : (val s + 1) * (val s + 1) ≤ 2 ^ (64 * h - 1) * 2 ^ (64 * h - 1) :=
      Nat.mul_le_mul (by omega) (by omega)
    rw [← pow_add, show 64 * h - 1 + (64 * h - 1) = 64 * (h * 2) - 2 by omega] at h5
    have h6 : (val s + 1) * (val s + 1) = val s * val s + 2 * val s + 1 := by ring
    omega
  have hshigh : val s < 2 ^ (64 * h) := by
    by_contra hc
    have h5 := Nat.mul_le_mul (Nat.le_of_not_lt hc) (Nat.le_of_not_lt hc)
    omega
  have hlen : s.length = h := by
    have h6 := s1.len (n := h) (by rw [B_pow]; exact hshigh)
    have h7 := val_lt_two_pow s1.1
    have h8 := (Nat.pow_lt_pow_iff_right (show 1 < 2 by norm_num)).1 (lt_of_le_of_lt hslow h7)
    omega
  obtain ⟨Y, hY⟩ : ∃ Y : K, Y = y * 2 ^ (64 * h) := ⟨_, rfl⟩
  have hY0 : 0 ≤ Y := by rw [hY]; positivity
  have hYY : Y * Y = (val s : K) * val s + val r := by
    have h5 : (val X : K) = (val s : K) * val s + val r := by rw [s3]; push_cast; ring
    rw [← h5, x3, hY, pow_split (show 64 * (h * 2) = 64 * h + 64 * h by omega)]
    ring
  have hs0 : (0 : K) ≤ val s := Nat.cast_nonneg _
  have hr0 : (0 : K) ≤ val r := Nat.cast_nonneg _
  have hr2 : (val r : K) ≤ 2 * val s := by exact_mod_cast s4
  have hS := stickyRound_spec (K := K) (r := r) s1.1 hp (p := pw)
    (le_trans (Nat.pow_le_pow_right (by norm_num) (by omega)) hslow) rm pos ix (Y := Y)
    (by by_contra hc; push Not at hc; nlinarith) (by by_contra hc; push Not at hc; nlinarith)
    (by
      constructor
      · intro h0
        rw [h0, Nat.cast_zero, add_zero] at hYY
        exact (mul_self_inj hY0 hs0).1 hYY
      · intro h0
        rw [h0] at hYY
        have : (val r : K) = 0 := by linarith
        exact_mod_cast this)
  have hsh := stickyRound_shift s1.1 s1.2.1 (by rw [hlen]; exact hslow) r pw rm pos ix
  have hle := stickyRound_le s r pw rm pos ix
  rw [hsh, hlen, hY] at hS
  rw [mul_div_assoc, div_self (by positivity), mul_one, Nat.cast_zero, sub_zero] at hS
  exact ⟨hS, by omega⟩

theorem mantCbrt_spec {m : List Nat} (hm : Normd m) {p : Nat} (hp : 0 < wordLen p) (rm : RM)
    (pos ix : Bool) {add : Nat} (ha : add ≤ 3) {y : K} (hy : 0 ≤ y) (hyy : y ^ 3 = frac m / 2 ^ add) :
    MantOk rm pos (wordLen p) y ix
      (-(mantCbrt m p rm pos ix add).1, (mantCbrt m p rm pos ix add).2.1,
        (mantCbrt m p rm pos ix add).2.2) ∧ (mantCbrt m p rm pos ix add).1 ≤ 2 := by
  unfold mantCbrt
  dsimp only
  generalize wordLen p = pw at *
  obtain ⟨h, hh⟩ : ∃ h, h = max pw m.length + 1 := ⟨_, rfl⟩
  rw [← hh]
  have hml : m.length < h := by omega
  have hpl : pw < h := by omega
  have hmp := hm.2.1
  have hw : Wf (List.replicate (h * 3 - m.length) 0 ++ m) := ext_wf hm.1 _
  have hl : (List.replicate (h * 3 - m.length) 0 ++ m).length = h * 3 := by simp; omega
  have hv : val (List.replicate (h * 3 - m.length) 0 ++ m) = B ^ (h * 3 - m.length) * val m :=
    val_zeros_append _ _
  have hrad : ∃ X : List Nat, X = shiftRight (List.replicate (h * 3 - m.length) 0 ++ m) add ∧
      Wf X ∧ X.length = h * 3 ∧
      (val X : K) = y ^ 3 * 2 ^ (64 * (h * 3)) ∧ 2 ^ (64 * (h * 3) - 4) ≤ val X := by
    refine ⟨_, rfl, shiftRight_wf hw _, by rw [shiftRight_length, hl], ?_, ?_⟩
    · have e1 : B ^ (h * 3 - m.length) = 2 ^ add * 2 ^ (64 * (h * 3 - m.length) - add) := by
        rw [B_pow, ← pow_add]; congr 1; omega
      have e2 : ((B ^ (h * 3 - m.length) * val m : ℕ) : K) = frac m * 2 ^ (64 * (h * 3)) := by
        unfold frac
        rw [Nat.cast_mul, B_pow, Nat.cast_pow, Nat.cast_ofNat,
          pow_split (show 64 * (h * 3) = 64 * (h * 3 - m.length) + 64 * m.length by omega)]
        field_simp
      rw [hyy, val_shiftRight hw, hv, e1, Nat.mul_assoc, Nat.mul_div_cancel_left _ (by positivity)]
      rw [e1, Nat.mul_assoc, Nat.cast_mul, Nat.cast_pow, Nat.cast_ofNat] at e2
      rw [div_mul_eq_mul_div, ← e2, mul_div_cancel_left₀ _ (by positivity)]
    · have h3 : 2 ^ (64 * (h * 3) - 1) ≤ B ^ (h * 3 - m.length) * val m := by
        rw [B_pow]
        calc 2 ^ (64 * (h * 3) - 1) = 2 ^ (64 * (h * 3 - m.length)) * 2 ^ (64 * m.length - 1) := by
              rw [← pow_add]; congr 1; omega
          _ ≤ _ := Nat.mul_le_mul_left _ hm.2.2
      rw [val_shiftRight hw, hv, Nat.le_div_iff_mul_le (by positivity), ← pow_add]
      exact le_trans (Nat.pow_le_pow_right (by norm_num) (by omega)) h3
  obtain ⟨X, hX, x1, x2, x3, x4⟩ := hrad
  rw [← hX]
  clear hX hw hl hv hyy
  have hT : TopNz X := by
    refine ⟨x1, by omega, le_trans ?_ x4⟩
    rw [B_pow, x2]
    exact Nat.pow_le_pow_right (by norm_num) (by omega)
  obtain ⟨s1, s2, s3, s4⟩ := cbrtRem_spec hT (by rw [x2]; omega)
  generalize cbrtRem X = sr at *
  obtain ⟨s, r⟩ := sr
  dsimp only at *
  have hXlt := val_lt_two_pow x1
  rw [x2] at hXlt
  have hpw3 : 2 ^ (64 * (h * 3)) = (2 ^ (64 * h)) ^ 3 := by rw [← pow_mul]; congr 1; omega
  have hslow : 2 ^ (64 * h - 2) ≤ val s := by
    by_contra hc
    have h5 : (val s + 1) ^ 3 ≤ (2 ^ (64 * h - 2)) ^ 3 := Nat.pow_le_pow_left (by omega) 3
    rw [← pow_mul] at h5
    have h6 : 2 ^ ((64 * h - 2) * 3) ≤ 2 ^ (64 * (h * 3) - 4) :=
      Nat.pow_le_pow_right (by norm_num) (by omega)
    omega
  have hshigh : val s < 2 ^ (64 * h) := by
    by_contra hc
    have h5 := Nat.pow_le_pow_left (Nat.le_of_not_lt hc) 3
    omega
  have hlen : s.length = h := by
    have h6 := s1.len (n := h) (by rw [B_pow]; exact hshigh)
    have h7 := val_lt_two_pow s1.1
    have h8 := (Nat.pow_lt_pow_iff_right (show 1 < 2 by norm_num)).1 (lt_of_le_of_lt hslow h7)
    omega
  obtain ⟨Y, hY⟩ : ∃ Y : K, Y = y * 2 ^ (64 * h) := ⟨_, rfl⟩
  have hY0 : 0 ≤ Y := by rw [hY]; positivity
  have hYX : Y ^ 3 = (val X : K) := by
    rw [x3, hY, mul_pow, ← pow_mul]
    congr 2; omega
  have hYY : Y ^ 3 = (val s : K) ^ 3 + val r := by
    rw [hYX, s3]; push_cast; ring
  have hs0 : (0 : K) ≤ val s := Nat.cast_nonneg _
  have hr0 : (0 : K) ≤ val r := Nat.cast_nonneg _
  have hr2 : Y ^ 3 < ((val s : K) + 1) ^ 3 := by rw [hYX]; exact_mod_cast s4
  have hS := stickyRound_spec (K := K) (r := r) s1.1 hp (p := pw)
    (le_trans (Nat.pow_le_pow_right (by norm_num) (by omega)) hslow) rm pos ix (Y := Y)
    ((pow_le_pow_iff_left₀ hs0 hY0 (by norm_num : (3 : ℕ) ≠ 0)).1 (by linarith))
    ((pow_lt_pow_iff_left₀ hY0 (by linarith) (by norm_num : (3 : ℕ) ≠ 0)).1 hr2)
    (by
      constructor
      · intro h0
        rw [h0, Nat.cast_zero, add_zero] at hYY
        exact (pow_left_inj₀ hY0 hs0 (by norm_num : (3 : ℕ) ≠ 0)).1 hYY
      · intro h0
        rw [h0] at hYY
        have : (val r : K) = 0 := by linarith
        exact_mod_cast this)
  have hle := stickyRound_le s r pw rm pos ix
  rw [hlen, hY] at hS
  rw [mul_div_assoc, div_self (by positivity), mul_one] at hS
  rw [hlen]
  refine ⟨?_, by omega⟩
  convert hS using 2
  ring

theorem finishRoot_eq {m : Mantissa} {s : Sign} {e : ℤ} (he : e ≤ EMAX) (rm : RM) (ix : Bool) :
    Except.ok (Num.finishRoot m s e rm ix) = Num.finish m s e rm ix := by
  unfold Num.finishRoot Num.finish
  rw [if_neg (show ¬ e > EMAX by omega)]
  split <;> rfl

theorem Sign.isPos_pos : Sign.isPos .pos = true := rfl

theorem sqrt_spec {x : Num} (hx : x.WF) (hs : x.s = .pos ∨ x.isZero = true) {p : Nat} (hp : 0 < p)
    (hpm : roundP p < PMAX) (rm : RM) {y : K} (hy : 0 ≤ y) (hyy : y * y = x.toK) :
    Delivers rm (roundP p) y x.inexact (x.sqrt p rm) := by
  have hpw : 0 < wordLen p := by unfold wordLen; omega
  have hp64 := roundP_eq hpm
  unfold Num.sqrt
  dsimp only
  rw [if_neg (show ¬ roundP p ≥ PMAX by omega)]
  generalize wordLen p = pw at *
  generalize roundP p = q at *
  subst hp64
  have hsz : 64 * pw ≤ 2 ^ 62 - 2 ^ 31 := by unfold PMAX at hpm; omega
  by_cases hz : x.isZero = true
  · rw [if_pos hz]
    have hy0 : y = 0 := by
      rw [hx.toK_eq_zero.2 hz] at hyy
      exact mul_self_eq_zero.1 hyy
    subst hy0
    refine ⟨zero_WF (by rw [wordLen_mul]; exact hsz) _ _, ?_, fun h => absurd h (lt_irrefl _),
      fun h => absurd h (lt_irrefl _), ?_, Or.inl (Or.inl ⟨rfl, zero_toK _ _ _⟩)⟩
    · simp [Num.zero, Mantissa.new, wordLen_mul]
    · rw [zero_toK]; simp [Num.zero]
  · rw [if_neg hz]
    have hsp : x.s = .pos := hs.resolve_right hz
    rw [if_neg (show ¬ x.s = .neg by rw [hsp]; simp)]
    rw [Bool.not_eq_true] at hz
    obtain ⟨e1, m1, hn1, hm1, hv1, hl1, hb1, he1⟩ := normalize_spec (K := K) hx hz
    rw [hn1]
    dsimp only
    have hxa : (x.toK : K) = frac m1.m * 2 ^ e1 := by
      rw [Num.toK_eq, hv1, hsp]; simp [Sign.toK]
    obtain ⟨g, hg⟩ : ∃ g, g = (e1 + e1 % 2) / 2 := ⟨_, rfl⟩
    have hg2 : 2 * g = e1 + e1 % 2 := by omega
    obtain ⟨z, hz'⟩ : ∃ z : K, z = y / 2 ^ g := ⟨_, rfl⟩
    have hyz : y = z * 2 ^ g := by rw [hz', div_mul_cancel₀ _ (two_zpow_pos g).ne']
    have hz0 : 0 ≤ z := by rw [hz']; exact div_nonneg hy (two_zpow_pos g).le
    have hzz : z * z = if (e1 % 2 == 1) = true then frac m1.m / 2 else frac m1.m := by
      have h1 : z * z * (2 ^ g * 2 ^ g) = frac m1.m * (2 : K) ^ e1 := by
        rw [← hxa, ← hyy, hyz]; ring
      rw [two_zpow_mul, show g + g = e1 + e1 % 2 by omega, two_zpow_add] at h1
      have h2 : z * z * (2 : K) ^ (e1 % 2) = frac m1.m := by
        have h3 : z * z * (2 : K) ^ (e1 % 2) * 2 ^ e1 = frac m1.m * 2 ^ e1 := by rw [← h1]; ring
        exact mul_right_cancel₀ (two_zpow_pos e1).ne' h3
      rcases Int.emod_two_eq_zero_or_one e1 with hp | hp
      · rw [hp] at h2 ⊢; simpa using h2
      · rw [hp] at h2 ⊢
        rw [zpow_one] at h2
        simp only [beq_self_eq_true, if_true]
        linear_combination h2 / 2
    obtain ⟨hM, hle⟩ := mantSqrt_spec (K := K) hm1 (p := 64 * pw) (by rw [wordLen_mul]; exact hpw) rm true
      x.inexact (e1 % 2 == 1) hz0 hzz
    rw [wordLen_mul] at hM
    have h := finish_of_mant (s := .pos) hpw (by rw [Sign.isPos_pos]; exact hM) hsz g
    dsimp only at h
    rw [sub_neg_eq_add] at h
    have hemax := hx.emax
    rw [← hg, finishRoot_eq (by unfold EMAX at *; omega)]
    convert h using 1
    rw [hyz]; simp [Sign.toK]

theorem cbrt_spec {x : Num} (hx : x.WF) {p : Nat} (hp : 0 < p)
    (hpm : roundP p < PMAX) (rm : RM) {y : K} (hyy : y ^ 3 = x.toK) :
    Delivers rm (roundP p) y x.inexact (x.cbrt p rm) := by
  have hpw : 0 < wordLen p := by unfold wordLen; omega
  have hp64 := roundP_eq hpm
  unfold Num.cbrt
  dsimp only
  rw [if_neg (show ¬ roundP p ≥ PMAX by omega)]
  generalize wordLen p = pw at *
  generalize roundP p = q at *
  subst hp64
  have hsz : 64 * pw ≤ 2 ^ 62 - 2 ^ 31 := by unfold PMAX at hpm; omega
  by_cases hz : x.isZero = true
  · rw [if_pos hz]
    have hy0 : y = 0 := by
      rw [hx.toK_eq_zero.2 hz] at hyy
      exact pow_eq_zero_iff (by norm_num : (3 : ℕ) ≠ 0) |>.1 hyy
    subst hy0
    refine ⟨zero_WF (by rw [wordLen_mul]; exact hsz) _ _, ?_, fun h => absurd h (lt_irrefl _),
      fun h => absurd h (lt_irrefl _), ?_, Or.inl (Or.inl ⟨rfl, zero_toK _ _ _⟩)⟩
    · simp [Num.zero, Mantissa.new, wordLen_mul]
    · rw [zero_toK]; simp [Num.zero]
  · rw [if_neg hz]
    rw [Bool.not_eq_true] at hz
    obtain ⟨e1, m1, hn1, hm1, hv1, hl1, hb1, he1⟩ := normalize_spec (K := K) hx hz
    rw [hn1]
    dsimp only
    obtain ⟨a, ha⟩ : ∃ a : ℤ, a = if e1 < 0 then (-e1) % 3 else if e1 > 0 then 3 - e1 % 3 else 0 := ⟨_, rfl⟩
    rw [← ha]
    have ha3 : 0 ≤ a ∧ a ≤ 3 ∧ (e1 + a) % 3 = 0 := by
      rw [ha]
      split
      · omega
      · split <;> omega
    obtain ⟨g, hg⟩ : ∃ g, g = (e1 + a) / 3 := ⟨_, rfl⟩
    have hg2 : 3 * g = e1 + a := by omega
    -- the magnitude of the root
    obtain ⟨z, hz'⟩ : ∃ z : K, z = x.s.toK * y / 2 ^ g := ⟨_, rfl⟩
    have hyz : y = x.s.toK * (z * 2 ^ g) := by
      rw [hz', div_mul_cancel₀ _ (two_zpow_pos g).ne', ← mul_assoc, toK_mul_self, one_mul]
    have h3 : (x.s.toK : K) ^ 3 = x.s.toK := by
      rw [pow_succ, pow_two, toK_mul_self, one_mul]
    have hzz : z ^ 3 = frac m1.m / 2 ^ a.toNat := by
      have h1 : (x.s.toK * y) ^ 3 = frac m1.m * (2 : K) ^ e1 := by
        rw [mul_pow, h3, hyy, Num.toK_eq, hv1, ← mul_assoc, toK_mul_self, one_mul]
      have h2 : z ^ 3 * ((2 : K) ^ g) ^ 3 = frac m1.m * (2 : K) ^ e1 := by
        rw [← h1, hz', ← mul_pow, div_mul_cancel₀ _ (two_zpow_pos g).ne']
      rw [← zpow_natCast ((2 : K) ^ g), ← zpow_mul, show g * ((3 : ℕ) : ℤ) = e1 + a by push_cast; omega,
        two_zpow_add] at h2
      have h4 : (2 : K) ^ a.toNat = 2 ^ a := by
        rw [← zpow_natCast]; congr 1; omega
      rw [h4, eq_div_iff (two_zpow_pos a).ne']
      have h5 : z ^ 3 * (2 : K) ^ a * 2 ^ e1 = frac m1.m * 2 ^ e1 := by rw [← h2]; ring
      exact mul_right_cancel₀ (two_zpow_pos e1).ne' h5
    have hz0 : 0 ≤ z := by
      by_contra hc
      push Not at hc
      have h6 : z ^ 3 < 0 := by
        rw [pow_succ, pow_two]
        exact mul_neg_of_pos_of_neg (mul_pos_of_neg_of_neg hc hc) hc
      rw [hzz] at h6
      have := frac_pos (K := K) hm1
      have : 0 < (frac m1.m : K) / 2 ^ a.toNat := by positivity
      linarith
    obtain ⟨hM, hle⟩ := mantCbrt_spec (K := K) hm1 (p := 64 * pw) (by rw [wordLen_mul]; exact hpw) rm
      x.s.isPos x.inexact (add := a.toNat) (by omega) hz0 hzz
    rw [wordLen_mul] at hM
    have h := finish_of_mant (s := x.s) hpw hM hsz g
    dsimp only at h
    rw [sub_neg_eq_add] at h
    have hemax := hx.emax
    rw [← hg, finishRoot_eq (by unfold EMAX at *; omega)]
    convert h using 1

theorem BF.sqrt_delivers {x : Num} (hx : x.WF) (hs : x.s = .pos ∨ (x.toK : K) = 0) {p : Nat}
    (hp : ValidP p) (rm : RM) {y : K} (hy : 0 ≤ y) (hyy : y * y = x.toK) :
    DeliversBF rm (precBits p) y x.inexact (BF.sqrt (.num x) p rm) := by
  have h := sqrt_spec (K := K) hx (hs.imp_right hx.toK_eq_zero.1) hp.pos hp.lt_PMAX rm hy hyy
  rw [hp.roundP] at h
  exact h.toBF _ _

theorem BF.cbrt_delivers {x : Num} (hx : x.WF) {p : Nat}
    (hp : ValidP p) (rm : RM) {y : K} (hyy : y ^ 3 = x.toK) :
    DeliversBF rm (precBits p) y x.inexact (BF.cbrt (.num x) p rm) := by
  have h := cbrt_spec (K := K) hx hp.pos hp.lt_PMAX rm hyy
  rw [hp.roundP] at h
  exact h.toBF _ _

end AF
