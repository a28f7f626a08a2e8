import Verif.Lemmas.ExtDiv
import Verif.Lemmas.Root
import Verif.SpecInt
import Mathlib.Data.Nat.ModEq
import Mathlib.Data.Nat.Bitwise
/-!
# Remainder
-/

namespace AF

variable {K : Type*} [Field K] [LinearOrder K] [IsStrictOrderedRing K]
set_option linter.unusedSectionVars false

/-- A remainder mantissa: words, bit length and value. -/
def MantVal (m : Mantissa) (v : Nat) : Prop := Wf m.m ∧ m.n = Nat.size (val m.m) ∧ val m.m = v

theorem mantRem_spec {m n : List Nat} (hm : Wf m) (hn : TopSet n) :
    MantVal (mantRem m n) (val m % val n) := by
  have h := (divWords_spec hm hn).1
  refine ⟨h.2.1, ?_, h.rem⟩
  unfold mantRem
  exact findBitLen_eq h.2.1

theorem mantMulMod_spec {a b n : List Nat} (ha : Wf a) (hb : Wf b) (hn : TopSet n) :
    MantVal (mantMulMod a b n) (val a * val b % val n) := by
  obtain ⟨_, w, v⟩ := mulWords_spec ha hb (len := a.length + b.length) le_rfl
  have w' : Wf (truncLeadingZeroes (mulWords a b (a.length + b.length))) := by
    rw [truncLeadingZeroes_take]; exact w.take _
  have h := mantRem_spec w' hn
  rw [val_truncLeadingZeroes, v] at h
  exact h

/-- Reading bits, most significant first. -/
theorem foldl_bits (i n c : Nat) :
    (((List.range n).map (fun j => i.testBit j)).reverse).foldl (fun k b => 2 * k + b.toNat) c =
      c * 2 ^ n + i % 2 ^ n := by
  induction n generalizing c with
  | zero => simp [Nat.mod_one]
  | succ n ih =>
    rw [List.range_succ, List.map_append, List.reverse_append]
    simp only [List.map_cons, List.map_nil, List.reverse_cons, List.reverse_nil, List.nil_append,
      List.cons_append, List.foldl_cons]
    rw [ih, Nat.mod_pow_succ, Nat.testBit_eq_decide_div_mod_eq]
    have : (decide (i / 2 ^ n % 2 = 1)).toNat = i / 2 ^ n % 2 := by
      rcases Nat.mod_two_eq_zero_or_one (i / 2 ^ n) with h | h <;> simp [h]
    rw [this]; ring

theorem foldl_lowBits {i : Nat} (hi : i ≠ 0) :
    (lowBits i).foldl (fun k b => 2 * k + b.toNat) 1 = i := by
  unfold lowBits
  rw [foldl_bits, one_mul]
  have h1 : 2 ^ Nat.log2 i ≤ i := Nat.log2_self_le hi
  have h2 : i < 2 ^ (Nat.log2 i + 1) := Nat.lt_log2_self
  rw [pow_succ] at h2
  have h3 : i / 2 ^ Nat.log2 i = 1 := by
    apply Nat.div_eq_of_lt_le <;> omega
  have := Nat.div_add_mod i (2 ^ Nat.log2 i)
  rw [h3, mul_one] at this
  exact this

theorem powModLoop_spec {a n : List Nat} (ha : Wf a) (hn : TopSet n) (bs : List Bool) :
    ∀ (x : List Nat) (k : Nat), Wf x → val x ≡ val a ^ k [MOD val n] →
      Wf (powModLoop a n x bs) ∧
      val (powModLoop a n x bs) ≡ val a ^ (bs.foldl (fun k b => 2 * k + b.toNat) k) [MOD val n] := by
  induction bs with
  | nil => intro x k hx h; exact ⟨hx, h⟩
  | cons b bs ih =>
    intro x k hx h
    unfold powModLoop
    dsimp only
    obtain ⟨w1, _, v1⟩ := mantMulMod_spec hx hx hn
    have e1 : val (mantMulMod x x n).m ≡ val a ^ (2 * k) [MOD val n] := by
      rw [v1, two_mul, pow_add]
      exact (Nat.mod_modEq _ _).trans (h.mul h)
    cases b
    · exact ih _ _ w1 (by simpa using e1)
    · obtain ⟨w2, _, v2⟩ := mantMulMod_spec w1 ha hn
      refine ih _ _ w2 ?_
      simp only [if_true, Bool.toNat_true]
      rw [v2, pow_succ]
      exact (Nat.mod_modEq _ _).trans (e1.mul_right _)

theorem powMod_spec {a n : List Nat} (ha : Wf a) (hn : TopSet n) {i : Nat} (hi : i ≠ 0) :
    Wf (powMod a i n) ∧ val (powMod a i n) ≡ val a ^ i [MOD val n] := by
  have h := powModLoop_spec ha hn (lowBits i) a 1 ha (by rw [pow_one])
  rw [foldl_lowBits hi] at h
  exact h

theorem pow2_spec {x : Mantissa} (hw : Wf x.m) (hn : x.n = Nat.size (val x.m)) (i : Nat) :
    Wf (x.pow2 i).m ∧ val (x.pow2 i).m = val x.m * 2 ^ i := by
  have hlt : val x.m * 2 ^ i < 2 ^ (x.n + i) := by
    rw [pow_add]
    exact Nat.mul_lt_mul_of_pos_right (by rw [hn]; exact Nat.lt_size_self _) (by positivity)
  unfold Mantissa.pow2
  dsimp only
  split
  · rename_i h
    unfold Mantissa.maxBitLen at h
    have hl : x.m.length < (x.n + i + 63) / 64 := by omega
    have w : Wf (tryExtend2 x.m (x.n + i)) := by
      unfold tryExtend2; dsimp only; rw [if_pos hl]
      exact wf_append.2 ⟨hw, wf_zeros _⟩
    have v : val (tryExtend2 x.m (x.n + i)) = val x.m := by
      unfold tryExtend2; dsimp only; rw [if_pos hl, val_append_zeros]
    have l : (tryExtend2 x.m (x.n + i)).length = (x.n + i + 63) / 64 := by
      unfold tryExtend2; dsimp only; rw [if_pos hl]; simp; omega
    refine ⟨shiftLeft_wf w _, ?_⟩
    rw [val_shiftLeft w, v, l, B_pow, Nat.mod_eq_of_lt]
    exact lt_of_lt_of_le hlt (Nat.pow_le_pow_right (by norm_num) (by omega))
  · rename_i h
    unfold Mantissa.maxBitLen at h
    refine ⟨shiftLeft_wf hw _, ?_⟩
    rw [val_shiftLeft hw, B_pow, Nat.mod_eq_of_lt]
    exact lt_of_lt_of_le hlt (Nat.pow_le_pow_right (by norm_num) (by omega))

/-- The result of `rem` whose exact value is `R`: `R`, unless it is a non-zero value below the normal
range, which is replaced by zero. -/
def RemOk (x y : Num) (R : K) (r : Except Err Num) : Prop :=
  ∃ v, r = .ok v ∧ v.s = x.s ∧ Wf v.m.m ∧ v.m.n = Nat.size (val v.m.m) ∧ EMIN ≤ v.e ∧ v.e ≤ EMAX ∧
    (0 < v.m.n → v.m.n < 64 * v.m.m.length → v.e = EMIN) ∧
    ((v.toK : K) = R ∨ (v.toK : K) = 0 ∧ R ≠ 0 ∧ |R| < 2 ^ (EMIN - 1)) ∧
    (v = x ∨ v.inexact = (x.inexact || y.inexact))

theorem remFinalize_spec (x y : Num) {m3 : Mantissa} {W : Nat} (h : MantVal m3 W) (t : ℤ)
    (hR : (W : K) * 2 ^ t < 2 ^ EMAX) :
    RemOk x y ((x.s.toK : K) * (W * 2 ^ t)) (Num.remFinalize x y m3 (t + (m3.n : Int))) := by
  obtain ⟨hw, hn, rfl⟩ := h
  unfold Num.remFinalize
  by_cases hz : m3.n > 0
  · rw [if_pos hz]
    have hv : 0 < val m3.m := by
      rw [hn] at hz; exact Nat.size_pos.1 hz
    have hle : m3.n ≤ 64 * m3.m.length := by
      rw [hn, Nat.size_le]; exact val_lt_two_pow hw
    have lo : 2 ^ (m3.n - 1) ≤ val m3.m := by
      apply Nat.lt_size.1; omega
    have hi : val m3.m < 2 ^ m3.n := by rw [hn]; exact Nat.lt_size_self _
    have lo' : (2 : K) ^ (t + (m3.n : ℤ) - 1) ≤ (val m3.m : K) * 2 ^ t := by
      have e : (2 : K) ^ (t + (m3.n : ℤ) - 1) = ((2 ^ (m3.n - 1) : ℕ) : K) * 2 ^ t := by
        push_cast
        rw [← zpow_natCast, two_zpow_mul]; congr 1; omega
      rw [e]
      exact mul_le_mul_of_nonneg_right (by exact_mod_cast lo) (two_zpow_pos _).le
    have hi' : (val m3.m : K) * 2 ^ t < 2 ^ (t + (m3.n : ℤ)) := by
      have e : (2 : K) ^ (t + (m3.n : ℤ)) = ((2 ^ m3.n : ℕ) : K) * 2 ^ t := by
        push_cast
        rw [← zpow_natCast, two_zpow_mul]; congr 1; omega
      rw [e]
      exact mul_lt_mul_of_pos_right (by exact_mod_cast hi) (two_zpow_pos _)
    have hemax : t + (m3.n : ℤ) ≤ EMAX := by
      have := lt_of_le_of_lt lo' hR
      rw [zpow_lt_zpow_iff_right₀ (by norm_num)] at this
      omega
    have hpos : (0 : K) < (val m3.m : K) * 2 ^ t := lt_of_lt_of_le (two_zpow_pos _) lo'
    rw [if_neg (by omega)]
    by_cases hlow : t + (m3.n : ℤ) < EMIN
    · rw [if_pos hlow, if_pos (by omega)]
      refine ⟨_, rfl, rfl, wf_zeros _, ?_, ?_, ?_, ?_, Or.inr ⟨?_, ?_, ?_⟩, Or.inr rfl⟩
      · simp [Mantissa.setZero, val_replicate_zero]
      · dsimp only; decide
      · dsimp only; decide
      · intro h; simp [Mantissa.setZero] at h
      · apply Num.toK_of_zero; simp [Mantissa.setZero, val_replicate_zero]
      · rw [← abs_ne_zero, abs_toK, abs_of_pos hpos]; exact hpos.ne'
      · rw [abs_toK, abs_of_pos hpos]
        exact lt_of_lt_of_le hi' (zpow_le_zpow_right₀ (by norm_num) (by omega))
    · rw [if_neg hlow]
      have hmm : Wf m3.normilize.2.m ∧ val m3.normilize.2.m = val m3.m * 2 ^ (64 * m3.m.length - m3.n) ∧
          m3.normilize.2.m.length = m3.m.length ∧ m3.normilize.2.n = 64 * m3.m.length := by
        unfold Mantissa.normilize Mantissa.maxBitLen
        dsimp only
        split
        · rw [Nat.mul_comm m3.m.length 64]
          refine ⟨shiftLeft_wf hw _, ?_, shiftLeft_length _ _, rfl⟩
          dsimp only
          rw [val_shiftLeft hw, B_pow, Nat.mod_eq_of_lt]
          calc val m3.m * 2 ^ (64 * m3.m.length - m3.n) < 2 ^ m3.n * 2 ^ (64 * m3.m.length - m3.n) :=
                Nat.mul_lt_mul_of_pos_right hi (by positivity)
            _ = 2 ^ (64 * m3.m.length) := by rw [← pow_add]; congr 1; omega
        · have : 64 * m3.m.length - m3.n = 0 := by omega
          dsimp only
          rw [this]
          exact ⟨hw, by simp, rfl, by omega⟩
      obtain ⟨a1, a2, a3, a4⟩ := hmm
      refine ⟨_, rfl, rfl, a1, ?_, by dsimp only; omega, hemax, ?_, Or.inl ?_, Or.inr rfl⟩
      · dsimp only
        have : Normd m3.normilize.2.m := by
          refine ⟨a1, by omega, ?_⟩
          rw [a2, a3]
          calc 2 ^ (64 * m3.m.length - 1) = 2 ^ (m3.n - 1) * 2 ^ (64 * m3.m.length - m3.n) := by
                rw [← pow_add]; congr 1; omega
            _ ≤ _ := Nat.mul_le_mul_right _ lo
        rw [this.size, a4, a3]
      · dsimp only; intro _ h; omega
      · unfold Num.toK
        dsimp only
        rw [a2, a3]
        push_cast
        rw [mul_assoc, mul_assoc, ← zpow_natCast, two_zpow_mul]
        congr 3
        omega
  · rw [if_neg hz]
    have hv : val m3.m = 0 := by
      have : Nat.size (val m3.m) = 0 := by omega
      exact Nat.size_eq_zero.1 this
    refine ⟨_, rfl, rfl, hw, hn, by dsimp only; decide, by dsimp only; decide, ?_, Or.inl ?_, Or.inr rfl⟩
    · intro h; exact absurd h hz
    · rw [hv]
      rw [Num.toK_of_zero (by dsimp only; exact hv)]; simp

/-- The exact remainder in terms of the integers the code works with. -/
theorem truncQ_rem {x y u : ℚ} {s t : Sign} {A C : Nat} (hx : x = s.toK * (A * u)) (hy : y = t.toK * (C * u))
    (hu : u ≠ 0) (hC : 0 < C) : x - y * truncQ (x / y) = s.toK * (((A % C : ℕ) : ℚ) * u) := by
  have hC' : (C : ℚ) ≠ 0 := by exact_mod_cast hC.ne'
  have hst : ∃ w : Sign, (s.toK : ℚ) = w.toK * t.toK ∧ (t.toK : ℚ) * t.toK = 1 := by
    cases s <;> cases t
    · exact ⟨.pos, by simp [Sign.toK], by simp [Sign.toK]⟩
    · exact ⟨.neg, by simp [Sign.toK], by simp [Sign.toK]⟩
    · exact ⟨.neg, by simp [Sign.toK], by simp [Sign.toK]⟩
    · exact ⟨.pos, by simp [Sign.toK], by simp [Sign.toK]⟩
  obtain ⟨w, hw, ht⟩ := hst
  have ht0 : (t.toK : ℚ) ≠ 0 := by intro h; rw [h] at ht; simp at ht
  have hq : x / y = w.toK * ((A : ℚ) / C) := by
    rw [hx, hy, hw]; field_simp
  have hfl : ⌊(A : ℚ) / C⌋ = ((A / C : ℕ) : ℤ) := by
    have hCp : (0 : ℚ) < C := by exact_mod_cast hC
    rw [Int.floor_eq_iff, Int.cast_natCast, le_div_iff₀ hCp, div_lt_iff₀ hCp]
    constructor
    · exact_mod_cast Nat.div_mul_le_self A C
    · have := Nat.lt_div_mul_add hC (a := A)
      rw [add_mul, one_mul]; exact_mod_cast this
  rw [hq, truncQ_sign _ _ (by positivity), hfl, hx, hy, hw]
  have hdm : (A : ℚ) = C * ((A / C : ℕ) : ℚ) + ((A % C : ℕ) : ℚ) := by
    exact_mod_cast (Nat.div_add_mod A C).symm
  have hdm' : ((A % C : ℕ) : ℚ) = A - C * ((A / C : ℕ) : ℚ) := by linarith
  rw [hdm', Int.cast_natCast]; ring

theorem truncQ_small {x y : ℚ} (h : |x| < |y|) : x - y * truncQ (x / y) = x := by
  have hy : y ≠ 0 := by rintro rfl; rw [abs_zero] at h; exact absurd (abs_nonneg x) (not_le.2 h)
  have h1 : |x / y| < 1 := by rw [abs_div, div_lt_one (abs_pos.2 hy)]; exact h
  rw [_root_.abs_lt] at h1
  have : truncQ (x / y) = 0 := by
    unfold truncQ
    split
    · rename_i h2
      rw [Int.floor_eq_iff]; push_cast; exact ⟨h2, by linarith⟩
    · rw [Int.ceil_eq_iff]; push_cast
      constructor <;> linarith
  rw [this]; simp

theorem rem_spec {x y : Num} (hx : x.WF) (hy : y.WF) (hy0 : y.isZero = false) :
    RemOk x y ((x.toK : ℚ) - y.toK * truncQ (x.toK / y.toK)) (x.rem y) := by
  have hself : (x.toK : ℚ) - y.toK * truncQ (x.toK / y.toK) = x.toK →
      RemOk x y ((x.toK : ℚ) - y.toK * truncQ (x.toK / y.toK)) (.ok x) := by
    intro h
    rw [h]
    exact ⟨x, rfl, rfl, hx.wf, hx.bits, hx.emin, hx.emax, hx.norm, Or.inl rfl, Or.inl rfl⟩
  unfold Num.rem
  rw [if_neg (by simp [hy0])]
  by_cases hxz : x.isZero = true
  · rw [if_pos hxz]
    apply hself
    rw [(hx.toK_eq_zero (K := ℚ)).2 hxz]
    simp [truncQ]
  rw [if_neg hxz]
  rw [Bool.not_eq_true] at hxz
  dsimp only
  obtain ⟨e2, m2, hn2, hm2, hv2, hl2, hb2, he2⟩ := normalize_spec (K := ℚ) hy hy0
  rw [hn2]
  dsimp only
  have hx1 := Num.abs_val (K := ℚ) x
  have hxn := hx.n_pos hxz
  have hxl := hx.n_le
  have hxlt : |(x.toK : ℚ)| < 2 ^ EMAX := by
    rw [hx1]
    calc _ < ((2 ^ (64 * x.m.m.length) : ℕ) : ℚ) * 2 ^ (x.e - ((64 * x.m.m.length : ℕ) : ℤ)) :=
          mul_lt_mul_of_pos_right (by exact_mod_cast val_lt_two_pow hx.wf) (two_zpow_pos _)
      _ = 2 ^ x.e := by
          push_cast
          rw [← zpow_natCast, two_zpow_mul]; congr 1; push_cast; ring
      _ ≤ _ := zpow_le_zpow_right₀ (by norm_num) hx.emax
  have hy1 : |(y.toK : ℚ)| = (val m2.m : ℚ) * 2 ^ (e2 - (64 * m2.m.length : ℕ)) := by
    rw [hv2]; unfold frac
    rw [two_zpow_sub, zpow_natCast]; ring
  have hxs := Num.toK_eq (K := ℚ) x
  have hys := Num.toK_eq (K := ℚ) y
  unfold Mantissa.maxBitLen
  rw [Nat.mul_comm x.m.m.length 64, Nat.mul_comm m2.m.length 64]
  rw [hx1] at hxs hxlt
  rw [hy1] at hys
  obtain ⟨t1, ht1⟩ : ∃ t1, t1 = x.e - ((64 * x.m.m.length : ℕ) : ℤ) := ⟨_, rfl⟩
  obtain ⟨t2, ht2⟩ : ∃ t2, t2 = e2 - ((64 * m2.m.length : ℕ) : ℤ) := ⟨_, rfl⟩
  rw [← ht1] at hxs hxlt ⊢
  rw [← ht2] at hys ⊢
  have hN := hm2.topSet
  by_cases hgt : t1 > t2
  · rw [if_pos hgt]
    obtain ⟨i, hi⟩ : ∃ i, i = (t1 - t2).toNat := ⟨_, rfl⟩
    have hi' : t1 = t2 + i := by omega
    have hi0 : i ≠ 0 := by omega
    rw [← hi]
    have hpw : ∀ pw, pw = (if i ≥ 64 * m2.m.length then powMod [2] i m2.m
        else (({ m := [2], n := 2 } : Mantissa).pow2 (i - 1)).m) →
        Wf pw ∧ val pw ≡ 2 ^ i [MOD val m2.m] := by
      rintro pw rfl
      have w2 : Wf [2] := by intro a ha; simp at ha; subst ha; decide
      split
      · have := powMod_spec w2 hN hi0
        simpa [val] using this
      · have := pow2_spec (x := { m := [2], n := 2 }) w2 (by decide) (i - 1)
        refine ⟨this.1, ?_⟩
        rw [this.2]
        have e : val [2] * 2 ^ (i - 1) = 2 ^ i := by
          simp only [val, mul_zero, add_zero]
          rw [← pow_succ']; congr 1; omega
        dsimp only
        rw [e]
    obtain ⟨pw, hpe⟩ : ∃ pw, pw = (if i ≥ 64 * m2.m.length then powMod [2] i m2.m
        else (({ m := [2], n := 2 } : Mantissa).pow2 (i - 1)).m) := ⟨_, rfl⟩
    obtain ⟨w1, w2⟩ := hpw pw hpe
    rw [← hpe]
    obtain ⟨r1, _, r2⟩ := mantRem_spec hx.wf hN
    have h3 := mantMulMod_spec r1 w1 hN
    have e3 : val (mantRem x.m.m m2.m).m * val pw % val m2.m = val x.m.m * 2 ^ i % val m2.m := by
      rw [r2]
      exact Nat.ModEq.mul (Nat.mod_modEq _ _) w2
    rw [e3] at h3
    have hR := truncQ_rem (A := val x.m.m * 2 ^ i) (u := (2 : ℚ) ^ t2) (x := x.toK) (s := x.s)
      (by rw [hxs, hi']; push_cast; rw [zpow_add₀ (by norm_num), zpow_natCast]; ring) hys
      (two_zpow_pos _).ne' hm2.pos
    rw [hR]
    refine remFinalize_spec x y h3 t2 ?_
    refine lt_of_le_of_lt ?_ hxlt
    calc _ ≤ ((val x.m.m * 2 ^ i : ℕ) : ℚ) * 2 ^ t2 :=
          mul_le_mul_of_nonneg_right (by exact_mod_cast Nat.mod_le _ _) (two_zpow_pos _).le
      _ = _ := by
          rw [hi']; push_cast; rw [zpow_add₀ (by norm_num), zpow_natCast]; ring
  · rw [if_neg hgt]
    by_cases hlt : (x.m.n : ℤ) + x.e < (m2.n : ℤ) + e2
    · rw [if_pos hlt]
      apply hself
      apply truncQ_small
      rw [hx1, hy1, ← ht1, ← ht2]
      -- top bit positions
      have hxe : (x.m.n : ℤ) + t1 < e2 := by
        by_cases hs : x.m.n < 64 * x.m.m.length
        · have h1 := hx.norm hxn hs
          by_cases hc : m2.m.length ≤ x.m.m.length
          · omega
          · omega
        · omega
      have h1 : (val x.m.m : ℚ) * 2 ^ t1 < 2 ^ ((x.m.n : ℤ) + t1) := by
        rw [zpow_add₀ (by norm_num), zpow_natCast]
        refine mul_lt_mul_of_pos_right ?_ (two_zpow_pos _)
        have := Nat.lt_size_self (val x.m.m)
        rw [← hx.bits] at this
        exact_mod_cast this
      have h2 : (2 : ℚ) ^ (e2 - 1) ≤ (val m2.m : ℚ) * 2 ^ t2 := by
        have h3 := hm2.2.2
        have e : (2 : ℚ) ^ (e2 - 1) = ((2 ^ (64 * m2.m.length - 1) : ℕ) : ℚ) * 2 ^ t2 := by
          push_cast
          rw [← zpow_natCast, two_zpow_mul]; congr 1
          have := hm2.2.1
          omega
        rw [e]
        exact mul_le_mul_of_nonneg_right (by exact_mod_cast h3) (two_zpow_pos _).le
      calc _ < _ := h1
        _ ≤ (2 : ℚ) ^ (e2 - 1) := zpow_le_zpow_right₀ (by norm_num) (by omega)
        _ ≤ _ := h2
    · rw [if_neg hlt]
      obtain ⟨d, hd⟩ : ∃ d, d = (t2 - t1).toNat := ⟨_, rfl⟩
      have hd' : t2 = t1 + d := by omega
      rw [← hd]
      obtain ⟨k, hk⟩ : ∃ k, k = (d + 63) / 64 := ⟨_, rfl⟩
      have hmx : ∀ mx, mx = (m2.setLength (64 * m2.m.length + d)).m →
          mx.length = m2.m.length + k ∧ Wf mx ∧ val mx = B ^ k * val m2.m := by
        rintro mx rfl
        unfold Mantissa.setLength
        have hwl : wordLen (64 * m2.m.length + d) = m2.m.length + k := by unfold wordLen; omega
        dsimp only
        rw [hwl, if_neg (by omega)]
        split
        · have := tryExtend_spec hm2.1 k
          unfold tryExtend at this ⊢
          rw [show ((m2.m.length + k) * 64 + 63) / 64 = m2.m.length + k by omega] at this
          unfold wordLen at hwl
          rw [hwl]
          exact this
        · have : k = 0 := by omega
          rw [this]; simp [hm2.1]
      obtain ⟨mx, hmxe⟩ : ∃ mx, mx = (m2.setLength (64 * m2.m.length + d)).m := ⟨_, rfl⟩
      obtain ⟨g1, g2, g3⟩ := hmx mx hmxe
      rw [← hmxe, g1]
      have hT : TopSet mx := by
        refine ⟨g2, by have := hm2.2.1; omega, ?_⟩
        rw [g1, g3, pow_add, mul_comm (B ^ m2.m.length), Nat.mul_left_comm]
        exact Nat.mul_le_mul_left _ hN.2.2
      -- the scaling of the dividend
      obtain ⟨c, hc⟩ : ∃ c, c = 64 * k - d := ⟨_, rfl⟩
      have hc' : (m2.m.length + k) * 64 - (64 * m2.m.length + d) = c := by omega
      have h3 : ∀ m3, m3 = (if (m2.m.length + k) * 64 > 64 * m2.m.length + d then
            mantRem (x.m.pow2 ((m2.m.length + k) * 64 - (64 * m2.m.length + d))).m mx
          else mantRem x.m.m mx) → MantVal m3 (val x.m.m * 2 ^ c % (val m2.m * 2 ^ (d + c))) := by
        rintro m3 rfl
        have e1 : val mx = val m2.m * 2 ^ (d + c) := by
          rw [g3, B_pow, Nat.mul_comm]; congr 2; omega
        rw [← e1, hc']
        split
        · obtain ⟨p1, p2⟩ := pow2_spec hx.wf hx.bits c
          rw [← p2]
          exact mantRem_spec p1 hT
        · have : c = 0 := by omega
          rw [this, pow_zero, mul_one]
          exact mantRem_spec hx.wf hT
      obtain ⟨m3, hm3⟩ : ∃ m3, m3 = (if (m2.m.length + k) * 64 > 64 * m2.m.length + d then
            mantRem (x.m.pow2 ((m2.m.length + k) * 64 - (64 * m2.m.length + d))).m mx
          else mantRem x.m.m mx) := ⟨_, rfl⟩
      have h4 := h3 m3 hm3
      rw [← hm3]
      have hR := truncQ_rem (A := val x.m.m * 2 ^ c) (C := val m2.m * 2 ^ (d + c))
        (u := (2 : ℚ) ^ (t1 - c)) (x := x.toK) (s := x.s) (y := y.toK) (t := y.s)
        (by
          rw [hxs]; push_cast
          rw [mul_assoc (val x.m.m : ℚ), ← zpow_natCast, two_zpow_mul]
          congr 3; ring)
        (by
          rw [hys, hd']; push_cast
          rw [mul_assoc (val m2.m : ℚ), ← zpow_natCast, two_zpow_mul]
          congr 3; push_cast; ring)
        (two_zpow_pos _).ne' (Nat.mul_pos hm2.pos (by positivity))
      rw [hR]
      have hee : t1 + (m3.n : ℤ) - (((m2.m.length + k) * 64 : ℕ) : ℤ) +
          ((64 * m2.m.length + d : ℕ) : ℤ) = (t1 - c) + (m3.n : ℤ) := by omega
      rw [hee]
      refine remFinalize_spec x y h4 _ ?_
      refine lt_of_le_of_lt ?_ hxlt
      calc _ ≤ ((val x.m.m * 2 ^ c : ℕ) : ℚ) * 2 ^ (t1 - (c : ℤ)) :=
            mul_le_mul_of_nonneg_right (by exact_mod_cast Nat.mod_le _ _) (two_zpow_pos _).le
        _ = _ := by
            push_cast
            rw [mul_assoc, ← zpow_natCast, two_zpow_mul]
            congr 2; ring

end AF
