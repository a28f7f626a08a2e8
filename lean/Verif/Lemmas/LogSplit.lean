import Verif.Lemmas.RoundN
import Verif.Lemmas.HypArith
import Verif.Model.Log
/-!
# The argument of a logarithm as `m * 2^e`, and the bits lost near 1
-/

namespace AF

set_option linter.unusedSectionVars false

/-- The leading zeros of the words `w :: l`, most significant first. -/
theorem clzLoop_mag (l : List Nat) : ∀ (w ret : Nat), w < B → Wf l → w * B ^ l.length + val l.reverse ≠ 0 →
    ∃ c, (clzLoop w l ret).1 ≠ 0 ∧ (clzLoop w l ret).2 + lz (clzLoop w l ret).1 = ret + c ∧
      B ^ (l.length + 1) ≤ 2 * ((w * B ^ l.length + val l.reverse) * 2 ^ c) ∧
      (w * B ^ l.length + val l.reverse) * 2 ^ c < B ^ (l.length + 1) := by
  have base : ∀ (l : List Nat) (w : Nat), w < B → Wf l → 0 < w →
      B ^ (l.length + 1) ≤ 2 * ((w * B ^ l.length + val l.reverse) * 2 ^ lz w) ∧
      (w * B ^ l.length + val l.reverse) * 2 ^ lz w < B ^ (l.length + 1) := by
    intro l w hw hl h0
    obtain ⟨h1, h2⟩ := lz_spec h0 hw
    have hlt := val_lt (wf_reverse.2 hl)
    rw [List.length_reverse] at hlt
    have hB : B = 2 ^ 64 := rfl
    rw [pow_succ]
    generalize B ^ l.length = b at hlt
    generalize val l.reverse = v at hlt
    have h3 : (w + 1) * 2 ^ lz w ≤ 2 ^ 64 := by
      have hle := lz_le h0 hw
      obtain ⟨t, ht⟩ : ∃ t, 2 ^ 64 = t * 2 ^ lz w := ⟨2 ^ (64 - lz w), by rw [← pow_add]; congr 1; omega⟩
      rw [ht] at h2 ⊢
      have := lt_of_mul_lt_mul_right h2 (by positivity)
      exact Nat.mul_le_mul_right _ this
    rw [hB]
    generalize 2 ^ lz w = q at *
    constructor
    · nlinarith
    · have : (w * b + v) * q + q ≤ (w + 1) * q * b := by nlinarith
      rcases Nat.eq_zero_or_pos q with h | h
      · subst h; simp at h1
      · nlinarith
  induction l with
  | nil =>
    intro w ret hw hl h
    have hw0 : 0 < w := by
      have : w * B ^ ([] : List Nat).length + val ([] : List Nat).reverse = w := by simp
      omega
    have e : clzLoop w [] ret = (w, ret) := by unfold clzLoop; rw [if_neg (by omega)]
    rw [e]
    exact ⟨lz w, by dsimp only; omega, rfl, base [] w hw hl hw0⟩
  | cons v vs ih =>
    intro w ret hw hl h
    obtain ⟨hv, hvs⟩ := wf_cons.1 hl
    by_cases hw0 : w = 0
    · subst hw0
      have e : clzLoop 0 (v :: vs) ret = clzLoop v vs (ret + 64) := by rw [clzLoop, if_pos rfl]
      have hval : 0 * B ^ (v :: vs).length + val (v :: vs).reverse = v * B ^ vs.length + val vs.reverse := by
        rw [List.reverse_cons, val_append, List.length_reverse]
        simp [val]; ring
      rw [hval] at h ⊢
      obtain ⟨c, h1, h2, h3, h4⟩ := ih v (ret + 64) hv hvs h
      rw [e]
      refine ⟨64 + c, h1, by omega, ?_, ?_⟩
      · rw [List.length_cons, pow_succ _ (vs.length + 1), pow_add 2 64 c, show (2 : ℕ) ^ 64 = B from rfl]
        refine le_trans (Nat.mul_le_mul_right B h3) (le_of_eq ?_)
        ring
      · rw [List.length_cons, pow_succ _ (vs.length + 1), pow_add 2 64 c, show (2 : ℕ) ^ 64 = B from rfl]
        refine lt_of_eq_of_lt ?_ (Nat.mul_lt_mul_of_pos_right h4 B_pos)
        ring
    · have e : clzLoop w (v :: vs) ret = (w, ret) := by rw [clzLoop, if_neg hw0]
      rw [e]
      exact ⟨lz w, hw0, rfl, base (v :: vs) w hw hl (by omega)⟩

/-- The leading ones of the words of `l`, most significant first. -/
theorem cloLoop_mag (l : List Nat) : ∀ ret : Nat, Wf l →
    ∃ c, cloLoop l ret = ret + c ∧ c ≤ 64 * l.length ∧ B ^ l.length ≤ (B ^ l.length - val l.reverse) * 2 ^ (c + 1) := by
  induction l with
  | nil => intro ret _; exact ⟨0, rfl, by simp, by simp⟩
  | cons v vs ih =>
    intro ret hl
    obtain ⟨hv, hvs⟩ := wf_cons.1 hl
    have hval : val (v :: vs).reverse = v * B ^ vs.length + val vs.reverse := by
      rw [List.reverse_cons, val_append, List.length_reverse]
      simp [val]; ring
    have hlt := val_lt (wf_reverse.2 hvs)
    rw [List.length_reverse] at hlt
    rw [hval, List.length_cons]
    by_cases h : v = WMAX
    · obtain ⟨c, h1, h2, h3⟩ := ih (ret + 64) hvs
      refine ⟨64 + c, ?_, by omega, ?_⟩
      · rw [cloLoop, if_pos h, h1]; omega
      · have e : B ^ (vs.length + 1) - (v * B ^ vs.length + val vs.reverse) = B ^ vs.length - val vs.reverse := by
          rw [h, pow_succ, show B ^ vs.length * B = WMAX * B ^ vs.length + B ^ vs.length by
            rw [show B = WMAX + 1 from rfl]; ring]
          omega
        rw [e, pow_succ, show (2 : ℕ) ^ (64 + c + 1) = 2 ^ (c + 1) * B by
          rw [show 64 + c + 1 = (c + 1) + 64 by omega, pow_add]; rfl, ← mul_assoc]
        exact Nat.mul_le_mul_right _ h3
    · have hd0 : 0 < WMAX - v := by
        have : B = WMAX + 1 := rfl
        omega
      have hdB : WMAX - v < B := by
        have : B = WMAX + 1 := rfl
        omega
      obtain ⟨h1, h2⟩ := lz_spec hd0 hdB
      have h3 := lz_le hd0 hdB
      refine ⟨lz (WMAX - v), ?_, by omega, ?_⟩
      · rw [cloLoop, if_neg h]
      · have e : (WMAX - v) * B ^ vs.length ≤ B ^ (vs.length + 1) - (v * B ^ vs.length + val vs.reverse) := by
          have e1 : B ^ (vs.length + 1) = (WMAX - v) * B ^ vs.length + v * B ^ vs.length + B ^ vs.length := by
            rw [pow_succ, ← add_mul, ← Nat.succ_mul, mul_comm]
            congr 1
            have : B = WMAX + 1 := rfl
            omega
          omega
        refine le_trans ?_ (Nat.mul_le_mul_right _ e)
        rw [pow_succ, pow_succ, show (WMAX - v) * B ^ vs.length * (2 ^ lz (WMAX - v) * 2) =
          B ^ vs.length * ((WMAX - v) * 2 ^ lz (WMAX - v) * 2) by ring]
        refine Nat.mul_le_mul_left _ ?_
        rw [show B = 2 ^ 63 * 2 from rfl]
        exact Nat.mul_le_mul_right _ h1

/-- The leading zeros below the top bit of a normalized number. -/
theorem clzSkip_mag {m : List Nat} (hm : Wf m) (hl : 0 < m.length) (hn : 2 ^ (64 * m.length - 1) ≤ val m)
    (hc : countLeadingZeroesSkipFirst m ≠ 64 * m.length) :
    2 ^ (64 * m.length) ≤ 2 * ((val m - 2 ^ (64 * m.length - 1)) * 2 ^ countLeadingZeroesSkipFirst m) ∧
    (val m - 2 ^ (64 * m.length - 1)) * 2 ^ countLeadingZeroesSkipFirst m < 2 ^ (64 * m.length) ∧
    countLeadingZeroesSkipFirst m ≤ 64 * m.length := by
  have hne := (clzSkip_spec hm hl).1 hc
  have hlt := val_lt_two_pow hm
  have e0 : val m % 2 ^ (64 * m.length - 1) = val m - 2 ^ (64 * m.length - 1) := by
    have : 2 ^ (64 * m.length) = 2 * 2 ^ (64 * m.length - 1) := by rw [← pow_succ']; congr 1; omega
    rw [Nat.mod_eq_sub_mod hn, Nat.mod_eq_of_lt (by omega)]
  rw [← e0]
  obtain ⟨lo, v, rfl⟩ : ∃ lo v, m = lo ++ [v] := by
    rcases List.eq_nil_or_concat m with h | ⟨lo, v, h⟩
    · rw [h] at hl; simp at hl
    · exact ⟨lo, v, by simpa using h⟩
  obtain ⟨w1, w2⟩ := wf_append.1 hm
  have hv : v < B := w2 v (by simp)
  have hval : val (lo ++ [v]) % 2 ^ (64 * (lo ++ [v]).length - 1) =
      (v % 2 ^ 63) * B ^ lo.reverse.length + val lo.reverse.reverse := by
    have e : 2 ^ (64 * (lo ++ [v]).length - 1) = 2 ^ (64 * lo.length) * 2 ^ 63 := by
      rw [← pow_add]; congr 1; simp; omega
    rw [e, val_append, B_pow, Nat.mod_mul]
    have h1 := val_lt_two_pow w1
    have h2 : val [v] = v := by simp [val]
    rw [h2, Nat.add_mul_mod_self_left, Nat.mod_eq_of_lt h1, Nat.add_mul_div_left _ _ (by positivity),
      Nat.div_eq_of_lt h1, Nat.zero_add, List.reverse_reverse, List.length_reverse, B_pow]
    ring
  have hlt' : v % 2 ^ 63 < B := lt_of_le_of_lt (Nat.mod_le _ _) hv
  have hcnt : countLeadingZeroesSkipFirst (lo ++ [v]) = (clzLoop (v % 2 ^ 63) lo.reverse 0).2 +
      (if (clzLoop (v % 2 ^ 63) lo.reverse 0).1 ≠ 0 then lz (clzLoop (v % 2 ^ 63) lo.reverse 0).1 else 0) := by
    unfold countLeadingZeroesSkipFirst
    rw [List.reverse_append]
    simp only [List.reverse_cons, List.reverse_nil, List.nil_append, List.cons_append]
    rw [show WMAX >>> 1 = 2 ^ 63 - 1 by decide, Nat.and_two_pow_sub_one_eq_mod]
    split <;> omega
  rw [hval] at hne ⊢
  obtain ⟨c, c1, c2, c3, c4⟩ := clzLoop_mag lo.reverse (v % 2 ^ 63) 0 hlt' (wf_reverse.2 w1) hne
  rw [if_pos c1] at hcnt
  rw [c2, Nat.zero_add] at hcnt
  have e1 : 2 ^ (64 * (lo ++ [v]).length) = B ^ (lo.reverse.length + 1) := by
    rw [B_pow]; simp
  rw [hcnt, e1]
  refine ⟨c3, c4, ?_⟩
  by_contra hcc
  push Not at hcc
  have h5 : 2 ^ (64 * (lo ++ [v]).length) ≤ 2 ^ c := Nat.pow_le_pow_right (by norm_num) (by omega)
  rw [e1] at h5
  have : 1 * 2 ^ c ≤ (v % 2 ^ 63 * B ^ lo.reverse.length + val lo.reverse.reverse) * 2 ^ c :=
    Nat.mul_le_mul_right _ (Nat.pos_of_ne_zero hne)
  omega

/-- The leading ones of a number. -/
theorem clo_mag {m : List Nat} (hm : Wf m) : countLeadingOnes m ≤ 64 * m.length ∧
    2 ^ (64 * m.length) ≤ (2 ^ (64 * m.length) - val m) * 2 ^ (countLeadingOnes m + 1) := by
  obtain ⟨c, c1, c2, c3⟩ := cloLoop_mag m.reverse 0 (wf_reverse.2 hm)
  rw [Nat.zero_add] at c1
  rw [List.length_reverse, List.reverse_reverse, B_pow] at c3
  rw [List.length_reverse] at c2
  unfold countLeadingOnes
  rw [c1]
  exact ⟨c2, c3⟩

/-- The argument as a number in `[1/2, 1)` and a power of two. -/
structure SplitOk (x m : Num) (e : ℤ) : Prop where
  wf : m.WF
  len : m.m.m.length = x.m.m.length
  lo : 1 / 2 ≤ (m.toK : ℝ)
  hi : (m.toK : ℝ) ≤ 1 - 2 ^ (-((64 * m.m.m.length : ℕ) : ℤ))
  eq : (x.toK : ℝ) = m.toK * 2 ^ e
  inexact : m.inexact = x.inexact
  eLo : EMIN - 64 * m.m.m.length ≤ e
  eHi : e ≤ EMAX
  val : (m.toK : ℝ) = val m.m.m * 2 ^ (-((64 * m.m.m.length : ℕ) : ℤ))
  norm : 2 ^ (64 * m.m.m.length - 1) ≤ AF.val m.m.m

theorem lnSplit_spec {x : Num} (hx : x.WF) (h0 : 0 < (x.toK : ℝ)) : SplitOk x x.lnSplit.1 x.lnSplit.2 := by
  have hz : x.isZero = false := by
    rw [← Bool.not_eq_true, ← hx.toK_eq_zero (K := ℝ)]
    exact h0.ne'
  have hv : val x.m.m ≠ 0 := by
    intro hc
    unfold Num.toK at h0
    rw [hc] at h0
    simp at h0
  obtain ⟨s1, s2, s3, s4, s5⟩ := maximize_spec hx.wf hv
  have hlen : 0 < x.m.m.length := by
    by_contra hc
    have : x.m.m = [] := List.eq_nil_of_length_eq_zero (by omega)
    rw [this] at hv
    exact hv rfl
  have hpos := toK_sign_pos h0
  have hsz : 0 < Nat.size (val x.m.m) := Nat.size_pos.2 (by omega)
  have hE1 : EMIN = -2 ^ 31 := rfl
  have hE2 : EMAX = 2 ^ 31 - 1 := rfl
  have hmb : x.m.maxBitLen = 64 * x.m.m.length := by unfold Mantissa.maxBitLen; omega
  obtain ⟨ml, hml⟩ : ∃ ml, ml = (maximize x.m.m).1 := ⟨_, rfl⟩
  obtain ⟨sh, hsh⟩ : ∃ sh, sh = (maximize x.m.m).2 := ⟨_, rfl⟩
  have hlt := val_lt_two_pow s5
  rw [s4, ← hml] at hlt
  have hE : x.lnSplit = ({ x with e := 0, m := { m := ml, n := 64 * x.m.m.length } }, x.e - (sh : ℤ)) := by
    unfold Num.lnSplit Num.setExponent
    dsimp only
    rw [← hml, ← hsh, hmb]
    have a1 : ({ x with m := { m := ml, n := 64 * x.m.m.length } } : Num).isZero = false := by
      unfold Num.isZero Mantissa.isZero
      dsimp only
      rw [beq_eq_false_iff_ne]; omega
    have a2 : ({ x with m := { m := ml, n := 64 * x.m.m.length } } : Num).isSubnormal = false := by
      rw [← Bool.not_eq_true, Num.isSubnormal_iff]
      dsimp only
      rw [hml, s4]; omega
    rw [a1, a2]
    rfl
  rw [hE]
  rw [← hml] at s1 s3 s4 s5
  rw [← hsh] at s1 s2
  have hsize : Nat.size (val ml) = 64 * x.m.m.length := by
    apply le_antisymm
    · rw [Nat.size_le]; exact hlt
    · have : 64 * x.m.m.length - 1 < Nat.size (val ml) := by rw [Nat.lt_size]; exact s3
      omega
  have hval : ((({ x with e := 0, m := { m := ml, n := 64 * x.m.m.length } } : Num)).toK : ℝ) =
      val ml * 2 ^ (-((64 * ml.length : ℕ) : ℤ)) := by
    unfold Num.toK
    dsimp only
    rw [hpos, zero_sub]
    simp [Sign.toK]
  have hxe1 := hx.emin
  have hxe2 := hx.emax
  have hpw : (0 : ℝ) < 2 ^ (-((64 * ml.length : ℕ) : ℤ)) := by positivity
  refine ⟨⟨s5, hsize.symm, by dsimp only; omega, by dsimp only; omega, ?_, ?_⟩, s4, ?_, ?_, ?_, rfl, ?_, ?_, hval, ?_⟩
  · intro h1 h2
    dsimp only at h1 h2
    omega
  · dsimp only
    rw [s4]; exact hx.sized
  · rw [hval]
    have h1 : (2 : ℝ) ^ (64 * x.m.m.length - 1) ≤ (val ml : ℝ) := by exact_mod_cast s3
    refine le_trans (le_of_eq ?_) (mul_le_mul_of_nonneg_right h1 hpw.le)
    rw [← zpow_natCast, ← zpow_add₀ (by norm_num), s4, show (1 / 2 : ℝ) = 2 ^ (-1 : ℤ) by norm_num]
    congr 1; omega
  · rw [hval]
    dsimp only
    have h1 : (val ml : ℝ) ≤ 2 ^ (64 * ml.length) - 1 := by
      have : val ml + 1 ≤ 2 ^ (64 * ml.length) := by rw [s4]; exact hlt
      have h2 : ((val ml + 1 : ℕ) : ℝ) ≤ ((2 ^ (64 * ml.length) : ℕ) : ℝ) := by exact_mod_cast this
      push_cast at h2
      linarith
    refine le_trans (mul_le_mul_of_nonneg_right h1 hpw.le) (le_of_eq ?_)
    rw [sub_mul, ← zpow_natCast, ← zpow_add₀ (by norm_num), one_mul]
    congr 1
    rw [add_neg_cancel, zpow_zero]
  · rw [hval, s1]
    dsimp only
    unfold Num.toK
    rw [hpos, s4]
    push_cast
    rw [← zpow_natCast (2 : ℝ) sh, mul_assoc, mul_assoc, mul_assoc, ← zpow_add₀ (by norm_num), ← zpow_add₀ (by norm_num)]
    simp only [Sign.toK, one_mul]
    congr 2
    ring
  · dsimp only
    rw [s4]; omega
  · dsimp only; omega
  · dsimp only
    rw [s4]; exact s3

end AF
