import Verif.Lemmas.AsinStep
import Verif.Lemmas.AtanhFun
import Verif.Lemmas.InvFun
import Verif.Lemmas.Cmp
import Mathlib.Analysis.SpecialFunctions.Trigonometric.Bounds
/-!
# The values of `asin`
-/

namespace AF

open Num

set_option linter.unusedSectionVars false

variable {x : Num}

theorem sign_arcsin (x : Num) : Real.arcsin (x.toK : ℝ) = x.s.toK * Real.arcsin |(x.toK : ℝ)| := by
  have h := Num.toK_eq (K := ℝ) x
  cases hs : x.s <;> rw [hs] at h <;> simp only [Sign.toK, one_mul, neg_mul] at h ⊢
  · rw [← Real.arcsin_neg, ← h]
  · rw [← h]

theorem arcsin_cube {X : ℝ} (h0 : 0 < X) (h1 : X ≤ 1 / 16) : 0 < Real.arcsin X - X ∧ Real.arcsin X - X ≤ X ^ 3 / 5 := by
  obtain ⟨y, hy⟩ : ∃ y, y = Real.arcsin X := ⟨_, rfl⟩
  have hs : Real.sin y = X := by rw [hy]; exact Real.sin_arcsin (by linarith) (by linarith)
  have hy0 : 0 < y := by rw [hy]; exact Real.arcsin_pos.2 h0
  have hy2 : y ≤ Real.pi / 2 := by rw [hy]; exact Real.arcsin_le_pi_div_two X
  have h2 := Real.mul_le_sin hy0.le hy2
  have h3 := Real.sin_gt_sub_cube hy0
  have h4 := Real.sin_lt hy0
  rw [hs] at h2 h3 h4
  have hpi := Real.pi_lt_d2
  have hpi0 := Real.pi_pos
  have h5 : y ≤ 2 * X := by
    have : (1 : ℝ) / 2 ≤ 2 / Real.pi := by rw [div_le_div_iff₀ (by norm_num) hpi0]; linarith
    nlinarith
  have h6 : y ≤ X * (101 / 100) := by
    have : y ^ 2 ≤ 1 / 64 := by nlinarith
    have : y ^ 3 ≤ y * (1 / 64) := by nlinarith
    nlinarith
  rw [← hy]
  refine ⟨by linarith, ?_⟩
  have h7 : y ^ 3 ≤ (X * (101 / 100)) ^ 3 := pow_le_pow_left₀ hy0.le h6 3
  have h8 : (X * (101 / 100)) ^ 3 = X ^ 3 * (101 / 100) ^ 3 := by ring
  have h9 : 0 < X ^ 3 := by positivity
  nlinarith

theorem asin_small (hx : x.WF) (hz : x.isZero = false) (hlo : EMIN + 2 ≤ x.e) {pw : Nat} (hp : 0 < pw)
    (he : ((max (64 * pw) (64 * x.m.m.length) : ℕ) : ℤ) + 1 < -(x.e * 2 - 2)) (rm : RM) :
    ∃ v, x.smallExp false (64 * pw) rm = .ok v ∧ RoundsFmt rm (64 * pw) (Real.arcsin x.toK) v.toK ∧
      FunRounded rm (64 * pw) (Real.arcsin x.toK) v := by
  have hem := hx.emin
  have hE : EMIN = -2 ^ 31 := rfl
  have hEX : EMAX = 2 ^ 31 - 1 := rfl
  have hPM : PMAX = 2 ^ 62 - 2 ^ 31 - 1 := rfl
  obtain ⟨q, q1, q2, q3, -⟩ := hx.mag (K := ℝ) hz
  have hqe : q = x.e := by omega
  rw [hqe] at q1 q2
  obtain ⟨X, hX⟩ : ∃ X, X = |(x.toK : ℝ)| := ⟨_, rfl⟩
  rw [← hX] at q1 q2
  have hX0 : 0 < X := lt_of_lt_of_le (by positivity) q1
  obtain ⟨G, hG⟩ : ∃ G, G = max (64 * pw) (64 * x.m.m.length) := ⟨_, rfl⟩
  rw [← hG] at he
  have hX1 : X ≤ 1 / 16 := by
    refine le_trans q2.le ?_
    rw [show (1 / 16 : ℝ) = 2 ^ (-4 : ℤ) by norm_num]
    exact zpow_le_zpow_right₀ (by norm_num) (by omega)
  obtain ⟨c1, c2⟩ := arcsin_cube hX0 hX1
  obtain ⟨k, hk⟩ := x.toK_grid (G := G) (by omega)
  have hcube : X ^ 3 / 5 < 2 ^ (x.e - (G : ℤ) - 2) := by
    have h3 : X ^ 3 < ((2 : ℝ) ^ x.e) ^ 3 := pow_lt_pow_left₀ q2 hX0.le (by norm_num)
    have h4 : ((2 : ℝ) ^ x.e) ^ 3 ≤ 2 ^ (x.e - (G : ℤ)) := by
      rw [← zpow_natCast, ← zpow_mul]
      exact zpow_le_zpow_right₀ (by norm_num) (by push_cast; omega)
    rw [zpow_sub₀ (by norm_num) (x.e - (G : ℤ)) 2]
    have h5 : (0 : ℝ) < X ^ 3 := by positivity
    norm_num
    linarith
  have hsx : Real.arcsin (x.toK : ℝ) = x.toK + (corrSign x false).toK * (Real.arcsin X - X) := by
    have : corrSign x false = x.s := rfl
    rw [this, sign_arcsin, ← hX]
    have h6 := Num.toK_eq (K := ℝ) x
    rw [← hX] at h6
    rw [h6]
    ring
  obtain ⟨v, v1, v2, v3, v4, v5, v6⟩ := smallExp_rounds hx hz hlo (by omega) hp (by omega) (by omega) false rm
    (G := G) (by omega) (by omega) hk c1 (lt_of_le_of_lt c2 hcube) hsx
  have hT : 0 < Real.arcsin X := by linarith
  have hTl := (arcsin_normal (X := x.toK) (by rw [← hX]; linarith)).1
  rw [← hX] at hTl
  refine ⟨v, v1, v6, ?_⟩
  refine FunRounded.of_fmt ?_ v2 (by rw [v3]) ?_ ?_ v5 v6
  · refine le_trans ?_ (le_trans q1 hTl)
    exact zpow_le_zpow_right₀ (by norm_num) (by omega)
  · intro h
    rw [v4]
    rw [sign_arcsin, ← hX] at h
    cases hxs : x.s
    · rw [hxs] at h; simp only [Sign.toK] at h; linarith
    · rfl
  · intro h
    rw [v4]
    rw [sign_arcsin, ← hX] at h
    cases hxs : x.s
    · rfl
    · rw [hxs] at h; simp only [Sign.toK] at h; linarith

/-! ## The comparison with one -/

theorem absCmp_one (hx : x.WF) (hz : x.isZero = false) :
    (x.absCmp ONE > 0 ↔ 1 < |(x.toK : ℝ)|) ∧ (x.absCmp ONE < 0 ↔ |(x.toK : ℝ)| < 1) := by
  have h := absCmp_spec (K := ℝ) hx ONE_WF hz (by decide)
  rw [ONE_toK, abs_one] at h
  exact h

theorem lt_one_e (hx : x.WF) (hz : x.isZero = false) (h : |(x.toK : ℝ)| < 1) : x.e ≤ 0 := by
  have hE : EMIN = -2 ^ 31 := rfl
  obtain ⟨b, b1, b2, b3, -⟩ := hx.mag (K := ℝ) hz
  by_contra hc
  have : (1 : ℝ) ≤ 2 ^ (b - 1) := one_le_zpow₀ (by norm_num) (by omega)
  linarith

/-- The distance of the argument from one. -/
theorem asin_ap (hx : x.WF) (hz : x.isZero = false) (h : |(x.toK : ℝ)| < 1) :
    ∃ L : ℕ, (2 : ℝ) ^ (-(L : ℤ)) ≤ 1 - |(x.toK : ℝ)| ∧ L + 7 = 8 + (if x.e = 0 then countLeadingOnes x.m.m else 0) ∧
      L ≤ 64 * x.m.m.length + 1 := by
  have he := lt_one_e hx hz h
  have hE : EMIN = -2 ^ 31 := rfl
  by_cases h0 : x.e = 0
  · rw [if_pos h0]
    obtain ⟨c1, c2⟩ := clo_mag hx.wf
    refine ⟨countLeadingOnes x.m.m + 1, ?_, by omega, by omega⟩
    have hlt := val_lt_two_pow hx.wf
    rw [Num.abs_val, h0]
    have h1 : ((2 ^ (64 * x.m.m.length) : ℕ) : ℝ) ≤ (((2 ^ (64 * x.m.m.length) - val x.m.m) * 2 ^ (countLeadingOnes x.m.m + 1) : ℕ) : ℝ) := by
      exact_mod_cast c2
    rw [Nat.cast_mul, Nat.cast_sub hlt.le] at h1
    rw [Nat.cast_pow, Nat.cast_pow, Nat.cast_ofNat] at h1
    have h3 : (2 : ℝ) ^ (64 * x.m.m.length) * 2 ^ (-((64 * x.m.m.length : ℕ) : ℤ)) = 1 := by
      rw [← zpow_natCast, ← zpow_add₀ (by norm_num)]; simp
    have h4 : (2 : ℝ) ^ (countLeadingOnes x.m.m + 1) * 2 ^ (-((countLeadingOnes x.m.m + 1 : ℕ) : ℤ)) = 1 := by
      rw [← zpow_natCast, ← zpow_add₀ (by norm_num)]; simp
    rw [zero_sub]
    show (2 : ℝ) ^ (-((countLeadingOnes x.m.m + 1 : ℕ) : ℤ)) ≤ _
    obtain ⟨u, hu⟩ : ∃ u : ℝ, u = 2 ^ (-((64 * x.m.m.length : ℕ) : ℤ)) := ⟨_, rfl⟩
    obtain ⟨v, hv⟩ : ∃ v : ℝ, v = 2 ^ (-((countLeadingOnes x.m.m + 1 : ℕ) : ℤ)) := ⟨_, rfl⟩
    rw [← hu] at h3 ⊢
    rw [← hv] at h4 ⊢
    have hu0 : 0 < u := by rw [hu]; positivity
    have hv0 : 0 < v := by rw [hv]; positivity
    have h5 := mul_le_mul_of_nonneg_right h1 (mul_nonneg hu0.le hv0.le)
    have e1 : (2 : ℝ) ^ (64 * x.m.m.length) * (u * v) = v := by rw [← mul_assoc, h3, one_mul]
    have e2 : ((2 : ℝ) ^ (64 * x.m.m.length) - val x.m.m) * 2 ^ (countLeadingOnes x.m.m + 1) * (u * v) =
        ((2 : ℝ) ^ (64 * x.m.m.length) * u - val x.m.m * u) * (2 ^ (countLeadingOnes x.m.m + 1) * v) := by ring
    rw [e1, e2, h3, h4, mul_one] at h5
    exact h5
  · rw [if_neg h0]
    refine ⟨1, ?_, by omega, by omega⟩
    obtain ⟨b, b1, b2, b3, -⟩ := hx.mag (K := ℝ) hz
    have : (2 : ℝ) ^ b ≤ 2 ^ (-1 : ℤ) := zpow_le_zpow_right₀ (by norm_num) (by omega)
    norm_num at this ⊢
    linarith

theorem asinStep_ghost {rm : RM} {ap f w : Nat} {s s' : AsinState} {o : LoopStep}
    (h : asinStep rm ap f w s = some (o, s')) : s.2.2 ≤ s'.2.2 ∧ (s'.2.1 = s.2.1 ∨
      ∃ (d : Num) (r : Except Err Num) (v : Nat), d.atan (w + ap) rm f s.2.1 = some (r, s'.2.1, v) ∧ v ≤ s'.2.2) := by
  unfold asinStep at h
  dsimp only at h
  split at h
  · injection h with h; injection h with _ h; rw [← h]; exact ⟨le_rfl, Or.inl rfl⟩
  · split at h
    · injection h with h; injection h with _ h; rw [← h]; exact ⟨le_rfl, Or.inl rfl⟩
    · split at h
      · injection h with h; injection h with _ h; rw [← h]; exact ⟨le_rfl, Or.inl rfl⟩
      · split at h
        · injection h with h; injection h with _ h; rw [← h]; exact ⟨le_rfl, Or.inl rfl⟩
        · split at h
          · injection h with h; injection h with _ h; rw [← h]; exact ⟨le_rfl, Or.inl rfl⟩
          · split at h
            · cases h
            · rename_i hat
              injection h with h; injection h with _ h; rw [← h]
              exact ⟨le_max_left _ _, Or.inr ⟨_, _, _, hat, le_max_right _ _⟩⟩
            · rename_i hat
              injection h with h; injection h with _ h; rw [← h]
              exact ⟨le_max_left _ _, Or.inr ⟨_, _, _, hat, le_max_right _ _⟩⟩

theorem arcsin_midRange {X : ℝ} (h0 : (2 : ℝ) ^ (EMIN + 1) ≤ |X|) (h1 : |X| ≤ 1) : MidRange (Real.arcsin X) := by
  obtain ⟨n1, n2⟩ := arcsin_normal h1
  refine MidRange.of_bounds (le_trans h0 n1) (lt_of_le_of_lt n2 ?_)
  exact lt_of_lt_of_le (by norm_num : (2 : ℝ) < 2 ^ (2 : ℤ)) (zpow_le_zpow_right₀ (by norm_num) (by unfold EMAX; omega))

/-- The facts about the argument that a round uses. -/
theorem asin_args (hx : x.WF) (hz : x.isZero = false) (he : x.e ≤ 0) {n : Nat} (hn : n ≤ 2 ^ 17)
    (hs : ¬((n : ℤ) + 1 < -(x.e * 2 - 2))) :
    (x.toK : ℝ) ≠ 0 ∧ (2 : ℝ) ^ (-(x.e.natAbs : ℤ) - 1) ≤ |(x.toK : ℝ)| ∧ (2 : ℝ) ^ (EMIN + 1) ≤ |(x.toK : ℝ)| ∧
      x.e.natAbs ≤ n / 2 + 1 := by
  have hE : EMIN = -2 ^ 31 := rfl
  obtain ⟨q, q1, q2, q3, -⟩ := hx.mag (K := ℝ) hz
  have hqe : q = x.e := by omega
  rw [hqe] at q1
  refine ⟨?_, ?_, ?_, by omega⟩
  · rw [Ne, hx.toK_eq_zero, hz]; exact Bool.false_ne_true
  · refine le_trans (zpow_le_zpow_right₀ (by norm_num) (by omega)) q1
  · refine le_trans (zpow_le_zpow_right₀ (by norm_num) (by omega)) q1

theorem asin_spec (hx : x.WF) (hz : x.isZero = false) (h1 : |(x.toK : ℝ)| < 1) (hlo : EMIN + 2 ≤ x.e) {p : Nat} (hp : ValidP p)
    (rm : RM) {f : Nat} {c c' : PiCache} (hc : PiOk c) {r : Except Err Num} {w : Nat}
    (h : x.asin p rm f c = some (r, c', w)) (hw : w + 64 ≤ 2 ^ 17)
    (hpi : 7 / 10 < |(x.toK : ℝ)| → |chudPi - Real.pi| ≤ 2 ^ (-(w : ℤ) - 20)) :
    ∃ v, r = .ok v ∧ FunRounded rm (precBits p) (Real.arcsin x.toK) v := by
  have hmb : x.m.maxBitLen = 64 * x.m.m.length := by unfold Mantissa.maxBitLen; omega
  have hp0 := hp.pos
  have hlt := hp.lt
  have hE : EMIN = -2 ^ 31 := rfl
  obtain ⟨pw, hpw⟩ : ∃ pw, precBits p = 64 * pw := ⟨(p + 63) / 64, rfl⟩
  have hpw0 : 0 < pw := by unfold precBits at hpw; omega
  have he := lt_one_e hx hz h1
  have hcmp := (absCmp_one hx hz).2.2 h1
  unfold Num.asin at h
  rw [hp.roundP] at h
  dsimp only at h
  rw [hz, if_neg Bool.false_ne_true, if_neg (by omega), if_neg (by omega), hmb] at h
  rw [hpw] at h hlt ⊢
  by_cases hs : ((max (64 * pw) (64 * x.m.m.length) : ℕ) : ℤ) + 1 < -(x.e * 2 - 2)
  · rw [if_pos hs] at h
    injection h with h
    injection h with h h'
    obtain ⟨v, v1, v2, v3⟩ := asin_small hx hz hlo hpw0 hs rm
    rw [← h]
    exact ⟨v, v1, v3⟩
  · rw [if_neg hs] at h
    obtain ⟨L, L1, L2, L3⟩ := asin_ap hx hz h1
    rw [← L2] at h
    split at h
    · cases h
    · rename_i r' s' w' hl
      injection h with h
      injection h with h h'
      injection h' with h' h''
      rw [← h]
      have hge := roundLoop_ge hl
      obtain ⟨g1, g2, g3, g4⟩ := asin_args hx hz he (by omega) hs
      have hmid := arcsin_midRange g3 h1.le
      have hR := roundLoop_spec (Inv := fun w s => PiOk s.2.1 ∧ s.1.WF ∧ s.1.toK = (x.toK : ℝ) ∧
            64 * s.1.m.m.length ≤ 64 * wordLen (w + (L + 7))) (Good := fun s => s.2.2 ≤ s'.2.2) hmid (W := 2 ^ 17 - (L + 7))
          (w0 := max (64 * pw) (64 * x.m.m.length) + 64) (rm := rm) hpw0 hlt (by omega) (by
            intro w s o s1 hd hw1 hw2 hi hst hgd
            obtain ⟨i1, i2, i3, i4⟩ := hi
            obtain ⟨t, a1, a2, a3, a4, a5, a6⟩ := asinStep_spec i2 i3 g1 (by omega) L1 (by omega) g2 (f := f) (ap := L + 7) (w := w)
              le_rfl (by omega) (by omega) i4 i1 (g := s.2.2) (o := o) (s' := s1) hst (by omega)
              (fun h => le_trans (hpi h) (zpow_le_zpow_right₀ (by norm_num) (by omega)))
            rw [a1]
            refine ⟨fun w' hw' => ⟨a3, a4, a5, ?_⟩, a2⟩
            rw [a6]
            unfold wordLen
            omega) (fun w s o s1 hst hgd => le_trans (asinStep_ghost hst).1 hgd)
          (show _ ∧ _ from ⟨hc, ⟨hx.wf, hx.bits, hx.emin, hx.emax, hx.norm, hx.sized⟩, rfl, by unfold wordLen; show 64 * x.m.m.length ≤ _; omega⟩)
          (by omega) (by norm_num) (by norm_num) le_rfl hl (by omega) (by omega) le_rfl
      exact hR.2

theorem asin_keep {p : Nat} (hp : 0 < p) (hp2 : p ≤ 2 ^ 41) {rm : RM} {f : Nat} {c c' : PiCache} (hc : PiOk c) {r : Except Err Num} {w : Nat}
    (h : x.asin p rm f c = some (r, c', w)) (hw : w ≤ 2 ^ 40) : PiOk c' := by
  unfold Num.asin at h
  dsimp only at h
  split at h
  · injection h with h; injection h with _ h; injection h with h _; rw [← h]; exact hc
  · split at h
    · injection h with h; injection h with _ h; injection h with h _; rw [← h]; exact hc
    · split at h
      · split at h
        · cases h
        · rename_i hpi
          injection h with h; injection h with _ h; injection h with h _; rw [← h]; exact piForPrec_keep hp hp2 hc hpi
        · rename_i hpi
          injection h with h; injection h with _ h; injection h with h _; rw [← h]; exact piForPrec_keep hp hp2 hc hpi
      · split at h
        · injection h with h; injection h with _ h; injection h with h _; rw [← h]; exact hc
        · split at h
          · cases h
          · rename_i r' s' w' hl
            injection h with h; injection h with _ h; injection h with h h'; rw [← h]
            have := roundLoop_keep (Inv := fun s : AsinState => s.2.2 ≤ 2 ^ 40 → PiOk s.2.1) (W := w') (fun w s o s1 _ hi hst => by
              intro hg
              obtain ⟨k1, k2⟩ := asinStep_ghost hst
              rcases k2 with k2 | ⟨d, r, v, k2, k3⟩
              · rw [k2]; exact hi (by omega)
              · exact atan_keep (hi (by omega)) k2 (by omega)) (fun _ => hc) hl le_rfl
            exact this (by omega)

/-- The first round of the loop returns a number in mode `None`. -/
theorem asin_number (hx : x.WF) (hz : x.isZero = false) (h1 : |(x.toK : ℝ)| < 1) {p : Nat} (hp : ValidP p)
    {f : Nat} {c : PiCache} (hc : PiOk c) (hw : 2 * max (precBits p) (64 * x.m.m.length) + 400 ≤ 2 ^ 17)
    (hpi : 7 / 10 < |(x.toK : ℝ)| → |chudPi - Real.pi| ≤ 2 ^ (-((2 * max (precBits p) (64 * x.m.m.length) + 256 : ℕ) : ℤ) - 20)) :
    ∃ r c' w, x.asin p .none (f + 1) c = some (r, c', w) ∧ w ≤ 2 * max (precBits p) (64 * x.m.m.length) + 256 := by
  have hmb : x.m.maxBitLen = 64 * x.m.m.length := by unfold Mantissa.maxBitLen; omega
  have hp0 := hp.pos
  have hlt := hp.lt
  have hE : EMIN = -2 ^ 31 := rfl
  obtain ⟨pw, hpw⟩ : ∃ pw, precBits p = 64 * pw := ⟨(p + 63) / 64, rfl⟩
  have hpw0 : 0 < pw := by unfold precBits at hpw; omega
  have he := lt_one_e hx hz h1
  have hcmp := (absCmp_one hx hz).2.2 h1
  unfold Num.asin
  rw [hp.roundP]
  dsimp only
  rw [hz, if_neg Bool.false_ne_true, if_neg (by omega), if_neg (by omega), hmb]
  rw [hpw] at hlt hw hpi ⊢
  by_cases hs : ((max (64 * pw) (64 * x.m.m.length) : ℕ) : ℤ) + 1 < -(x.e * 2 - 2)
  · rw [if_pos hs]
    exact ⟨_, _, _, rfl, by omega⟩
  · rw [if_neg hs]
    obtain ⟨L, L1, L2, L3⟩ := asin_ap hx hz h1
    rw [← L2]
    obtain ⟨g1, g2, g3, g4⟩ := asin_args hx hz he (by omega) hs
    have hmid := arcsin_midRange g3 h1.le
    have hx' : ({ x with inexact := false } : Num).WF := ⟨hx.wf, hx.bits, hx.emin, hx.emax, hx.norm, hx.sized⟩
    obtain ⟨M, hM⟩ : ∃ M, M = max (64 * pw) (64 * x.m.m.length) := ⟨_, rfl⟩
    rw [← hM] at hw hpi hs g4 ⊢
    have hPb : precBits (M + 64 + (L + 7)) = 64 * wordLen (M + 64 + (L + 7)) := by unfold precBits wordLen; rfl
    have hPw : 64 * wordLen (M + 64 + (L + 7)) ≤ 2 * M + 64 + 8 + 63 := by unfold wordLen; omega
    have hpv : ValidP (M + 64 + (L + 7)) := ⟨by omega, by rw [hPb]; exact lt_PMAX_of_small (by omega)⟩
    obtain ⟨v, v1, v2, v3, v4, v5⟩ := setPrecision_extendN hx' (p := M + 64 + (L + 7)) (by omega) (lt_PMAX_of_small (by omega)) (by
      unfold wordLen; show 64 * x.m.m.length ≤ _; omega)
    obtain ⟨xx, t, s, d, o1, o2, o3, o4, d1, d2, d3, d4, d5⟩ := asinArg_spec v2 (X := (x.toK : ℝ)) v4 g1 (by omega) L1 (by omega) g2
      (ap := L + 7) (w := M + 64) le_rfl (by omega) (by omega)
    have dz : d.isZero = false := by
      rw [← Bool.not_eq_true, ← d1.toK_eq_zero (K := ℝ), ← abs_eq_zero]
      have : (0 : ℝ) < 2 ^ (-(x.e.natAbs : ℤ) - 2) := by positivity
      intro h
      linarith
    have de2 : d.e ≤ L + 2 := by
      obtain ⟨b, b1, b2, b3, -⟩ := d1.mag (K := ℝ) dz
      have := (zpow_le_zpow_iff_right₀ (by norm_num : (1 : ℝ) < 2)).1 (le_trans b1 d5)
      omega
    obtain ⟨r', c', w', k1, k2⟩ := atan_number (q := chudPi) (rm := .none) (f := f) d1 dz (by omega) hpv hc (by rw [hPb, d2, max_self]; omega)
      (fun _ => by rw [sub_self, abs_zero]; positivity) (Or.inl rfl)
    rw [hPb, d2, max_self] at k2
    have hst : ∃ o s', asinStep .none (L + 7) (f + 1) (M + 64) ({ x with inexact := false }, c, 0) = some (o, s') ∧ s'.2.2 ≤ 2 * M + 256 := by
      unfold asinStep
      dsimp only
      rw [v1]
      dsimp only
      rw [o1]
      dsimp only
      rw [o2]
      dsimp only
      rw [o3]
      dsimp only
      rw [o4]
      dsimp only
      rw [k1]
      cases r' with
      | ok r => exact ⟨_, _, rfl, by dsimp only; omega⟩
      | error e => exact ⟨_, _, rfl, by dsimp only; omega⟩
    obtain ⟨o, s', hst, hgh⟩ := hst
    obtain ⟨t', a1, a2, -⟩ := asinStep_spec hx' (X := (x.toK : ℝ)) rfl g1 (by omega) L1 (by omega) g2
      (ap := L + 7) (w := M + 64) le_rfl (by omega) (by omega) (by unfold wordLen; show 64 * x.m.m.length ≤ _; omega) hc hst (by omega)
      (fun h => le_trans (hpi h) (zpow_le_zpow_right₀ (by norm_num) (by omega)))
    rw [a1] at hst
    obtain ⟨r, hr⟩ := roundLoop_number (rm := .none) (ix := x.inexact) hmid hpw0 hlt (by omega) (by omega) hst a2 (Or.inl rfl) f 64
    rw [hr]
    exact ⟨_, _, _, rfl, by omega⟩

end AF
