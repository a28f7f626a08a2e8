import Verif.Lemmas.AtanStep
import Verif.Lemmas.ExpSmall
import Verif.Lemmas.Sinh
/-!
# The values of `atan`
-/

namespace AF

open Num

set_option linter.unusedSectionVars false

variable {x : Num}

theorem sign_arctan (x : Num) : Real.arctan (x.toK : ℝ) = x.s.toK * Real.arctan |(x.toK : ℝ)| := by
  have h := Num.toK_eq (K := ℝ) x
  cases hs : x.s <;> rw [hs] at h <;> simp only [Sign.toK, one_mul, neg_mul] at h ⊢
  · rw [← Real.arctan_neg, ← h]
  · rw [← h]

theorem arctan_cube {X : ℝ} (h0 : 0 < X) (h1 : X < 1) : 0 < X - Real.arctan X ∧ X - Real.arctan X ≤ X ^ 3 / 3 := by
  constructor
  · have := Real.lt_tan (Real.arctan_pos.2 h0) (Real.arctan_lt_pi_div_two X)
    rw [Real.tan_arctan] at this
    linarith
  · have h2 := atPhi_close (mul_pos h0 h0) (by nlinarith) 1
    rw [arctan_eq_phi h0.ne']
    have e : atSum (X * X) 1 = 1 := by simp [atSum, atCoef]
    rw [e] at h2
    have h3 := (abs_le.1 h2).1
    have h4 := mul_le_mul_of_nonneg_left h3 h0.le
    norm_num at h4
    have e3 : X ^ 3 = X * (X * X) := by ring
    rw [e3]
    linarith

theorem atan_small (hx : x.WF) (hz : x.isZero = false) (hlo : EMIN + 2 ≤ x.e) {pw : Nat} (hp : 0 < pw)
    (he : ((max (64 * pw) (64 * x.m.m.length) : ℕ) : ℤ) + 1 < -(x.e * 2 - 1)) (rm : RM) :
    ∃ v, x.smallExp true (64 * pw) rm = .ok v ∧ RoundsFmt rm (64 * pw) (Real.arctan x.toK) v.toK ∧
      FunRounded rm (64 * pw) (Real.arctan x.toK) v := by
  have hem := hx.emin
  have hE : EMIN = -2 ^ 31 := rfl
  have hEX : EMAX = 2 ^ 31 - 1 := rfl
  have hPM : PMAX = 2 ^ 62 - 2 ^ 31 - 1 := rfl
  obtain ⟨q, q1, q2, q3, -⟩ := hx.mag (K := ℝ) hz
  have hqe : q = x.e := by omega
  rw [hqe] at q1 q2
  obtain ⟨X, hX⟩ : ∃ X, X = |(x.toK : ℝ)| := ⟨_, rfl⟩
  rw [← hX] at q1 q2
  have hX0 : 0 < X := lt_of_lt_of_le (by positivity) q1
  obtain ⟨G, hG⟩ : ∃ G, G = max (64 * pw) (64 * x.m.m.length) := ⟨_, rfl⟩
  rw [← hG] at he
  have hX1 : X ≤ 1 / 4 := by
    refine le_trans q2.le ?_
    rw [show (1 / 4 : ℝ) = 2 ^ (-2 : ℤ) by norm_num]
    exact zpow_le_zpow_right₀ (by norm_num) (by omega)
  obtain ⟨c1, c2⟩ := arctan_cube hX0 (by linarith)
  obtain ⟨k, hk⟩ := x.toK_grid (G := G) (by omega)
  have hcube : X ^ 3 / 3 < 2 ^ (x.e - (G : ℤ) - 2) := by
    have h3 : X ^ 3 < ((2 : ℝ) ^ x.e) ^ 3 := pow_lt_pow_left₀ q2 hX0.le (by norm_num)
    have h4 : ((2 : ℝ) ^ x.e) ^ 3 ≤ 2 ^ (x.e - (G : ℤ) - 1) := by
      rw [← zpow_natCast, ← zpow_mul]
      exact zpow_le_zpow_right₀ (by norm_num) (by push_cast; omega)
    rw [show x.e - (G : ℤ) - 2 = x.e - (G : ℤ) - 1 - 1 by ring, zpow_sub₀ (by norm_num) _ 1, zpow_one]
    have h5 : (0 : ℝ) < X ^ 3 := by positivity
    linarith
  have hsx : Real.arctan (x.toK : ℝ) = x.toK + (corrSign x true).toK * (X - Real.arctan X) := by
    have : corrSign x true = x.s.invert := rfl
    rw [this, sign_arctan, ← hX]
    have h6 := Num.toK_eq (K := ℝ) x
    rw [← hX] at h6
    rw [h6]
    cases x.s <;> simp only [Sign.invert, Sign.toK] <;> ring
  obtain ⟨v, v1, v2, v3, v4, v5, v6⟩ := smallExp_rounds hx hz hlo (by omega) hp (by omega) (by omega) true rm
    (G := G) (by omega) (by omega) hk c1 (lt_of_le_of_lt c2 hcube) hsx
  have hT : 0 < Real.arctan X := Real.arctan_pos.2 hX0
  have hTl : |(x.toK : ℝ)| / 2 ≤ |Real.arctan (x.toK : ℝ)| := abs_arctan_half (by rw [← hX]; linarith)
  rw [← hX] at hTl
  refine ⟨v, v1, v6, ?_⟩
  refine FunRounded.of_fmt ?_ v2 (by rw [v3]) ?_ ?_ v5 v6
  · refine le_trans ?_ hTl
    rw [le_div_iff₀ (by norm_num), ← zpow_add_one₀ (by norm_num)]
    refine le_trans ?_ q1
    exact zpow_le_zpow_right₀ (by norm_num) (by omega)
  · intro h
    rw [v4]
    rw [sign_arctan, ← hX] at h
    cases hxs : x.s
    · rw [hxs] at h; simp only [Sign.toK] at h; linarith
    · rfl
  · intro h
    rw [v4]
    rw [sign_arctan, ← hX] at h
    cases hxs : x.s
    · rfl
    · rw [hxs] at h; simp only [Sign.toK] at h; linarith

/-- The facts about the argument that a round uses. -/
theorem atan_args (hx : x.WF) (hz : x.isZero = false) {n : Nat} (hn : n ≤ 2 ^ 17)
    (hs : ¬((n : ℤ) + 1 < -(x.e * 2 - 1))) (hhi : x.e ≤ 689999990) {q : ℝ} (hq : 0 < x.e → |chudPi - q| ≤ 1 / 1000) :
    -690000000 ≤ x.e ∧ MidRange (atanBy q x.toK) := by
  have hE : EMIN = -2 ^ 31 := rfl
  obtain ⟨b, b1, b2, b3, -⟩ := hx.mag (K := ℝ) hz
  have hbe : b = x.e := by omega
  rw [hbe] at b1 b2
  refine ⟨by omega, ?_⟩
  have hcp := chudPi_small
  by_cases hxe : 0 < x.e
  · have hX1 : 1 ≤ |(x.toK : ℝ)| := le_trans (by rw [show (1 : ℝ) = 2 ^ (0 : ℤ) by norm_num]; exact zpow_le_zpow_right₀ (by norm_num) (by omega)) b1
    have hq4 := abs_le.1 (hq hxe)
    obtain ⟨Y1, Y2⟩ := atanBy_bounds (q := q) (by linarith [hcp.1]) (by linarith [hcp.2]) hX1
    apply MidRange.of_bounds
    · refine le_trans ?_ Y1
      refine le_trans (zpow_le_zpow_right₀ (n := -1) (by norm_num) (by omega)) (by norm_num)
    · refine lt_of_le_of_lt Y2 ?_
      exact lt_of_lt_of_le (by norm_num : (2 : ℝ) < 2 ^ (2 : ℤ)) (zpow_le_zpow_right₀ (by norm_num) (by unfold EMAX; omega))
  · have hX1 : |(x.toK : ℝ)| < 1 := lt_of_lt_of_le b2 (zpow_le_one_of_nonpos₀ (by norm_num) (by omega))
    unfold atanBy
    rw [if_pos hX1]
    apply MidRange.of_bounds
    · refine le_trans ?_ (abs_arctan_half hX1.le)
      rw [le_div_iff₀ (by norm_num), ← zpow_add_one₀ (by norm_num)]
      exact le_trans (zpow_le_zpow_right₀ (by norm_num) (by omega)) b1
    · refine lt_of_le_of_lt (abs_arctan_le _) (lt_of_lt_of_le hX1 ?_)
      rw [show (1 : ℝ) = 2 ^ (0 : ℤ) by norm_num]
      exact zpow_le_zpow_right₀ (by norm_num) (by unfold EMAX; omega)

theorem tiny_eps (w : Nat) : (2 : ℝ) ^ (-(w : ℤ) - 20) ≤ 1 / 1000 := by
  refine le_trans (zpow_le_zpow_right₀ (n := -10) (by norm_num) (by omega)) (by norm_num)

theorem atan_spec (hx : x.WF) (hz : x.isZero = false) (hlo : EMIN + 2 ≤ x.e) (hhi : x.e ≤ 689999990) {p : Nat} (hp : ValidP p)
    (rm : RM) {f : Nat} {c c' : PiCache} (hc : PiOk c) {r : Except Err Num} {w : Nat}
    (h : x.atan p rm f c = some (r, c', w)) (hw : w + 64 ≤ 2 ^ 17) {q : ℝ} (hq : 0 < x.e → |chudPi - q| ≤ 2 ^ (-(w : ℤ) - 20)) :
    ∃ v, r = .ok v ∧ FunRounded rm (precBits p) (atanBy q x.toK) v := by
  have hmb : x.m.maxBitLen = 64 * x.m.m.length := by unfold Mantissa.maxBitLen; omega
  have hp0 := hp.pos
  have hlt := hp.lt
  have hE : EMIN = -2 ^ 31 := rfl
  obtain ⟨pw, hpw⟩ : ∃ pw, precBits p = 64 * pw := ⟨(p + 63) / 64, rfl⟩
  have hpw0 : 0 < pw := by unfold precBits at hpw; omega
  unfold Num.atan at h
  rw [hp.roundP] at h
  dsimp only at h
  rw [hz, if_neg Bool.false_ne_true, hmb] at h
  rw [hpw] at h hlt ⊢
  by_cases hs : ((max (64 * pw) (64 * x.m.m.length) : ℕ) : ℤ) + 1 < -(x.e * 2 - 1)
  · rw [if_pos hs] at h
    injection h with h
    injection h with h h'
    obtain ⟨v, v1, v2, v3⟩ := atan_small hx hz hlo hpw0 hs rm
    rw [← h]
    refine ⟨v, v1, ?_⟩
    obtain ⟨b, b1, b2, b3, -⟩ := hx.mag (K := ℝ) hz
    have hX1 : |(x.toK : ℝ)| < 1 := lt_of_lt_of_le b2 (zpow_le_one_of_nonpos₀ (by norm_num) (by omega))
    unfold atanBy
    rw [if_pos hX1]
    exact v3
  · rw [if_neg hs] at h
    have hge := roundLoop_ge h
    obtain ⟨g1, hmid⟩ := atan_args hx hz (by omega) hs hhi (fun h => le_trans (hq h) (tiny_eps w))
    have hR := roundLoop_spec (Inv := fun w s => PiOk s) (Good := fun _ => True) hmid (W := w)
          (w0 := max (64 * pw) (64 * x.m.m.length) + 64) (rm := rm) hpw0 hlt (by omega) (by
            intro w1 s o s' hd hw1 hw2 hi hst _
            obtain ⟨t, s1, a1, a2, a3⟩ := atanStep_spec hx hz hd (by omega) (by omega) (by omega) g1 hhi (q := q)
              (fun h => le_trans (hq h) (zpow_le_zpow_right₀ (by norm_num) (by omega))) hi
            rw [a1] at hst
            injection hst with hst
            injection hst with hst1 hst2
            rw [← hst1, ← hst2]
            exact ⟨fun w' hw' => a3, a2⟩) (fun _ _ _ _ _ _ => trivial) hc
          (by omega) (by norm_num) (by norm_num) le_rfl h le_rfl (by omega) trivial
    exact hR.2

theorem atan_number (hx : x.WF) (hz : x.isZero = false) (hhi : x.e ≤ 689999990) {p : Nat} (hp : ValidP p)
    {rm : RM} {f : Nat} {c : PiCache} (hc : PiOk c) {q : ℝ}
    (hw : max (precBits p) (64 * x.m.m.length) + 128 ≤ 2 ^ 17)
    (hq : 0 < x.e → |chudPi - q| ≤ 2 ^ (-((max (precBits p) (64 * x.m.m.length) + 64 : ℕ) : ℤ) - 20))
    (hr : rm = .none ∨ rm.directed = true ∧ ¬ NearGrid (precBits p) 63 |atanBy q x.toK|) :
    ∃ r c' w, x.atan p rm (f + 1) c = some (r, c', w) ∧ w ≤ max (precBits p) (64 * x.m.m.length) + 64 := by
  have hmb : x.m.maxBitLen = 64 * x.m.m.length := by unfold Mantissa.maxBitLen; omega
  have hp0 := hp.pos
  have hlt := hp.lt
  obtain ⟨pw, hpw⟩ : ∃ pw, precBits p = 64 * pw := ⟨(p + 63) / 64, rfl⟩
  have hpw0 : 0 < pw := by unfold precBits at hpw; omega
  unfold Num.atan
  rw [hp.roundP]
  dsimp only
  rw [hz, if_neg Bool.false_ne_true, hmb]
  rw [hpw] at hlt hw hr hq ⊢
  by_cases hs : ((max (64 * pw) (64 * x.m.m.length) : ℕ) : ℤ) + 1 < -(x.e * 2 - 1)
  · rw [if_pos hs]
    exact ⟨_, _, _, rfl, by omega⟩
  · rw [if_neg hs]
    obtain ⟨g1, hmid⟩ := atan_args hx hz (by omega) hs hhi (fun h => le_trans (hq h) (tiny_eps _))
    obtain ⟨t, s1, a1, a2, a3⟩ := atanStep_spec hx hz (w := max (64 * pw) (64 * x.m.m.length) + 64) (by omega) (by omega) (by omega) (by omega) g1 hhi hq hc
    obtain ⟨r, hr⟩ := roundLoop_number (ix := x.inexact) hmid hpw0 hlt (by omega) (by omega) a1 a2 hr f 64
    rw [hr]
    exact ⟨_, _, _, rfl, le_rfl⟩

/-! ## The cache -/

theorem roundLoop_keep {σ : Type} {step : Nat → σ → Option (LoopStep × σ)} {p : Nat} {rm : RM} {ix : Bool} {Inv : σ → Prop} {W : Nat}
    (hstep : ∀ w s o s', w ≤ W → Inv s → step w s = some (o, s') → Inv s') :
    ∀ {f pInc w : Nat} {s s' : σ} {r : Except Err Num} {w' : Nat}, Inv s →
    roundLoop step p rm ix f pInc w s = some (r, s', w') → w' ≤ W → Inv s' := by
  intro f
  induction f with
  | zero => intro pInc w s s' r w' _ h; simp [roundLoop] at h
  | succ f ih =>
    intro pInc w s s' r w' hi h hW
    have hge := roundLoop_ge h
    rw [roundLoop] at h
    split at h
    · simp at h
    · rename_i hst
      injection h with h; injection h with _ h; injection h with h _
      rw [← h]; exact hstep _ _ _ _ (by omega) hi hst
    · rename_i hst
      have hi' := hstep _ _ _ _ (by omega) hi hst
      split at h
      · injection h with h; injection h with _ h; injection h with h _
        rw [← h]; exact hi'
      · injection h with h; injection h with _ h; injection h with h _
        rw [← h]; exact hi'
      · exact ih hi' h hW

theorem piForPrec_keep {p : Nat} (hp : 0 < p) (hp2 : p ≤ 2 ^ 41) {rm : RM} {c c' : PiCache} (hc : PiOk c) {r : Except Err Num}
    (h : piForPrec (roundP p) rm c = some (r, c')) : PiOk c' := by
  have hPM : PMAX = 2 ^ 62 - 2 ^ 31 - 1 := rfl
  have hrp : roundP p = 64 * ((p + 63) / 64) := by unfold roundP USIZE_MAX; omega
  obtain ⟨r', c'', h1, h2, -⟩ := piForPrec_spec (pw := (p + 63) / 64) (by omega) (by omega) (by omega) rm hc
  rw [hrp, h1] at h
  injection h with h
  injection h with _ h
  rw [← h]; exact h2

theorem atanStep_keep {w : Nat} (hw : w ≤ 2 ^ 40) {c c' : PiCache} (hc : PiOk c) {o : LoopStep}
    (h : x.atanStep w c = some (o, c')) : PiOk c' := by
  have hw5 : w + 5 ≤ 2 ^ 41 := by omega
  unfold Num.atanStep at h
  dsimp only at h
  split at h
  · injection h with h; injection h with _ h; rw [← h]; exact hc
  · split at h
    · split at h
      · injection h with h; injection h with _ h; rw [← h]; exact hc
      · split at h
        · injection h with h; injection h with _ h; rw [← h]; exact hc
        · split at h
          · cases h
          · rename_i hpi
            injection h with h; injection h with _ h; rw [← h]; exact piForPrec_keep (by omega) hw5 hc hpi
          · rename_i hpi
            have := piForPrec_keep (by omega) hw5 hc hpi
            split at h
            · injection h with h; injection h with _ h; rw [← h]; exact this
            · injection h with h; injection h with _ h; rw [← h]; exact this
    · split at h
      · injection h with h; injection h with _ h; rw [← h]; exact hc
      · injection h with h; injection h with _ h; rw [← h]; exact hc

theorem atan_keep {p : Nat} {rm : RM} {f : Nat} {c c' : PiCache} (hc : PiOk c) {r : Except Err Num} {w : Nat}
    (h : x.atan p rm f c = some (r, c', w)) (hw : w ≤ 2 ^ 40) : PiOk c' := by
  unfold Num.atan at h
  dsimp only at h
  split at h
  · injection h with h; injection h with _ h; injection h with h _; rw [← h]; exact hc
  · split at h
    · injection h with h; injection h with _ h; injection h with h _; rw [← h]; exact hc
    · exact roundLoop_keep (W := 2 ^ 40) (fun w s o s' hw hi hs => atanStep_keep hw hi hs) hc h hw

end AF
