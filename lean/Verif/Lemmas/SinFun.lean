import Verif.Lemmas.TrigStep
import Verif.Lemmas.AsinFun
/-!
# The values of `sin`
-/

namespace AF

open Num

variable {x : Num}

theorem sign_sin (x : Num) : Real.sin (x.toK : ℝ) = x.s.toK * Real.sin |(x.toK : ℝ)| := by
  have h := Num.toK_eq (K := ℝ) x
  cases hs : x.s <;> rw [hs] at h <;> simp only [Sign.toK, one_mul, neg_mul] at h ⊢
  · rw [← Real.sin_neg, ← h]
  · rw [← h]

theorem sin_lower3 {z : ℝ} (hz : |z| ≤ 3) : |z| / 64 ≤ |Real.sin z| := by
  by_cases h : |z| ≤ 21 / 10
  · exact le_trans (by have := abs_nonneg z; linarith) (sin_lower h)
  push Not at h
  have hp := Real.pi_gt_d2
  have hp' := Real.pi_lt_d2
  rw [Real.abs_sin_eq_sin_abs_of_abs_le_pi (by linarith), ← Real.sin_pi_sub]
  have h1 := Real.mul_le_sin (x := Real.pi - |z|) (by linarith) (by linarith)
  have e : 1 / 2 ≤ 2 / Real.pi := by
    rw [div_le_div_iff₀ (by norm_num) Real.pi_pos]; linarith
  have h2 := mul_le_mul_of_nonneg_right e (by linarith : 0 ≤ Real.pi - |z|)
  linarith

theorem sin_small (hx : x.WF) (hz : x.isZero = false) (hlo : EMIN + 2 ≤ x.e) {pw : Nat} (hp : 0 < pw)
    (he : ((max (64 * pw) (64 * x.m.m.length) : ℕ) : ℤ) + 1 < -(x.e * 2 - 2)) (rm : RM) :
    ∃ v, x.smallExp true (64 * pw) rm = .ok v ∧ RoundsFmt rm (64 * pw) (Real.sin x.toK) v.toK ∧
      FunRounded rm (64 * pw) (Real.sin x.toK) v := by
  have hem := hx.emin
  have hE : EMIN = -2 ^ 31 := rfl
  have hEX : EMAX = 2 ^ 31 - 1 := rfl
  have hPM : PMAX = 2 ^ 62 - 2 ^ 31 - 1 := rfl
  obtain ⟨q, q1, q2, q3, -⟩ := hx.mag (K := ℝ) hz
  have hqe : q = x.e := by omega
  rw [hqe] at q1 q2
  obtain ⟨X, hX⟩ : ∃ X, X = |(x.toK : ℝ)| := ⟨_, rfl⟩
  rw [← hX] at q1 q2
  have hX0 : 0 < X := lt_of_lt_of_le (by positivity) q1
  obtain ⟨G, hG⟩ : ∃ G, G = max (64 * pw) (64 * x.m.m.length) := ⟨_, rfl⟩
  rw [← hG] at he
  have hX1 : X ≤ 1 / 4 := by
    refine le_trans q2.le ?_
    rw [show (1 / 4 : ℝ) = 2 ^ (-2 : ℤ) by norm_num]
    exact zpow_le_zpow_right₀ (by norm_num) (by omega)
  have c1 := Real.sin_lt hX0
  have c2 := Real.sin_gt_sub_cube hX0
  obtain ⟨k, hk⟩ := x.toK_grid (G := G) (by omega)
  have hX3 : (0 : ℝ) < X ^ 3 := by positivity
  have hcube : X ^ 3 / 6 < 2 ^ (x.e - (G : ℤ) - 2) := by
    have h3 : X ^ 3 < ((2 : ℝ) ^ x.e) ^ 3 := pow_lt_pow_left₀ q2 hX0.le (by norm_num)
    have h4 : ((2 : ℝ) ^ x.e) ^ 3 ≤ 2 ^ (x.e - (G : ℤ)) := by
      rw [← zpow_natCast, ← zpow_mul]
      exact zpow_le_zpow_right₀ (by norm_num) (by push_cast; omega)
    rw [zpow_sub₀ (by norm_num) (x.e - (G : ℤ)) 2]
    norm_num
    linarith
  have hsx : Real.sin (x.toK : ℝ) = x.toK + (corrSign x true).toK * (X - Real.sin X) := by
    have : corrSign x true = x.s.invert := rfl
    rw [this, sign_sin, ← hX]
    have h6 := Num.toK_eq (K := ℝ) x
    rw [← hX] at h6
    rw [h6]
    cases x.s <;> simp only [Sign.invert, Sign.toK] <;> ring
  obtain ⟨v, v1, v2, v3, v4, v5, v6⟩ := smallExp_rounds hx hz hlo (by omega) hp (by omega) (by omega) true rm
    (G := G) (by omega) (by omega) hk (d := X - Real.sin X) (by linarith) (by linarith) hsx
  have hT : 0 < Real.sin X := by
    have : X ^ 3 ≤ X := by
      have : X ^ 3 = X * (X * X) := by ring
      rw [this]
      nlinarith
    linarith
  have hTl : |(x.toK : ℝ)| / 2 ≤ |Real.sin (x.toK : ℝ)| := by
    rw [sign_sin, ← hX, abs_mul, abs_of_pos hT]
    have e1 : |(x.s.toK : ℝ)| = 1 := by cases x.s <;> simp [Sign.toK]
    rw [e1, one_mul]
    have : X ^ 3 = X * (X * X) := by ring
    nlinarith
  rw [← hX] at hTl
  refine ⟨v, v1, v6, ?_⟩
  refine FunRounded.of_fmt ?_ v2 (by rw [v3]) ?_ ?_ v5 v6
  · refine le_trans ?_ hTl
    rw [le_div_iff₀ (by norm_num), ← zpow_add_one₀ (by norm_num)]
    refine le_trans ?_ q1
    exact zpow_le_zpow_right₀ (by norm_num) (by omega)
  · intro h
    rw [v4]
    rw [sign_sin, ← hX] at h
    cases hxs : x.s
    · rw [hxs] at h; simp only [Sign.toK] at h; linarith
    · rfl
  · intro h
    rw [v4]
    rw [sign_sin, ← hX] at h
    cases hxs : x.s
    · rfl
    · rw [hxs] at h; simp only [Sign.toK] at h; linarith

/-- The arguments covered: up to three, or not too close to a multiple of pi. -/
def SinFar (X : ℝ) : Prop := |X| ≤ 3 ∨ (2 : ℝ) ^ (-65 : ℤ) ≤ |Real.sin X|

theorem abs_sin_le (z : ℝ) : |Real.sin z| ≤ |z| := Real.abs_sin_le_abs

theorem sin_sub_two_pi (X : ℝ) (k : ℤ) : Real.sin (X - k * (2 * Real.pi)) = Real.sin X := Real.sin_sub_int_mul_two_pi X k

theorem sin_dist (X Y : ℝ) (k : ℤ) : |Real.sin Y - Real.sin X| ≤ |X - (Y + k * (2 * Real.pi))| := by
  have h := sin_sub_le Y (X - k * (2 * Real.pi))
  rw [sin_sub_two_pi] at h
  refine le_trans h (le_of_eq ?_)
  rw [abs_sub_comm]
  congr 1
  ring

/-- A round of the loop. -/
theorem sinStep_spec (hx : x.WF) (hz : x.isZero = false) {w : Nat} (hd : 64 ∣ w) (hw : 128 ≤ w) (hl : 64 * x.m.m.length ≤ w)
    (he : -(w : ℤ) ≤ x.e) (hf : SinFar x.toK) {f ap : Nat} {c : PiCache} {s' : TrigState} {o : LoopStep} (hap : 67 ≤ ap) (hc : PiOk c)
    (h : trigStep 0 sinSeries x f w (ap, c) = some (o, s')) (hb : w + s'.1 + x.e.toNat + 192 ≤ 2 ^ 15)
    (hpi : 2 < x.e → |chudPi - Real.pi| ≤ 2 ^ (-((w + s'.1 : ℕ) : ℤ) - 64 - x.e)) :
    PiOk s'.2 ∧ 67 ≤ s'.1 ∧ ∃ t, o = .tst t ∧ TestOk w (Real.sin x.toK) t := by
  have hE : EMIN = -2 ^ 31 := rfl
  have hge := trigStep_ge h
  dsimp only at hge
  obtain ⟨X, hX⟩ : ∃ X : ℝ, X = x.toK := ⟨_, rfl⟩
  have hXl : (2 : ℝ) ^ (-(w : ℤ) - 1) ≤ |X| := by
    rw [hX]
    exact le_trans (zpow_le_zpow_right₀ (by norm_num) (by omega)) (hx.mag_normal hz (by omega)).1
  have hX0 : 0 < |X| := lt_of_lt_of_le (by positivity) hXl
  have hbig : 2 < x.e → (2 : ℝ) ^ (-65 : ℤ) ≤ |Real.sin X| := by
    intro h2
    rw [← hX] at hf
    rcases hf with hf | hf
    · exfalso
      have := (hx.mag_normal hz (by omega)).1
      rw [← hX] at this
      have h4 : (2 : ℝ) ^ (2 : ℤ) ≤ 2 ^ (x.e - 1) := zpow_le_zpow_right₀ (by norm_num) (by omega)
      norm_num at h4
      linarith
    · exact hf
  obtain ⟨g1, y, y1, y2, y3, y4, y5, ⟨k, y6⟩, y7, y8⟩ := trigStep_spec hx hz (by omega) (by omega) hl (by
    intro h2 k
    have h3 := hbig h2
    rw [← sin_sub_two_pi X k] at h3
    rw [← hX]
    refine lt_of_lt_of_le (lt_of_lt_of_le ?_ h3) (abs_sin_le _)
    rw [show (4 : ℝ) = 2 ^ (2 : ℤ) by norm_num, ← zpow_add₀ (by norm_num)]
    exact zpow_lt_zpow_right₀ (by norm_num) (by push_cast; omega)) (by omega) hc h hb hpi
  refine ⟨g1, by omega, ?_⟩
  rw [← hX] at y6 y7 hf ⊢
  -- the precision
  obtain ⟨P, hP⟩ : ∃ P, P = 64 * y.m.m.length := ⟨_, rfl⟩
  have hw128 : w + 128 ≤ 64 * wordLen (w + s'.1) := by
    unfold wordLen
    omega
  have hPw : w + 128 ≤ P := by omega
  obtain ⟨ε, hε⟩ : ∃ ε : ℝ, ε = 2 ^ (-(w : ℤ) - 128) := ⟨_, rfl⟩
  have hε0 : 0 < ε := by rw [hε]; positivity
  have hεw : ε = 2 ^ (-(w : ℤ)) * (1 / 2 ^ 128) := by
    rw [hε, zpow_sub₀ (by norm_num)]; norm_num
    ring
  obtain ⟨η, hη⟩ : ∃ η : ℝ, η = 2 ^ (-(w : ℤ)) := ⟨_, rfl⟩
  rw [← hη] at hεw
  have hη0 : 0 < η := by rw [hη]; positivity
  have hηe : η = ε * 2 ^ 128 := by rw [hεw]; ring
  have hη1 : ε * 2 ^ 128 ≤ 1 / 2 ^ 128 := by
    rw [← hηe, hη]
    refine le_trans (zpow_le_zpow_right₀ (n := -128) (by norm_num) (by omega)) (le_of_eq ?_)
    norm_num
  have y6' : |X - (y.toK + k * (2 * Real.pi))| ≤ 4 * ε := by
    refine le_trans y6 (mul_le_mul_of_nonneg_left ?_ (by norm_num))
    rw [hε]
    exact zpow_le_zpow_right₀ (by norm_num) (by push_cast; omega)
  obtain ⟨δ, hδ⟩ : ∃ δ : ℝ, δ = 2 ^ (1 - (P : ℤ)) := ⟨_, rfl⟩
  have hδε : δ ≤ 2 * ε := by
    rw [hδ, hε, show (2 : ℝ) * 2 ^ (-(w : ℤ) - 128) = 2 ^ (-(w : ℤ) - 128 + 1) by rw [zpow_add_one₀ (by norm_num)]; ring]
    exact zpow_le_zpow_right₀ (by norm_num) (by omega)
  have hδ0 : 0 < δ := by rw [hδ]; positivity
  have hdk : DOk δ := ⟨hδ0.le, by
    rw [hδ]
    refine le_trans (zpow_le_zpow_right₀ (n := -100) (by norm_num) (by omega)) (le_of_eq ?_)
    norm_num⟩
  have hpk : PrecOk δ P P := ⟨by omega, by rw [hP]; exact roundP_mul (by omega), lt_PMAX_of_small (by omega), by rw [hδ]⟩
  -- the difference between the sines
  have hsd : |Real.sin y.toK - Real.sin X| ≤ 4 * ε := le_trans (sin_dist X y.toK k) y6'
  have hyl : (2 : ℝ) ^ (-(P : ℤ)) ≤ |(y.toK : ℝ)| := by
    by_cases h2 : 2 < x.e
    · have h3 := hbig h2
      have h4 : |Real.sin X| ≤ |Real.sin y.toK| + 4 * ε := by
        have := abs_sub_abs_le_abs_sub (Real.sin X) (Real.sin y.toK)
        rw [abs_sub_comm] at this
        linarith
      have h5 := abs_sin_le (y.toK : ℝ)
      have h6 : (2 : ℝ) ^ (-(P : ℤ)) ≤ ε := by
        rw [hε]; exact zpow_le_zpow_right₀ (by norm_num) (by omega)
      have h7 : (2 : ℝ) ^ (-65 : ℤ) = 1 / 2 ^ 65 := by norm_num
      rw [h7] at h3
      have h8 : ε ≤ 1 / 2 ^ 128 := by
        have : ε ≤ ε * 2 ^ 128 := le_mul_of_one_le_right hε0.le (by norm_num)
        linarith
      have h9 : (1 : ℝ) / 2 ^ 65 ≥ 5 * (1 / 2 ^ 128) := by norm_num
      linarith
    · rw [(y7 (by omega)).1]
      exact le_trans (zpow_le_zpow_right₀ (by norm_num) (by omega)) hXl
  obtain ⟨v, P', v1, v2, v3⟩ := sinSeries_spec hdk hpk (by omega) (by omega) y1 hP.symm y5 hyl
  refine ⟨v, by rw [y8, v1], ?_⟩
  have hv := v2.err
  have hvl := v2.len
  have h58 : ((2 ^ 58 : ℕ) : ℝ) = 2 ^ 58 := by norm_num
  rw [h58] at hv
  have hv' : |(v.toK : ℝ) - Real.sin y.toK| ≤ 2 ^ 59 * ε * |(y.toK : ℝ)| := by
    refine le_trans hv (mul_le_mul_of_nonneg_right ?_ (abs_nonneg _))
    calc (2 : ℝ) ^ 58 * δ ≤ 2 ^ 58 * (2 * ε) := mul_le_mul_of_nonneg_left hδε (by positivity)
      _ = 2 ^ 59 * ε := by ring
  rcases hf with hf | hf
  · -- up to three
    have h2 : x.e ≤ 2 := by
      by_contra hc
      have := (hx.mag_normal hz (by omega)).1
      rw [← hX] at this
      have h4 : (2 : ℝ) ^ (2 : ℤ) ≤ 2 ^ (x.e - 1) := zpow_le_zpow_right₀ (by norm_num) (by omega)
      norm_num at h4
      linarith
    rw [(y7 h2).1] at hv'
    have hs := sin_lower3 hf
    refine TestOk.of_rel' v2.wf v2.ix (by omega) (abs_pos.1 (by linarith)) ?_ hv'
    rw [← hη, hηe]
    have : |X| / 64 * (ε * 2 ^ 128 * (15 / 16)) ≤ |Real.sin X| * (ε * 2 ^ 128 * (15 / 16)) :=
      mul_le_mul_of_nonneg_right hs (by positivity)
    refine le_trans ?_ this
    have e1 : |X| / 64 * (ε * 2 ^ 128 * (15 / 16)) = (ε * |X|) * (2 ^ 128 * (15 / 16) / 64) := by ring
    have e2 : 2 ^ 59 * ε * |X| = (ε * |X|) * 2 ^ 59 := by ring
    rw [e1, e2]
    exact mul_le_mul_of_nonneg_left (by norm_num) (by positivity)
  · have h7 : (2 : ℝ) ^ (-65 : ℤ) = 1 / 2 ^ 65 := by norm_num
    rw [h7] at hf
    have hs0 : 0 < |Real.sin X| := lt_of_lt_of_le (by positivity) hf
    refine TestOk.of_rel' v2.wf v2.ix (by omega) (abs_pos.1 hs0) (δ := 2 ^ 59 * ε * (63 / 10) + 4 * ε) ?_ ?_
    · rw [← hη, hηe]
      have : 1 / 2 ^ 65 * (ε * 2 ^ 128 * (15 / 16)) ≤ |Real.sin X| * (ε * 2 ^ 128 * (15 / 16)) :=
        mul_le_mul_of_nonneg_right hf (by positivity)
      refine le_trans ?_ this
      have e1 : 1 / 2 ^ 65 * (ε * 2 ^ 128 * (15 / 16)) = ε * (1 / 2 ^ 65 * 2 ^ 128 * (15 / 16)) := by ring
      have e2 : 2 ^ 59 * ε * (63 / 10) + 4 * ε = ε * (2 ^ 59 * (63 / 10) + 4) := by ring
      rw [e1, e2]
      exact mul_le_mul_of_nonneg_left (by norm_num) hε0.le
    · have e : (v.toK : ℝ) - Real.sin X = (v.toK - Real.sin y.toK) + (Real.sin y.toK - Real.sin X) := by ring
      rw [e]
      refine le_trans (abs_add_le _ _) (add_le_add (le_trans hv' ?_) hsd)
      exact mul_le_mul_of_nonneg_left y5 (by positivity)

theorem sin_midRange {X : ℝ} (h0 : (2 : ℝ) ^ (EMIN + 10) ≤ |X|) (hf : SinFar X) : MidRange (Real.sin X) := by
  have hE : EMIN = -2 ^ 31 := rfl
  refine MidRange.of_bounds ?_ (lt_of_le_of_lt (Real.abs_sin_le_one X) (one_lt_zpow₀ (by norm_num) (by unfold EMAX; omega)))
  rcases hf with hf | hf
  · refine le_trans ?_ (sin_lower3 hf)
    rw [le_div_iff₀ (by norm_num), show (64 : ℝ) = 2 ^ (6 : ℤ) by norm_num, ← zpow_add₀ (by norm_num)]
    exact le_trans (zpow_le_zpow_right₀ (by norm_num) (by omega)) h0
  · exact le_trans (zpow_le_zpow_right₀ (by norm_num) (by omega)) hf

theorem sin_spec (hx : x.WF) (hz : x.isZero = false) (hlo : EMIN + 2 ≤ x.e) (hf : SinFar x.toK) {p : Nat} (hp : ValidP p)
    (rm : RM) {f : Nat} {c c' : PiCache} (hc : PiOk c) {r : Except Err Num} {w : Nat}
    (h : x.sin p rm f c = some (r, c', w)) (hw : w + x.e.toNat + 192 ≤ 2 ^ 15)
    (hpi : 2 < x.e → |chudPi - Real.pi| ≤ 2 ^ (-(w : ℤ) - 64 - x.e)) :
    PiOk c' ∧ ∃ v, r = .ok v ∧ FunRounded rm (precBits p) (Real.sin x.toK) v := by
  have hmb : x.m.maxBitLen = 64 * x.m.m.length := by unfold Mantissa.maxBitLen; omega
  have hp0 := hp.pos
  have hlt := hp.lt
  have hE : EMIN = -2 ^ 31 := rfl
  obtain ⟨pw, hpw⟩ : ∃ pw, precBits p = 64 * pw := ⟨(p + 63) / 64, rfl⟩
  have hpw0 : 0 < pw := by unfold precBits at hpw; omega
  unfold Num.sin at h
  rw [hp.roundP] at h
  dsimp only at h
  rw [hz, if_neg Bool.false_ne_true, hmb] at h
  rw [hpw] at h hlt ⊢
  by_cases hs : ((max (64 * pw) (64 * x.m.m.length) : ℕ) : ℤ) + 1 < -(x.e * 2 - 2)
  · rw [if_pos hs] at h
    injection h with h
    injection h with h h'
    injection h' with h' _
    obtain ⟨v, v1, v2, v3⟩ := sin_small hx hz hlo hpw0 hs rm
    rw [← h, ← h']
    exact ⟨hc, v, v1, v3⟩
  · rw [if_neg hs] at h
    split at h
    · cases h
    · rename_i r' s' w' hl
      injection h with h
      injection h with h h'
      injection h' with h' h''
      rw [← h, ← h']
      have hge := roundLoop_ge hl
      have hmid : MidRange (Real.sin x.toK) := by
        refine sin_midRange (le_trans (zpow_le_zpow_right₀ (by norm_num) ?_) (hx.mag_normal hz (by omega)).1) hf
        omega
      have hR := roundLoop_spec (Inv := fun _ s => PiOk s.2 ∧ 67 ≤ s.1) (Good := fun s => s.1 ≤ s'.1) hmid (W := w')
          (w0 := max (64 * pw) (64 * x.m.m.length) + 64) (rm := rm) hpw0 hlt (by omega) (by
            intro w s o s1 hd hw1 hw2 hi hst hgd
            obtain ⟨ap, c⟩ := s
            obtain ⟨a1, a2, t, a3, a4⟩ := sinStep_spec hx hz hd (by omega) (by omega) (by omega) hf hi.2 hi.1 hst (by omega)
              (fun h => le_trans (hpi h) (zpow_le_zpow_right₀ (by norm_num) (by push_cast; omega)))
            rw [a3]
            exact ⟨fun _ _ => ⟨a1, a2⟩, a4⟩) (fun w s o s1 hst hgd => le_trans (trigStep_ge hst) hgd)
          (show _ ∧ _ from ⟨hc, le_rfl⟩)
          (by omega) (by norm_num) (by norm_num) le_rfl hl le_rfl (by omega) le_rfl
      exact ⟨(hR.1 (w' + 64) le_rfl).1, hR.2⟩

end AF
