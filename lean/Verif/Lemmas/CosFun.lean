import Verif.Lemmas.CosSeries
import Verif.Lemmas.SinNum
/-!
# The values of `cos`
-/

namespace AF

open Num

variable {x : Num}

theorem cos_sub_le (a b : ℝ) : |Real.cos a - Real.cos b| ≤ |a - b| := by
  have h := sin_sub_le (a + Real.pi / 2) (b + Real.pi / 2)
  rw [Real.sin_add_pi_div_two, Real.sin_add_pi_div_two] at h
  refine le_trans h (le_of_eq ?_)
  congr 1
  ring

theorem cos_dist (X Y : ℝ) (k : ℤ) : |Real.cos Y - Real.cos X| ≤ |X - (Y + k * (2 * Real.pi))| := by
  have h := cos_sub_le Y (X - k * (2 * Real.pi))
  rw [Real.cos_sub_int_mul_two_pi] at h
  refine le_trans h (le_of_eq ?_)
  rw [abs_sub_comm]
  congr 1
  ring

theorem cos_half_lower {X : ℝ} (h : |X| ≤ 1 / 2) : 7 / 8 ≤ Real.cos X := by
  have h1 := Real.one_sub_sq_div_two_le_cos (x := X)
  have h2 : X ^ 2 ≤ 1 / 4 := by
    rw [← sq_abs]
    calc |X| ^ 2 ≤ (1 / 2) ^ 2 := pow_le_pow_left₀ (abs_nonneg _) h 2
      _ = _ := by norm_num
  linarith

theorem cos_small (hx : x.WF) (hz : x.isZero = false) {pw : Nat} (hp : 0 < pw)
    (he : ((max (64 * pw) (64 * x.m.m.length) : ℕ) : ℤ) + 1 < -(x.e * 2 - 1)) (rm : RM) :
    ∃ v, ONE.smallExp true (64 * pw) rm = .ok v ∧ RoundsFmt rm (64 * pw) (Real.cos x.toK) v.toK ∧
      FunRounded rm (64 * pw) (Real.cos x.toK) v := by
  have hE : EMIN = -2 ^ 31 := rfl
  have hEX : EMAX = 2 ^ 31 - 1 := rfl
  have hPM : PMAX = 2 ^ 62 - 2 ^ 31 - 1 := rfl
  have hem := hx.emin
  have hpm : 64 * pw + 64 < PMAX := by omega
  obtain ⟨q, q1, q2, q3, -⟩ := hx.mag (K := ℝ) hz
  obtain ⟨X, hX⟩ : ∃ X : ℝ, X = x.toK := ⟨_, rfl⟩
  rw [← hX] at q1 q2 ⊢
  have hX0 : 0 < |X| := lt_of_lt_of_le (by positivity) q1
  have hqe : q ≤ x.e := by omega
  have hXe : |X| < 2 ^ x.e := lt_of_lt_of_le q2 (zpow_le_zpow_right₀ (by norm_num) hqe)
  have hX1 : |X| ≤ 1 / 2 := by
    refine le_trans hXe.le ?_
    rw [show (1 / 2 : ℝ) = 2 ^ (-1 : ℤ) by norm_num]
    exact zpow_le_zpow_right₀ (by norm_num) (by omega)
  have c0 : 0 < 1 - Real.cos X := by
    have := Real.cos_lt_cos_of_nonneg_of_le_pi (x := 0) (y := |X|) le_rfl (by have := Real.pi_gt_three; linarith) hX0
    rw [Real.cos_zero, Real.cos_abs] at this
    linarith
  have c1 := Real.one_sub_sq_div_two_le_cos (x := X)
  have hsq : X ^ 2 < 2 ^ (-(64 * pw : ℕ) : ℤ) := by
    rw [← sq_abs]
    have h3 : |X| ^ 2 < ((2 : ℝ) ^ x.e) ^ 2 := pow_lt_pow_left₀ hXe hX0.le (by norm_num)
    refine lt_of_lt_of_le h3 ?_
    rw [← zpow_natCast, ← zpow_mul]
    exact zpow_le_zpow_right₀ (by norm_num) (by push_cast; omega)
  have hd : 1 - Real.cos X < 2 ^ (ONE.e - ((64 * pw : ℕ) : ℤ) - 2) := by
    have e1 : ONE.e - ((64 * pw : ℕ) : ℤ) - 2 = -((64 * pw : ℕ) : ℤ) + -1 := by
      have : ONE.e = 1 := by decide
      rw [this]; ring
    rw [e1, zpow_add₀ (by norm_num), show (2 : ℝ) ^ (-1 : ℤ) = 1 / 2 by norm_num]
    linarith
  have hlen : ONE.m.m.length = 2 := by decide
  have hoe : ONE.e = 1 := by decide
  obtain ⟨k, hk⟩ : ∃ k : ℤ, (ONE.toK : ℝ) = k * 2 ^ (ONE.e - ((64 * pw : ℕ) : ℤ)) := by
    refine ⟨2 ^ (64 * pw - 1), ?_⟩
    rw [ONE_toK, hoe]
    push_cast
    rw [← zpow_natCast, ← zpow_add₀ (by norm_num), show (((64 * pw - 1 : ℕ) : ℤ) + (1 - 64 * (pw : ℤ))) = 0 by omega, zpow_zero]
  have hsx : Real.cos X = ONE.toK + (corrSign ONE true).toK * (1 - Real.cos X) := by
    have : corrSign ONE true = .neg := by decide
    rw [this, ONE_toK]
    simp only [Sign.toK]
    ring
  obtain ⟨v, v1, v2, v3, v4, v5, v6⟩ := smallExp_rounds ONE_WF (by decide) (by rw [hoe]; omega) (by rw [hoe]; omega) hp hpm
    (by rw [hlen]; omega) true rm (G := 64 * pw) le_rfl (by omega) hk (d := 1 - Real.cos X) c0 hd hsx
  have hc := cos_half_lower hX1
  refine ⟨v, v1, v6, FunRounded.of_fmt ?_ v2 (by rw [v3]) (fun _ => by rw [v4]; rfl) (fun h => by linarith) v5 v6⟩
  rw [abs_of_pos (by linarith)]
  refine le_trans (zpow_le_zpow_right₀ (n := -1) (by norm_num) (by omega)) ?_
  norm_num
  linarith

/-- The arguments covered: not too close to an odd multiple of half pi, and up to three or not too close to a multiple of pi. -/
def CosFar (X : ℝ) : Prop := (2 : ℝ) ^ (-58 : ℤ) ≤ |Real.cos X| ∧ (|X| ≤ 3 ∨ (2 : ℝ) ^ (-58 : ℤ) ≤ |Real.sin X|)

theorem CosFar.sin (h : CosFar X) : SinFar X := by
  rcases h.2 with h | h
  · exact Or.inl h
  · exact Or.inr (le_trans (zpow_le_zpow_right₀ (by norm_num) (by norm_num)) h)

/-- The cosines of the halves. -/
theorem cos_halves {Y : ℝ} (h7 : |Y| ≤ 63 / 10) (h : |Y| ≤ 3 ∨ 1 / 2 ^ 59 ≤ |Real.sin Y|) (k : ℕ) (hk : 0 < k) :
    1 / 2 ^ 61 ≤ |Real.cos (Y / 2 ^ k)| := by
  have hcos : ∀ z : ℝ, |z| ≤ 3 / 2 → 1 / 2 ^ 61 ≤ |Real.cos z| := by
    intro z hz
    have hp := Real.pi_gt_d2
    have h1 : Real.sin (Real.pi / 2 - |z|) = Real.cos z := by rw [Real.sin_pi_div_two_sub, Real.cos_abs]
    have h2 := Real.mul_le_sin (x := Real.pi / 2 - |z|) (by linarith) (by have := abs_nonneg z; linarith)
    have e : 1 / 2 ≤ 2 / Real.pi := by
      rw [div_le_div_iff₀ (by norm_num) Real.pi_pos]; linarith [Real.pi_le_four]
    have h3 := mul_le_mul_of_nonneg_right e (show 0 ≤ Real.pi / 2 - |z| by linarith)
    rw [h1] at h2
    refine le_trans ?_ (le_abs_self _)
    have : (1 : ℝ) / 2 ^ 61 ≤ 1 / 100 := by norm_num
    linarith
  have hdiv : ∀ j : ℕ, |Y / 2 ^ j| = |Y| / 2 ^ j := fun j => by rw [abs_div, abs_of_pos (show (0 : ℝ) < 2 ^ j by positivity)]
  by_cases h3 : |Y| ≤ 3
  · refine hcos _ ?_
    rw [hdiv, div_le_iff₀ (by positivity)]
    have : (2 : ℝ) ^ 1 ≤ 2 ^ k := pow_le_pow_right₀ (by norm_num) hk
    linarith
  · have hs := h.resolve_left h3
    have s1 : Real.sin Y = 2 * Real.sin (Y / 2) * Real.cos (Y / 2) := by
      rw [← Real.sin_two_mul]; congr 1; ring
    have s2 : Real.sin (Y / 2) = 2 * Real.sin (Y / 4) * Real.cos (Y / 4) := by
      rw [← Real.sin_two_mul]; congr 1; ring
    have hb : ∀ a b : ℝ, |2 * Real.sin a * Real.cos b| ≤ 2 * |Real.cos b| := by
      intro a b
      rw [abs_mul, abs_mul, abs_of_pos (show (0 : ℝ) < 2 by norm_num)]
      exact mul_le_mul_of_nonneg_right (mul_le_of_le_one_right (by norm_num) (Real.abs_sin_le_one a)) (abs_nonneg _)
    have b1 := hb (Y / 2) (Y / 2)
    rw [← s1] at b1
    have b2 := hb (Y / 4) (Y / 4)
    rw [← s2] at b2
    have b3 : |Real.sin Y| ≤ 2 * |Real.sin (Y / 2)| := by
      rw [s1, abs_mul, abs_mul, abs_of_pos (show (0 : ℝ) < 2 by norm_num)]
      exact mul_le_of_le_one_right (by positivity) (Real.abs_cos_le_one _)
    rcases Nat.lt_or_ge k 3 with h4 | h4
    · have : k = 1 ∨ k = 2 := by omega
      have h5 : (1 : ℝ) / 2 ^ 61 = 1 / 2 ^ 59 / 4 := by norm_num
      rw [h5]
      rcases this with rfl | rfl
      · rw [pow_one]
        have := abs_nonneg (Real.cos (Y / 2))
        linarith
      · rw [show (2 : ℝ) ^ 2 = 4 by norm_num]
        linarith
    · refine hcos _ ?_
      rw [hdiv, div_le_iff₀ (by positivity)]
      have : (2 : ℝ) ^ 3 ≤ 2 ^ k := pow_le_pow_right₀ (by norm_num) h4
      linarith

set_option maxHeartbeats 800000 in
/-- A round of the loop. -/
theorem cosStep_spec (hx : x.WF) (hz : x.isZero = false) {w : Nat} (hd : 64 ∣ w) (hw : 128 ≤ w) (hl : 64 * x.m.m.length ≤ w)
    (he : -(w : ℤ) ≤ x.e) (hf : CosFar x.toK) {f ap : Nat} {c : PiCache} {s' : TrigState} {o : LoopStep} (hap : 65 ≤ ap) (hc : PiOk c)
    (h : trigStep 1 cosSeries x f w (ap, c) = some (o, s')) (hb : w + s'.1 + x.e.toNat + 192 ≤ 2 ^ 15)
    (hsm : -284 ≤ x.e ∨ w + s'.1 ≤ 3264)
    (hpi : 2 < x.e → |chudPi - Real.pi| ≤ 2 ^ (-((w + s'.1 : ℕ) : ℤ) - 64 - x.e)) :
    PiOk s'.2 ∧ 65 ≤ s'.1 ∧ ∃ t, o = .tst t ∧ TestOk w (Real.cos x.toK) t := by
  have hE : EMIN = -2 ^ 31 := rfl
  have hge := trigStep_ge h
  dsimp only at hge
  obtain ⟨X, hX⟩ : ∃ X : ℝ, X = x.toK := ⟨_, rfl⟩
  have hXl : (2 : ℝ) ^ (-(w : ℤ) - 1) ≤ |X| := by
    rw [hX]
    exact le_trans (zpow_le_zpow_right₀ (by norm_num) (by omega)) (hx.mag_normal hz (by omega)).1
  have hX0 : 0 < |X| := lt_of_lt_of_le (by positivity) hXl
  have hbig : 2 < x.e → 1 / 2 ^ 58 ≤ |Real.sin X| := by
    intro h2
    have h4 := e_gt_two hx hz h2
    rw [← hX] at hf h4
    rcases hf.2 with hf | hf
    · linarith
    · rw [show (2 : ℝ) ^ (-58 : ℤ) = 1 / 2 ^ 58 by norm_num] at hf
      exact hf
  obtain ⟨g1, y, y1, y2, y3, y4, y5, ⟨k, y6⟩, y7, y8⟩ := trigStep_spec hx hz (by omega) (by omega) hl
    (fun h2 k => hf.sin.far hx hz hw h2 k) (by omega) hc h hb hpi
  refine ⟨g1, by omega, ?_⟩
  rw [← hX] at y6 y7 hf ⊢
  obtain ⟨P, hP⟩ : ∃ P, P = 64 * y.m.m.length := ⟨_, rfl⟩
  have hw128 : w + 128 ≤ 64 * wordLen (w + s'.1) := by
    unfold wordLen
    omega
  have hPw : w + 128 ≤ P := by omega
  obtain ⟨ε, hε⟩ : ∃ ε : ℝ, ε = 2 ^ (-(w : ℤ) - 128) := ⟨_, rfl⟩
  have hε0 : 0 < ε := by rw [hε]; positivity
  have hεw : ε = 2 ^ (-(w : ℤ)) * (1 / 2 ^ 128) := by
    rw [hε, zpow_sub₀ (by norm_num)]; norm_num
    ring
  obtain ⟨η, hη⟩ : ∃ η : ℝ, η = 2 ^ (-(w : ℤ)) := ⟨_, rfl⟩
  rw [← hη] at hεw
  have hη0 : 0 < η := by rw [hη]; positivity
  have hηe : η = ε * 2 ^ 128 := by rw [hεw]; ring
  have hη1 : ε * 2 ^ 128 ≤ 1 / 2 ^ 128 := by
    rw [← hηe, hη]
    refine le_trans (zpow_le_zpow_right₀ (n := -128) (by norm_num) (by omega)) (le_of_eq ?_)
    norm_num
  have h8 : ε ≤ 1 / 2 ^ 128 := by
    have : ε ≤ ε * 2 ^ 128 := le_mul_of_one_le_right hε0.le (by norm_num)
    linarith
  have y6' : |X - (y.toK + k * (2 * Real.pi))| ≤ 4 * ε := by
    refine le_trans y6 (mul_le_mul_of_nonneg_left ?_ (by norm_num))
    rw [hε]
    exact zpow_le_zpow_right₀ (by norm_num) (by push_cast; omega)
  obtain ⟨δ, hδ⟩ : ∃ δ : ℝ, δ = 2 ^ (1 - (P : ℤ)) := ⟨_, rfl⟩
  have hδε : δ ≤ 2 * ε := by
    rw [hδ, hε, show (2 : ℝ) * 2 ^ (-(w : ℤ) - 128) = 2 ^ (-(w : ℤ) - 128 + 1) by rw [zpow_add_one₀ (by norm_num)]; ring]
    exact zpow_le_zpow_right₀ (by norm_num) (by omega)
  have hδ0 : 0 < δ := by rw [hδ]; positivity
  have hδ2 : δ ≤ 1 / 2 ^ 250 := by
    rw [hδ]
    refine le_trans (zpow_le_zpow_right₀ (n := -250) (by norm_num) (by omega)) (le_of_eq ?_)
    norm_num
  have hdk : DOk δ := ⟨hδ0.le, le_trans hδ2 (by norm_num)⟩
  have hpk : PrecOk δ P P := ⟨by omega, by rw [hP]; exact roundP_mul (by omega), lt_PMAX_of_small (by omega), by rw [hδ]⟩
  -- the difference between the values
  have hcd : |Real.cos y.toK - Real.cos X| ≤ 4 * ε := le_trans (cos_dist X y.toK k) y6'
  have hsd : |Real.sin y.toK - Real.sin X| ≤ 4 * ε := le_trans (sin_dist X y.toK k) y6'
  have hsy : 1 / 2 ^ 58 ≤ |Real.sin X| → 1 / 2 ^ 59 ≤ |Real.sin y.toK| := by
    intro h3
    have h4 : |Real.sin X| ≤ |Real.sin y.toK| + 4 * ε := by
      have := abs_sub_abs_le_abs_sub (Real.sin X) (Real.sin y.toK)
      rw [abs_sub_comm] at this
      linarith
    have h9 : (1 : ℝ) / 2 ^ 59 + 4 * (1 / 2 ^ 128) ≤ 1 / 2 ^ 58 := by norm_num
    linarith
  have hyfar : |(y.toK : ℝ)| ≤ 3 ∨ 1 / 2 ^ 59 ≤ |Real.sin y.toK| := by
    by_cases h2 : 2 < x.e
    · exact Or.inr (hsy (hbig h2))
    · rcases hf.2 with h3 | h3
      · exact Or.inl (by rw [(y7 (by omega)).1]; exact h3)
      · rw [show (2 : ℝ) ^ (-58 : ℤ) = 1 / 2 ^ 58 by norm_num] at h3
        exact Or.inr (hsy h3)
  have hyl2 : 2 < x.e → 1 / 2 ^ 59 ≤ |(y.toK : ℝ)| := fun h2 => le_trans (hsy (hbig h2)) (abs_sin_le _)
  have hyl : (2 : ℝ) ^ (-(P : ℤ)) ≤ |(y.toK : ℝ)| := by
    by_cases h2 : 2 < x.e
    · refine le_trans ?_ (hyl2 h2)
      refine le_trans (zpow_le_zpow_right₀ (n := -59) (by norm_num) (by omega)) (le_of_eq ?_)
      norm_num
    · rw [(y7 (by omega)).1]
      exact le_trans (zpow_le_zpow_right₀ (by norm_num) (by omega)) hXl
  have hc58 := hf.1
  rw [show (2 : ℝ) ^ (-58 : ℤ) = 1 / 2 ^ 58 by norm_num] at hc58
  have hyy : (y.toK : ℝ) * y.toK ≤ 40 := by
    rw [← abs_mul_abs_self]
    calc |(y.toK : ℝ)| * |(y.toK : ℝ)| ≤ 63 / 10 * (63 / 10) := mul_le_mul y5 y5 (abs_nonneg _) (by norm_num)
      _ ≤ 40 := by norm_num
  by_cases hhalf : 1 / 2 ≤ |(y.toK : ℝ)|
  · have hye : -1 ≤ y.e := by
      have := y1.e_of_abs (k := -1) (by rw [show (2 : ℝ) ^ (-1 : ℤ) = 1 / 2 by norm_num]; exact hhalf)
      omega
    obtain ⟨v, P', v1, v2, v3⟩ := cosSeries_spec hdk hδ2 hpk (by omega) (by omega) y1 hP.symm y5 hyl (cos_halves y5 hyfar)
      (Or.inl ⟨hye, rfl⟩)
    refine ⟨v, by rw [y8, v1], ?_⟩
    have hvl := v2.len
    refine TestOk.of_rel' v2.wf v2.ix (by omega) (abs_pos.1 (lt_of_lt_of_le (by positivity) hc58)) (δ := 2 ^ 63 * ε) ?_ ?_
    · rw [← hη, hηe]
      refine le_trans ?_ (mul_le_mul_of_nonneg_right hc58 (by positivity))
      rw [show 1 / 2 ^ 58 * (ε * 2 ^ 128 * (15 / 16)) = (1 / 2 ^ 58 * 2 ^ 128 * (15 / 16)) * ε by ring]
      exact mul_le_mul_of_nonneg_right (by norm_num) hε0.le
    · have e : (v.toK : ℝ) - Real.cos X = (v.toK - Real.cos y.toK) + (Real.cos y.toK - Real.cos X) := by ring
      rw [e]
      refine le_trans (abs_add_le _ _) (le_trans (add_le_add v2.err hcd) ?_)
      have a1 : 2 ^ 55 * δ * ((y.toK : ℝ) * y.toK) ≤ 2 ^ 55 * (2 * ε) * 40 :=
        mul_le_mul (mul_le_mul_of_nonneg_left hδε (by positivity)) hyy (mul_self_nonneg _) (by positivity)
      have a2 : 30 * (2 ^ 5 * δ) ≤ 30 * (2 ^ 5 * (2 * ε)) := by
        refine mul_le_mul_of_nonneg_left (mul_le_mul_of_nonneg_left hδε (by norm_num)) (by norm_num)
      have a3 : 2 ^ 55 * (2 * ε) * 40 + 30 * (2 ^ 5 * (2 * ε)) + 4 * ε ≤ 2 ^ 63 * ε := by
        rw [show 2 ^ 55 * (2 * ε) * 40 + 30 * (2 ^ 5 * (2 * ε)) + 4 * ε = (2 ^ 55 * 80 + 30 * 64 + 4) * ε by ring]
        exact mul_le_mul_of_nonneg_right (by norm_num) hε0.le
      linarith only [a1, a2, a3]
  · push Not at hhalf
    have hye : (-285 ≤ y.e) ∨ P ≤ 3328 := by
      by_cases h2 : 2 < x.e
      · left
        have := y1.e_of_abs (k := -59) (by rw [show (2 : ℝ) ^ (-59 : ℤ) = 1 / 2 ^ 59 by norm_num]; exact hyl2 h2)
        omega
      · obtain ⟨z1, z2⟩ := y7 (by omega)
        rcases hsm with h3 | h3
        · left
          have := y1.e_of_abs (k := -285) (by
            rw [z1, hX]
            exact le_trans (zpow_le_zpow_right₀ (by norm_num) (by omega)) (hx.mag_normal hz (by omega)).1)
          omega
        · right
          rw [hP, z2]
          have := (wordLen_bounds (w + s'.1)).2
          omega
    obtain ⟨v, P', v1, v2, v3⟩ := cosSeries_spec hdk hδ2 hpk (by omega) (by omega) y1 hP.symm y5 hyl (cos_halves y5 hyfar) (Λ := 115) (by
      rcases hye with h1 | h1
      · exact Or.inr (Or.inl ⟨h1, rfl⟩)
      · exact Or.inr (Or.inr ⟨h1, rfl⟩))
    refine ⟨v, by rw [y8, v1], ?_⟩
    have hvl := v2.len
    have hcX : 1 / 2 ≤ |Real.cos X| := by
      have h1 := cos_half_lower hhalf.le
      have h2 := (abs_le.1 hcd).2
      refine le_trans ?_ (le_abs_self _)
      have : (4 : ℝ) * (1 / 2 ^ 128) ≤ 1 / 8 := by norm_num
      linarith
    refine TestOk.of_rel' v2.wf v2.ix (by omega) (abs_pos.1 (lt_of_lt_of_le (by positivity) hc58)) (δ := 2 ^ 122 * ε) ?_ ?_
    · rw [← hη, hηe]
      refine le_trans ?_ (mul_le_mul_of_nonneg_right hcX (by positivity))
      rw [show 1 / 2 * (ε * 2 ^ 128 * (15 / 16)) = (1 / 2 * 2 ^ 128 * (15 / 16)) * ε by ring]
      exact mul_le_mul_of_nonneg_right (by norm_num) hε0.le
    · have e : (v.toK : ℝ) - Real.cos X = (v.toK - Real.cos y.toK) + (Real.cos y.toK - Real.cos X) := by ring
      rw [e]
      refine le_trans (abs_add_le _ _) (le_trans (add_le_add v2.err hcd) ?_)
      have a1 : 2 ^ 55 * δ * ((y.toK : ℝ) * y.toK) ≤ 2 ^ 55 * (2 * ε) * 40 :=
        mul_le_mul (mul_le_mul_of_nonneg_left hδε (by positivity)) hyy (mul_self_nonneg _) (by positivity)
      have a2 : 30 * (2 ^ 115 * δ) ≤ 30 * (2 ^ 115 * (2 * ε)) := by
        refine mul_le_mul_of_nonneg_left (mul_le_mul_of_nonneg_left hδε (by positivity)) (by norm_num)
      have a3 : 2 ^ 55 * (2 * ε) * 40 + 30 * (2 ^ 115 * (2 * ε)) + 4 * ε ≤ 2 ^ 122 * ε := by
        rw [show 2 ^ 55 * (2 * ε) * 40 + 30 * (2 ^ 115 * (2 * ε)) + 4 * ε = (2 ^ 55 * 80 + 60 * 2 ^ 115 + 4) * ε by ring]
        exact mul_le_mul_of_nonneg_right (by norm_num) hε0.le
      linarith only [a1, a2, a3]

theorem cos_midRange {X : ℝ} (hf : CosFar X) : MidRange (Real.cos X) := by
  have hE : EMIN = -2 ^ 31 := rfl
  refine MidRange.of_bounds ?_ (lt_of_le_of_lt (Real.abs_cos_le_one X) (one_lt_zpow₀ (by norm_num) (by unfold EMAX; omega)))
  exact le_trans (zpow_le_zpow_right₀ (by norm_num) (by omega)) hf.1

theorem cos_spec (hx : x.WF) (hz : x.isZero = false) (hf : CosFar x.toK) {p : Nat} (hp : ValidP p)
    (rm : RM) {f : Nat} {c c' : PiCache} (hc : PiOk c) {r : Except Err Num} {w : Nat}
    (h : x.cos p rm f c = some (r, c', w)) (hw : w + x.e.toNat + 192 ≤ 2 ^ 15) (hsm : -284 ≤ x.e ∨ w ≤ 3264)
    (hpi : 2 < x.e → |chudPi - Real.pi| ≤ 2 ^ (-(w : ℤ) - 64 - x.e)) :
    PiOk c' ∧ ∃ v, r = .ok v ∧ FunRounded rm (precBits p) (Real.cos x.toK) v := by
  have hmb : x.m.maxBitLen = 64 * x.m.m.length := by unfold Mantissa.maxBitLen; omega
  have hp0 := hp.pos
  have hlt := hp.lt
  have hE : EMIN = -2 ^ 31 := rfl
  obtain ⟨pw, hpw⟩ : ∃ pw, precBits p = 64 * pw := ⟨(p + 63) / 64, rfl⟩
  have hpw0 : 0 < pw := by unfold precBits at hpw; omega
  unfold Num.cos at h
  rw [hp.roundP] at h
  dsimp only at h
  rw [hz, if_neg Bool.false_ne_true, hmb] at h
  rw [hpw] at h hlt ⊢
  by_cases hs : ((max (64 * pw) (64 * x.m.m.length) : ℕ) : ℤ) + 1 < -(x.e * 2 - 1)
  · rw [if_pos hs] at h
    injection h with h
    injection h with h h'
    injection h' with h' _
    obtain ⟨v, v1, v2, v3⟩ := cos_small hx hz hpw0 hs rm
    rw [← h, ← h']
    exact ⟨hc, v, v1, v3⟩
  · rw [if_neg hs] at h
    split at h
    · cases h
    · rename_i r' s' w' hl
      injection h with h
      injection h with h h'
      injection h' with h' h''
      rw [← h, ← h']
      have hge := roundLoop_ge hl
      have hR := roundLoop_spec (Inv := fun _ s => PiOk s.2 ∧ 65 ≤ s.1) (Good := fun s => s.1 ≤ s'.1) (cos_midRange hf) (W := w')
          (w0 := max (64 * pw) (64 * x.m.m.length) + 64) (rm := rm) hpw0 hlt (by omega) (by
            intro w s o s1 hd hw1 hw2 hi hst hgd
            obtain ⟨ap, c⟩ := s
            obtain ⟨a1, a2, t, a3, a4⟩ := cosStep_spec hx hz hd (by omega) (by omega) (by omega) hf hi.2 hi.1 hst (by omega) (by omega)
              (fun h => le_trans (hpi h) (zpow_le_zpow_right₀ (by norm_num) (by push_cast; omega)))
            rw [a3]
            exact ⟨fun _ _ => ⟨a1, a2⟩, a4⟩) (fun w s o s1 hst hgd => le_trans (trigStep_ge hst) hgd)
          (show _ ∧ _ from ⟨hc, le_rfl⟩)
          (by omega) (by norm_num) (by norm_num) le_rfl hl le_rfl (by omega) le_rfl
      exact ⟨(hR.1 (w' + 64) le_rfl).1, hR.2⟩

/-! ## The first round of the loop -/

theorem abs_cos_half (z : ℝ) (s : Sign) (q : ℕ) (hq : q % 2 = 1) : |Real.cos z| ≤ |z - s.toK * (q * (Real.pi / 2))| := by
  have h := abs_sin_half (z + s.toK * (Real.pi / 2)) s (q + 1) (by omega)
  have e1 : |Real.sin (z + s.toK * (Real.pi / 2))| = |Real.cos z| := by
    cases s
    · simp only [Sign.toK]
      rw [show z + -1 * (Real.pi / 2) = z - Real.pi / 2 by ring, Real.sin_sub_pi_div_two, abs_neg]
    · simp only [Sign.toK, one_mul]
      rw [Real.sin_add_pi_div_two]
  rw [e1] at h
  refine le_trans h (le_of_eq ?_)
  congr 1
  push_cast
  ring

theorem cosStep_some (hx : x.WF) (hz : x.isZero = false) {w : Nat} (hw : 128 ≤ w) (hl : 64 * x.m.m.length ≤ w)
    (he : -(w : ℤ) ≤ x.e) (hf : CosFar x.toK) {f : Nat} {c : PiCache} (hc : PiOk c) (hb : w + 65 + x.e.toNat + 192 ≤ 2 ^ 15)
    (hpi : 2 < x.e → |chudPi - Real.pi| ≤ 2 ^ (-((w + 65 : ℕ) : ℤ) - 64 - x.e)) :
    ∃ o s', trigStep 1 cosSeries x (f + 1) w (65, c) = some (o, s') ∧ s'.1 = 65 := by
  have hE : EMIN = -2 ^ 31 := rfl
  obtain ⟨v, y, c1, v1, y1, y2, y3, y4, y5, y6, y7, ⟨k, y8⟩, y9⟩ := trigArg_spec hx hz (by omega) (w := w) (by omega) hl
    (fun h => hf.sin.far hx hz hw h) (ap := 65) (by omega) hc (by omega) hpi
  have hwl : w + 65 ≤ 64 * wordLen (w + 65) := by unfold wordLen; omega
  obtain ⟨t, q, c2, t1, t2, t3, t4⟩ := trigProx_near y3 y7 y4 (by omega) (by omega) y2
  have hcond : ¬(q % 2 = 1 ∧ 65 < t) := by
    rintro ⟨hq, ht⟩
    have h2 : (2 : ℝ) ^ (-((59 : ℕ) : ℤ)) ≤ |Real.cos y.toK| := by
      have h1 := hf.1
      have h3 := le_trans (cos_dist (x.toK : ℝ) y.toK k) y8
      have h4 := abs_sub_abs_le_abs_sub (Real.cos (x.toK : ℝ)) (Real.cos y.toK)
      rw [abs_sub_comm] at h4
      have h5 : (2 : ℝ) ^ (-((64 * wordLen (w + 65) : ℕ) : ℤ)) ≤ 2 ^ (-128 : ℤ) := zpow_le_zpow_right₀ (by norm_num) (by omega)
      rw [show (2 : ℝ) ^ (-128 : ℤ) = 1 / 2 ^ 128 by norm_num] at h5
      rw [show (2 : ℝ) ^ (-58 : ℤ) = 1 / 2 ^ 58 by norm_num] at h1
      rw [show (2 : ℝ) ^ (-((59 : ℕ) : ℤ)) = 1 / 2 ^ 59 by norm_num]
      have h6 : (1 : ℝ) / 2 ^ 59 + 4 * (1 / 2 ^ 128) ≤ 1 / 2 ^ 58 := by norm_num
      have h7 := mul_le_mul_of_nonneg_left h5 (by norm_num : (0 : ℝ) ≤ 4)
      linarith only [h1, h3, h4, h6, h7]
    by_cases hy : 0 < y.e
    · have := t4 59 (by norm_num) (by norm_num) hy (le_trans h2 (abs_cos_half _ _ _ hq))
      omega
    · have := (t3 (by omega)).2
      omega
  obtain ⟨o, ho⟩ := trigStep_last (ser := cosSeries) (par := 1) (f := f) v1 y1 t1 hcond
  exact ⟨o, _, ho, rfl⟩

/-- The first round of the loop returns a number in mode `None`. -/
theorem cos_number (hx : x.WF) (hz : x.isZero = false) (hf : CosFar x.toK) {p : Nat} (hp : ValidP p)
    {f : Nat} {c : PiCache} (hc : PiOk c) (hw : max (precBits p) (64 * x.m.m.length) + 129 + x.e.toNat + 192 ≤ 2 ^ 15)
    (hsm : -284 ≤ x.e ∨ max (precBits p) (64 * x.m.m.length) + 129 ≤ 3264)
    (hpi : 2 < x.e → |chudPi - Real.pi| ≤ 2 ^ (-((max (precBits p) (64 * x.m.m.length) + 129 : ℕ) : ℤ) - 64 - x.e)) :
    ∃ r c' w, x.cos p .none (f + 1) c = some (r, c', w) ∧ w ≤ max (precBits p) (64 * x.m.m.length) + 129 := by
  have hmb : x.m.maxBitLen = 64 * x.m.m.length := by unfold Mantissa.maxBitLen; omega
  have hp0 := hp.pos
  have hlt := hp.lt
  have hE : EMIN = -2 ^ 31 := rfl
  obtain ⟨pw, hpw⟩ : ∃ pw, precBits p = 64 * pw := ⟨(p + 63) / 64, rfl⟩
  have hpw0 : 0 < pw := by unfold precBits at hpw; omega
  unfold Num.cos
  rw [hp.roundP]
  dsimp only
  rw [hz, if_neg Bool.false_ne_true, hmb]
  rw [hpw] at hlt hw hpi hsm ⊢
  by_cases hs : ((max (64 * pw) (64 * x.m.m.length) : ℕ) : ℤ) + 1 < -(x.e * 2 - 1)
  · rw [if_pos hs]
    exact ⟨_, _, _, rfl, by omega⟩
  · rw [if_neg hs]
    obtain ⟨M, hM⟩ : ∃ M, M = max (64 * pw) (64 * x.m.m.length) := ⟨_, rfl⟩
    rw [← hM] at hw hpi hs hsm ⊢
    obtain ⟨o, s', h1, h2⟩ := cosStep_some hx hz (w := M + 64) (by omega) (by omega) (by omega) hf (f := f) hc (by omega)
      (fun h => le_trans (hpi h) (zpow_le_zpow_right₀ (by norm_num) (by push_cast; omega)))
    obtain ⟨a1, a2, t, a3, a4⟩ := cosStep_spec hx hz (w := M + 64) (by omega) (by omega) (by omega) (by omega) hf le_rfl hc h1 (by omega) (by omega)
      (fun h => le_trans (hpi h) (zpow_le_zpow_right₀ (by norm_num) (by push_cast; omega)))
    rw [a3] at h1
    obtain ⟨r, hr⟩ := roundLoop_number (rm := .none) (ix := x.inexact) (cos_midRange hf) hpw0 hlt (by omega) (by omega) h1 a4 (Or.inl rfl) f 64
    rw [hr]
    exact ⟨_, _, _, rfl, by omega⟩

end AF
