import Verif.Lemmas.TrigProx
/-!
# The first round of the loop of `sin`
-/

namespace AF

open Num

variable {x : Num}

theorem abs_sin_sub_pi (z : ℝ) (k : ℤ) : |Real.sin (z - k * Real.pi)| = |Real.sin z| := by
  rw [Real.sin_sub_int_mul_pi, abs_mul, abs_neg_one_zpow, one_mul]

theorem abs_sin_half (z : ℝ) (s : Sign) (q : ℕ) (hq : q % 2 = 0) : |Real.sin z| ≤ |z - s.toK * (q * (Real.pi / 2))| := by
  obtain ⟨j, rfl⟩ : ∃ j, q = 2 * j := ⟨q / 2, by omega⟩
  have : ∃ k : ℤ, (s.toK : ℝ) * (((2 * j : ℕ) : ℝ) * (Real.pi / 2)) = k * Real.pi := by
    cases s
    · exact ⟨-j, by simp only [Sign.toK]; push_cast; ring⟩
    · exact ⟨j, by simp only [Sign.toK]; push_cast; ring⟩
  obtain ⟨k, hk⟩ := this
  rw [hk, ← abs_sin_sub_pi z k]
  exact abs_sin_le _

theorem e_gt_two (hx : x.WF) (hz : x.isZero = false) (h2 : 2 < x.e) : 4 ≤ |(x.toK : ℝ)| := by
  have := (hx.mag_normal hz (by unfold EMIN; omega)).1
  have h4 : (2 : ℝ) ^ (2 : ℤ) ≤ 2 ^ (x.e - 1) := zpow_le_zpow_right₀ (by norm_num) (by omega)
  norm_num at h4
  linarith

theorem SinFar.big (hx : x.WF) (hz : x.isZero = false) (hf : SinFar x.toK) (h2 : 0 < x.e) : (2 : ℝ) ^ (-65 : ℤ) ≤ |Real.sin x.toK| := by
  rcases hf with hf | hf
  · refine le_trans ?_ (sin_lower3 hf)
    have := (hx.mag_normal hz (by unfold EMIN; omega)).1
    have h4 : (2 : ℝ) ^ (0 : ℤ) ≤ 2 ^ (x.e - 1) := zpow_le_zpow_right₀ (by norm_num) (by omega)
    rw [zpow_zero] at h4
    have h5 : (2 : ℝ) ^ (-65 : ℤ) ≤ 1 / 64 := by norm_num
    linarith
  · exact hf

theorem SinFar.far (hx : x.WF) (hz : x.isZero = false) (hf : SinFar x.toK) {w : Nat} (hw : 128 ≤ w) (h2 : 2 < x.e) (k : ℤ) :
    4 * (2 : ℝ) ^ (-((w + 64 : ℕ) : ℤ)) < |(x.toK : ℝ) - k * (2 * Real.pi)| := by
  have h3 := hf.big hx hz (by omega)
  rw [← sin_sub_two_pi _ k] at h3
  refine lt_of_lt_of_le (lt_of_lt_of_le ?_ h3) (abs_sin_le _)
  rw [show (4 : ℝ) = 2 ^ (2 : ℤ) by norm_num, ← zpow_add₀ (by norm_num)]
  exact zpow_lt_zpow_right₀ (by norm_num) (by push_cast; omega)

/-- A pass that does not ask for more bits is the last one. -/
theorem trigStep_last {par : Nat} {ser : Num → Except Err Num} {f w ap : Nat} {c c1 c2 : PiCache} {v y : Num} {t q : Nat}
    (h1 : x.setPrecision (w + ap) .none = .ok v) (h2 : v.reduceTrigArg c = some (.ok y, c1))
    (h3 : y.trigArgPiProximity c1 = some (.ok (t, q), c2)) (h4 : ¬(q % 2 = par ∧ ap < t)) :
    ∃ o, trigStep par ser x (f + 1) w (ap, c) = some (o, (ap, c2)) := by
  rw [trigStep, h1]
  dsimp only
  rw [h2]
  dsimp only
  rw [h3]
  dsimp only
  rw [if_neg h4]
  cases ser y with
  | error e => exact ⟨_, rfl⟩
  | ok r => exact ⟨_, rfl⟩

theorem sinStep_some (hx : x.WF) (hz : x.isZero = false) {w : Nat} (hw : 128 ≤ w) (hl : 64 * x.m.m.length ≤ w)
    (he : -(w : ℤ) ≤ x.e) (hf : SinFar x.toK) {f : Nat} {c : PiCache} (hc : PiOk c) (hb : w + max 67 (-x.e).toNat + x.e.toNat + 192 ≤ 2 ^ 15)
    (hpi : 2 < x.e → |chudPi - Real.pi| ≤ 2 ^ (-((w + 67 : ℕ) : ℤ) - 64 - x.e)) :
    ∃ o s', trigStep 0 sinSeries x (f + 2) w (67, c) = some (o, s') ∧ s'.1 ≤ max 67 (-x.e).toNat := by
  have hE : EMIN = -2 ^ 31 := rfl
  have hgo : ∀ (ap : Nat) (c : PiCache), 67 ≤ ap → PiOk c → w + ap + x.e.toNat + 192 ≤ 2 ^ 15 → (2 < x.e → ap = 67) →
      ∃ v y c1 t q c2, x.setPrecision (w + ap) .none = .ok v ∧ v.reduceTrigArg c = some (.ok y, c1) ∧
        y.trigArgPiProximity c1 = some (.ok (t, q), c2) ∧ PiOk c2 ∧ (x.e ≤ 0 → t = x.e.natAbs) ∧ (0 < x.e → q % 2 = 0 → t ≤ 67) := by
    intro ap c hap hc hb' hap'
    obtain ⟨v, y, c1, v1, y1, y2, y3, y4, y5, y6, y7, ⟨k, y8⟩, y9⟩ := trigArg_spec hx hz (by omega) (w := w) (by omega) hl
      (fun h => hf.far hx hz hw h) (ap := ap) (by omega) hc (by omega) (fun h => by rw [hap' h]; exact hpi h)
    have hwl : w + 67 ≤ 64 * wordLen (w + ap) := by unfold wordLen; omega
    obtain ⟨t, q, c2, t1, t2, t3, t4⟩ := trigProx_near y3 y7 y4 (by omega) (by omega) y2
    refine ⟨v, y, c1, t, q, c2, v1, y1, t1, t2, fun h => ?_, fun h hq => ?_⟩
    · rw [(t3 (by rw [(y9 (by omega)).2.1]; exact h)).1, (y9 (by omega)).2.1]
    · have h1 := hf.big hx hz h
      have h2 : (2 : ℝ) ^ (-66 : ℤ) ≤ |Real.sin y.toK| := by
        have h3 := le_trans (sin_dist (x.toK : ℝ) y.toK k) y8
        have h4 := abs_sub_abs_le_abs_sub (Real.sin (x.toK : ℝ)) (Real.sin y.toK)
        rw [abs_sub_comm] at h4
        have h5 : (2 : ℝ) ^ (-((64 * wordLen (w + ap) : ℕ) : ℤ)) ≤ 2 ^ (-128 : ℤ) := zpow_le_zpow_right₀ (by norm_num) (by omega)
        rw [show (2 : ℝ) ^ (-128 : ℤ) = 1 / 2 ^ 128 by norm_num] at h5
        rw [show (2 : ℝ) ^ (-65 : ℤ) = 1 / 2 ^ 65 by norm_num] at h1
        rw [show (2 : ℝ) ^ (-66 : ℤ) = 1 / 2 ^ 66 by norm_num]
        have h6 : (1 : ℝ) / 2 ^ 66 + 4 * (1 / 2 ^ 128) ≤ 1 / 2 ^ 65 := by norm_num
        have h7 := mul_le_mul_of_nonneg_left h5 (by norm_num : (0 : ℝ) ≤ 4)
        linarith only [h1, h3, h4, h6, h7]
      by_cases hy : 0 < y.e
      · exact t4 66 (by norm_num) le_rfl hy (le_trans h2 (abs_sin_half _ _ _ hq))
      · rw [(t3 (by omega)).1]
        have := y3.e_of_abs (le_trans h2 (abs_sin_le _))
        omega
  obtain ⟨v, y, c1, t, q, c2, g1, g2, g3, g4, g5, g6⟩ := hgo 67 c le_rfl hc (by omega) (fun _ => rfl)
  by_cases hcond : q % 2 = 0 ∧ 67 < t
  · have hx0 : x.e ≤ 0 := by
      by_contra h
      have := g6 (by omega) hcond.1
      omega
    have ht := g5 hx0
    obtain ⟨v', y', c1', t', q', c2', g1', g2', g3', g4', g5', -⟩ := hgo t c2 (by omega) g4 (by omega) (fun h => by omega)
    obtain ⟨o, ho⟩ := trigStep_last (ser := sinSeries) (par := 0) (f := f) g1' g2' g3' (by rw [g5' hx0, ht]; omega)
    refine ⟨o, (t, c2'), ?_, by dsimp only; omega⟩
    rw [trigStep, g1]
    dsimp only
    rw [g2]
    dsimp only
    rw [g3]
    dsimp only
    rw [if_pos hcond]
    exact ho
  · obtain ⟨o, ho⟩ := trigStep_last (ser := sinSeries) (par := 0) (f := f + 1) g1 g2 g3 hcond
    exact ⟨o, _, ho, by dsimp only; omega⟩

/-- The first round of the loop returns a number in mode `None`. -/
theorem sin_number (hx : x.WF) (hz : x.isZero = false) (hf : SinFar x.toK) {p : Nat} (hp : ValidP p)
    {f : Nat} {c : PiCache} (hc : PiOk c) (hw : 2 * max (precBits p) (64 * x.m.m.length) + x.e.toNat + 400 ≤ 2 ^ 15)
    (hpi : 2 < x.e → |chudPi - Real.pi| ≤ 2 ^ (-((2 * max (precBits p) (64 * x.m.m.length) + 192 : ℕ) : ℤ) - 64 - x.e)) :
    ∃ r c' w, x.sin p .none (f + 2) c = some (r, c', w) ∧ w ≤ 2 * max (precBits p) (64 * x.m.m.length) + 192 := by
  have hmb : x.m.maxBitLen = 64 * x.m.m.length := by unfold Mantissa.maxBitLen; omega
  have hp0 := hp.pos
  have hlt := hp.lt
  have hE : EMIN = -2 ^ 31 := rfl
  obtain ⟨pw, hpw⟩ : ∃ pw, precBits p = 64 * pw := ⟨(p + 63) / 64, rfl⟩
  have hpw0 : 0 < pw := by unfold precBits at hpw; omega
  unfold Num.sin
  rw [hp.roundP]
  dsimp only
  rw [hz, if_neg Bool.false_ne_true, hmb]
  rw [hpw] at hlt hw hpi ⊢
  by_cases hs : ((max (64 * pw) (64 * x.m.m.length) : ℕ) : ℤ) + 1 < -(x.e * 2 - 2)
  · rw [if_pos hs]
    exact ⟨_, _, _, rfl, by omega⟩
  · rw [if_neg hs]
    obtain ⟨M, hM⟩ : ∃ M, M = max (64 * pw) (64 * x.m.m.length) := ⟨_, rfl⟩
    rw [← hM] at hw hpi hs ⊢
    have hmid : MidRange (Real.sin x.toK) := by
      refine sin_midRange (le_trans (zpow_le_zpow_right₀ (by norm_num) ?_) (hx.mag_normal hz (by omega)).1) hf
      omega
    obtain ⟨o, s', h1, h2⟩ := sinStep_some hx hz (w := M + 64) (by omega) (by omega) (by omega) hf (f := f) hc (by omega)
      (fun h => le_trans (hpi h) (zpow_le_zpow_right₀ (by norm_num) (by push_cast; omega)))
    obtain ⟨a1, a2, t, a3, a4⟩ := sinStep_spec hx hz (w := M + 64) (by omega) (by omega) (by omega) (by omega) hf le_rfl hc h1 (by omega)
      (fun h => le_trans (hpi h) (zpow_le_zpow_right₀ (by norm_num) (by push_cast; omega)))
    rw [a3] at h1
    obtain ⟨r, hr⟩ := roundLoop_number (rm := .none) (ix := x.inexact) hmid hpw0 hlt (by omega) (by omega) h1 a4 (Or.inl rfl) (f + 1) 64
    rw [hr]
    exact ⟨_, _, _, rfl, by omega⟩

end AF
