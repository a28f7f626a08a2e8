import Verif.Lemmas.TrigRed
/-!
# A round of the loops of sine and cosine
-/

namespace AF

open Num

variable {x : Num} {par : Nat} {ser : Num → Except Err Num}

theorem trigStep_ge : ∀ {f w : Nat} {s s' : TrigState} {o : LoopStep},
    trigStep par ser x f w s = some (o, s') → s.1 ≤ s'.1 := by
  intro f
  induction f with
  | zero => intro w s s' o h; cases h
  | succ f ih =>
    intro w s s' o h
    obtain ⟨ap, c⟩ := s
    rw [trigStep] at h
    split at h
    · injection h with h; injection h with _ h; rw [← h]
    · split at h
      · cases h
      · injection h with h; injection h with _ h; rw [← h]
      · split at h
        · cases h
        · injection h with h; injection h with _ h; rw [← h]
        · split at h
          · rename_i hc
            have := ih h
            dsimp only at this ⊢
            omega
          · split at h
            · injection h with h; injection h with _ h; rw [← h]
            · injection h with h; injection h with _ h; rw [← h]

/-- The argument at the working precision, reduced below two pi. -/
theorem trigArg_spec (hx : x.WF) (hz : x.isZero = false) (he0 : EMIN < x.e) {w : Nat} (hw : 64 ≤ w) (hl : 64 * x.m.m.length ≤ w)
    (hfar : 2 < x.e → ∀ k : ℤ, 4 * (2 : ℝ) ^ (-((w + 64 : ℕ) : ℤ)) < |(x.toK : ℝ) - k * (2 * Real.pi)|)
    {ap : Nat} {c : PiCache} (hap : 64 ≤ ap) (hc : PiOk c) (hb : w + ap + x.e.toNat + 192 ≤ 2 ^ 15)
    (hpi : 2 < x.e → |chudPi - Real.pi| ≤ 2 ^ (-((w + ap : ℕ) : ℤ) - 64 - x.e)) :
    ∃ v y c1, x.setPrecision (w + ap) .none = .ok v ∧ v.reduceTrigArg c = some (.ok y, c1) ∧ PiOk c1 ∧ y.WF ∧ y.isZero = false ∧
        wordLen (w + ap) ≤ y.m.m.length ∧ 64 * y.m.m.length ≤ 2 * (w + ap + x.e.toNat + 192) ∧ |(y.toK : ℝ)| ≤ 63 / 10 ∧
        (∃ k : ℤ, |(x.toK : ℝ) - (y.toK + k * (2 * Real.pi))| ≤ 4 * 2 ^ (-((64 * wordLen (w + ap) : ℕ) : ℤ))) ∧
        (x.e ≤ 2 → (y.toK : ℝ) = x.toK ∧ y.e = x.e ∧ y.m.m.length = wordLen (w + ap)) := by
  have hE : EMIN = -2 ^ 31 := rfl
  have hwl : 64 * wordLen (w + ap) ≤ w + ap + 63 ∧ w + ap ≤ 64 * wordLen (w + ap) := by unfold wordLen; omega
  obtain ⟨v, v1, v2, v3, v4, v5⟩ := setPrecision_extendN hx (p := w + ap) (by omega) (lt_PMAX_of_small (by omega)) (by omega)
  have vz : v.isZero = false := by
    rw [← Bool.not_eq_true, ← v2.toK_eq_zero (K := ℝ), v4, hx.toK_eq_zero (K := ℝ), hz]; exact Bool.false_ne_true
  have hve : v.e = x.e := by
    obtain ⟨b1, b2⟩ := hx.mag_normal hz he0
    obtain ⟨d1, d2⟩ := exp_bounds_abs v2 (by
      rw [v4]; exact le_trans (zpow_le_zpow_right₀ (by norm_num) (by omega)) b1)
    rw [v4] at d1 d2
    have h1 := (zpow_lt_zpow_iff_right₀ (by norm_num : (1 : ℝ) < 2)).1 (lt_of_le_of_lt b1 d2)
    have h2 := (zpow_lt_zpow_iff_right₀ (by norm_num : (1 : ℝ) < 2)).1 (lt_of_le_of_lt d1 b2)
    omega
  by_cases h2 : 2 < x.e
  · obtain ⟨y, c1, y1, y2, y3, y4, y5, y6, y7, k, y8⟩ := reduceTrigArg_spec v2 vz (by omega) (by omega)
      (by rw [v3, hve]; omega) hc (le_trans (hpi h2) (by
        rw [v3, hve]
        exact zpow_le_zpow_right₀ (by norm_num) (by push_cast; omega))) (by
        intro k
        rw [v4, v3]
        refine lt_of_le_of_lt ?_ (hfar h2 k)
        refine mul_le_mul_of_nonneg_left ?_ (by norm_num)
        exact zpow_le_zpow_right₀ (by norm_num) (by push_cast; omega))
    rw [v3] at y4 y5 y8
    rw [v4] at y8
    rw [hve] at y5
    exact ⟨v, y, c1, v1, y1, y2, y3, y6, y4, by omega, y7, ⟨k, y8⟩, fun h => by omega⟩
  · refine ⟨v, v, c, v1, ?_, hc, v2, vz, by omega, by omega, ?_, ⟨0, ?_⟩, fun _ => ⟨v4, hve, v3⟩⟩
    · unfold Num.reduceTrigArg
      rw [if_neg (by omega)]
    · have := (hx.mag_normal hz he0).2
      rw [v4]
      refine le_trans this.le (le_trans (zpow_le_zpow_right₀ (n := 2) (by norm_num) (by omega)) (by norm_num))
    · rw [v4]
      simp only [Int.cast_zero, zero_mul, add_zero, sub_self, abs_zero]
      positivity

theorem trigStep_spec (hx : x.WF) (hz : x.isZero = false) (he0 : EMIN < x.e) {w : Nat} (hw : 64 ≤ w) (hl : 64 * x.m.m.length ≤ w)
    (hfar : 2 < x.e → ∀ k : ℤ, 4 * (2 : ℝ) ^ (-((w + 64 : ℕ) : ℤ)) < |(x.toK : ℝ) - k * (2 * Real.pi)|) :
    ∀ {f ap : Nat} {c : PiCache} {s' : TrigState} {o : LoopStep}, 64 ≤ ap → PiOk c →
    trigStep par ser x f w (ap, c) = some (o, s') → w + s'.1 + x.e.toNat + 192 ≤ 2 ^ 15 →
    (2 < x.e → |chudPi - Real.pi| ≤ 2 ^ (-((w + s'.1 : ℕ) : ℤ) - 64 - x.e)) →
    PiOk s'.2 ∧ ∃ y : Num, y.WF ∧ y.isZero = false ∧ wordLen (w + s'.1) ≤ y.m.m.length ∧ 64 * y.m.m.length ≤ 2 ^ 16 ∧ |(y.toK : ℝ)| ≤ 63 / 10 ∧
      (∃ k : ℤ, |(x.toK : ℝ) - (y.toK + k * (2 * Real.pi))| ≤ 4 * 2 ^ (-((64 * wordLen (w + s'.1) : ℕ) : ℤ))) ∧
      (x.e ≤ 2 → (y.toK : ℝ) = x.toK ∧ y.m.m.length = wordLen (w + s'.1)) ∧
      o = (match ser y with | .error e => .ret (.error e) | .ok r => .tst r) := by
  intro f
  induction f with
  | zero => intro ap c s' o _ _ h; cases h
  | succ f ih =>
    intro ap c s' o hap hc h hb hpi
    have hge := trigStep_ge h
    dsimp only at hge
    rw [trigStep] at h
    obtain ⟨v, y, c1, v1, y1, y2, y3, y4, y5, y6, y7, y8, y9⟩ := trigArg_spec hx hz he0 hw hl hfar hap hc (by omega)
      (fun h => le_trans (hpi h) (zpow_le_zpow_right₀ (by norm_num) (by push_cast; omega)))
    rw [v1] at h
    dsimp only at h
    rw [y1] at h
    dsimp only at h
    obtain ⟨⟨t, q⟩, c2, t1, t2⟩ := trigProx_spec y3 y7 y4 (by omega) y2
    rw [t1] at h
    dsimp only at h
    split at h
    · rename_i hcd
      exact ih (by omega) t2 h hb hpi
    · cases hs : ser y with
      | error e =>
        rw [hs] at h
        injection h with h
        injection h with h h'
        rw [← h']
        exact ⟨t2, y, y3, y4, y5, by omega, y7, y8, fun h => ⟨(y9 h).1, (y9 h).2.2⟩, by rw [hs, ← h]⟩
      | ok r =>
        rw [hs] at h
        injection h with h
        injection h with h h'
        rw [← h']
        exact ⟨t2, y, y3, y4, y5, by omega, y7, y8, fun h => ⟨(y9 h).1, (y9 h).2.2⟩, by rw [hs, ← h]⟩

end AF
