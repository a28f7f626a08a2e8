import Verif.Lemmas.AcosFun
/-!
# The loop of `acos`
-/

namespace AF

open Num

set_option linter.unusedSectionVars false

variable {x : Num}

/-- What a step does to the parts of the state that only grow, and to the cache. -/
theorem acosStep_mono {fuel w : Nat} : ∀ {f : Nat} {s s' : AcosState} {o : LoopStep}, acosStep fuel f w s = some (o, s') →
    s.2.1 ≤ s'.2.1 ∧ s.2.2.2 ≤ s'.2.2.2 ∧
      (0 < s.2.1 → s'.2.2.2 ≤ 2 ^ 40 → w + s'.2.1 ≤ 2 ^ 41 → PiOk s.2.2.1 → PiOk s'.2.2.1) := by
  intro f
  induction f with
  | zero => intro s s' o h; simp [acosStep] at h
  | succ f ih =>
    rintro ⟨x, ap, c, g⟩ s' o h
    rw [acosStep] at h
    dsimp only at h ⊢
    split at h
    · injection h with h; injection h with _ h; rw [← h]
      exact ⟨le_rfl, le_rfl, fun _ _ _ h => h⟩
    · split at h
      · cases h
      · rename_i hat
        injection h with h; injection h with _ h; rw [← h]
        exact ⟨le_rfl, le_max_left _ _, fun h0 h1 h2 hc => asin_keep (Nat.add_pos_right w h0) h2 hc hat (le_trans (le_max_right _ _) h1)⟩
      · rename_i hat
        split at h
        · cases h
        · rename_i hpi
          injection h with h; injection h with _ h; rw [← h]
          exact ⟨le_rfl, le_max_left _ _, fun h0 h1 h2 hc =>
            piForPrec_keep (Nat.add_pos_right w h0) h2 (asin_keep (Nat.add_pos_right w h0) h2 hc hat (le_trans (le_max_right _ _) h1)) hpi⟩
        · rename_i hpi
          split at h
          · injection h with h; injection h with _ h; rw [← h]
            exact ⟨le_rfl, le_max_left _ _, fun h0 h1 h2 hc =>
              piForPrec_keep (Nat.add_pos_right w h0) h2 (asin_keep (Nat.add_pos_right w h0) h2 hc hat (le_trans (le_max_right _ _) h1)) hpi⟩
          · split at h
            · injection h with h; injection h with _ h; rw [← h]
              exact ⟨le_rfl, le_max_left _ _, fun h0 h1 h2 hc =>
                piForPrec_keep (Nat.add_pos_right w h0) h2 (asin_keep (Nat.add_pos_right w h0) h2 hc hat (le_trans (le_max_right _ _) h1)) hpi⟩
            · split at h
              · rename_i hlt
                obtain ⟨i1, i2, i3⟩ := ih h
                dsimp only at i1 i2 i3
                refine ⟨le_trans hlt.le i1, le_trans (le_max_left _ _) i2, fun h0 h1 h2 hc => ?_⟩
                have h2' : w + ap ≤ 2 ^ 41 := by omega
                have h1' := le_trans (le_trans (le_max_right _ _) i2) h1
                exact i3 (by omega) h1 h2 (piForPrec_keep (Nat.add_pos_right w h0) h2' (asin_keep (Nat.add_pos_right w h0) h2' hc hat h1') hpi)
              · injection h with h; injection h with _ h; rw [← h]
                exact ⟨le_rfl, le_max_left _ _, fun h0 h1 h2 hc =>
                  piForPrec_keep (Nat.add_pos_right w h0) h2 (asin_keep (Nat.add_pos_right w h0) h2 hc hat (le_trans (le_max_right _ _) h1)) hpi⟩

/-- Where the exponent of `arccos x` leaves room in the last word of the working precision. -/
def AcosBand (Y : ℝ) : Prop := ∃ k : ℕ, (2 : ℝ) ^ (-(64 * k : ℤ) - 56) ≤ Y ∧ (k = 0 ∨ Y ≤ 2 ^ (-(64 * k : ℤ) - 1))

theorem acos_test {t : Num} (ht : t.WF) (hi : t.inexact = true) {Y : ℝ} (hb : AcosBand Y) {l w ap : Nat}
    (hl : (2 : ℝ) ^ (-(l : ℤ)) ≤ Y) (hw : 64 ∣ w) (hap : 33 ≤ ap) (hlw : l + 64 ≤ w + ap) (hw17 : w + ap ≤ 2 ^ 17)
    (hlen : 64 * t.m.m.length = precBits (w + ap)) (herr : |t.toK - Y| ≤ 2 ^ (-(precBits (w + ap) : ℤ)) * 64)
    (hte : t.e.natAbs + 1 ≤ ap) : TestOk w Y t := by
  have hk : precBits (w + ap) = 64 * ((w + ap + 63) / 64) := rfl
  have hE : EMIN = -2 ^ 31 := rfl
  have hY0 : 0 < Y := lt_of_lt_of_le (by positivity) hl
  obtain ⟨ε, hε⟩ : ∃ ε : ℝ, ε = 2 ^ (-(precBits (w + ap) : ℤ)) := ⟨_, rfl⟩
  have hε0 : 0 < ε := by rw [hε]; positivity
  rw [← hε] at herr
  have hεY : ε * 2 ^ 64 ≤ Y := by
    refine le_trans ?_ hl
    rw [hε, show ((2 : ℝ) ^ 64) = 2 ^ (64 : ℤ) by norm_num, ← zpow_add₀ (by norm_num)]
    exact zpow_le_zpow_right₀ (by norm_num) (by omega)
  have hs64 : (2 : ℝ) ^ 64 = 18446744073709551616 := by norm_num
  rw [hs64] at hεY
  refine ⟨ht, hi, by omega, t.toK / Y, by field_simp, ?_⟩
  obtain ⟨k, k1, k2⟩ := hb
  have hP : w + 64 * k + 64 ≤ precBits (w + ap) := by
    rcases k2 with k2 | k2
    · rw [k2]; omega
    · obtain ⟨t1, t2⟩ := abs_le.1 herr
      have ht0 : 0 < (t.toK : ℝ) := by linarith
      have ht2 : (t.toK : ℝ) < 2 ^ (-(64 * k : ℤ)) := by
        rw [zpow_sub₀ (by norm_num), zpow_one] at k2
        have : (0 : ℝ) < 2 ^ (-(64 * k : ℤ)) := by positivity
        linarith
      have ht3 : (2 : ℝ) ^ (-(l : ℤ) - 1) ≤ t.toK := by
        rw [zpow_sub₀ (by norm_num), zpow_one]
        linarith
      obtain ⟨e1, e2⟩ := exp_bounds_abs ht (by
        rw [abs_of_pos ht0]
        exact le_trans (zpow_le_zpow_right₀ (by norm_num) (by omega)) ht3)
      rw [abs_of_pos ht0] at e1
      have := (zpow_lt_zpow_iff_right₀ (by norm_num : (1 : ℝ) < 2)).1 (lt_of_le_of_lt e1 ht2)
      omega
  rw [show (t.toK : ℝ) / Y - 1 = (t.toK - Y) / Y by field_simp, abs_div, abs_of_pos hY0, div_le_iff₀ hY0]
  refine le_trans herr ?_
  have h1 : ε * 64 ≤ 2 ^ (-(w : ℤ)) * (1 / 4) * 2 ^ (-(64 * k : ℤ) - 56) := by
    rw [hε, show (64 : ℝ) = 2 ^ (6 : ℤ) by norm_num, show (1 / 4 : ℝ) = 2 ^ (-2 : ℤ) by norm_num, ← zpow_add₀ (by norm_num),
      ← zpow_add₀ (by norm_num), ← zpow_add₀ (by norm_num)]
    exact zpow_le_zpow_right₀ (by norm_num) (by omega)
  have hw0 : (0 : ℝ) < 2 ^ (-(w : ℤ)) := by positivity
  refine le_trans h1 ?_
  calc (2 : ℝ) ^ (-(w : ℤ)) * (1 / 4) * 2 ^ (-(64 * k : ℤ) - 56) ≤ 2 ^ (-(w : ℤ)) * (1 / 4) * Y :=
        mul_le_mul_of_nonneg_left k1 (by positivity)
    _ ≤ _ := by nlinarith [mul_pos hw0 hY0]

/-- A step of the loop of `acos`. -/
theorem acosStep_spec {X : ℝ} (hdom : AcosDom X) (hb : AcosBand (Real.arccos X)) {l : Nat} (hl : (2 : ℝ) ^ (-(l : ℤ)) ≤ Real.arccos X)
    {fuel w : Nat} (hw : 64 ∣ w) (hlw : l + 31 ≤ w) {W : Nat} (hW17 : W + 64 ≤ 2 ^ 17) (hpi : |chudPi - Real.pi| ≤ 2 ^ (-(W : ℤ) - 60)) :
    ∀ {f : Nat} {x : Num} {ap : Nat} {c : PiCache} {g : Nat} {o : LoopStep} {s' : AcosState}, x.WF → x.toK = X → 33 ≤ ap →
      64 * x.m.m.length ≤ 64 * wordLen (w + ap) → PiOk c → acosStep fuel f w (x, ap, c, g) = some (o, s') →
      w + s'.2.1 ≤ W → s'.2.2.2 ≤ W →
      ∃ t, o = .tst t ∧ TestOk w (Real.arccos X) t ∧ PiOk s'.2.2.1 ∧ s'.1.WF ∧ s'.1.toK = X ∧ 33 ≤ s'.2.1 ∧
        64 * s'.1.m.m.length ≤ 64 * wordLen (w + s'.2.1) := by
  intro f
  induction f with
  | zero => intro x ap c g o s' _ _ _ _ _ h; simp [acosStep] at h
  | succ f ih =>
    intro x ap c g o s' hx hX hap hlen hc h hW hg
    have hm := acosStep_mono h
    dsimp only at hm
    obtain ⟨v, v1, v2, v3, v4, v5⟩ := setPrecision_extendN hx (p := w + ap) (by omega) (lt_PMAX_of_small (by omega)) hlen
    rw [hX] at v4
    rw [acosStep] at h
    dsimp only at h
    rw [v1] at h
    dsimp only at h
    cases hat : v.asin (w + ap) .none fuel c with
    | none => rw [hat] at h; cases h
    | some q =>
      obtain ⟨r, c1, n⟩ := q
      rw [hat] at h
      have hn : n ≤ W := by
        cases r with
        | error e =>
          dsimp only at h
          injection h with h; injection h with _ h
          rw [← h] at hg
          exact le_trans (le_max_right _ _) hg
        | ok u =>
          dsimp only at h
          split at h
          · cases h
          · injection h with h; injection h with _ h
            rw [← h] at hg
            exact le_trans (le_max_right _ _) hg
          · split at h
            · injection h with h; injection h with _ h
              rw [← h] at hg
              exact le_trans (le_max_right _ _) hg
            · split at h
              · injection h with h; injection h with _ h
                rw [← h] at hg
                exact le_trans (le_max_right _ _) hg
              · split at h
                · exact le_trans (le_trans (le_max_right _ _) (acosStep_mono h).2.1) hg
                · injection h with h; injection h with _ h
                  rw [← h] at hg
                  exact le_trans (le_max_right _ _) hg
      obtain ⟨hc1, u, pi, c2, r2, t, rfl, p1, p2, o1, o2, t1, t2, t3, t4, -⟩ := acosPass_spec v2 v4 hdom hl (p := w + ap) (by omega) (by omega) hc hat
        (by omega) (W := W) (by omega) hn hpi
      dsimp only at h
      rw [p1] at h
      dsimp only at h
      rw [o1] at h
      dsimp only at h
      rw [o2] at h
      dsimp only at h
      split at h
      · rename_i hlt
        refine ih v2 v4 (by omega) ?_ p2 h hW hg
        rw [v3]
        unfold wordLen
        omega
      · rename_i hge
        injection h with h
        injection h with h h'
        rw [← h, ← h'] at *
        refine ⟨t, rfl, ?_, p2, v2, v4, hap, by rw [v3]⟩
        refine acos_test t1 t2 hb hl hw hap (by omega) (by omega) t3 t4 ?_
        have := le_max_left t.e.natAbs r2.e.natAbs
        omega

theorem arccos_midRange {X : ℝ} {l : Nat} (hl : (2 : ℝ) ^ (-(l : ℤ)) ≤ Real.arccos X) (h17 : l ≤ 2 ^ 17) : MidRange (Real.arccos X) := by
  have h0 : 0 ≤ Real.arccos X := Real.arccos_nonneg X
  have hE : EMIN = -2 ^ 31 := rfl
  refine MidRange.of_bounds ?_ ?_ <;> rw [abs_of_nonneg h0]
  · exact le_trans (zpow_le_zpow_right₀ (by norm_num) (by omega)) hl
  · refine lt_of_le_of_lt (b := 4) (by linarith [Real.arccos_le_pi X, Real.pi_le_four]) ?_
    exact lt_of_lt_of_le (by norm_num : (4 : ℝ) < 2 ^ (3 : ℤ)) (zpow_le_zpow_right₀ (by norm_num) (by unfold EMAX; omega))

/-- A lower bound of `arccos x` by the length of `x`. -/
theorem arccos_len (hx : x.WF) (h1 : |(x.toK : ℝ)| ≤ 1) (hn : (x.toK : ℝ) ≠ 1) :
    (2 : ℝ) ^ (-((64 * x.m.m.length + 1 : ℕ) : ℤ)) ≤ Real.arccos x.toK := by
  refine le_trans ?_ (arccos_ge h1)
  have hle : (2 : ℝ) ^ (-((64 * x.m.m.length + 1 : ℕ) : ℤ)) ≤ 1 := zpow_le_one_of_nonpos₀ (by norm_num) (by omega)
  rcases le_or_gt (x.toK : ℝ) 0 with h0 | h0
  · rw [min_eq_right (by linarith)]; exact hle
  · rw [min_eq_left (by linarith)]
    have hz : x.isZero = false := by
      rw [← Bool.not_eq_true, ← hx.toK_eq_zero (K := ℝ)]; linarith
    have h2 : |(x.toK : ℝ)| < 1 := lt_of_le_of_ne h1 (by rw [abs_of_pos h0]; exact hn)
    obtain ⟨L, L1, -, L3⟩ := asin_ap hx hz h2
    rw [abs_of_pos h0] at L1
    exact le_trans (zpow_le_zpow_right₀ (by norm_num) (by omega)) L1

theorem acos_cmp (hx : x.WF) (h1 : |(x.toK : ℝ)| ≤ 1) (hn : (x.toK : ℝ) ≠ 1) :
    ¬ (x.absCmp ONE = 0 ∧ x.isPositive = true) ∧ ¬ x.absCmp ONE > 0 := by
  cases hz : x.isZero with
  | true =>
    have : ∀ y : Num, y.isZero = true → y.absCmp ONE < 0 := by
      intro y hy
      unfold Num.absCmp
      rw [hy]
      have : ONE.isZero = false := by decide +kernel
      simp [this]
    have := this x hz
    exact ⟨by omega, by omega⟩
  | false =>
    obtain ⟨c1, c2⟩ := absCmp_one hx hz
    refine ⟨?_, by rw [c1]; linarith⟩
    rintro ⟨h2, h3⟩
    have n1 : ¬ |(x.toK : ℝ)| < 1 := by rw [← c2]; omega
    have n2 := Num.toK_eq (K := ℝ) x
    have n3 : x.s = .pos := by
      unfold Num.isPositive at h3
      cases hs : x.s with
      | pos => rfl
      | neg => rw [hs] at h3; exact absurd h3 (by decide)
    rw [n3, Sign.toK, one_mul] at n2
    exact hn (by linarith)

theorem acos_spec (hx : x.WF) (hdom : AcosDom (x.toK : ℝ)) (hn : (x.toK : ℝ) ≠ 1) (hb : AcosBand (Real.arccos x.toK)) {p : Nat} (hp : ValidP p)
    (rm : RM) {f : Nat} {c c' : PiCache} (hc : PiOk c) {r : Except Err Num} {w : Nat}
    (h : x.acos p rm f c = some (r, c', w)) (hw : w + 64 ≤ 2 ^ 17) (hpi : |chudPi - Real.pi| ≤ 2 ^ (-(w : ℤ) - 60)) :
    ∃ v, r = .ok v ∧ FunRounded rm (precBits p) (Real.arccos x.toK) v := by
  have hmb : x.m.maxBitLen = 64 * x.m.m.length := by unfold Mantissa.maxBitLen; omega
  have hp0 := hp.pos
  have hlt := hp.lt
  obtain ⟨pw, hpw⟩ : ∃ pw, precBits p = 64 * pw := ⟨(p + 63) / 64, rfl⟩
  have hpw0 : 0 < pw := by unfold precBits at hpw; omega
  obtain ⟨n1, n2⟩ := acos_cmp hx hdom.le hn
  have hl := arccos_len hx hdom.le hn
  unfold Num.acos at h
  rw [hp.roundP] at h
  dsimp only at h
  rw [if_neg n1, if_neg n2, hmb] at h
  rw [hpw] at h hlt ⊢
  split at h
  · cases h
  · rename_i r' s' w' hlp
    injection h with h
    injection h with h h'
    injection h' with h' h''
    rw [← h]
    have hge := roundLoop_ge hlp
    have hR := roundLoop_spec (Inv := fun w (s : AcosState) => PiOk s.2.2.1 ∧ s.1.WF ∧ s.1.toK = (x.toK : ℝ) ∧ 33 ≤ s.2.1 ∧
          64 * s.1.m.m.length ≤ 64 * wordLen (w + s.2.1)) (Good := fun s => s.2.1 ≤ s'.2.1 ∧ s.2.2.2 ≤ s'.2.2.2)
        (arccos_midRange hl (by omega)) (W := w')
        (w0 := max (64 * pw) (64 * x.m.m.length) + 64) (rm := rm) hpw0 hlt (by omega) (by
          rintro w1 ⟨y, ap, c1, g⟩ o s1 hd hw1 hw2 hi hst hgd
          obtain ⟨i1, i2, i3, i4, i5⟩ := hi
          obtain ⟨t, a1, a2, a3, a4, a5, a6, a7⟩ := acosStep_spec hdom hb hl hd (by omega) hw hpi i2 i3 i4 i5 i1 hst
            (by have := hgd.1; omega) (by have := hgd.2; omega)
          rw [a1]
          refine ⟨fun w' hw' => ⟨a3, a4, a5, a6, le_trans a7 ?_⟩, a2⟩
          unfold wordLen
          omega) (fun w s o s1 hst hgd => ⟨le_trans (acosStep_mono hst).1 hgd.1, le_trans (acosStep_mono hst).2.1 hgd.2⟩)
        (show _ ∧ _ from ⟨hc, ⟨hx.wf, hx.bits, hx.emin, hx.emax, hx.norm, hx.sized⟩, rfl, le_rfl, by unfold wordLen; show 64 * x.m.m.length ≤ _; omega⟩)
        (by omega) (by norm_num) (by norm_num) le_rfl hlp le_rfl (by omega) ⟨le_rfl, le_rfl⟩
    exact hR.2

theorem acos_keep {p : Nat} {rm : RM} {f : Nat} {c c' : PiCache} (hc : PiOk c) {r : Except Err Num} {w : Nat}
    (h : x.acos p rm f c = some (r, c', w)) (hw : w ≤ 2 ^ 40) : PiOk c' := by
  unfold Num.acos at h
  dsimp only at h
  split at h
  · injection h with h; injection h with _ h; injection h with h _; rw [← h]; exact hc
  · split at h
    · injection h with h; injection h with _ h; injection h with h _; rw [← h]; exact hc
    · split at h
      · cases h
      · rename_i r' s' w' hl
        injection h with h; injection h with _ h; injection h with h h'; rw [← h]
        have := roundLoop_keep (Inv := fun s : AcosState => 0 < s.2.1 ∧ (s.2.2.2 ≤ 2 ^ 40 → w' + s.2.1 ≤ 2 ^ 40 → PiOk s.2.2.1))
          (W := w') (fun w s o s1 hw hi hst => by
            obtain ⟨k1, k2, k3⟩ := acosStep_mono hst
            exact ⟨by omega, fun hg hg2 => k3 hi.1 hg (by omega) (hi.2 (by omega) (by omega))⟩) ⟨by norm_num, fun _ _ => hc⟩ hl le_rfl
        exact this.2 (by omega) (by omega)

end AF
