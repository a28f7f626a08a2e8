import Verif.Lemmas.DecApx
import Verif.Lemmas.NumDiv
import Verif.Lemmas.Samples
import Verif.Model.Dec
/-!
# Scaling by powers of ten
-/

namespace AF

set_option linter.unusedSectionVars false

/-- A number `f` within `a` factors `1 ± δ` of `A`. -/
structure ScApx (A δ : ℚ) (a : Nat) (f : Num) : Prop where
  wf : f.WF
  ex : ∃ c : ℚ, f.toK = A * c ∧ (1 - δ) ^ a ≤ c ∧ c ≤ (1 + δ) ^ a
  exact : f.inexact = false → f.toK = A

/-- A value with at most `P` significant bits. -/
def Rep (P : Nat) (z : ℚ) : Prop := ∃ k a : ℤ, z = k * 2 ^ a ∧ |k| < 2 ^ P

/-- A truncated operation on approximations. -/
theorem scale_core {A δ e : ℚ} {a P : Nat} (hA : A ≠ 0) (hδ0 : 0 < δ) (hδ1 : δ ≤ 1 / 2)
    (hP : (2 : ℚ) ^ (1 - (P : ℤ)) ≤ δ) (e1 : (1 - δ) ^ (a + 1) ≤ e) (e2 : e ≤ (1 + δ) ^ (a + 2))
    (ha : (1 + δ) ^ (a + 2) ≤ 2) (ha' : 1 / 2 ≤ (1 - δ) ^ (a + 1)) (hlo : (2 : ℚ) ^ EMIN ≤ |A|)
    (hhi : |A| < (2 : ℚ) ^ (EMAX - 1)) {ix : Bool} (hix : ix = false → A * e = A) {r : Except Err Num}
    (h : Delivers .none P (A * e) ix r) : ∃ v, r = .ok v ∧ ScApx A δ (a + 2) v ∧ 64 * v.m.m.length = P ∧
      (ix = false → Rep P A → v.inexact = false) := by
  have he0 : 0 < e := by linarith
  have habs : |A * e| = |A| * e := by rw [abs_mul, abs_of_pos he0]
  have hA0 : 0 < |A| := abs_pos.2 hA
  have hEM : ∀ a : ℤ, (2 : ℚ) ^ a = 2 * 2 ^ (a - 1) := by
    intro a
    rw [← zpow_one_add₀ (by norm_num)]; congr 1; ring
  have hlo' : (2 : ℚ) ^ (EMIN - 1) ≤ |A * e| := by
    rw [habs]
    have := hEM EMIN
    nlinarith
  cases r with
  | ok v =>
    refine ⟨v, rfl, ⟨h.1, ?_, ?_⟩, h.2.1, ?_⟩
    · obtain ⟨h1, h2, h3⟩ := (h.normal hlo').none_rel
      have hne : A * e ≠ 0 := mul_ne_zero hA he0.ne'
      have hdiv : 0 ≤ v.toK / (A * e) := by
        rw [show v.toK / (A * e) = A * e * v.toK / ((A * e) * (A * e)) by field_simp]
        exact div_nonneg h3 (mul_self_nonneg _)
      have heq : (v.toK : ℚ) = A * e * (v.toK / (A * e)) := by field_simp
      set g : ℚ := v.toK / (A * e) with hg
      have hab : |(v.toK : ℚ)| = |A * e| * g := by
        rw [heq, abs_mul, abs_of_nonneg hdiv]
      have hAe0 : 0 < |A * e| := abs_pos.2 hne
      rw [hab] at h1 h2
      have g1 : g ≤ 1 := by
        by_contra hc
        push Not at hc
        nlinarith
      have g2 : 1 - δ ≤ g := by
        have := le_of_mul_le_mul_left h2 hAe0
        linarith
      refine ⟨e * g, by rw [heq]; ring, ?_, ?_⟩
      · rw [show a + 2 = (a + 1) + 1 by ring, pow_succ]
        exact mul_le_mul e1 g2 (by linarith) he0.le
      · calc e * g ≤ e * 1 := mul_le_mul_of_nonneg_left g1 he0.le
          _ ≤ (1 + δ) ^ (a + 2) := by rw [mul_one]; exact e2
    · intro hv
      have h5 := h.2.2.2.2.1
      rw [hv] at h5
      simp only [Bool.false_eq_true, false_iff, not_or, not_not] at h5
      rw [h5.2]
      exact hix (by simpa using h5.1)
    · rintro h0 ⟨k, z, hk1, hk2⟩
      have h6 : (v.toK : ℚ) = A * e := (h.normal hlo').of_int (by rw [hix h0]; exact hk1) hk2
      have h5 := h.2.2.2.2.1
      cases hv : v.inexact with
      | false => rfl
      | true =>
        rw [hv] at h5
        rcases h5.1 rfl with h7 | h7
        · rw [h0] at h7; cases h7
        · exact absurd h6 h7
  | error er =>
    exfalso
    obtain ⟨_, t, h2, h3⟩ := h
    obtain ⟨h1, _, _⟩ := h2.none_rel
    rw [habs] at h1
    have := hEM EMAX
    nlinarith

/-- One multiplication or division by an approximate power. -/
theorem scale_step {A T δ d : ℚ} {a P px : Nat} {f t : Num} (hA : A ≠ 0) (hT : 0 < T) (hδ0 : 0 < δ)
    (hδ1 : δ ≤ 1 / 2) (hP : (2 : ℚ) ^ (1 - (P : ℤ)) ≤ δ) (hf : ScApx A δ a f) (ht : t.WF) (htd : t.toK = T * d)
    (hd : |d - 1| ≤ δ) (hte : t.inexact = false → t.toK = T) (ha : (1 + δ) ^ (a + 2) ≤ 2)
    (ha' : 1 / 2 ≤ (1 - δ) ^ (a + 1)) (hp : 0 < px) (hpm : roundP px < PMAX) (hpP : roundP px = P) (neg : Bool)
    (hlo : (2 : ℚ) ^ EMIN ≤ |A * (if neg then T⁻¹ else T)|)
    (hhi : |A * (if neg then T⁻¹ else T)| < (2 : ℚ) ^ (EMAX - 1)) :
    ∃ v, (if neg then f.div t px .none else f.mul t px .none) = .ok v ∧
      ScApx (A * (if neg then T⁻¹ else T)) δ (a + 2) v ∧ 64 * v.m.m.length = P ∧
      (f.inexact = false → t.inexact = false → Rep P (A * (if neg then T⁻¹ else T)) → v.inexact = false) := by
  obtain ⟨c, hc, c1, c2⟩ := hf.ex
  obtain ⟨d1, d2⟩ := abs_le.1 hd
  have hd0 : 0 < d := by linarith
  have hpw0 : 0 < (1 - δ) ^ a := pow_pos (by linarith) _
  have hc0 : 0 < c := by linarith
  have hf0 : f.isZero = false := by
    rw [← Bool.not_eq_true, ← hf.wf.toK_eq_zero (K := ℚ), hc]
    exact mul_ne_zero hA hc0.ne'
  have ht0 : t.isZero = false := by
    rw [← Bool.not_eq_true, ← ht.toK_eq_zero (K := ℚ), htd]
    exact mul_ne_zero hT.ne' hd0.ne'
  have hup : 0 ≤ (1 + δ) ^ a := by positivity
  cases neg with
  | false =>
    simp only [Bool.false_eq_true, if_false] at hlo hhi ⊢
    have hD := mulGeneral_spec (K := ℚ) hf.wf ht hp hpm .none
    rw [hpP, show (f.toK : ℚ) * t.toK = A * T * (c * d) by rw [hc, htd]; ring] at hD
    suffices hs : ∃ v, _ = Except.ok v ∧ ScApx _ δ (a + 2) v ∧ 64 * v.m.m.length = P ∧
        (mulIx f t = false → Rep P _ → v.inexact = false) by
      obtain ⟨v, v1, v2, v3, v4⟩ := hs
      refine ⟨v, v1, v2, v3, fun i1 i2 => v4 ?_⟩
      unfold mulIx; rw [i1, i2]; simp
    refine scale_core (a := a) (mul_ne_zero hA hT.ne') hδ0 hδ1 hP ?_ ?_ ha ha' hlo hhi ?_ hD
    · rw [pow_succ]
      exact mul_le_mul c1 (by linarith) (by linarith) hc0.le
    · calc c * d ≤ (1 + δ) ^ a * (1 + δ) := mul_le_mul c2 (by linarith) hd0.le hup
        _ ≤ (1 + δ) ^ a * (1 + δ) * (1 + δ) := le_mul_of_one_le_right (by positivity) (by linarith)
        _ = (1 + δ) ^ (a + 2) := by ring
    · intro hix
      obtain ⟨i1, i2⟩ := mulIx_false_left hf0 ht0 hix
      have h1 := hf.exact i1
      have h2 := hte i2
      rw [hc] at h1
      rw [htd] at h2
      calc A * T * (c * d) = (A * c) * (T * d) := by ring
        _ = A * T := by rw [h1, h2]
  | true =>
    simp only [if_true] at hlo hhi ⊢
    have hD := div_spec (K := ℚ) hf.wf ht ht0 hp hpm .none
    rw [hpP, show (f.toK : ℚ) / t.toK = A * T⁻¹ * (c / d) by rw [hc, htd]; field_simp] at hD
    suffices hs : ∃ v, _ = Except.ok v ∧ ScApx _ δ (a + 2) v ∧ 64 * v.m.m.length = P ∧
        (divIx f t = false → Rep P _ → v.inexact = false) by
      obtain ⟨v, v1, v2, v3, v4⟩ := hs
      refine ⟨v, v1, v2, v3, fun i1 i2 => v4 ?_⟩
      unfold divIx; rw [i1, i2]; simp
    refine scale_core (a := a) (mul_ne_zero hA (inv_ne_zero hT.ne')) hδ0 hδ1 hP ?_ ?_ ha ha' hlo hhi ?_ hD
    · rw [le_div_iff₀ hd0, pow_succ]
      have h1 : (1 - δ) * d ≤ 1 := by nlinarith
      calc (1 - δ) ^ a * (1 - δ) * d = (1 - δ) ^ a * ((1 - δ) * d) := by ring
        _ ≤ (1 - δ) ^ a * 1 := mul_le_mul_of_nonneg_left h1 hpw0.le
        _ ≤ c := by rw [mul_one]; exact c1
    · rw [div_le_iff₀ hd0, pow_add]
      have h1 : 1 ≤ (1 + δ) ^ 2 * d := by
        have h0 : 0 ≤ 1 - δ - δ ^ 2 := by nlinarith
        have h2 : (1 + δ) ^ 2 * (1 - δ) = 1 + δ * (1 - δ - δ ^ 2) := by ring
        have h3 : (1 + δ) ^ 2 * (1 - δ) ≤ (1 + δ) ^ 2 * d := mul_le_mul_of_nonneg_left (by linarith) (by positivity)
        have h4 : 0 ≤ δ * (1 - δ - δ ^ 2) := mul_nonneg hδ0.le h0
        linarith
      calc c ≤ (1 + δ) ^ a * 1 := by rw [mul_one]; exact c2
        _ ≤ (1 + δ) ^ a * ((1 + δ) ^ 2 * d) := mul_le_mul_of_nonneg_left h1 hup
        _ = (1 + δ) ^ a * (1 + δ) ^ 2 * d := by ring
    · intro hix
      unfold divIx at hix
      rw [hf0] at hix
      simp only [Bool.false_eq_true, if_false, Bool.or_eq_false_iff] at hix
      have h1 := hf.exact hix.1
      have h2 := hte hix.2
      have hd1 : d = 1 := by
        rw [htd] at h2
        exact mul_left_cancel₀ hT.ne' (by rw [h2, mul_one])
      have hc1 : c = 1 := by
        rw [hc] at h1
        exact mul_left_cancel₀ hA (by rw [h1, mul_one])
      rw [hc1, hd1]; ring

theorem scaleLoop_spec {T δ d : ℚ} {P px : Nat} {t : Num} (hT : 0 < T) (hδ0 : 0 < δ)
    (hδ1 : δ ≤ 1 / 2) (hP : (2 : ℚ) ^ (1 - (P : ℤ)) ≤ δ) (ht : t.WF) (htd : t.toK = T * d)
    (hd : |d - 1| ≤ δ) (hte : t.inexact = false → t.toK = T) (hp : 0 < px) (hpm : roundP px < PMAX)
    (hpP : roundP px = P) (neg : Bool) : ∀ (k a : Nat) (A : ℚ) (f : Num), A ≠ 0 → ScApx A δ a f →
    (1 + δ) ^ (a + 2 * k) ≤ 2 → 1 / 2 ≤ (1 - δ) ^ (a + 2 * k) →
    (∀ j, 1 ≤ j → j ≤ k → (2 : ℚ) ^ EMIN ≤ |A * (if neg then T⁻¹ else T) ^ j| ∧
      |A * (if neg then T⁻¹ else T) ^ j| < (2 : ℚ) ^ (EMAX - 1)) →
    ∃ v, Num.scaleLoop t px neg k f = .ok v ∧ ScApx (A * (if neg then T⁻¹ else T) ^ k) δ (a + 2 * k) v ∧
      (0 < k → 64 * v.m.m.length = P) ∧
      (f.inexact = false → t.inexact = false →
        (∀ j, 1 ≤ j → j ≤ k → Rep P (A * (if neg then T⁻¹ else T) ^ j)) → v.inexact = false) := by
  intro k
  induction k with
  | zero =>
    intro a A f hA hf _ _ _
    exact ⟨f, rfl, by simpa using hf, fun h => absurd h (lt_irrefl _), fun h _ _ => h⟩
  | succ k ih =>
    intro a A f hA hf h1 h2 hr
    have hG : (if neg then T⁻¹ else T) ≠ 0 := by
      cases neg <;> simp [hT.ne']
    have hle : (1 + δ) ^ (a + 2) ≤ 2 :=
      le_trans (pow_le_pow_right₀ (by linarith) (by omega)) h1
    have hge : 1 / 2 ≤ (1 - δ) ^ (a + 1) :=
      le_trans h2 (pow_le_pow_of_le_one (by linarith) (by linarith) (by omega))
    obtain ⟨r1, r2⟩ := hr 1 le_rfl (by omega)
    rw [pow_one] at r1 r2
    obtain ⟨v, v1, v2, v3, v4⟩ := scale_step hA hT hδ0 hδ1 hP hf ht htd hd hte hle hge hp hpm hpP neg r1 r2
    obtain ⟨w, w1, w2, w3, w4⟩ := ih (a + 2) _ v (mul_ne_zero hA hG) v2
      (by rw [show a + 2 + 2 * k = a + 2 * (k + 1) by ring]; exact h1)
      (by rw [show a + 2 + 2 * k = a + 2 * (k + 1) by ring]; exact h2) (by
        intro j hj1 hj2
        have := hr (j + 1) (by omega) (by omega)
        rw [pow_succ'] at this
        rw [mul_assoc]; exact this)
    refine ⟨w, ?_, ?_, fun _ => ?_, ?_⟩
    · unfold Num.scaleLoop
      rw [v1]
      exact w1
    · rw [pow_succ', ← mul_assoc, show a + 2 * (k + 1) = a + 2 + 2 * k by ring]; exact w2
    · rcases Nat.eq_zero_or_pos k with hk | hk
      · subst hk
        unfold Num.scaleLoop at w1
        cases w1
        exact v3
      · exact w3 hk
    · intro i1 i2 hrep
      refine w4 (v4 i1 i2 ?_) i2 ?_
      · have := hrep 1 le_rfl (by omega)
        rwa [pow_one] at this
      · intro j hj1 hj2
        have := hrep (j + 1) (by omega) (by omega)
        rw [pow_succ'] at this
        rw [mul_assoc]; exact this

/-! ## Powers of ten -/

theorem ten_WF : Num.TEN.WF := Num.WF_of_check (by decide +kernel)

theorem ten_toK : (Num.TEN.toK : ℚ) = 10 := by
  unfold Num.toK Num.TEN
  simp only [Sign.toK, val, B, List.length_cons, List.length_nil]
  norm_num

theorem ten_pow_lt : (10 : ℕ) ^ TEN_PWR_MAX_FROM_DEC < 2 ^ 2147483645 := by
  have h1 : (10 : ℕ) ^ 8651 ≤ 2 ^ 28738 := by decide +kernel
  have h2 : (10 : ℕ) ^ 2365 < 2 ^ 7857 := by decide +kernel
  have e1 : TEN_PWR_MAX_FROM_DEC = 8651 * 74726 + 2365 := by decide
  have e2 : 2147483645 = 28738 * 74726 + 7857 := by decide
  rw [e1, e2]
  generalize 74726 = q at *
  generalize 8651 = a at *
  generalize 28738 = b at *
  generalize 2365 = c at *
  generalize 7857 = d at *
  rw [pow_add, pow_add, pow_mul, pow_mul]
  have h3 : ((10 : ℕ) ^ a) ^ q ≤ (2 ^ b) ^ q := Nat.pow_le_pow_left h1 _
  calc ((10 : ℕ) ^ a) ^ q * 10 ^ c < (10 ^ a) ^ q * 2 ^ d := Nat.mul_lt_mul_of_pos_left h2 (by positivity)
    _ ≤ (2 ^ b) ^ q * 2 ^ d := Nat.mul_le_mul_right _ h3

end AF
