import Verif.Lemmas.ExpApx
import Mathlib.Algebra.Order.Field.GeomSum
/-!
# Power series with positive coefficients: Horner's scheme
-/

namespace AF

set_option linter.unusedSectionVars false

variable {δ : ℝ}

theorem Lo.relb {P ℓ N : Nat} {X : ℝ} {v : Num} (h : Lo δ P ℓ N X v) {ℓ' : Nat} (hl : (2 : ℝ) ^ (-(ℓ' : ℤ)) ≤ X) :
    Lo δ P ℓ' N X v := ⟨h.wf, h.len, h.le, h.ge, hl⟩

/-- The exponent of a number that is not subnormal. -/
theorem exp_bounds {v : Num} (hv : v.WF) (h : (2 : ℝ) ^ EMIN ≤ v.toK) :
    (2 : ℝ) ^ (v.e - 1) ≤ v.toK ∧ (v.toK : ℝ) < 2 ^ v.e := by
  have h0 : (0 : ℝ) < v.toK := lt_of_lt_of_le (by positivity) h
  have hz : v.isZero = false := by
    rw [← Bool.not_eq_true, ← hv.toK_eq_zero (K := ℝ)]
    exact h0.ne'
  obtain ⟨q, h1, h2, h3, -⟩ := hv.mag (K := ℝ) hz
  rw [abs_of_pos h0] at h1 h2
  have h4 := (zpow_lt_zpow_iff_right₀ (by norm_num : (1 : ℝ) < 2)).1 (lt_of_le_of_lt h h2)
  have h5 : v.e = q := by omega
  rw [h5]
  exact ⟨h1, h2⟩

theorem Lo.exp (hd : DOk δ) {P ℓ N : Nat} {X : ℝ} {v : Num} (h : Lo δ P ℓ N X v) (hℓ : ℓ ≤ 2 ^ 31 - 16)
    (hN : N ≤ 2 ^ 90) : (2 : ℝ) ^ (v.e - 1) ≤ v.toK ∧ (v.toK : ℝ) < 2 ^ v.e := by
  refine exp_bounds h.wf (le_trans ?_ h.ge)
  have h1 : X * (1 / 2) ≤ X * (1 - δ) ^ N := mul_le_mul_of_nonneg_left (hd.pow hN) h.Xpos.le
  have h2 := h.lb
  have h3 : (2 : ℝ) ^ EMIN ≤ 2 ^ (-(ℓ : ℤ)) * (1 / 2) := by
    rw [show (1 / 2 : ℝ) = 2 ^ (-1 : ℤ) by norm_num, ← zpow_add₀ (by norm_num)]
    exact zpow_le_zpow_right₀ (by norm_num) (by unfold EMIN; omega)
  linarith

theorem Lo.exp_le_zero (hd : DOk δ) {P ℓ N : Nat} {X : ℝ} {v : Num} (h : Lo δ P ℓ N X v) (hℓ : ℓ ≤ 2 ^ 31 - 16)
    (hN : N ≤ 2 ^ 90) {j : Nat} (hX : X < 2 ^ (-(j : ℤ))) : v.e ≤ -(j : ℤ) := by
  have h1 := lt_of_le_of_lt (le_trans (h.exp hd hℓ hN).1 h.le) hX
  have := (zpow_lt_zpow_iff_right₀ (by norm_num : (1 : ℝ) < 2)).1 h1
  omega

/-- A generator of the positive coefficients `a 1, a 2, …`: the state `g` with `Rep ℓ k g` has delivered `a k`, which
is at least `2^-ℓ`. -/
structure GenOk (δ : ℝ) (P : Nat) {G : Type} (next : G → Except Err (Num × G)) (Rep : Nat → Nat → G → Prop)
    (a : Nat → ℝ) : Prop where
  next : ∀ {ℓ k : Nat} {g}, Rep ℓ k g → ℓ ≤ 2 ^ 31 - 100 → k ≤ 2 ^ 36 → ∃ c g', next g = .ok (c, g') ∧ Rep (ℓ + 80) (k + 1) g' ∧
    Lo δ P (ℓ + 80) (4 * (k + 1)) (a (k + 1)) c
  relb : ∀ {ℓ ℓ' k : Nat} {g}, Rep ℓ k g → (2 : ℝ) ^ (-(ℓ' : ℤ)) ≤ a k → Rep ℓ' k g
  pos : ∀ k, 0 < a k
  half : ∀ k, a (k + 1) ≤ a k / 2
  one : a 0 ≤ 1

variable {P₀ P : Nat} {G : Type} {next : G → Except Err (Num × G)} {Rep : Nat → Nat → G → Prop} {a : Nat → ℝ}

theorem GenOk.decay (h : GenOk δ P₀ next Rep a) (k : Nat) : ∀ j, a (k + j) ≤ a k / 2 ^ j
  | 0 => by simp
  | j + 1 => by
    have h1 := h.half (k + j)
    have h2 := h.decay k j
    rw [pow_succ, ← add_assoc, ← div_div]
    linarith

theorem GenOk.le_one (h : GenOk δ P₀ next Rep a) (k : Nat) : a k ≤ 1 := by
  have h1 := h.decay 0 k
  rw [Nat.zero_add] at h1
  refine le_trans h1 (le_trans (div_le_self (h.pos 0).le ?_) h.one)
  exact one_le_pow₀ (by norm_num)

theorem GenOk.anti (h : GenOk δ P₀ next Rep a) {k j : Nat} (hkj : k ≤ j) : a j ≤ a k := by
  obtain ⟨i, rfl⟩ := Nat.exists_eq_add_of_le hkj
  refine le_trans (h.decay k i) (div_le_self (h.pos k).le ?_)
  exact one_le_pow₀ (by norm_num)

/-- A part of the series. -/
def serSum (a : Nat → ℝ) (X : ℝ) (k n : Nat) : ℝ := ∑ i ∈ Finset.range n, a (k + i) * X ^ i

theorem serSum_zero (X : ℝ) (k : Nat) : serSum a X k 0 = 0 := by simp [serSum]

theorem serSum_succ (X : ℝ) (k n : Nat) : serSum a X k (n + 1) = serSum a X k n + a (k + n) * X ^ n := by
  unfold serSum; rw [Finset.sum_range_succ]

theorem serSum_cons (X : ℝ) (k n : Nat) : serSum a X k (n + 1) = serSum a X (k + 1) n * X + a k := by
  unfold serSum
  rw [Finset.sum_range_succ', Finset.sum_mul, pow_zero, mul_one, add_zero]
  congr 1
  apply Finset.sum_congr rfl
  intro i _
  rw [show k + (i + 1) = k + 1 + i by omega, pow_succ]; ring

theorem serSum_add (X : ℝ) (k m : Nat) : ∀ n, serSum a X k (m + n) = serSum a X k m + X ^ m * serSum a X (k + m) n
  | 0 => by simp [serSum_zero]
  | n + 1 => by
    rw [← add_assoc, serSum_succ, serSum_succ, serSum_add X k m n, pow_add, add_assoc k m n]; ring

theorem serSum_bounds (h : GenOk δ P₀ next Rep a) {X : ℝ} (h0 : 0 ≤ X) (h1 : X ≤ 1) (k n : Nat) :
    0 ≤ serSum a X k n ∧ serSum a X k n ≤ 2 := by
  constructor
  · exact Finset.sum_nonneg fun i _ => mul_nonneg (h.pos _).le (pow_nonneg h0 _)
  · refine le_trans (Finset.sum_le_sum (g := fun i => (1 / 2 : ℝ) ^ i) fun i _ => ?_) (sum_geometric_two_le n)
    have h2 := h.decay k i
    have h3 := h.le_one k
    have h4 : X ^ i ≤ 1 := pow_le_one₀ h0 h1
    have h5 : a (k + i) ≤ (1 / 2) ^ i := by
      refine le_trans h2 ?_
      rw [one_div, inv_pow, div_eq_mul_inv]
      exact mul_le_of_le_one_left (by positivity) h3
    calc a (k + i) * X ^ i ≤ a (k + i) * 1 := mul_le_mul_of_nonneg_left h4 (h.pos _).le
      _ ≤ _ := by rw [mul_one]; exact h5

theorem serSum_ge (h : GenOk δ P₀ next Rep a) {X : ℝ} (h0 : 0 ≤ X) (k n : Nat) (hn : 0 < n) :
    a k ≤ serSum a X k n := by
  obtain ⟨m, rfl⟩ : ∃ m, n = m + 1 := ⟨n - 1, by omega⟩
  rw [serSum_cons]
  have : 0 ≤ serSum a X (k + 1) m := Finset.sum_nonneg fun i _ => mul_nonneg (h.pos _).le (pow_nonneg h0 _)
  have := mul_nonneg this h0
  linarith

/-- The cached coefficients, newest first, down to `a (k + 1)`. -/
def CoefList (δ : ℝ) (P ℓ N : Nat) (a : Nat → ℝ) (k : Nat) : List Num → Prop
  | [] => True
  | c :: cs => Lo δ P ℓ N (a (k + cs.length + 1)) c ∧ CoefList δ P ℓ N a k cs

theorem CoefList.mono (hd : DOk δ) {P ℓ N M k : Nat} {a : Nat → ℝ} (hN : N ≤ M) : ∀ {cs : List Num},
    CoefList δ P ℓ N a k cs → CoefList δ P ℓ M a k cs
  | [], _ => trivial
  | _ :: _, h => ⟨h.1.mono hd hN le_rfl, CoefList.mono hd hN h.2⟩

/-- The evaluation loop. -/
theorem hornerEval_spec (hd : DOk δ) (hg : GenOk δ P₀ next Rep a) {p : Nat} (hp : PrecOk δ p P) {xs : Num} {X : ℝ}
    {ℓs Ns ℓc Nc k : Nat} (hxs : Lo δ P ℓs Ns X xs) (hX1 : X ≤ 1) (hℓ : ℓc + ℓs ≤ 2 ^ 31 - 16) :
    ∀ (cs : List Num) (acc : Num) (m Na Pa : Nat), CoefList δ P₀ ℓc Nc a k cs → 0 < m →
      Nc ≤ Na → Na + (Ns + 2) * cs.length ≤ 2 ^ 90 → Lo δ Pa ℓc Na (serSum a X (k + cs.length + 1) m) acc →
      ∃ v, hornerEval p xs cs acc = .ok v ∧
        ∃ Pv, Lo δ Pv ℓc (Na + (Ns + 2) * cs.length) (serSum a X (k + 1) (m + cs.length)) v
  | [], acc, m, Na, Pa, _, _, _, _, h => ⟨acc, rfl, Pa, by simpa using h⟩
  | c :: cs, acc, m, Na, Pa, hc, hm, hNc, hN, h => by
    rw [List.length_cons] at h hN
    have hX0 := hxs.Xpos
    have e1 : (Ns + 2) * (cs.length + 1) = (Ns + 2) * cs.length + (Ns + 2) := by ring
    rw [e1] at hN
    have hb := serSum_bounds hg hX0.le hX1 (k + (cs.length + 1) + 1) m
    obtain ⟨t, t1, t2, -⟩ := h.mul hd hp hxs hℓ (by omega) (by
      have := mul_le_mul hb.2 hX1 hX0.le (by norm_num)
      norm_num at this ⊢; linarith)
    have hb2 := serSum_bounds hg hX0.le hX1 (k + cs.length + 1) (m + 1)
    have es := serSum_cons (a := a) X (k + cs.length + 1) m
    rw [show k + cs.length + 1 + 1 = k + (cs.length + 1) + 1 by omega] at es
    obtain ⟨v, v1, v2, -⟩ := t2.add hd hp hc.1 hℓ (by omega) (by
      rw [← es]; norm_num; linarith)
    rw [← es] at v2
    have v3 : Lo δ P ℓc (Na + Ns + 2) (serSum a X (k + cs.length + 1) (m + 1)) v := by
      have v4 := v2.mono hd (M := Na + Ns + 2) (by omega) le_rfl
      refine v4.relb (le_trans hc.1.lb ?_)
      exact serSum_ge hg hX0.le _ _ (by omega)
    unfold hornerEval
    rw [t1]
    dsimp only
    rw [v1]
    dsimp only
    obtain ⟨w, w1, Pw, w2⟩ := hornerEval_spec hd hg hp hxs hX1 hℓ cs v (m + 1) (Na + Ns + 2) P hc.2 (by omega) (by omega)
      (by omega) v3
    refine ⟨w, w1, Pw, ?_⟩
    rw [List.length_cons, e1]
    rw [show m + (cs.length + 1) = m + 1 + cs.length by omega,
      show Na + ((Ns + 2) * cs.length + (Ns + 2)) = Na + Ns + 2 + (Ns + 2) * cs.length by omega]
    exact w2

end AF
