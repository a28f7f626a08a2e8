import Verif.Lemmas.TrigRect
/-!
# The coefficients of the series of sine and cosine
-/

namespace AF

set_option linter.unusedSectionVars false

variable {δ : ℝ} {P₀ : Nat}

/-- The coefficients of the sine for `s = 1`, of the cosine for `s = 0`. -/
noncomputable def trigCoef (s k : Nat) : ℝ := (-1) ^ k / ((2 * k + s).factorial : ℝ)

theorem trigCoef_abs (s k : Nat) : |trigCoef s k| = 1 / ((2 * k + s).factorial : ℝ) := by
  unfold trigCoef
  rw [abs_div, abs_pow, abs_neg, abs_one, one_pow, abs_of_pos]
  exact_mod_cast Nat.factorial_pos _

/-- The generator has reached the value `c` and the number `n`. -/
structure TrigHalf (δ : ℝ) (P₀ ℓ N n : Nat) (c : ℝ) (g : SinhGen) : Prop where
  oneWf : g.one.WF
  oneLen : 64 * g.one.m.m.length = P₀
  oneEq : (g.one.toK : ℝ) = 1
  incWf : g.inc.WF
  incLen : 64 * g.inc.m.m.length = 64
  incEq : (g.inc.toK : ℝ) = n
  fct : Rl δ P₀ ℓ N c g.fct

theorem trigHalf_spec (hd : DOk δ) (hp : PrecOk δ P₀ P₀) {ℓ N n : Nat} {c : ℝ} {g : SinhGen} (h : TrigHalf δ P₀ ℓ N n c g) (hc : |c| ≤ 1)
    (hn : n < 2 ^ 40) (hℓ : ℓ ≤ 2 ^ 31 - 80) (hN : N ≤ 2 ^ 36) :
    ∃ g', sinhHalf g = .ok g' ∧ TrigHalf δ P₀ (ℓ + 40) (N + 4) (n + 1) (c * (1 / ((n + 1 : ℕ) : ℝ))) g' := by
  unfold sinhHalf
  have m1 : g.inc.m.maxBitLen = 64 := by
    have := h.incLen
    unfold Mantissa.maxBitLen; omega
  have m2 : g.one.m.maxBitLen = P₀ := by
    have := h.oneLen
    unfold Mantissa.maxBitLen; omega
  rw [m1, m2]
  have ha := addSub_spec (K := ℝ) h.incWf ONE_WF (p := 64) (by norm_num) (by decide) true .none
  rw [if_pos rfl, ONE_toK, h.incEq] at ha
  obtain ⟨w, w1, w2, w3, w4, -⟩ := fromWord_spec (K := ℝ) (d := n + 1) (p := 64) (by unfold B; omega) (by norm_num)
    (by unfold PMAX; norm_num)
  rw [show (n : ℝ) + 1 = w.toK by rw [w4]; push_cast; ring, show roundP 64 = 64 by decide] at ha
  obtain ⟨i, i1, i2, i3, i4, -, -⟩ := Delivers.rep w2 (by norm_num) (by rw [w3]; decide) ha
  have i5 : g.inc.add Num.ONE 64 .none = .ok i := i1
  rw [i5]
  dsimp only
  rw [w4] at i4
  have hone : Lo δ P₀ 0 0 1 g.one := Lo.exact h.oneWf h.oneLen h.oneEq (by norm_num)
  have hD : ((n + 1 : ℕ) : ℝ) ≤ 2 ^ 40 := by exact_mod_cast hn
  have hD1 : (1 : ℝ) ≤ ((n + 1 : ℕ) : ℝ) := by exact_mod_cast Nat.succ_pos n
  obtain ⟨q, q1, q2, -⟩ := hone.div hd hp i2 i4 hD1 hD (by norm_num) (by norm_num) (by norm_num)
  rw [q1]
  dsimp only
  have hq1 : 1 / ((n + 1 : ℕ) : ℝ) ≤ 1 := by rw [div_le_one (by linarith)]; exact hD1
  have hq0 : 0 < 1 / ((n + 1 : ℕ) : ℝ) := by positivity
  have hq3 : |c * (1 / ((n + 1 : ℕ) : ℝ))| ≤ 1 := by
    rw [abs_mul, abs_of_pos hq0]
    exact mul_le_one₀ hc hq0.le hq1
  obtain ⟨f, f1, f2⟩ := h.fct.mul hd hp (Rl.of_lo hd q2) (ℓ := ℓ + 40) (by
      rw [abs_mul]
      refine le_trans (le_of_eq ?_) (mul_le_mul h.fct.lb (Rl.of_lo hd q2).lb (by positivity) (abs_nonneg _))
      rw [← zpow_add₀ (by norm_num)]; congr 1; push_cast; ring) (by omega) (by omega) (by omega) (le_trans hq3 (by norm_num))
  rw [f1]
  exact ⟨_, rfl, h.oneWf, h.oneLen, h.oneEq, i2, i3, i4, f2.mono hd (by omega) le_rfl⟩

/-- The generator has delivered the coefficient `k`. -/
def TrigRep (δ : ℝ) (P₀ s ℓ k : Nat) (g : TrigGen) : Prop :=
  TrigHalf δ P₀ ℓ (8 * k) (2 * k + s) (trigCoef s k) g.g ∧ g.pos = decide (k % 2 = 0)

theorem Rl.setSign (hd : DOk δ) {P ℓ N : Nat} {Y Y' : ℝ} {v : Num} (h : Rl δ P ℓ N Y v) (hN : N ≤ 2 ^ 60) {s : Sign}
    (hY : Y' = s.toK * |Y|) : Rl δ P ℓ N Y' (v.setSign s) := by
  obtain ⟨θ, h1, h2⟩ := h.err
  have h3 := (abs_le.1 (rel_half hd hN h2)).1
  have e : |Y'| = |Y| := by
    rw [hY, abs_mul, abs_abs]
    cases s <;> simp [Sign.toK]
  refine ⟨⟨h.wf.wf, h.wf.bits, h.wf.emin, h.wf.emax, h.wf.norm, h.wf.sized⟩, h.len, ⟨θ, ?_, h2⟩, by rw [e]; exact h.lb⟩
  have e2 : ((v.setSign s).toK : ℝ) = s.toK * |(v.toK : ℝ)| := setSign_toK s
  rw [e2, h1, hY, abs_mul, abs_of_pos (a := 1 + θ) (by norm_num at h3; linarith)]
  ring

theorem trigCoef_le (s k : Nat) : |trigCoef s k| ≤ 1 := by
  rw [trigCoef_abs, div_le_one (by exact_mod_cast Nat.factorial_pos _)]
  exact_mod_cast Nat.factorial_pos _

theorem trigCoef_step (s k : Nat) :
    |trigCoef s k * (1 / ((2 * k + s + 1 : ℕ) : ℝ)) * (1 / ((2 * k + s + 1 + 1 : ℕ) : ℝ))| = |trigCoef s (k + 1)| := by
  rw [abs_mul, abs_mul, trigCoef_abs, trigCoef_abs, abs_of_pos (by positivity), abs_of_pos (by positivity),
    show 2 * (k + 1) + s = 2 * k + s + 1 + 1 by ring, Nat.factorial_succ, Nat.factorial_succ]
  push_cast
  have : ((2 * k + s).factorial : ℝ) ≠ 0 := by exact_mod_cast (Nat.factorial_pos _).ne'
  have h1 : (2 * (k : ℝ) + s + 1) ≠ 0 := by positivity
  have h2 : (2 * (k : ℝ) + s + 1 + 1) ≠ 0 := by positivity
  field_simp

theorem trigCoef_half (s k : Nat) : |trigCoef s (k + 1)| ≤ |trigCoef s k| / 2 := by
  rw [trigCoef_abs, trigCoef_abs, show 2 * (k + 1) + s = 2 * k + s + 1 + 1 by ring, Nat.factorial_succ, Nat.factorial_succ, div_div]
  have h0 : (0 : ℝ) < ((2 * k + s).factorial : ℝ) := by exact_mod_cast Nat.factorial_pos _
  apply one_div_le_one_div_of_le (by positivity)
  push_cast
  have hk : (0 : ℝ) ≤ k := Nat.cast_nonneg k
  have hs : (0 : ℝ) ≤ s := Nat.cast_nonneg s
  have : (2 : ℝ) ≤ (2 * k + s + 1 + 1) * (2 * k + s + 1) := by nlinarith [mul_nonneg hk hs]
  calc ((2 * k + s).factorial : ℝ) * 2 ≤ ((2 * k + s).factorial : ℝ) * ((2 * k + s + 1 + 1) * (2 * k + s + 1)) :=
        mul_le_mul_of_nonneg_left this h0.le
    _ = _ := by ring

theorem trig_gen (hd : DOk δ) (hp : PrecOk δ P₀ P₀) {s : Nat} (hs : s ≤ 1) : GenRl δ P₀ trigNext (TrigRep δ P₀ s) (trigCoef s) where
  next := by
    intro ℓ k g h hℓ hk
    obtain ⟨h1, h2⟩ := h
    obtain ⟨g1, a1, a2⟩ := trigHalf_spec hd hp h1 (trigCoef_le s k) (by omega) (by omega) (by omega)
    have c1 : |trigCoef s k * (1 / ((2 * k + s + 1 : ℕ) : ℝ))| ≤ 1 := by
      rw [abs_mul]
      refine mul_le_one₀ (trigCoef_le s k) (abs_nonneg _) ?_
      rw [abs_of_pos (by positivity), div_le_one (by positivity)]
      exact_mod_cast Nat.succ_pos _
    obtain ⟨g2, b1, b2⟩ := trigHalf_spec hd hp a2 c1 (by omega) (by omega) (by omega)
    have hb : (!g.pos) = decide ((k + 1) % 2 = 0) := by
      rw [h2]
      rcases Nat.mod_two_eq_zero_or_one k with e | e
      · have : (k + 1) % 2 = 1 := by omega
        simp [e, this]
      · have : (k + 1) % 2 = 0 := by omega
        simp [e, this]
    have hc : trigCoef s (k + 1) = (if (!g.pos) = true then Sign.pos else Sign.neg).toK *
        |trigCoef s k * (1 / ((2 * k + s + 1 : ℕ) : ℝ)) * (1 / ((2 * k + s + 1 + 1 : ℕ) : ℝ))| := by
      rw [trigCoef_step, trigCoef_abs, hb]
      unfold trigCoef
      rcases Nat.mod_two_eq_zero_or_one (k + 1) with e | e
      · have he : Even (k + 1) := Nat.even_iff.2 e
        rw [he.neg_one_pow]
        simp [e, Sign.toK]
      · have he : Odd (k + 1) := Nat.odd_iff.2 e
        rw [he.neg_one_pow]
        simp [e, Sign.toK]
        ring
    have hf := (b2.fct.setSign hd (by omega) hc).mono hd (M := 8 * (k + 1)) (ℓ' := ℓ + 80) (by omega) (by omega)
    refine ⟨_, ⟨{ g2 with fct := g2.fct.setSign (if (!g.pos) = true then Sign.pos else Sign.neg) }, !g.pos⟩, ?_, ?_, hf⟩
    · unfold trigNext
      rw [a1]
      dsimp only
      rw [b1]
    · refine ⟨⟨b2.oneWf, b2.oneLen, b2.oneEq, b2.incWf, b2.incLen, ?_, hf⟩, hb⟩
      rw [b2.incEq]
      push_cast; ring
  relb := by
    intro ℓ ℓ' k g h hl
    exact ⟨⟨h.1.oneWf, h.1.oneLen, h.1.oneEq, h.1.incWf, h.1.incLen, h.1.incEq, h.1.fct.relb hl⟩, h.2⟩
  half := trigCoef_half s
  one := trigCoef_le s 0

theorem Rl.mono_zero {v : Num} (h1 : v.WF) (h2 : 64 * v.m.m.length = P₀) (h3 : (v.toK : ℝ) = 1) : Rl δ P₀ 0 0 v.toK v :=
  ⟨h1, h2, ⟨0, by ring, by simp⟩, by rw [h3]; simp⟩

theorem sinGenNew_spec {p : Nat} (hp : PrecOk δ p P₀) (hpm : p < PMAX) :
    ∃ g, sinGenNew p = .ok g ∧ TrigRep δ P₀ 1 0 0 g ∧ g.g.cost = (calcMulCost p + calcAddCost p + 64) * 2 := by
  unfold sinGenNew
  obtain ⟨i, i1, i2, i3, i4, -⟩ := fromWord_spec (K := ℝ) (d := 1) (p := 1) (by unfold B; norm_num) (by norm_num)
    (by unfold PMAX; norm_num)
  obtain ⟨o, o1, o2, o3, o4, -⟩ := fromWord_spec (K := ℝ) (d := 1) (p := p) (by unfold B; norm_num) hp.pos hpm
  have hv := roundP_valid hp.pos (show roundP p < PMAX by rw [hp.eq]; exact hp.lt)
  rw [hv.2, hp.eq] at o3
  rw [i1]
  dsimp only
  rw [o1]
  have m1 : i.m.maxBitLen = 64 := by
    have : precBits 1 = 64 := by decide
    unfold Mantissa.maxBitLen; omega
  have m2 : 64 * i.m.m.length = 64 := by rw [i3]; decide
  rw [Nat.cast_one] at i4 o4
  refine ⟨_, rfl, ⟨⟨o2, o3, o4, i2, m2, by rw [i4]; norm_num, ?_⟩, rfl⟩, ?_⟩
  · have e : trigCoef 1 0 = (o.toK : ℝ) := by rw [o4]; unfold trigCoef; norm_num
    rw [e]
    exact Rl.mono_zero o2 o3 o4
  · dsimp only
    rw [m1]
    rfl

theorem cosGenNew_spec {p : Nat} (hp : PrecOk δ p P₀) (hpm : p < PMAX) :
    ∃ g, cosGenNew p = .ok g ∧ TrigRep δ P₀ 0 0 0 g ∧ g.g.cost = (calcMulCost p + calcAddCost p + 64) * 2 := by
  unfold cosGenNew
  obtain ⟨i, i1, i2, i3, i4, -⟩ := new_spec (K := ℝ) (p := 1) (by unfold PMAX; norm_num)
  obtain ⟨o, o1, o2, o3, o4, -⟩ := fromWord_spec (K := ℝ) (d := 1) (p := p) (by unfold B; norm_num) hp.pos hpm
  have hv := roundP_valid hp.pos (show roundP p < PMAX by rw [hp.eq]; exact hp.lt)
  rw [hv.2, hp.eq] at o3
  rw [i1]
  dsimp only
  rw [o1]
  have m2 : 64 * i.m.m.length = 64 := by rw [i3]; decide
  have m1 : i.m.maxBitLen = 64 := by
    unfold Mantissa.maxBitLen; omega
  rw [Nat.cast_one] at o4
  refine ⟨_, rfl, ⟨⟨o2, o3, o4, i2, m2, by rw [i4]; norm_num, ?_⟩, rfl⟩, ?_⟩
  · have e : trigCoef 0 0 = (o.toK : ℝ) := by rw [o4]; unfold trigCoef; norm_num
    rw [e]
    exact Rl.mono_zero o2 o3 o4
  · dsimp only
    rw [m1]
    rfl

end AF
