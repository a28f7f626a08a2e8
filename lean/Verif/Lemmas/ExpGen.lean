import Verif.Lemmas.ExpRect
import Verif.Lemmas.DecFrom
import Mathlib.Data.Nat.Factorial.Basic
/-!
# The coefficients of the series of the hyperbolic sine
-/

namespace AF

set_option linter.unusedSectionVars false

variable {δ : ℝ} {P₀ : Nat}

/-- The coefficients `1 / (2k+1)!`. -/
noncomputable def sinhCoef (k : Nat) : ℝ := 1 / ((2 * k + 1).factorial : ℝ)

/-- The generator has reached `1 / n!`. -/
structure SinhHalf (δ : ℝ) (P₀ ℓ N n : Nat) (g : SinhGen) : Prop where
  oneWf : g.one.WF
  oneLen : 64 * g.one.m.m.length = P₀
  oneEq : (g.one.toK : ℝ) = 1
  incWf : g.inc.WF
  incLen : 64 * g.inc.m.m.length = 64
  incEq : (g.inc.toK : ℝ) = n
  fct : Lo δ P₀ ℓ N (1 / (n.factorial : ℝ)) g.fct

def SinhRep (δ : ℝ) (P₀ ℓ k : Nat) (g : SinhGen) : Prop := SinhHalf δ P₀ ℓ (4 * k) (2 * k + 1) g

theorem sinhHalf_spec (hd : DOk δ) (hp : PrecOk δ P₀ P₀) {ℓ N n : Nat} {g : SinhGen} (h : SinhHalf δ P₀ ℓ N n g)
    (hn : n < 2 ^ 40) (hℓ : ℓ ≤ 2 ^ 31 - 60) (hN : N ≤ 2 ^ 60) :
    ∃ g', sinhHalf g = .ok g' ∧ SinhHalf δ P₀ (ℓ + 40) (N + 2) (n + 1) g' := by
  unfold sinhHalf
  have m1 : g.inc.m.maxBitLen = 64 := by
    have := h.incLen
    unfold Mantissa.maxBitLen; omega
  have m2 : g.one.m.maxBitLen = P₀ := by
    have := h.oneLen
    unfold Mantissa.maxBitLen; omega
  rw [m1, m2]
  have ha := addSub_spec (K := ℝ) h.incWf ONE_WF (p := 64) (by norm_num) (by decide) true .none
  rw [if_pos rfl, ONE_toK, h.incEq] at ha
  obtain ⟨w, w1, w2, w3, w4, -⟩ := fromWord_spec (K := ℝ) (d := n + 1) (p := 64) (by unfold B; omega) (by norm_num)
    (by unfold PMAX; norm_num)
  rw [show (n : ℝ) + 1 = w.toK by rw [w4]; push_cast; ring, show roundP 64 = 64 by decide] at ha
  obtain ⟨i, i1, i2, i3, i4, -, -⟩ := Delivers.rep w2 (by norm_num) (by rw [w3]; decide) ha
  have i5 : g.inc.add Num.ONE 64 .none = .ok i := i1
  rw [i5]
  dsimp only
  rw [w4] at i4
  have hone : Lo δ P₀ 0 0 1 g.one := Lo.exact h.oneWf h.oneLen h.oneEq (by norm_num)
  have hD : ((n + 1 : ℕ) : ℝ) ≤ 2 ^ 40 := by exact_mod_cast hn
  have hD1 : (1 : ℝ) ≤ ((n + 1 : ℕ) : ℝ) := by exact_mod_cast Nat.succ_pos n
  obtain ⟨q, q1, q2, -⟩ := hone.div hd hp i2 i4 hD1 hD (by norm_num) (by norm_num) (by norm_num)
  rw [q1]
  dsimp only
  have hf0 : (1 : ℝ) ≤ (n.factorial : ℝ) := by exact_mod_cast Nat.factorial_pos n
  have hf1 : 1 / (n.factorial : ℝ) ≤ 1 := by rw [div_le_one (by linarith)]; exact hf0
  have hq1 : 1 / ((n + 1 : ℕ) : ℝ) ≤ 1 := by rw [div_le_one (by linarith)]; exact hD1
  have hq0 : 0 ≤ 1 / ((n + 1 : ℕ) : ℝ) := by positivity
  obtain ⟨f, f1, f2, -⟩ := h.fct.mul hd hp q2 (by omega) (by omega) (by
    have := mul_le_mul hf1 hq1 hq0 (by norm_num)
    norm_num at this ⊢; linarith)
  rw [f1]
  refine ⟨_, rfl, h.oneWf, h.oneLen, h.oneEq, i2, i3, i4, ?_⟩
  have e : 1 / ((n + 1).factorial : ℝ) = 1 / (n.factorial : ℝ) * (1 / ((n + 1 : ℕ) : ℝ)) := by
    rw [Nat.factorial_succ]; push_cast
    rw [div_mul_div_comm, one_mul, mul_comm (n.factorial : ℝ)]
  rw [e]
  exact f2.mono hd (by omega) (by omega)

theorem sinhCoef_pos (k : Nat) : 0 < sinhCoef k := by
  unfold sinhCoef
  have : (0 : ℝ) < ((2 * k + 1).factorial : ℝ) := by exact_mod_cast Nat.factorial_pos _
  positivity

theorem sinhCoef_zero : sinhCoef 0 = 1 := by unfold sinhCoef; norm_num

theorem sinhCoef_half (k : Nat) : sinhCoef (k + 1) ≤ sinhCoef k / 6 := by
  unfold sinhCoef
  have h0 : (0 : ℝ) < ((2 * k + 1).factorial : ℝ) := by exact_mod_cast Nat.factorial_pos _
  rw [show 2 * (k + 1) + 1 = (2 * k + 1 + 1) + 1 by ring, Nat.factorial_succ, Nat.factorial_succ, div_div]
  apply one_div_le_one_div_of_le (by positivity)
  push_cast
  have hk : (0 : ℝ) ≤ k := Nat.cast_nonneg k
  have : (6 : ℝ) ≤ (2 * k + 1 + 1 + 1) * (2 * k + 1 + 1) := by nlinarith
  calc ((2 * k + 1).factorial : ℝ) * 6 ≤ ((2 * k + 1).factorial : ℝ) * ((2 * k + 1 + 1 + 1) * (2 * k + 1 + 1)) :=
        mul_le_mul_of_nonneg_left this h0.le
    _ = _ := by ring

theorem sinh_gen (hd : DOk δ) (hp : PrecOk δ P₀ P₀) : GenOk δ P₀ sinhNext (SinhRep δ P₀) sinhCoef where
  next := by
    intro ℓ k g h hℓ hk
    obtain ⟨g1, a1, a2⟩ := sinhHalf_spec hd hp h (by omega) (by omega) (by omega)
    obtain ⟨g2, b1, b2⟩ := sinhHalf_spec hd hp a2 (by omega) (by omega) (by omega)
    refine ⟨g2.fct, g2, ?_, b2, b2.fct⟩
    unfold sinhNext
    rw [a1]
    dsimp only
    rw [b1]
  relb := by
    intro ℓ ℓ' k g h hl
    exact ⟨h.oneWf, h.oneLen, h.oneEq, h.incWf, h.incLen, h.incEq, h.fct.relb hl⟩
  pos := sinhCoef_pos
  half := by
    intro k
    have := sinhCoef_half k
    have := sinhCoef_pos k
    linarith
  one := sinhCoef_zero.le

theorem sinhGenNew_spec {p : Nat} (hp : PrecOk δ p P₀) (hpm : p < PMAX) :
    ∃ g, sinhGenNew p = .ok g ∧ SinhRep δ P₀ 0 0 g ∧ g.cost = (calcMulCost p + calcAddCost p + 64) * 2 := by
  unfold sinhGenNew
  obtain ⟨i, i1, i2, i3, i4, -⟩ := fromWord_spec (K := ℝ) (d := 1) (p := 1) (by unfold B; norm_num) (by norm_num)
    (by unfold PMAX; norm_num)
  obtain ⟨o, o1, o2, o3, o4, -⟩ := fromWord_spec (K := ℝ) (d := 1) (p := p) (by unfold B; norm_num) hp.pos hpm
  have hv := roundP_valid hp.pos (show roundP p < PMAX by rw [hp.eq]; exact hp.lt)
  rw [hv.2, hp.eq] at o3
  rw [i1]
  dsimp only
  rw [o1]
  have m1 : i.m.maxBitLen = 64 := by
    have : precBits 1 = 64 := by decide
    unfold Mantissa.maxBitLen; omega
  have m2 : 64 * i.m.m.length = 64 := by rw [i3]; decide
  rw [Nat.cast_one] at i4 o4
  refine ⟨_, rfl, ⟨o2, o3, o4, i2, m2, by rw [i4]; norm_num, ?_⟩, ?_⟩
  · exact Lo.exact o2 o3 (by rw [o4]; norm_num) (by norm_num)
  · dsimp only
    rw [m1]
    rfl

end AF
