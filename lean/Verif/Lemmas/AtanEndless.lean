import Verif.Lemmas.AtanFun
/-!
# A series that does not end
-/

namespace AF

open Num

/-- What the generator of the coefficients keeps for ever: the magnitude stops growing at `2^65`. -/
structure AtanBig (g : AtanGen) : Prop where
  wf : g.f.WF
  len : g.f.m.m.length = 1
  lo : 1 ≤ |(g.f.toK : ℝ)|
  hi : |(g.f.toK : ℝ)| ≤ 2 ^ 65

/-- A number of 64 bits above `2^65` is at least `2^65 + 4`. -/
theorem gap_65 {v : Num} (hv : v.WF) (hl : v.m.m.length = 1) (h : (2 : ℝ) ^ 65 < |(v.toK : ℝ)|) : (2 : ℝ) ^ 65 + 4 ≤ |(v.toK : ℝ)| := by
  have he : 65 < v.e := hv.e_of_abs (k := 65) (by norm_num at h ⊢; exact h.le)
  rw [Num.abs_val, hl] at h ⊢
  obtain ⟨j, hj⟩ : ∃ j : ℕ, v.e - ((64 * 1 : ℕ) : ℤ) = j + 2 := ⟨(v.e - 66).toNat, by omega⟩
  rw [hj] at h ⊢
  have e : (val v.m.m : ℝ) * 2 ^ ((j : ℤ) + 2) = ((val v.m.m * 2 ^ j * 4 : ℕ) : ℝ) := by
    rw [zpow_add₀ (by norm_num), zpow_natCast]; push_cast; norm_num; ring
  rw [e] at h ⊢
  have h1 : 2 ^ 65 < val v.m.m * 2 ^ j * 4 := by exact_mod_cast h
  have h2 : 2 ^ 65 + 4 ≤ val v.m.m * 2 ^ j * 4 := by omega
  exact_mod_cast h2

theorem gen_step {Y : ℝ} {ix : Bool} {r : Except Err Num} (h : Delivers .none 64 Y ix r) (h1 : 3 ≤ |Y|) (h2 : |Y| ≤ 2 ^ 65 + 2) :
    ∃ v, r = .ok v ∧ v.WF ∧ v.m.m.length = 1 ∧ 1 ≤ |(v.toK : ℝ)| ∧ |(v.toK : ℝ)| ≤ 2 ^ 65 := by
  have hlo : (2 : ℝ) ^ (EMIN - 1) ≤ |Y| := le_trans (zpow_le_one_of_nonpos₀ (by norm_num) (by unfold EMIN; omega)) (by linarith)
  cases r with
  | ok v =>
    obtain ⟨g1, g2, g3⟩ := (h.normal hlo).none_rel
    have hl : v.m.m.length = 1 := by have := h.2.1; omega
    refine ⟨v, rfl, h.1, hl, ?_, ?_⟩
    · have : (2 : ℝ) ^ (1 - ((64 : ℕ) : ℤ)) ≤ 1 / 2 := by norm_num
      generalize (2 : ℝ) ^ (1 - ((64 : ℕ) : ℤ)) = u at g2 this
      nlinarith
    · by_contra hc
      push Not at hc
      have := gap_65 h.1 hl hc
      linarith
  | error e =>
    exfalso
    obtain ⟨_, t, h3, h4⟩ := h
    obtain ⟨g1, -, -⟩ := h3.none_rel
    have : (2 : ℝ) ^ (66 : ℤ) ≤ 2 ^ EMAX := zpow_le_zpow_right₀ (by norm_num) (by unfold EMAX; norm_num)
    have h5 : (2 : ℝ) ^ (66 : ℤ) = 2 * 2 ^ 65 := by norm_num
    have h6 : (2 : ℝ) ^ 65 = 36893488147419103232 := by norm_num
    linarith

theorem atanNext_big {g : AtanGen} (h : AtanBig g) : ∃ c g', atanNext g = .ok (c, g') ∧ AtanBig g' ∧ c = g'.f := by
  have m1 : g.f.m.maxBitLen = 64 := by unfold Mantissa.maxBitLen; rw [h.len]
  have hr : roundP 64 = 64 := by decide
  have key : ∃ i, (if g.f.isPositive then g.f.add Num.TWO 64 .none else g.f.sub Num.TWO 64 .none) = .ok i ∧ i.WF ∧ i.m.m.length = 1 ∧
      1 ≤ |(i.toK : ℝ)| ∧ |(i.toK : ℝ)| ≤ 2 ^ 65 := by
    have hab := Num.toK_eq (K := ℝ) g.f
    have h1 := h.lo
    have h2 := h.hi
    by_cases hs : g.f.isPositive = true
    · rw [if_pos hs]
      have hs' : g.f.s = .pos := by
        unfold Num.isPositive at hs
        cases hf : g.f.s
        · rw [hf] at hs; cases hs
        · rfl
      rw [hs', Sign.toK, one_mul] at hab
      have ha := addSub_spec (K := ℝ) h.wf TWO_WF (p := 64) (by norm_num) (by decide) true .none
      rw [if_pos rfl, TWO_toK, hr] at ha
      have e : |(g.f.toK : ℝ) + 2| = |(g.f.toK : ℝ)| + 2 := by rw [abs_of_pos (by linarith), ← hab]
      exact gen_step ha (by rw [e]; linarith) (by rw [e]; linarith)
    · rw [if_neg hs]
      have hs' : g.f.s = .neg := by
        unfold Num.isPositive at hs
        cases hf : g.f.s
        · rfl
        · rw [hf] at hs; exact absurd rfl hs
      rw [hs', Sign.toK] at hab
      have ha := addSub_spec (K := ℝ) h.wf TWO_WF (p := 64) (by norm_num) (by decide) false .none
      rw [if_neg (by simp), TWO_toK, hr] at ha
      have e : |(g.f.toK : ℝ) + -2| = |(g.f.toK : ℝ)| + 2 := by rw [abs_of_neg (by linarith)]; linarith
      exact gen_step ha (by rw [e]; linarith) (by rw [e]; linarith)
  obtain ⟨i, i1, i2, i3, i4, i5⟩ := key
  unfold atanNext
  dsimp only
  rw [m1, i1]
  refine ⟨_, _, rfl, ⟨?_, ?_, ?_, ?_⟩, rfl⟩ <;> dsimp only <;> rw [invSign_eq_neg]
  · exact i2.neg
  · exact i3
  · rw [Num.toK_neg, abs_neg]; exact i4
  · rw [Num.toK_neg, abs_neg]; exact i5

theorem setSign_isZero (x : Num) (s : Sign) : (x.setSign s).isZero = x.isZero := rfl

theorem zero_isZero_atan (p : Nat) (s : Sign) (ix : Bool) : (Num.zero p s ix).isZero = true := by
  simp [Num.zero, Num.isZero, Mantissa.new, Mantissa.isZero]

/-- Once a power is zero and the exponent of the sum negative, the loop of the series runs on through any amount of fuel. -/
theorem linearLoop_endless {pw : Nat} (hp : 0 < pw) (hpm : 64 * pw < PMAX) {xs : Num} :
    ∀ (f : Nat) (acc xp : Num) (g : AtanGen), AtanBig g → xp.isZero = true → acc.WF → acc.m.m.length = pw → acc.isZero = false →
      EMIN < acc.e → acc.e ≤ 0 → linearLoop atanNext true (64 * pw) xs f acc xp g = .error .panic := by
  intro f
  induction f with
  | zero => intro acc xp g _ _ _ _ _ _ _; rfl
  | succ f ih =>
    intro acc xp g hg hx ha hl hz he1 he2
    have hPM : PMAX = 2 ^ 62 - 2 ^ 31 - 1 := rfl
    have hrp : roundP (64 * pw) = 64 * pw := by unfold roundP USIZE_MAX; omega
    obtain ⟨c, g', n1, n2, n3⟩ := atanNext_big hg
    have hcz : c.isZero = false := by
      rw [n3, ← Bool.not_eq_true, ← n2.wf.toK_eq_zero (K := ℝ)]
      exact abs_pos.1 (lt_of_lt_of_le one_pos n2.lo)
    obtain ⟨s, hd⟩ : ∃ s, xp.div c (64 * pw) .none = .ok ((zero (64 * pw) .pos false).setSign s) := by
      unfold Num.div
      rw [hcz, if_neg Bool.false_ne_true, hrp]
      dsimp only
      rw [if_neg (by omega), if_pos hx]
      exact ⟨_, rfl⟩
    obtain ⟨s', hm⟩ : ∃ s, xp.mul xs (64 * pw) .none = .ok ((zero (64 * pw) .pos false).setSign s) := by
      unfold Num.mul Num.mulGeneral
      rw [hrp]
      dsimp only
      rw [if_neg (by omega), if_pos (by rw [hx]; rfl)]
      exact ⟨_, rfl⟩
    have hzw := zero_WF (p := 64 * pw) (by unfold wordLen; omega) s false
    have hzs : ((zero (64 * pw) .pos false).setSign s) = zero (64 * pw) s false := rfl
    have hadd := addSub_spec (K := ℝ) ha hzw (p := 64 * pw) (by omega) (by rw [hrp]; exact hpm) true .none
    rw [if_pos rfl, zero_toK, add_zero, hrp] at hadd
    obtain ⟨v, v1, v2, v3, v4, -, -⟩ := Delivers.rep ha (by omega) (by omega) hadd
    have hvz : v.isZero = false := by
      rw [← Bool.not_eq_true, ← v2.toK_eq_zero (K := ℝ), v4, ha.toK_eq_zero, hz]
      exact Bool.false_ne_true
    have hve : v.e = acc.e := by
      obtain ⟨q, q1, q2, q3, -⟩ := ha.mag (K := ℝ) hz
      obtain ⟨q', q1', q2', q3', -⟩ := v2.mag (K := ℝ) hvz
      rw [v4] at q1' q2'
      have h1 := (zpow_lt_zpow_iff_right₀ (by norm_num : (1 : ℝ) < 2)).1 (lt_of_le_of_lt q1 q2')
      have h2 := (zpow_lt_zpow_iff_right₀ (by norm_num : (1 : ℝ) < 2)).1 (lt_of_le_of_lt q1' q2)
      omega
    have v1' : acc.add (zero (64 * pw) s false) (64 * pw) .none = .ok v := v1
    have hvl : v.m.m.length = pw := by omega
    rw [linearLoop, n1]
    dsimp only
    unfold seriesTerm
    rw [if_pos rfl, hd]
    dsimp only
    rw [hzs, v1']
    dsimp only
    have hze : (zero (64 * pw) s false).e = 0 := rfl
    have hvm : v.m.maxBitLen = 64 * pw := by unfold Mantissa.maxBitLen; rw [hvl]; omega
    rw [hze, hvm, if_neg (by push_cast; omega), hm]
    dsimp only
    exact ih v _ g' n2 (by rw [setSign_isZero, zero_isZero_atan]) v2 hvl hvz (by omega) (by omega)

end AF
