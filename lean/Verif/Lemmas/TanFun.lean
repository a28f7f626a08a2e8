import Verif.Lemmas.TanSeries
import Verif.Lemmas.AtanFun
/-!
# The values of `tan`
-/

namespace AF

open Num

variable {x : Num}

theorem sign_tan (x : Num) : Real.tan (x.toK : ℝ) = x.s.toK * Real.tan |(x.toK : ℝ)| := by
  have h := Num.toK_eq (K := ℝ) x
  cases hs : x.s <;> rw [hs] at h <;> simp only [Sign.toK, one_mul, neg_mul] at h ⊢
  · rw [← Real.tan_neg, ← h]
  · rw [← h]

/-- The tangent of a small angle. -/
theorem tan_cube {X : ℝ} (h0 : 0 < X) (h1 : X ≤ 1 / 4) : X < Real.tan X ∧ Real.tan X - X ≤ X ^ 3 / 2 := by
  have hp := Real.pi_gt_three
  have hlt := Real.lt_tan h0 (by linarith)
  refine ⟨hlt, ?_⟩
  have hc := Real.one_sub_sq_div_two_le_cos (x := X)
  have hX2 : X ^ 2 ≤ 1 / 16 := by
    calc X ^ 2 ≤ (1 / 4) ^ 2 := pow_le_pow_left₀ h0.le h1 2
      _ = _ := by norm_num
  have hc2 : 31 / 32 ≤ Real.cos X := by linarith
  have ht : Real.tan X ≤ 32 / 31 * X := by
    rw [Real.tan_eq_sin_div_cos, div_le_iff₀ (by linarith)]
    have h2 := (Real.sin_lt h0).le
    have h3 := mul_le_mul_of_nonneg_left hc2 (show 0 ≤ 32 / 31 * X by positivity)
    linarith
  have hcu := (arctan_cube (X := Real.tan X) (by linarith) (by linarith)).2
  rw [Real.arctan_tan (by linarith) (by linarith)] at hcu
  have h4 : Real.tan X ^ 3 ≤ (32 / 31 * X) ^ 3 := pow_le_pow_left₀ (by linarith) ht 3
  have h5 : (32 / 31 * X) ^ 3 = (32 / 31) ^ 3 * X ^ 3 := by ring
  have h6 : (0 : ℝ) ≤ X ^ 3 := by positivity
  have h7 : ((32 : ℝ) / 31) ^ 3 ≤ 3 / 2 := by norm_num
  have h8 := mul_le_mul_of_nonneg_right h7 h6
  linarith

theorem tan_small (hx : x.WF) (hz : x.isZero = false) (hlo : EMIN + 2 ≤ x.e) {pw : Nat} (hp : 0 < pw)
    (he : ((max (64 * pw) (64 * x.m.m.length) : ℕ) : ℤ) + 1 < -(x.e * 2 - 1)) (rm : RM) :
    ∃ v, x.smallExp false (64 * pw) rm = .ok v ∧ RoundsFmt rm (64 * pw) (Real.tan x.toK) v.toK ∧
      FunRounded rm (64 * pw) (Real.tan x.toK) v := by
  have hem := hx.emin
  have hE : EMIN = -2 ^ 31 := rfl
  have hEX : EMAX = 2 ^ 31 - 1 := rfl
  have hPM : PMAX = 2 ^ 62 - 2 ^ 31 - 1 := rfl
  obtain ⟨q, q1, q2, q3, -⟩ := hx.mag (K := ℝ) hz
  have hqe : q = x.e := by omega
  rw [hqe] at q1 q2
  obtain ⟨X, hX⟩ : ∃ X, X = |(x.toK : ℝ)| := ⟨_, rfl⟩
  rw [← hX] at q1 q2
  have hX0 : 0 < X := lt_of_lt_of_le (by positivity) q1
  obtain ⟨G, hG⟩ : ∃ G, G = max (64 * pw) (64 * x.m.m.length) := ⟨_, rfl⟩
  rw [← hG] at he
  have hX1 : X ≤ 1 / 4 := by
    refine le_trans q2.le ?_
    rw [show (1 / 4 : ℝ) = 2 ^ (-2 : ℤ) by norm_num]
    exact zpow_le_zpow_right₀ (by norm_num) (by omega)
  obtain ⟨c1, c2⟩ := tan_cube hX0 hX1
  obtain ⟨k, hk⟩ := x.toK_grid (G := G) (by omega)
  have hcube : X ^ 3 / 2 < 2 ^ (x.e - (G : ℤ) - 2) := by
    have h3 : X ^ 3 < ((2 : ℝ) ^ x.e) ^ 3 := pow_lt_pow_left₀ q2 hX0.le (by norm_num)
    have h4 : ((2 : ℝ) ^ x.e) ^ 3 ≤ 2 ^ (x.e - (G : ℤ) - 2 + 1) := by
      rw [← zpow_natCast, ← zpow_mul]
      exact zpow_le_zpow_right₀ (by norm_num) (by push_cast; omega)
    rw [zpow_add_one₀ (by norm_num)] at h4
    linarith
  have hsx : Real.tan (x.toK : ℝ) = x.toK + (corrSign x false).toK * (Real.tan X - X) := by
    have : corrSign x false = x.s := rfl
    rw [this, sign_tan, ← hX]
    have h6 := Num.toK_eq (K := ℝ) x
    rw [← hX] at h6
    rw [h6]
    cases x.s <;> simp only [Sign.toK] <;> ring
  obtain ⟨v, v1, v2, v3, v4, v5, v6⟩ := smallExp_rounds hx hz hlo (by omega) hp (by omega) (by omega) false rm
    (G := G) (by omega) (by omega) hk (d := Real.tan X - X) (by linarith) (by linarith) hsx
  have hT : 0 < Real.tan X := by linarith
  have hTl : X ≤ |Real.tan (x.toK : ℝ)| := by
    rw [sign_tan, ← hX, abs_mul, abs_of_pos hT]
    have e1 : |(x.s.toK : ℝ)| = 1 := by cases x.s <;> simp [Sign.toK]
    rw [e1, one_mul]
    linarith
  refine ⟨v, v1, v6, ?_⟩
  refine FunRounded.of_fmt ?_ v2 (by rw [v3]) ?_ ?_ v5 v6
  · refine le_trans (le_trans ?_ q1) hTl
    exact zpow_le_zpow_right₀ (by norm_num) (by omega)
  · intro h
    rw [v4]
    rw [sign_tan, ← hX] at h
    cases hxs : x.s
    · rw [hxs] at h; simp only [Sign.toK] at h; linarith
    · rfl
  · intro h
    rw [v4]
    rw [sign_tan, ← hX] at h
    cases hxs : x.s
    · rfl
    · rw [hxs] at h; simp only [Sign.toK] at h; linarith

/-! ## A round of the loop -/

theorem tanStep_ge : ∀ {f w : Nat} {s s' : TrigState} {o : LoopStep}, tanStep x f w s = some (o, s') → s.1 ≤ s'.1 := by
  intro f
  induction f with
  | zero => intro w s s' o h; cases h
  | succ f ih =>
    intro w s s' o h
    obtain ⟨ap, c⟩ := s
    rw [tanStep] at h
    split at h
    · injection h with h; injection h with _ h; rw [← h]
    · split at h
      · cases h
      · injection h with h; injection h with _ h; rw [← h]
      · split at h
        · cases h
        · injection h with h; injection h with _ h; rw [← h]
        · split at h
          · rename_i hc
            have := ih h
            dsimp only at this ⊢
            omega
          · split at h
            · injection h with h; injection h with _ h; rw [← h]
            · injection h with h; injection h with _ h; rw [← h]

theorem tanStep_arg (hx : x.WF) (hz : x.isZero = false) (he0 : EMIN < x.e) {w : Nat} (hw : 64 ≤ w) (hl : 64 * x.m.m.length ≤ w)
    (hfar : 2 < x.e → ∀ k : ℤ, 4 * (2 : ℝ) ^ (-((w + 64 : ℕ) : ℤ)) < |(x.toK : ℝ) - k * (2 * Real.pi)|) :
    ∀ {f ap : Nat} {c : PiCache} {s' : TrigState} {o : LoopStep}, 64 ≤ ap → PiOk c →
    tanStep x f w (ap, c) = some (o, s') → w + s'.1 + x.e.toNat + 192 ≤ 2 ^ 15 →
    (2 < x.e → |chudPi - Real.pi| ≤ 2 ^ (-((w + s'.1 : ℕ) : ℤ) - 64 - x.e)) →
    PiOk s'.2 ∧ ∃ y : Num, y.WF ∧ y.isZero = false ∧ wordLen (w + s'.1) ≤ y.m.m.length ∧
      64 * y.m.m.length ≤ 2 * (w + s'.1 + x.e.toNat + 192) ∧ |(y.toK : ℝ)| ≤ 63 / 10 ∧
      (∃ k : ℤ, |(x.toK : ℝ) - (y.toK + k * (2 * Real.pi))| ≤ 4 * 2 ^ (-((64 * wordLen (w + s'.1) : ℕ) : ℤ))) ∧
      (x.e ≤ 2 → (y.toK : ℝ) = x.toK ∧ y.m.m.length = wordLen (w + s'.1)) ∧
      o = (match y.tanSeries with | .error e => .ret (.error e) | .ok r => .tst r) := by
  intro f
  induction f with
  | zero => intro ap c s' o _ _ h; cases h
  | succ f ih =>
    intro ap c s' o hap hc h hb hpi
    have hge := tanStep_ge h
    dsimp only at hge
    rw [tanStep] at h
    obtain ⟨v, y, c1, v1, y1, y2, y3, y4, y5, y6, y7, y8, y9⟩ := trigArg_spec hx hz he0 hw hl hfar hap hc (by omega)
      (fun h => le_trans (hpi h) (zpow_le_zpow_right₀ (by norm_num) (by push_cast; omega)))
    rw [v1] at h
    dsimp only at h
    rw [y1] at h
    dsimp only at h
    obtain ⟨⟨t, q⟩, c2, t1, t2⟩ := trigProx_spec y3 y7 y4 (by omega) y2
    rw [t1] at h
    dsimp only at h
    split at h
    · rename_i hcd
      exact ih (by omega) t2 h hb hpi
    · cases hs : y.tanSeries with
      | error e =>
        rw [hs] at h
        injection h with h
        injection h with h h'
        rw [← h']
        exact ⟨t2, y, y3, y4, y5, y6, y7, y8, fun h => ⟨(y9 h).1, (y9 h).2.2⟩, by rw [hs, ← h]⟩
      | ok r =>
        rw [hs] at h
        injection h with h
        injection h with h h'
        rw [← h']
        exact ⟨t2, y, y3, y4, y5, y6, y7, y8, fun h => ⟨(y9 h).1, (y9 h).2.2⟩, by rw [hs, ← h]⟩

/-- The arguments covered: not too close to an odd multiple of half pi, and up to three or not too close to a multiple of pi. -/
def TanArg (X : ℝ) : Prop := (2 : ℝ) ^ (-56 : ℤ) ≤ |Real.cos X| ∧ (|X| ≤ 3 ∨ (2 : ℝ) ^ (-56 : ℤ) ≤ |Real.sin X|)

theorem TanArg.sin {X : ℝ} (h : TanArg X) : SinFar X := by
  rcases h.2 with h | h
  · exact Or.inl h
  · exact Or.inr (le_trans (zpow_le_zpow_right₀ (by norm_num) (by norm_num)) h)

theorem tan_dist {A B : ℝ} (hA : Real.cos A ≠ 0) (hB : Real.cos B ≠ 0) :
    |Real.tan A - Real.tan B| ≤ |A - B| / (|Real.cos A| * |Real.cos B|) := by
  have h : Real.tan A - Real.tan B = Real.sin (A - B) / (Real.cos A * Real.cos B) := by
    rw [Real.tan_eq_sin_div_cos, Real.tan_eq_sin_div_cos, Real.sin_sub]
    field_simp
  rw [h, abs_div, abs_mul]
  exact div_le_div_of_nonneg_right (abs_sin_le _) (by positivity)

/-- The sine and the cosine are not both small. -/
theorem sin_cos_lower {X κ : ℝ} (hc : κ ≤ |Real.cos X|) (hs : κ ≤ |Real.sin X|) (h0 : 0 ≤ κ) : κ / 2 ≤ |Real.sin X| * |Real.cos X| := by
  have h1 := Real.sin_sq_add_cos_sq X
  rw [← sq_abs (Real.sin X), ← sq_abs (Real.cos X)] at h1
  have s0 := abs_nonneg (Real.sin X)
  have c0 := abs_nonneg (Real.cos X)
  have hor : 1 / 2 ≤ |Real.sin X| ∨ 1 / 2 ≤ |Real.cos X| := by
    by_contra hn
    push Not at hn
    nlinarith
  rcases hor with h | h
  · have := mul_le_mul h hc h0 s0
    linarith
  · have := mul_le_mul hs h (by norm_num) s0
    linarith

set_option maxHeartbeats 800000 in
/-- A round of the loop. -/
theorem tanStep_spec (hx : x.WF) (hz : x.isZero = false) {w : Nat} (hd : 64 ∣ w) (hw : 128 ≤ w) (hl : 64 * x.m.m.length ≤ w)
    (he : -(w : ℤ) ≤ x.e) (hf : TanArg x.toK) {f ap : Nat} {c : PiCache} {s' : TrigState} {o : LoopStep} (hap : 67 ≤ ap) (hc : PiOk c)
    (h : tanStep x f w (ap, c) = some (o, s')) (hb : w + s'.1 + 192 ≤ 7000) (hb2 : 2 < x.e → w + s'.1 + x.e.toNat + 192 ≤ 3500)
    (hpi : 2 < x.e → |chudPi - Real.pi| ≤ 2 ^ (-((w + s'.1 : ℕ) : ℤ) - 64 - x.e)) :
    PiOk s'.2 ∧ 67 ≤ s'.1 ∧ ∃ t, o = .tst t ∧ TestOk w (Real.tan x.toK) t := by
  have hE : EMIN = -2 ^ 31 := rfl
  have hge := tanStep_ge h
  dsimp only at hge
  obtain ⟨X, hX⟩ : ∃ X : ℝ, X = x.toK := ⟨_, rfl⟩
  have hXl : (2 : ℝ) ^ (-(w : ℤ) - 1) ≤ |X| := by
    rw [hX]
    exact le_trans (zpow_le_zpow_right₀ (by norm_num) (by omega)) (hx.mag_normal hz (by omega)).1
  have hX0 : 0 < |X| := lt_of_lt_of_le (by positivity) hXl
  have k56 : (2 : ℝ) ^ (-56 : ℤ) = 1 / 2 ^ 56 := by norm_num
  have hbig : 2 < x.e → 1 / 2 ^ 56 ≤ |Real.sin X| := by
    intro h2
    have h4 := e_gt_two hx hz h2
    rw [← hX] at hf h4
    rcases hf.2 with hf | hf
    · linarith
    · rwa [k56] at hf
  obtain ⟨g1, y, y1, y2, y3, y4, y5, ⟨k, y6⟩, y7, y8⟩ := tanStep_arg hx hz (by omega) (by omega) hl
    (fun h2 k => hf.sin.far hx hz hw h2 k) (by omega) hc h (by omega) hpi
  refine ⟨g1, by omega, ?_⟩
  rw [← hX] at y6 y7 hf ⊢
  obtain ⟨P, hP⟩ : ∃ P, P = 64 * y.m.m.length := ⟨_, rfl⟩
  have hw128 : w + 128 ≤ 64 * wordLen (w + s'.1) := by
    unfold wordLen
    omega
  have hPw : w + 128 ≤ P := by omega
  have hP2 : P ≤ 7000 := by
    by_cases h2 : 2 < x.e
    · have := hb2 h2
      omega
    · rw [hP, (y7 (by omega)).2]
      have := (wordLen_bounds (w + s'.1)).2
      omega
  obtain ⟨ε, hε⟩ : ∃ ε : ℝ, ε = 2 ^ (-(w : ℤ) - 128) := ⟨_, rfl⟩
  have hε0 : 0 < ε := by rw [hε]; positivity
  have hεw : ε = 2 ^ (-(w : ℤ)) * (1 / 2 ^ 128) := by
    rw [hε, zpow_sub₀ (by norm_num)]; norm_num
    ring
  obtain ⟨η, hη⟩ : ∃ η : ℝ, η = 2 ^ (-(w : ℤ)) := ⟨_, rfl⟩
  rw [← hη] at hεw
  have hη0 : 0 < η := by rw [hη]; positivity
  have hηe : η = ε * 2 ^ 128 := by rw [hεw]; ring
  have hη1 : ε * 2 ^ 128 ≤ 1 / 2 ^ 128 := by
    rw [← hηe, hη]
    refine le_trans (zpow_le_zpow_right₀ (n := -128) (by norm_num) (by omega)) (le_of_eq ?_)
    norm_num
  have h8 : ε ≤ 1 / 2 ^ 128 := by
    have : ε ≤ ε * 2 ^ 128 := le_mul_of_one_le_right hε0.le (by norm_num)
    linarith
  have y6' : |X - (y.toK + k * (2 * Real.pi))| ≤ 4 * ε := by
    refine le_trans y6 (mul_le_mul_of_nonneg_left ?_ (by norm_num))
    rw [hε]
    exact zpow_le_zpow_right₀ (by norm_num) (by push_cast; omega)
  obtain ⟨δ, hδ⟩ : ∃ δ : ℝ, δ = 2 ^ (1 - (P : ℤ)) := ⟨_, rfl⟩
  have hδε : δ ≤ 2 * ε := by
    rw [hδ, hε, show (2 : ℝ) * 2 ^ (-(w : ℤ) - 128) = 2 ^ (-(w : ℤ) - 128 + 1) by rw [zpow_add_one₀ (by norm_num)]; ring]
    exact zpow_le_zpow_right₀ (by norm_num) (by omega)
  have hδ0 : 0 < δ := by rw [hδ]; positivity
  have hδ2 : δ ≤ 1 / 2 ^ 120 := by
    rw [hδ]
    refine le_trans (zpow_le_zpow_right₀ (n := -120) (by norm_num) (by omega)) (le_of_eq ?_)
    norm_num
  have hdk : DOk δ := ⟨hδ0.le, le_trans hδ2 (by norm_num)⟩
  have hpk : PrecOk δ P P := ⟨by omega, by rw [hP]; exact roundP_mul (by omega), lt_PMAX_of_small (by omega), by rw [hδ]⟩
  -- the reduced argument
  have hcd : |Real.cos y.toK - Real.cos X| ≤ 4 * ε := le_trans (cos_dist X y.toK k) y6'
  have hsd : |Real.sin y.toK - Real.sin X| ≤ 4 * ε := le_trans (sin_dist X y.toK k) y6'
  have hsy : 1 / 2 ^ 56 ≤ |Real.sin X| → 1 / 2 ^ 57 ≤ |Real.sin y.toK| := by
    intro h3
    have h4 : |Real.sin X| ≤ |Real.sin y.toK| + 4 * ε := by
      have := abs_sub_abs_le_abs_sub (Real.sin X) (Real.sin y.toK)
      rw [abs_sub_comm] at this
      linarith
    have h9 : (1 : ℝ) / 2 ^ 57 + 4 * (1 / 2 ^ 128) ≤ 1 / 2 ^ 56 := by norm_num
    linarith
  have hcX := hf.1
  rw [k56] at hcX
  have hcy : 1 / 2 ^ 57 ≤ |Real.cos y.toK| := by
    have h4 : |Real.cos X| ≤ |Real.cos y.toK| + 4 * ε := by
      have := abs_sub_abs_le_abs_sub (Real.cos X) (Real.cos y.toK)
      rw [abs_sub_comm] at this
      linarith
    have h9 : (1 : ℝ) / 2 ^ 57 + 4 * (1 / 2 ^ 128) ≤ 1 / 2 ^ 56 := by norm_num
    linarith
  have hsinX : (x.e ≤ 2 ∧ |X| ≤ 3) ∨ 1 / 2 ^ 56 ≤ |Real.sin X| := by
    by_cases h2 : 2 < x.e
    · exact Or.inr (hbig h2)
    · rcases hf.2 with h3 | h3
      · exact Or.inl ⟨by omega, h3⟩
      · rw [k56] at h3
        exact Or.inr h3
  have hfar : TanFar y.toK := by
    refine ⟨le_trans (by norm_num) hcy, ?_⟩
    rcases hsinX with ⟨h2, h3⟩ | h3
    · rw [(y7 h2).1]
      refine le_trans ?_ (sin_lower3 h3)
      rw [div_eq_mul_inv, mul_comm]
      exact mul_le_mul_of_nonneg_left (by norm_num) hX0.le
    · refine le_trans (mul_le_mul_of_nonneg_left y5 (by norm_num)) (le_trans ?_ (hsy h3))
      norm_num
  have hyl : (2 : ℝ) ^ (-(P : ℤ)) ≤ |(y.toK : ℝ)| := by
    by_cases h2 : 2 < x.e
    · refine le_trans ?_ (le_trans (hsy (hbig h2)) (abs_sin_le _))
      refine le_trans (zpow_le_zpow_right₀ (n := -57) (by norm_num) (by omega)) (le_of_eq ?_)
      norm_num
    · rw [(y7 (by omega)).1]
      exact le_trans (zpow_le_zpow_right₀ (by norm_num) (by omega)) hXl
  obtain ⟨v, P', v1, v2, v3⟩ := tanSeries_spec hdk hδ2 hpk (by omega) hP2 y1 hP.symm y5 hyl hfar
  refine ⟨v, by rw [y8, v1], ?_⟩
  have hvl := v2.len
  obtain ⟨ζ, z1, z2, z3⟩ := v2.err
  have hζ : |ζ| ≤ 2 ^ 46 * ε * |(y.toK : ℝ)| := by
    refine le_trans z3 (mul_le_mul_of_nonneg_right ?_ (abs_nonneg _))
    calc (2 : ℝ) ^ 45 * δ ≤ 2 ^ 45 * (2 * ε) := mul_le_mul_of_nonneg_left hδε (by positivity)
      _ = 2 ^ 46 * ε := by ring
  have hζ2 : |ζ| ≤ 2 ^ 49 * ε := by
    refine le_trans hζ ?_
    have := mul_le_mul_of_nonneg_left y5 (show (0 : ℝ) ≤ 2 ^ 46 * ε by positivity)
    have e : (2 : ℝ) ^ 49 * ε = 8 * (2 ^ 46 * ε) := by ring
    rw [e]
    have hb0 : (0 : ℝ) ≤ 2 ^ 46 * ε := by positivity
    generalize (2 : ℝ) ^ 46 * ε = b at this hb0 ⊢
    linarith only [this, hb0]
  have hcX0 : 0 < |Real.cos X| := lt_of_lt_of_le (by positivity) hcX
  have hcXn : Real.cos X ≠ 0 := abs_pos.1 hcX0
  -- the angle of the result, moved by turns
  obtain ⟨A, hA⟩ : ∃ A : ℝ, A = y.toK + ζ + k * (2 * Real.pi) := ⟨_, rfl⟩
  have hAc : Real.cos A = Real.cos (y.toK + ζ) := by rw [hA]; exact Real.cos_add_int_mul_two_pi _ k
  have hAs : Real.sin A = Real.sin (y.toK + ζ) := by rw [hA]; exact Real.sin_add_int_mul_two_pi _ k
  have hvA : (v.toK : ℝ) = Real.tan A := by rw [z2, Real.tan_eq_sin_div_cos, Real.tan_eq_sin_div_cos, hAc, hAs]
  have hAX : |A - X| ≤ |ζ| + 4 * ε := by
    have e : A - X = ζ - (X - (y.toK + k * (2 * Real.pi))) := by rw [hA]; ring
    rw [e]
    exact le_trans (abs_sub _ _) (add_le_add le_rfl y6')
  have hAX2 : |A - X| ≤ 2 ^ 50 * ε := by
    have : 2 ^ 49 * ε + 4 * ε ≤ 2 ^ 50 * ε := by
      rw [show 2 ^ 49 * ε + 4 * ε = (2 ^ 49 + 4) * ε by ring]
      exact mul_le_mul_of_nonneg_right (by norm_num) hε0.le
    linarith only [this, hAX, hζ2]
  have hcA : |Real.cos X| / 2 ≤ |Real.cos A| := by
    have h3 := cos_sub_le A X
    have h4 := abs_sub_abs_le_abs_sub (Real.cos X) (Real.cos A)
    rw [abs_sub_comm] at h4
    have h5 : (2 : ℝ) ^ 50 * ε ≤ 2 ^ 50 * (1 / 2 ^ 128) := mul_le_mul_of_nonneg_left h8 (by positivity)
    have h6 : (2 : ℝ) ^ 50 * (1 / 2 ^ 128) ≤ 1 / 2 ^ 56 / 2 := by norm_num
    linarith only [h3, h4, h5, h6, hAX2, hcX]
  have hcA0 : 0 < |Real.cos A| := by linarith
  have hdist := tan_dist (abs_pos.1 hcA0) hcXn
  rw [← hvA] at hdist
  have hsX0 : 0 < |Real.sin X| := by
    rcases hsinX with ⟨-, h3⟩ | h3
    · exact lt_of_lt_of_le (by positivity) (sin_lower3 h3)
    · exact lt_of_lt_of_le (by positivity) h3
  have htX : |Real.tan X| = |Real.sin X| / |Real.cos X| := by rw [Real.tan_eq_sin_div_cos, abs_div]
  refine TestOk.of_rel' v2.wf v2.ix (by omega) (abs_pos.1 (by rw [htX]; positivity)) ?_ hdist
  rw [← hη, hηe, htX, div_mul_eq_mul_div, div_le_div_iff₀ (by positivity) hcX0]
  -- `|A - X| <= |sin X| |cos A| * 2^-w`
  have hmain : |A - X| ≤ |Real.sin X| * (|Real.cos X| / 2) * (ε * 2 ^ 128 * (15 / 16)) := by
    rcases hsinX with ⟨h2, h3⟩ | h3
    · have hy := (y7 h2).1
      have hAX3 : |A - X| ≤ 2 ^ 46 * ε * |X| := by
        rw [hy] at hζ
        have e : |A - X| ≤ |ζ| + |X - (y.toK + k * (2 * Real.pi))| := by
          have e : A - X = ζ - (X - (y.toK + k * (2 * Real.pi))) := by rw [hA]; ring
          rw [e]
          exact abs_sub _ _
        have hk : k = 0 := by
          have h5 := y6'
          rw [hy, show X - (X + k * (2 * Real.pi)) = -(k * (2 * Real.pi)) by ring, abs_neg, abs_mul] at h5
          by_contra hk0
          have h6 : (1 : ℝ) ≤ |(k : ℝ)| := by
            rw [← Int.cast_abs]; exact_mod_cast Int.one_le_abs hk0
          have h7 : 6 ≤ |2 * Real.pi| := le_trans (by linarith [Real.pi_gt_three]) (le_abs_self _)
          have h9 := mul_le_mul h6 h7 (by norm_num) (by positivity)
          have h10 : (4 : ℝ) * (1 / 2 ^ 128) ≤ 1 := by norm_num
          linarith
        rw [hk, hy] at e
        simp only [Int.cast_zero, zero_mul, add_zero, sub_self, abs_zero] at e
        exact le_trans e hζ
      refine le_trans hAX3 ?_
      have h4 : |X| / 64 * (1 / 2 ^ 56 / 2) ≤ |Real.sin X| * (|Real.cos X| / 2) :=
        mul_le_mul (sin_lower3 h3) (by linarith) (by positivity) (abs_nonneg _)
      refine le_trans ?_ (mul_le_mul_of_nonneg_right h4 (by positivity))
      have e1 : |X| / 64 * (1 / 2 ^ 56 / 2) * (ε * 2 ^ 128 * (15 / 16)) = (|X| * ε) * (1 / 64 * (1 / 2 ^ 56 / 2) * (2 ^ 128 * (15 / 16))) := by ring
      have e2 : 2 ^ 46 * ε * |X| = (|X| * ε) * 2 ^ 46 := by ring
      rw [e1, e2]
      exact mul_le_mul_of_nonneg_left (by norm_num) (by positivity)
    · refine le_trans hAX2 ?_
      have h4 : 1 / 2 ^ 56 / 2 / 2 ≤ |Real.sin X| * (|Real.cos X| / 2) := by
        have := sin_cos_lower hcX h3 (by positivity)
        have e : |Real.sin X| * (|Real.cos X| / 2) = |Real.sin X| * |Real.cos X| / 2 := by ring
        rw [e]
        exact div_le_div_of_nonneg_right this (by norm_num)
      refine le_trans ?_ (mul_le_mul_of_nonneg_right h4 (by positivity))
      have e1 : (1 : ℝ) / 2 ^ 56 / 2 / 2 * (ε * 2 ^ 128 * (15 / 16)) = ε * (1 / 2 ^ 56 / 2 / 2 * (2 ^ 128 * (15 / 16))) := by ring
      rw [e1, mul_comm]
      exact mul_le_mul_of_nonneg_left (by norm_num) hε0.le
  have hm2 : |Real.sin X| * (|Real.cos X| / 2) * (ε * 2 ^ 128 * (15 / 16)) ≤ |Real.sin X| * |Real.cos A| * (ε * 2 ^ 128 * (15 / 16)) :=
    mul_le_mul_of_nonneg_right (mul_le_mul_of_nonneg_left hcA hsX0.le) (by positivity)
  have hm3 := mul_le_mul_of_nonneg_right (le_trans hmain hm2) hcX0.le
  refine le_trans hm3 (le_of_eq ?_)
  ring

theorem tan_midRange {X : ℝ} (h0 : (2 : ℝ) ^ (EMIN + 10) ≤ |X|) (hf : TanArg X) : MidRange (Real.tan X) := by
  have hE : EMIN = -2 ^ 31 := rfl
  have hc0 : 0 < |Real.cos X| := lt_of_lt_of_le (by positivity) hf.1
  have htX : |Real.tan X| = |Real.sin X| / |Real.cos X| := by rw [Real.tan_eq_sin_div_cos, abs_div]
  refine MidRange.of_bounds ?_ ?_
  · have h1 : |Real.sin X| ≤ |Real.tan X| := by
      rw [htX]
      exact le_div_self (abs_nonneg _) hc0 (Real.abs_cos_le_one X)
    refine le_trans ?_ h1
    rcases hf.2 with hf | hf
    · refine le_trans ?_ (sin_lower3 hf)
      rw [le_div_iff₀ (by norm_num), show (64 : ℝ) = 2 ^ (6 : ℤ) by norm_num, ← zpow_add₀ (by norm_num)]
      exact le_trans (zpow_le_zpow_right₀ (by norm_num) (by omega)) h0
    · exact le_trans (zpow_le_zpow_right₀ (by norm_num) (by omega)) hf
  · rw [htX]
    refine lt_of_le_of_lt (b := (2 : ℝ) ^ (56 : ℤ)) ?_ (zpow_lt_zpow_right₀ (by norm_num) (by unfold EMAX; omega))
    rw [div_le_iff₀ hc0]
    have h1 := mul_le_mul_of_nonneg_left hf.1 (show (0 : ℝ) ≤ 2 ^ (56 : ℤ) by positivity)
    rw [← zpow_add₀ (by norm_num), show (56 : ℤ) + -56 = 0 by norm_num, zpow_zero] at h1
    exact le_trans (Real.abs_sin_le_one X) h1

theorem tan_spec (hx : x.WF) (hz : x.isZero = false) (hlo : EMIN + 2 ≤ x.e) (hf : TanArg x.toK) {p : Nat} (hp : ValidP p)
    (rm : RM) {f : Nat} {c c' : PiCache} (hc : PiOk c) {r : Except Err Num} {w : Nat}
    (h : x.tan p rm f c = some (r, c', w)) (hw : w + 192 ≤ 7000) (hw2 : 2 < x.e → w + x.e.toNat + 192 ≤ 3500)
    (hpi : 2 < x.e → |chudPi - Real.pi| ≤ 2 ^ (-(w : ℤ) - 64 - x.e)) :
    PiOk c' ∧ ∃ v, r = .ok v ∧ FunRounded rm (precBits p) (Real.tan x.toK) v := by
  have hmb : x.m.maxBitLen = 64 * x.m.m.length := by unfold Mantissa.maxBitLen; omega
  have hp0 := hp.pos
  have hlt := hp.lt
  have hE : EMIN = -2 ^ 31 := rfl
  obtain ⟨pw, hpw⟩ : ∃ pw, precBits p = 64 * pw := ⟨(p + 63) / 64, rfl⟩
  have hpw0 : 0 < pw := by unfold precBits at hpw; omega
  unfold Num.tan at h
  rw [hp.roundP] at h
  dsimp only at h
  rw [hz, if_neg Bool.false_ne_true, hmb] at h
  rw [hpw] at h hlt ⊢
  by_cases hs : ((max (64 * pw) (64 * x.m.m.length) : ℕ) : ℤ) + 1 < -(x.e * 2 - 1)
  · rw [if_pos hs] at h
    injection h with h
    injection h with h h'
    injection h' with h' _
    obtain ⟨v, v1, v2, v3⟩ := tan_small hx hz hlo hpw0 hs rm
    rw [← h, ← h']
    exact ⟨hc, v, v1, v3⟩
  · rw [if_neg hs] at h
    split at h
    · cases h
    · rename_i r' s' w' hl
      injection h with h
      injection h with h h'
      injection h' with h' h''
      rw [← h, ← h']
      have hge := roundLoop_ge hl
      have hmid : MidRange (Real.tan x.toK) := by
        refine tan_midRange (le_trans (zpow_le_zpow_right₀ (by norm_num) ?_) (hx.mag_normal hz (by omega)).1) hf
        omega
      have hR := roundLoop_spec (Inv := fun _ s => PiOk s.2 ∧ 67 ≤ s.1) (Good := fun s => s.1 ≤ s'.1) hmid (W := w')
          (w0 := max (64 * pw) (64 * x.m.m.length) + 64) (rm := rm) hpw0 hlt (by omega) (by
            intro w s o s1 hd hw1 hw2 hi hst hgd
            obtain ⟨ap, c⟩ := s
            obtain ⟨a1, a2, t, a3, a4⟩ := tanStep_spec hx hz hd (by omega) (by omega) (by omega) hf hi.2 hi.1 hst (by omega) (by omega)
              (fun h => le_trans (hpi h) (zpow_le_zpow_right₀ (by norm_num) (by push_cast; omega)))
            rw [a3]
            exact ⟨fun _ _ => ⟨a1, a2⟩, a4⟩) (fun w s o s1 hst hgd => le_trans (tanStep_ge hst) hgd)
          (show _ ∧ _ from ⟨hc, le_rfl⟩)
          (by omega) (by norm_num) (by norm_num) le_rfl hl le_rfl (by omega) le_rfl
      exact ⟨(hR.1 (w' + 64) le_rfl).1, hR.2⟩

/-! ## The first round of the loop -/

/-- A pass that does not ask for more bits is the last one. -/
theorem tanStep_last {f w ap : Nat} {c c1 c2 : PiCache} {v y : Num} {t q : Nat}
    (h1 : x.setPrecision (w + ap) .none = .ok v) (h2 : v.reduceTrigArg c = some (.ok y, c1))
    (h3 : y.trigArgPiProximity c1 = some (.ok (t, q), c2)) (h4 : ¬(ap < t)) :
    ∃ o, tanStep x (f + 1) w (ap, c) = some (o, (ap, c2)) := by
  rw [tanStep, h1]
  dsimp only
  rw [h2]
  dsimp only
  rw [h3]
  dsimp only
  rw [if_neg h4]
  cases y.tanSeries with
  | error e => exact ⟨_, rfl⟩
  | ok r => exact ⟨_, rfl⟩

theorem tanStep_some (hx : x.WF) (hz : x.isZero = false) {w : Nat} (hw : 128 ≤ w) (hl : 64 * x.m.m.length ≤ w)
    (he : -(w : ℤ) ≤ x.e) (hf : TanArg x.toK) {f : Nat} {c : PiCache} (hc : PiOk c) (hb : w + max 67 (-x.e).toNat + x.e.toNat + 192 ≤ 2 ^ 15)
    (hpi : 2 < x.e → |chudPi - Real.pi| ≤ 2 ^ (-((w + 67 : ℕ) : ℤ) - 64 - x.e)) :
    ∃ o s', tanStep x (f + 2) w (67, c) = some (o, s') ∧ s'.1 ≤ max 67 (-x.e).toNat := by
  have hE : EMIN = -2 ^ 31 := rfl
  have hgo : ∀ (ap : Nat) (c : PiCache), 67 ≤ ap → PiOk c → w + ap + x.e.toNat + 192 ≤ 2 ^ 15 → (2 < x.e → ap = 67) →
      ∃ v y c1 t q c2, x.setPrecision (w + ap) .none = .ok v ∧ v.reduceTrigArg c = some (.ok y, c1) ∧
        y.trigArgPiProximity c1 = some (.ok (t, q), c2) ∧ PiOk c2 ∧ (x.e ≤ 0 → t = x.e.natAbs) ∧ (0 < x.e → t ≤ 67) := by
    intro ap c hap hc hb' hap'
    obtain ⟨v, y, c1, v1, y1, y2, y3, y4, y5, y6, y7, ⟨k, y8⟩, y9⟩ := trigArg_spec hx hz (by omega) (w := w) (by omega) hl
      (fun h => hf.sin.far hx hz hw h) (ap := ap) (by omega) hc (by omega) (fun h => by rw [hap' h]; exact hpi h)
    have hwl : w + 67 ≤ 64 * wordLen (w + ap) := by unfold wordLen; omega
    obtain ⟨t, q, c2, t1, t2, t3, t4⟩ := trigProx_near y3 y7 y4 (by omega) (by omega) y2
    refine ⟨v, y, c1, t, q, c2, v1, y1, t1, t2, fun h => ?_, fun h => ?_⟩
    · rw [(t3 (by rw [(y9 (by omega)).2.1]; exact h)).1, (y9 (by omega)).2.1]
    · have h5 : 4 * (2 : ℝ) ^ (-((64 * wordLen (w + ap) : ℕ) : ℤ)) ≤ 4 * (1 / 2 ^ 128) := by
        refine mul_le_mul_of_nonneg_left (le_trans (zpow_le_zpow_right₀ (n := -128) (by norm_num) (by omega)) (le_of_eq ?_)) (by norm_num)
        norm_num
      have h1 := hf.sin.big hx hz h
      have h2 : (2 : ℝ) ^ (-66 : ℤ) ≤ |Real.sin y.toK| := by
        have h3 := le_trans (sin_dist (x.toK : ℝ) y.toK k) y8
        have h4 := abs_sub_abs_le_abs_sub (Real.sin (x.toK : ℝ)) (Real.sin y.toK)
        rw [abs_sub_comm] at h4
        rw [show (2 : ℝ) ^ (-65 : ℤ) = 1 / 2 ^ 65 by norm_num] at h1
        rw [show (2 : ℝ) ^ (-66 : ℤ) = 1 / 2 ^ 66 by norm_num]
        have h6 : (1 : ℝ) / 2 ^ 66 + 4 * (1 / 2 ^ 128) ≤ 1 / 2 ^ 65 := by norm_num
        linarith only [h1, h3, h4, h6, h5]
      have h2c : (2 : ℝ) ^ (-66 : ℤ) ≤ |Real.cos y.toK| := by
        have h1 := hf.1
        have h3 := le_trans (cos_dist (x.toK : ℝ) y.toK k) y8
        have h4 := abs_sub_abs_le_abs_sub (Real.cos (x.toK : ℝ)) (Real.cos y.toK)
        rw [abs_sub_comm] at h4
        rw [show (2 : ℝ) ^ (-56 : ℤ) = 1 / 2 ^ 56 by norm_num] at h1
        rw [show (2 : ℝ) ^ (-66 : ℤ) = 1 / 2 ^ 66 by norm_num]
        have h6 : (1 : ℝ) / 2 ^ 66 + 4 * (1 / 2 ^ 128) ≤ 1 / 2 ^ 56 := by norm_num
        linarith only [h1, h3, h4, h6, h5]
      by_cases hy : 0 < y.e
      · refine t4 66 (by norm_num) le_rfl hy ?_
        rcases Nat.mod_two_eq_zero_or_one q with hq | hq
        · exact le_trans h2 (abs_sin_half _ _ _ hq)
        · exact le_trans h2c (abs_cos_half _ _ _ hq)
      · rw [(t3 (by omega)).1]
        have := y3.e_of_abs (le_trans h2 (abs_sin_le _))
        omega
  obtain ⟨v, y, c1, t, q, c2, g1, g2, g3, g4, g5, g6⟩ := hgo 67 c le_rfl hc (by omega) (fun _ => rfl)
  by_cases hcond : 67 < t
  · have hx0 : x.e ≤ 0 := by
      by_contra h
      have := g6 (by omega)
      omega
    have ht := g5 hx0
    obtain ⟨v', y', c1', t', q', c2', g1', g2', g3', g4', g5', -⟩ := hgo t c2 (by omega) g4 (by omega) (fun h => by omega)
    obtain ⟨o, ho⟩ := tanStep_last (f := f) g1' g2' g3' (by rw [g5' hx0, ht]; omega)
    refine ⟨o, (t, c2'), ?_, by dsimp only; omega⟩
    rw [tanStep, g1]
    dsimp only
    rw [g2]
    dsimp only
    rw [g3]
    dsimp only
    rw [if_pos hcond]
    exact ho
  · obtain ⟨o, ho⟩ := tanStep_last (f := f + 1) g1 g2 g3 hcond
    exact ⟨o, _, ho, by dsimp only; omega⟩

/-- The first round of the loop returns a number in mode `None`. -/
theorem tan_number (hx : x.WF) (hz : x.isZero = false) (hf : TanArg x.toK) {p : Nat} (hp : ValidP p)
    {f : Nat} {c : PiCache} (hc : PiOk c) (hw : 2 * max (precBits p) (64 * x.m.m.length) + 400 ≤ 7000)
    (hw2 : 2 < x.e → 2 * max (precBits p) (64 * x.m.m.length) + x.e.toNat + 400 ≤ 3500)
    (hpi : 2 < x.e → |chudPi - Real.pi| ≤ 2 ^ (-((2 * max (precBits p) (64 * x.m.m.length) + 192 : ℕ) : ℤ) - 64 - x.e)) :
    ∃ r c' w, x.tan p .none (f + 2) c = some (r, c', w) ∧ w ≤ 2 * max (precBits p) (64 * x.m.m.length) + 192 := by
  have hmb : x.m.maxBitLen = 64 * x.m.m.length := by unfold Mantissa.maxBitLen; omega
  have hp0 := hp.pos
  have hlt := hp.lt
  have hE : EMIN = -2 ^ 31 := rfl
  obtain ⟨pw, hpw⟩ : ∃ pw, precBits p = 64 * pw := ⟨(p + 63) / 64, rfl⟩
  have hpw0 : 0 < pw := by unfold precBits at hpw; omega
  unfold Num.tan
  rw [hp.roundP]
  dsimp only
  rw [hz, if_neg Bool.false_ne_true, hmb]
  rw [hpw] at hlt hw hw2 hpi ⊢
  by_cases hs : ((max (64 * pw) (64 * x.m.m.length) : ℕ) : ℤ) + 1 < -(x.e * 2 - 1)
  · rw [if_pos hs]
    exact ⟨_, _, _, rfl, by omega⟩
  · rw [if_neg hs]
    obtain ⟨M, hM⟩ : ∃ M, M = max (64 * pw) (64 * x.m.m.length) := ⟨_, rfl⟩
    rw [← hM] at hw hw2 hpi hs ⊢
    have hmid : MidRange (Real.tan x.toK) := by
      refine tan_midRange (le_trans (zpow_le_zpow_right₀ (by norm_num) ?_) (hx.mag_normal hz (by omega)).1) hf
      omega
    obtain ⟨o, s', h1, h2⟩ := tanStep_some hx hz (w := M + 64) (by omega) (by omega) (by omega) hf (f := f) hc (by omega)
      (fun h => le_trans (hpi h) (zpow_le_zpow_right₀ (by norm_num) (by push_cast; omega)))
    obtain ⟨a1, a2, t, a3, a4⟩ := tanStep_spec hx hz (w := M + 64) (by omega) (by omega) (by omega) (by omega) hf le_rfl hc h1 (by omega) (by omega)
      (fun h => le_trans (hpi h) (zpow_le_zpow_right₀ (by norm_num) (by push_cast; omega)))
    rw [a3] at h1
    obtain ⟨r, hr⟩ := roundLoop_number (rm := .none) (ix := x.inexact) hmid hpw0 hlt (by omega) (by omega) h1 a4 (Or.inl rfl) (f + 1) 64
    rw [hr]
    exact ⟨_, _, _, rfl, by omega⟩

end AF
