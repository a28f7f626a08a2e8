import Verif.Lemmas.ExpTry
import Verif.Props.C24
import Verif.Props.C25
/-!
# Results next to a number of the format: `add_correction` and `compute_small_exp!`
-/

namespace AF

variable {K : Type*} [Field K] [LinearOrder K] [IsStrictOrderedRing K]

set_option linter.unusedVariables false in
/-- Numbers between the same two neighbouring multiples of half a unit round alike. -/
theorem Rounds.transfer {rm : RM} {t y u r : K} {k : ℤ} (hu : 0 < u) (t1 : k * (u / 2) < t) (t2 : t < (k + 1) * (u / 2))
    (y1 : k * (u / 2) < y) (y2 : y < (k + 1) * (u / 2)) (h : Rounds rm t u r) : Rounds rm y u r := by
  have hu2 : 0 < u / 2 := by linarith
  have lo : ∀ {s : K}, (k : K) * (u / 2) < s → s < (k + 1) * (u / 2) → ∀ m : ℤ, m * (u / 2) ≤ s → m ≤ k := by
    intro s _ h2 m hm
    have h3 := lt_of_le_of_lt hm h2
    have h4 : (m : K) < k + 1 := lt_of_mul_lt_mul_right h3 hu2.le
    have : m < k + 1 := by exact_mod_cast h4
    omega
  have hi : ∀ {s : K}, (k : K) * (u / 2) < s → s < (k + 1) * (u / 2) → ∀ m : ℤ, s ≤ m * (u / 2) → k + 1 ≤ m := by
    intro s h1 _ m hm
    have h3 := lt_of_lt_of_le h1 hm
    have h4 : (k : K) < m := lt_of_mul_lt_mul_right h3 hu2.le
    have : k < m := by exact_mod_cast h4
    omega
  have lo' : ∀ {s : K}, (k : K) * (u / 2) < s → ∀ m : ℤ, m ≤ k → m * (u / 2) < s := by
    intro s h1 m hm
    refine lt_of_le_of_lt (mul_le_mul_of_nonneg_right ?_ hu2.le) h1
    exact_mod_cast hm
  have hi' : ∀ {s : K}, s < (k + 1) * (u / 2) → ∀ m : ℤ, k + 1 ≤ m → s < m * (u / 2) := by
    intro s h1 m hm
    refine lt_of_lt_of_le h1 (mul_le_mul_of_nonneg_right ?_ hu2.le)
    exact_mod_cast hm
  obtain ⟨j, rfl, h⟩ := h
  have c1 : ((2 * j : ℤ) : K) * (u / 2) = j * u := by push_cast; ring
  have c2 : ((2 * j + 2 : ℤ) : K) * (u / 2) = j * u + u := by push_cast; ring
  have c3 : ((2 * j - 2 : ℤ) : K) * (u / 2) = j * u - u := by push_cast; ring
  have c4 : ((2 * j + 1 : ℤ) : K) * (u / 2) = j * u + u / 2 := by push_cast; ring
  have c5 : ((2 * j - 1 : ℤ) : K) * (u / 2) = j * u - u / 2 := by push_cast; ring
  have below : ∀ {s s' : K}, (k : K) * (u / 2) < s → s < (k + 1) * (u / 2) → (k : K) * (u / 2) < s' → ∀ m : ℤ, m * (u / 2) ≤ s → m * (u / 2) < s' :=
    fun h1 h2 h3 m hm => lo' h3 m (lo h1 h2 m hm)
  have above : ∀ {s s' : K}, (k : K) * (u / 2) < s → s < (k + 1) * (u / 2) → s' < (k + 1) * (u / 2) → ∀ m : ℤ, s ≤ m * (u / 2) → s' < m * (u / 2) :=
    fun h1 h2 h3 m hm => hi' h3 m (hi h1 h2 m hm)
  have sgn : (0 < t ∧ 0 < y) ∨ (t < 0 ∧ y < 0) := by
    by_cases hk : 0 ≤ k
    · left
      have := lo' t1 0 hk
      have := lo' y1 0 hk
      simp at *
      constructor <;> assumption
    · right
      have := hi' t2 0 (by omega)
      have := hi' y2 0 (by omega)
      simp at *
      constructor <;> assumption
  refine ⟨j, rfl, ?_⟩
  have b1 := fun h => below t1 t2 y1 (2 * j) (by rw [c1]; exact h)
  have b2 := fun h => below t1 t2 y1 (2 * j - 2) (by rw [c3]; exact h)
  have b3 := fun h => below t1 t2 y1 (2 * j - 1) (by rw [c5]; exact h)
  have a1 := fun h => above t1 t2 y2 (2 * j) (by rw [c1]; exact h)
  have a2 := fun h => above t1 t2 y2 (2 * j + 2) (by rw [c2]; exact h)
  have a3 := fun h => above t1 t2 y2 (2 * j + 1) (by rw [c4]; exact h)
  rw [c1] at b1 a1; rw [c3] at b2; rw [c5] at b3; rw [c2] at a2; rw [c4] at a3
  have key0 : |(j : K) * u| ≤ |t| ∧ |t| < |(j : K) * u| + u ∧ 0 ≤ t * (j * u) →
      |(j : K) * u| ≤ |y| ∧ |y| < |(j : K) * u| + u ∧ 0 ≤ y * (j * u) := by
    rintro ⟨h1, h2, h3⟩
    rcases sgn with ⟨s1, s2⟩ | ⟨s1, s2⟩
    · have hj : 0 ≤ (j : K) * u := nonneg_of_mul_nonneg_right h3 s1
      rw [abs_of_pos s1, abs_of_nonneg hj] at *
      rw [abs_of_pos s2]
      exact ⟨(b1 h1).le, a2 h2.le, mul_nonneg s2.le hj⟩
    · have hj : (j : K) * u ≤ 0 := by nlinarith
      rw [abs_of_neg s1, abs_of_nonpos hj] at *
      rw [abs_of_neg s2]
      have := a1 (by linarith)
      have := b2 (by linarith)
      exact ⟨by linarith, by linarith, mul_nonneg_of_nonpos_of_nonpos s2.le hj⟩
  cases rm with
  | none => exact key0 h
  | toZero => exact key0 h
  | fromZero =>
    obtain ⟨h1, h2, h3⟩ := h
    rcases sgn with ⟨s1, s2⟩ | ⟨s1, s2⟩
    · have hj : 0 ≤ (j : K) * u := nonneg_of_mul_nonneg_right h3 s1
      rw [abs_of_pos s1, abs_of_nonneg hj] at *
      dsimp only
      rw [abs_of_pos s2]
      have := b2 (by linarith)
      exact ⟨(a1 h1).le, by linarith, mul_nonneg s2.le hj⟩
    · have hj : (j : K) * u ≤ 0 := by nlinarith
      rw [abs_of_neg s1, abs_of_nonpos hj] at *
      dsimp only
      rw [abs_of_neg s2]
      have := b1 (by linarith)
      have := a2 (by linarith)
      exact ⟨by linarith, by linarith, mul_nonneg_of_nonpos_of_nonpos s2.le hj⟩
  | up =>
    obtain ⟨h1, h2⟩ := h
    have := b2 (by linarith)
    exact ⟨(a1 h1).le, by linarith⟩
  | down =>
    obtain ⟨h1, h2⟩ := h
    exact ⟨(b1 h1).le, a2 h2.le⟩
  | toEven =>
    obtain ⟨h1, h2⟩ := h
    rw [abs_le] at h1
    have e1 := b3 (by linarith)
    have e2 := a3 (by linarith)
    have : |y - j * u| < u / 2 := by rw [abs_lt]; constructor <;> linarith
    exact ⟨this.le, fun h => absurd h this.ne⟩
  | toOdd =>
    obtain ⟨h1, h2⟩ := h
    rw [abs_le] at h1
    have e1 := b3 (by linarith)
    have e2 := a3 (by linarith)
    have : |y - j * u| < u / 2 := by rw [abs_lt]; constructor <;> linarith
    exact ⟨this.le, fun h => absurd h this.ne⟩

/-- Rounding in the format does not tell numbers apart that lie between the same two neighbouring multiples of a
sufficiently small power of two. -/
theorem RoundsFmt.transfer {rm : RM} {P : Nat} {t y r : K} {k a : ℤ} (t1 : k * (2 : K) ^ a < t)
    (t2 : t < (k + 1) * (2 : K) ^ a) (y1 : k * (2 : K) ^ a < y) (y2 : y < (k + 1) * (2 : K) ^ a)
    (ha : (2 : K) ^ (a + P) ≤ |t|) (h : RoundsFmt rm P t r) : RoundsFmt rm P y r := by
  have h0 : (0 : K) < 2 ^ a := by positivity
  have ht0 : 0 < |t| := lt_of_lt_of_le (by positivity) ha
  rcases h with ⟨h1, -⟩ | ⟨q, q1, q2, q3⟩
  · rw [h1, abs_zero] at ht0; exact absurd ht0 (lt_irrefl _)
  have hq : a + P < q := (zpow_lt_zpow_iff_right₀ (by norm_num : (1 : K) < 2)).1 (lt_of_le_of_lt ha q2)
  -- multiples of the small power
  have mult : ∀ b : ℤ, a ≤ b → ∃ c : ℤ, 0 < c ∧ (2 : K) ^ b = c * 2 ^ a := by
    intro b hb
    obtain ⟨n, hn⟩ := Int.le.dest hb
    refine ⟨2 ^ n, by positivity, ?_⟩
    rw [← hn, zpow_add₀ (by norm_num), zpow_natCast]
    push_cast
    ring
  have cell : ∀ {s s' : K}, s < (k + 1) * (2 : K) ^ a → k * (2 : K) ^ a < s' → ∀ c : ℤ, c * (2 : K) ^ a ≤ s → c * (2 : K) ^ a < s' := by
    intro s s' h1 h2 c hc
    have h3 : (c : K) < k + 1 := lt_of_mul_lt_mul_right (lt_of_le_of_lt hc h1) h0.le
    have h4 : c < k + 1 := by exact_mod_cast h3
    refine lt_of_le_of_lt (mul_le_mul_of_nonneg_right ?_ h0.le) h2
    have : c ≤ k := by omega
    exact_mod_cast this
  have cell' : ∀ {s s' : K}, (k : K) * 2 ^ a < s → s' < (k + 1) * (2 : K) ^ a → ∀ c : ℤ, s ≤ c * (2 : K) ^ a → s' < c * (2 : K) ^ a := by
    intro s s' h1 h2 c hc
    have h3 : (k : K) < c := lt_of_mul_lt_mul_right (lt_of_lt_of_le h1 hc) h0.le
    have h4 : k < c := by exact_mod_cast h3
    refine lt_of_lt_of_le h2 (mul_le_mul_of_nonneg_right ?_ h0.le)
    have : k + 1 ≤ c := by omega
    exact_mod_cast this
  have hP : a ≤ q - 1 := by omega
  right
  refine ⟨q, ?_, ?_, ?_⟩
  · obtain ⟨c, c0, hc⟩ := mult (q - 1) hP
    rcases lt_trichotomy t 0 with h | h | h
    · rw [abs_of_neg h, hc] at q1
      have := cell' t1 y2 (-c) (by push_cast; linarith)
      push_cast at this
      have hh : (0 : K) < c * 2 ^ a := by rw [← hc]; positivity
      rw [abs_of_neg (by linarith), hc]; linarith
    · rw [h, abs_zero] at ht0; exact absurd ht0 (lt_irrefl _)
    · rw [abs_of_pos h, hc] at q1
      have := cell t2 y1 c q1
      have hh : (0 : K) < c * 2 ^ a := by rw [← hc]; positivity
      rw [abs_of_pos (by linarith), hc]; linarith
  · obtain ⟨c, c0, hc⟩ := mult q (by omega)
    rw [hc] at q2 ⊢
    rw [abs_lt] at q2 ⊢
    have e1 := cell t2 y1 (-c) (by push_cast; linarith [q2.1])
    push_cast at e1
    exact ⟨by linarith, cell' t1 y2 c q2.2.le⟩
  · have hm : a ≤ max q EMIN - P - 1 := by omega
    obtain ⟨n, hn⟩ := Int.le.dest hm
    have hu : (2 : K) ^ (max q EMIN - (P : ℤ)) / 2 = 2 ^ n * 2 ^ a := by
      rw [div_eq_iff (by norm_num), ← zpow_natCast, ← zpow_add₀ (by norm_num), ← zpow_add_one₀ (by norm_num)]
      congr 1; omega
    have hd : ((k / 2 ^ n : ℤ) : K) * (2 ^ n * 2 ^ a) ≤ k * 2 ^ a := by
      rw [← mul_assoc]
      refine mul_le_mul_of_nonneg_right ?_ h0.le
      have : k / 2 ^ n * 2 ^ n ≤ k := Int.ediv_mul_le k (by positivity)
      exact_mod_cast this
    have hd' : (k + 1 : K) * 2 ^ a ≤ ((k / 2 ^ n : ℤ) + 1) * (2 ^ n * 2 ^ a) := by
      rw [← mul_assoc]
      refine mul_le_mul_of_nonneg_right ?_ h0.le
      have : k + 1 ≤ (k / 2 ^ n + 1) * 2 ^ n := Int.lt_ediv_add_one_mul_self k (by positivity)
      exact_mod_cast this
    exact q3.transfer (k := k / 2 ^ n) (by positivity) (by rw [hu]; exact lt_of_le_of_lt hd t1)
      (by rw [hu]; exact lt_of_lt_of_le t2 hd') (by rw [hu]; exact lt_of_le_of_lt hd y1)
      (by rw [hu]; exact lt_of_lt_of_le y2 hd')

/-- The direction of the correction. -/
def corrSign (x : Num) (inv : Bool) : Sign := if inv then x.s.invert else x.s

theorem addCorrection_spec {x : Num} (hx : x.WF) (hz : x.isZero = false) (he : EMIN + 2 ≤ x.e)
    (hl : 64 * x.m.m.length + 64 < PMAX) (inv : Bool) :
    ∃ v, x.addCorrection inv = .ok v ∧ v.WF ∧ v.m.m.length = x.m.m.length + 1 ∧ v.s = x.s ∧
      v.inexact = x.inexact ∧
      (v.toK : ℚ) = x.toK + (corrSign x inv).toK * 2 ^ (x.e - (64 * x.m.m.length + 64 : ℕ)) := by
  have hfull := hx.full hz (by omega)
  have hn0 := hx.n_pos hz
  obtain ⟨L, hL⟩ : ∃ L, L = x.m.m.length := ⟨_, rfl⟩
  rw [← hL] at hl hfull ⊢
  have hmb : x.m.maxBitLen + 1 = 64 * L + 1 := by unfold Mantissa.maxBitLen; omega
  have hwl : wordLen (64 * L + 1) = L + 1 := by unfold wordLen; omega
  have hU : USIZE_MAX = 2 ^ 64 - 1 := rfl
  have hPM : PMAX = 2 ^ 62 - 2 ^ 31 - 1 := rfl
  have hrp : roundP (64 * L + 1) = 64 * L + 64 := by
    rw [ValidP.roundP ⟨by omega, by unfold precBits; omega⟩]; unfold precBits; omega
  -- the smallest number
  have hmin : Num.minPositive (64 * L + 1) = .ok ⟨EMIN, .pos, ⟨(List.replicate (L + 1) 0).set 0 1, 1⟩, false⟩ := by
    unfold Num.minPositive Mantissa.minM
    rw [if_neg (by omega), hwl, if_neg (by omega)]
  obtain ⟨c0, hc0⟩ : ∃ c0 : Num, c0 = ⟨EMIN, .pos, ⟨(List.replicate (L + 1) 0).set 0 1, 1⟩, false⟩ := ⟨_, rfl⟩
  have hc0w : c0.WF := by
    rw [hc0]
    refine minM_WF (p := 64 * L + 1) (by omega) ?_
    unfold Mantissa.minM
    rw [hwl, if_neg (by omega)]
  have hc0v : (c0.toK : ℚ) = 2 ^ (EMIN - (64 * L + 64 : ℕ)) := by
    rw [hc0]
    unfold Num.toK
    have : (List.replicate (L + 1) 0).set 0 1 = 1 :: List.replicate L 0 := by
      rw [List.replicate_succ]; rfl
    rw [this]
    simp only [val, val_replicate_zero, List.length_cons, List.length_replicate, Sign.toK]
    rw [show 64 * (L + 1) = 64 * L + 64 by ring]
    simp
  have hc0nz : (c0.toK : ℚ) ≠ 0 := by rw [hc0v]; positivity
  obtain ⟨c1, k1, k2, k3, k4, k5, k6⟩ := C24_set_exponent c0 hc0w hc0nz x.e hx.emin hx.emax
  have hc1 : c0.setExponent x.e = c1 := by
    unfold BF.setExponent at k1
    injection k1
  have hc0e : c0.e = EMIN := by rw [hc0]
  have hc0s : c0.s = .pos := by rw [hc0]
  have hc0i : c0.inexact = false := by rw [hc0]
  rw [hc0e, hc0v, ← zpow_add₀ (by norm_num)] at k6
  rw [hc0s] at k3
  rw [hc0i] at k4
  have k6' : (c1.toK : ℚ) = 2 ^ (x.e - (64 * L + 64 : ℕ)) := by
    rw [k6]; congr 1; ring
  obtain ⟨σ, hσ⟩ : ∃ σ, σ = corrSign x inv := ⟨_, rfl⟩
  have hcw : (c1.setSign σ).WF := ⟨k2.wf, k2.bits, k2.emin, k2.emax, k2.norm, k2.sized⟩
  have hcv : ((c1.setSign σ).toK : ℚ) = σ.toK * 2 ^ (x.e - (64 * L + 64 : ℕ)) := by
    rw [← k6']
    unfold Num.toK Num.setSign
    rw [k3]
    simp only [Sign.toK]
    ring
  have hcz : (c1.setSign σ).isZero = false := by
    rw [← Bool.not_eq_true, ← hcw.toK_eq_zero (K := ℚ), hcv]
    have : (2 : ℚ) ^ (x.e - (64 * L + 64 : ℕ)) ≠ 0 := by positivity
    refine mul_ne_zero ?_ this
    cases σ <;> norm_num [Sign.toK]
  have hstep : x.addCorrection inv = x.add (c1.setSign σ) (64 * L + 1) .none := by
    unfold Num.addCorrection
    dsimp only
    rw [hmb, hmin, ← hc0]
    dsimp only
    rw [hc1, hσ]
    rfl
  have hd := addSub_spec (K := ℚ) hx hcw (p := 64 * L + 1) (by omega) (by rw [hrp]; omega) true .none
  rw [hrp, if_pos rfl, hcv] at hd
  rw [hstep]
  unfold Num.add
  -- the sum as a multiple of the smallest unit
  have hxv : (x.toK : ℚ) = (x.s.toK * (val x.m.m * 2 ^ 64 : ℕ)) * 2 ^ (x.e - (64 * L + 64 : ℕ)) := by
    unfold Num.toK
    rw [← hL, show x.e - (64 * L : ℕ) = 64 + (x.e - (64 * L + 64 : ℕ)) by push_cast; ring, zpow_add₀ (by norm_num)]
    push_cast
    ring
  have hvlt : val x.m.m < 2 ^ (64 * L) := by
    rw [← hfull, hx.bits]; exact Nat.lt_size_self _
  have hvge : 2 ^ (64 * L - 1) ≤ val x.m.m := by
    have := hx.bits
    rw [hfull] at this
    exact Nat.lt_size.1 (by omega)
  obtain ⟨V, hV⟩ : ∃ V, V = val x.m.m := ⟨_, rfl⟩
  rw [← hV] at hxv hvlt hvge
  obtain ⟨u, hu⟩ : ∃ u : ℚ, u = 2 ^ (x.e - (64 * L + 64 : ℕ)) := ⟨_, rfl⟩
  have hu0 : 0 < u := by rw [hu]; positivity
  rw [← hu] at hxv hd ⊢
  have hVQ : (V : ℚ) + 1 ≤ 2 ^ (64 * L) := by exact_mod_cast hvlt
  have hV1 : (2 : ℚ) ^ (64 * L - 1) ≤ V := by exact_mod_cast hvge
  have htop : (2 : ℚ) ^ x.e = 2 ^ (64 * L) * 2 ^ 64 * u := by
    rw [hu, ← pow_add, ← zpow_natCast, ← zpow_add₀ (by norm_num)]; congr 1; omega
  have hhalf : (2 : ℚ) ^ (64 * L) = 2 * 2 ^ (64 * L - 1) := by rw [← pow_succ']; congr 1; omega
  have habs : ∀ a b : Sign, |(a.toK * (V * 2 ^ 64 : ℕ)) * u + b.toK * u| ≤ (V * 2 ^ 64 + 1) * u ∧
      (V * 2 ^ 64 - 1) * u ≤ |(a.toK * (V * 2 ^ 64 : ℕ)) * u + b.toK * u| := by
    intro a b
    have hVu : (0 : ℚ) ≤ V * 2 ^ 64 * u := by positivity
    have h1 : (1 : ℚ) ≤ V := le_trans (one_le_pow₀ (by norm_num)) hV1
    have hVu1 : u ≤ V * 2 ^ 64 * u := by nlinarith
    push_cast
    constructor
    · rw [abs_le]
      cases a <;> cases b <;> simp only [Sign.toK] <;> constructor <;> linarith
    · cases a <;> cases b <;> simp only [Sign.toK]
      · rw [abs_of_nonpos (by linarith)]; linarith
      · rw [abs_of_nonpos (by linarith)]; linarith
      · rw [abs_of_nonneg (by linarith)]; linarith
      · rw [abs_of_nonneg (by linarith)]; linarith
  obtain ⟨b1, b2⟩ := habs x.s σ
  rw [← hxv] at b1 b2
  have hXlt : |(x.toK : ℚ) + σ.toK * u| < 2 ^ x.e := by
    refine lt_of_le_of_lt b1 ?_
    rw [htop]
    nlinarith
  have hXge : (2 : ℚ) ^ (EMIN - 1) ≤ |(x.toK : ℚ) + σ.toK * u| := by
    refine le_trans ?_ b2
    have h2 : (2 : ℚ) ^ (x.e - 2) = 2 ^ (64 * L - 1) * 2 ^ 63 * u := by
      rw [hu, ← pow_add, ← zpow_natCast, ← zpow_add₀ (by norm_num)]; congr 1; omega
    have h3 : (2 : ℚ) ^ (EMIN - 1) ≤ 2 ^ (x.e - 2) := zpow_le_zpow_right₀ (by norm_num) (by omega)
    refine le_trans h3 ?_
    rw [h2]
    refine mul_le_mul_of_nonneg_right ?_ hu0.le
    have : (1 : ℚ) ≤ V := le_trans (one_le_pow₀ (by norm_num)) hV1
    linarith
  have hint : (x.toK : ℚ) + σ.toK * u = ((x.s.toInt * (V * 2 ^ 64) + σ.toInt : ℤ) : ℚ) * 2 ^ (x.e - (64 * L + 64 : ℕ)) := by
    rw [hxv, ← hu]
    cases x.s <;> cases σ <;> simp only [Sign.toK, Sign.toInt] <;> push_cast <;> ring
  have hexact : ∀ {t : ℚ}, RoundsPrec .none (64 * L + 64) ((x.toK : ℚ) + σ.toK * u) t → t = (x.toK : ℚ) + σ.toK * u := by
    intro t ht
    refine ht.of_int hint ?_
    have h5 := hXlt
    rw [hint, abs_mul, abs_of_pos (show (0 : ℚ) < 2 ^ (x.e - (64 * L + 64 : ℕ)) by positivity), ← hu, htop] at h5
    have h6 := lt_of_mul_lt_mul_right h5 hu0.le
    rw [← pow_add, ← Int.cast_abs] at h6
    exact_mod_cast h6
  cases hr : x.addSub (c1.setSign σ) (64 * L + 1) true .none false with
  | error e =>
    rw [hr] at hd
    obtain ⟨-, t, h1, h2⟩ := hd
    rw [hexact h1] at h2
    exfalso
    have : (2 : ℚ) ^ x.e ≤ 2 ^ EMAX := zpow_le_zpow_right₀ (by norm_num) hx.emax
    linarith
  | ok v =>
    rw [hr] at hd
    have hv := hexact (hd.normal hXge)
    obtain ⟨d1, d2, d3, d4, d5, -⟩ := hd
    refine ⟨v, rfl, d1, by omega, ?_, ?_, by rw [hv, hσ]⟩
    · have h1 : (1 : ℚ) ≤ V := le_trans (one_le_pow₀ (by norm_num)) hV1
      have hVu1 : 2 * u ≤ V * 2 ^ 64 * u := by nlinarith
      cases hs : x.s
      · apply d4
        rw [hxv, hs]
        cases σ <;> simp only [Sign.toK] <;> push_cast <;> linarith
      · apply d3
        rw [hxv, hs]
        cases σ <;> simp only [Sign.toK] <;> push_cast <;> linarith
    · have hi : addIx x (c1.setSign σ) = x.inexact := by
        unfold addIx
        rw [hz, hcz]
        have : (c1.setSign σ).inexact = false := k4
        rw [this]; simp
      rw [hi] at d5
      rw [Bool.eq_iff_iff, d5]
      constructor
      · rintro (h | h)
        · exact h
        · exact absurd hv h
      · exact Or.inl

/-- The number that `compute_small_exp!` rounds. -/
theorem smallExp_spec {x : Num} (hx : x.WF) (hz : x.isZero = false) (he : EMIN + 2 ≤ x.e) {pw : Nat} (hp : 0 < pw)
    (hpm : 64 * pw + 64 < PMAX) (hl : 64 * x.m.m.length + 64 < PMAX) (inv : Bool) (rm : RM) :
    ∃ t : Num, x.smallExp inv (64 * pw) rm = t.setPrecision (64 * pw) rm ∧ t.WF ∧ t.s = x.s ∧
      (x.inexact = true → t.inexact = true) ∧
      (t.toK : ℝ) = x.toK + (corrSign x inv).toK * 2 ^ (x.e - (64 * max pw x.m.m.length + 64 : ℕ)) := by
  have hmb : x.m.maxBitLen = 64 * x.m.m.length := by unfold Mantissa.maxBitLen; omega
  have cast : ∀ {y v : Num} {a : ℤ} {σ : Sign}, (v.toK : ℚ) = y.toK + σ.toK * 2 ^ a → (v.toK : ℝ) = y.toK + σ.toK * 2 ^ a := by
    intro y v a σ h
    rw [← toK_ratCast, ← toK_ratCast, h]
    cases σ <;> push_cast [Sign.toK] <;> rfl
  unfold Num.smallExp
  rw [hmb]
  by_cases h : 64 * pw > 64 * x.m.m.length
  · rw [if_pos h]
    have hs := setPrecision_spec (K := ℝ) hx (p := 64 * pw) (by omega) (by omega) .none
    obtain ⟨y, y1, y2, y3, y4, y5⟩ := setPrecision_extend hx (p := 64 * pw) (by omega) (by omega) (by omega) .none
    rw [y1] at hs
    have hyz : y.isZero = false := by
      rw [← Bool.not_eq_true, ← y2.toK_eq_zero (K := ℝ), y4, hx.toK_eq_zero (K := ℝ), hz]; simp
    have hy3 : y.m.m.length = pw := by rw [y3, wordLen_mul]
    have hye : y.e = x.e := by
      obtain ⟨q, q1, q2, q3, -⟩ := hx.mag (K := ℝ) hz
      obtain ⟨q', q1', q2', q3', -⟩ := y2.mag (K := ℝ) hyz
      rw [y4] at q1' q2'
      have h1 := (zpow_lt_zpow_iff_right₀ (by norm_num : (1 : ℝ) < 2)).1 (lt_of_le_of_lt q1 q2')
      have h2 := (zpow_lt_zpow_iff_right₀ (by norm_num : (1 : ℝ) < 2)).1 (lt_of_le_of_lt q1' q2)
      have : q = q' := by omega
      rw [← q3, ← q3', this]
    obtain ⟨t, t1, t2, t3, t4, t5, t6⟩ := addCorrection_spec y2 hyz (by rw [hye]; exact he) (by rw [hy3]; exact hpm) inv
    have hcs : corrSign y inv = corrSign x inv := by unfold corrSign; rw [y5]
    refine ⟨t, ?_, t2, by rw [t4, y5], ?_, ?_⟩
    · rw [y1]
      dsimp only
      rw [t1]
    · intro hi
      rw [t5]
      exact (hs.1.2.2.2.1 (Or.inr ⟨pw, rfl⟩)).2 (Or.inl hi)
    · have := cast t6
      rw [hye, hy3, y4, hcs] at this
      rw [this, max_eq_left (by omega)]
  · rw [if_neg h]
    obtain ⟨t, t1, t2, t3, t4, t5, t6⟩ := addCorrection_spec hx hz he hl inv
    refine ⟨t, ?_, t2, t4, fun hi => by rw [t5, hi], ?_⟩
    · dsimp only
      rw [t1]
    · rw [cast t6, max_eq_right (by omega)]

/-- The result of `compute_small_exp!` is the correctly rounded value of every number next to `x` on the side of the
correction: `x` has at most `G` significant bits, and the number is closer than a quarter of a unit of these. -/
theorem smallExp_rounds {x : Num} (hx : x.WF) (hz : x.isZero = false) (he : EMIN + 2 ≤ x.e) (he' : x.e + 2 ≤ EMAX) {pw : Nat} (hp : 0 < pw)
    (hpm : 64 * pw + 64 < PMAX) (hl : 64 * x.m.m.length + 64 < PMAX) (inv : Bool) (rm : RM) {G : Nat}
    (hG : 64 * pw ≤ G) (hG' : G ≤ 64 * max pw x.m.m.length) {k : ℤ} (hk : (x.toK : ℝ) = k * 2 ^ (x.e - (G : ℤ)))
    {y d : ℝ} (hd0 : 0 < d) (hd : d < 2 ^ (x.e - (G : ℤ) - 2)) (hy : y = x.toK + (corrSign x inv).toK * d) :
    ∃ v, x.smallExp inv (64 * pw) rm = .ok v ∧ v.WF ∧ v.m.m.length = pw ∧ v.s = x.s ∧ v.inexact = true ∧
      RoundsFmt rm (64 * pw) y v.toK := by
  obtain ⟨t, t1, t2, t3, t4, t5⟩ := smallExp_spec hx hz he hp hpm hl inv rm
  obtain ⟨σ, hσ⟩ : ∃ σ, σ = corrSign x inv := ⟨_, rfl⟩
  rw [← hσ] at t5 hy
  obtain ⟨M, hM⟩ : ∃ M, M = 64 * max pw x.m.m.length := ⟨_, rfl⟩
  rw [← hM] at t5 hG'
  obtain ⟨c, hc⟩ : ∃ c : ℝ, c = 2 ^ (x.e - (M + 64 : ℕ)) := ⟨_, rfl⟩
  rw [← hc] at t5
  have hc0 : 0 < c := by rw [hc]; positivity
  have hcd : c < 2 ^ (x.e - (G : ℤ) - 2) := by
    rw [hc]; exact zpow_lt_zpow_right₀ (by norm_num) (by push_cast; omega)
  obtain ⟨a, ha⟩ : ∃ a, a = x.e - (G : ℤ) - 2 := ⟨_, rfl⟩
  rw [← ha] at hcd hd
  have hx4 : (x.toK : ℝ) = (4 * k : ℤ) * 2 ^ a := by
    rw [hk, show x.e - (G : ℤ) = a + 2 by omega, zpow_add₀ (by norm_num)]
    push_cast; norm_num; ring
  have h0 : (0 : ℝ) < 2 ^ a := by positivity
  -- the size of t
  obtain ⟨q, q1, q2, q3, -⟩ := hx.mag (K := ℝ) hz
  have hqe : q = x.e := by omega
  rw [hqe] at q1 q2
  have ha2 : (2 : ℝ) ^ a ≤ 2 ^ (x.e - 2) := zpow_le_zpow_right₀ (by norm_num) (by omega)
  have hee : (2 : ℝ) ^ (x.e - 1) = 2 * 2 ^ (x.e - 2) := by
    rw [show x.e - 1 = (x.e - 2) + 1 by ring, zpow_add_one₀ (by norm_num)]; ring
  have hee' : (2 : ℝ) ^ x.e = 4 * 2 ^ (x.e - 2) := by
    rw [show x.e = (x.e - 2) + 2 by ring, zpow_add₀ (by norm_num)]; norm_num; ring
  have hta : |(t.toK : ℝ) - x.toK| = c := by
    rw [t5]
    cases σ <;> simp [Sign.toK, abs_of_pos hc0]
  have htge : (2 : ℝ) ^ (x.e - 2) ≤ |(t.toK : ℝ)| := by
    have := abs_sub_abs_le_abs_sub (x.toK : ℝ) t.toK
    rw [abs_sub_comm, hta] at this
    linarith
  have htle : |(t.toK : ℝ)| ≤ 2 ^ (x.e + 1) := by
    have := abs_sub_abs_le_abs_sub (t.toK : ℝ) x.toK
    rw [hta] at this
    rw [zpow_add_one₀ (by norm_num)]
    linarith
  -- the cell
  have hcell : ∃ j : ℤ, ∀ s : ℝ, 0 < s → s < 2 ^ a → (j : ℝ) * 2 ^ a < x.toK + σ.toK * s ∧ x.toK + σ.toK * s < (j + 1) * 2 ^ a := by
    rw [hx4]
    cases σ
    · refine ⟨4 * k - 1, fun s s0 s1 => ?_⟩
      simp only [Sign.toK]
      push_cast
      constructor <;> linarith
    · refine ⟨4 * k, fun s s0 s1 => ?_⟩
      simp only [Sign.toK]
      push_cast
      constructor <;> linarith
  obtain ⟨j, hj⟩ := hcell
  have hjt := hj c hc0 hcd
  have hjy := hj d hd0 hd
  rw [← t5] at hjt
  rw [← hy] at hjy
  have hdel := setPrecision_delivers (K := ℝ) t2 hp (by omega) rm
  have hap : (2 : ℝ) ^ (a + (64 * pw : ℕ)) ≤ |(t.toK : ℝ)| :=
    le_trans (zpow_le_zpow_right₀ (by norm_num) (by omega)) htge
  have hemin : (2 : ℝ) ^ (EMIN - 1) ≤ |(t.toK : ℝ)| :=
    le_trans (zpow_le_zpow_right₀ (by norm_num) (by omega)) htge
  rw [t1]
  cases hr : t.setPrecision (64 * pw) rm with
  | error e =>
    rw [hr] at hdel
    obtain ⟨-, r, r1, r2⟩ := hdel
    exfalso
    have h1 := r1.abs_le (by omega) htle
    have h2 : (2 : ℝ) ^ (x.e + 1) < 2 ^ EMAX := zpow_lt_zpow_right₀ (by norm_num) (by omega)
    linarith
  | ok v =>
    rw [hr] at hdel
    obtain ⟨d1, d2, d3, d4, d5, d6⟩ := hdel
    have hfmt : RoundsFmt rm (64 * pw) (t.toK : ℝ) v.toK := by
      rcases d6 with h | ⟨-, h, -⟩
      · exact h
      · exact absurd h (not_lt.2 hemin)
    have hsame := hfmt.transfer hjt.1 hjt.2 hjy.1 hjy.2 hap
    refine ⟨v, rfl, d1, by omega, ?_, ?_, hsame⟩
    · have h := setPrecision_spec (K := ℝ) t2 (p := 64 * pw) (by omega) (by omega) rm
      rw [hr] at h
      rw [h.1.2.2.1, t3]
    · rw [d5]
      right
      intro hv
      rw [hv] at hfmt
      rcases hfmt with ⟨h, -⟩ | ⟨q', -, w2, i, w3, -⟩
      · rw [h, abs_zero] at htge
        have : (0 : ℝ) < 2 ^ (x.e - 2) := by positivity
        linarith
      · have hq' : a + (64 * pw : ℕ) < q' :=
          (zpow_lt_zpow_iff_right₀ (by norm_num : (1 : ℝ) < 2)).1 (lt_of_le_of_lt hap w2)
        obtain ⟨n, hn⟩ := Int.le.dest (show a ≤ max q' EMIN - (64 * pw : ℕ) by omega)
        rw [← hn, zpow_add₀ (by norm_num), zpow_natCast] at w3
        have h1 := hjt.1
        have h2 := hjt.2
        have w4 : (t.toK : ℝ) = (i * 2 ^ n : ℤ) * 2 ^ a := by rw [w3]; push_cast; ring
        rw [w4] at h1 h2
        have h3 : (j : ℝ) < (i * 2 ^ n : ℤ) := lt_of_mul_lt_mul_right h1 h0.le
        have h4 : ((i * 2 ^ n : ℤ) : ℝ) < j + 1 := lt_of_mul_lt_mul_right h2 h0.le
        have h3' : j < i * 2 ^ n := by exact_mod_cast h3
        have h4' : i * 2 ^ n < j + 1 := by exact_mod_cast h4
        omega

end AF
