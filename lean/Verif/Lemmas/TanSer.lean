import Verif.Lemmas.TanApx
/-!
# The series of the tangent
-/

namespace AF

set_option linter.unusedSectionVars false

/-- The sum of the first `k + 1` terms of the series of the cosine (`s = 0`) or of the sine divided by `z` (`s = 1`). -/
noncomputable def tSum (s : Nat) (z : ℝ) (k : Nat) : ℝ := 1 + z * z * serSum (trigCoef s) (z * z) 1 k

theorem tSum_zero (s : Nat) (z : ℝ) : tSum s z 0 = 1 := by unfold tSum; rw [serSum_zero]; ring

theorem tSum_succ (s : Nat) (z : ℝ) (k : Nat) :
    tSum s z (k + 1) = tSum s z k + (-(z * z)) ^ (k + 1) / ((2 * k + 2 + s).factorial : ℝ) := by
  unfold tSum
  rw [serSum_succ]
  unfold trigCoef
  rw [show 2 * (1 + k) + s = 2 * k + 2 + s by ring, show 1 + k = k + 1 by ring, neg_pow (z * z) (k + 1), pow_succ (z * z)]
  ring

theorem tTerm_le (s : Nat) {z : ℝ} (h : z * z ≤ 1 / 64) (k : Nat) :
    |(-(z * z)) ^ (k + 1) / ((2 * k + 2 + s).factorial : ℝ)| ≤ (1 / 64) ^ (k + 1) := by
  have h1 : (1 : ℝ) ≤ ((2 * k + 2 + s).factorial : ℝ) := by exact_mod_cast Nat.factorial_pos _
  rw [abs_div, abs_pow, abs_neg, abs_of_nonneg (mul_self_nonneg z), abs_of_pos (by linarith : (0 : ℝ) < ((2 * k + 2 + s).factorial : ℝ))]
  refine le_trans (div_le_self (pow_nonneg (mul_self_nonneg z) _) h1) ?_
  exact pow_le_pow_left₀ (mul_self_nonneg z) h _

theorem tSum_near (s : Nat) {z : ℝ} (h : z * z ≤ 1 / 64) : ∀ k : Nat, |tSum s z k - 1| ≤ 1 / 16 * (1 - (1 / 64) ^ k)
  | 0 => by rw [tSum_zero]; simp
  | k + 1 => by
    have ih := tSum_near s h k
    have h1 := tTerm_le s h k
    rw [tSum_succ, show ∀ a b : ℝ, a + b - 1 = (a - 1) + b by intros; ring]
    refine le_trans (abs_add_le _ _) ?_
    have h2 : (0 : ℝ) ≤ (1 / 64) ^ k := by positivity
    have h3 : ((1 : ℝ) / 64) ^ (k + 1) = (1 / 64) ^ k * (1 / 64) := pow_succ _ _
    rw [h3] at h1 ⊢
    linarith

theorem tSum_bounds (s : Nat) {z : ℝ} (h : z * z ≤ 1 / 64) (k : Nat) : 7 / 8 ≤ tSum s z k ∧ tSum s z k ≤ 9 / 8 := by
  have h1 := abs_le.1 (tSum_near s h k)
  have h2 : (0 : ℝ) ≤ (1 / 64) ^ k := by positivity
  constructor <;> linarith

variable {δ : ℝ} {P M N E L k : Nat} {C z : ℝ}

/-- The fraction `a / q` is `C` up to an absolute error; `q` is close to some `Q`. -/
structure FracOk (δ : ℝ) (M N E : Nat) (C : ℝ) (a q : Num) : Prop where
  wf : a.WF
  ex : ∃ Q e, Rb δ M N Q q ∧ (a.toK : ℝ) = Q * (C + e) ∧ |e| ≤ E * δ

theorem FracOk.half (hd : DOk δ) (hp : PrecOk δ P P) {Mf Mx Nf Nx n : Nat} {X : ℝ} {q f x a : Num}
    (h : FracOk δ M N E C a q) (hf : Rb δ Mf Nf (n.factorial : ℝ) f) (hx : Rb δ Mx Nx X x)
    (hC1 : 7 / 8 ≤ C) (hC2 : C ≤ 9 / 8) (hD1 : 7 / 8 ≤ C + X / n.factorial) (hD2 : C + X / n.factorial ≤ 9 / 8)
    (hXF : |X / (n.factorial : ℝ)| ≤ 1 / 8) (hM : M + Mf + Mx + 8 ≤ 2 ^ 30) (hNq : N ≤ 2 ^ 27) (hNf : Nf ≤ 2 ^ 16) (hNx : Nx ≤ 2 ^ 16)
    (hE : E ≤ 2 ^ 44) :
    ∃ a' q' : Num, tanHalf P x f a q = .ok (a', q') ∧ FracOk δ (M + Mf) (N + Nf + 3) (E + 2 ^ 25) (C + X / n.factorial) a' q' := by
  obtain ⟨Q, e, h1, h2, h3⟩ := h.ex
  obtain ⟨a', q', g1, g2, g3, e', g4, g5⟩ := tanHalf_spec hd hp h1 hf hx h.wf h2 h3 (by linarith) (by linarith) (by linarith) (by linarith)
    hXF hM hNq hNf hNx hE
  exact ⟨a', q', g1, g3, _, e', g2, g4, g5⟩

theorem FracOk.mono (hd : DOk δ) {M' N' E' : Nat} {a q : Num} (h : FracOk δ M N E C a q) (h1 : M ≤ M') (h2 : N ≤ N') (h3 : E ≤ E') :
    FracOk δ M' N' E' C a q := by
  obtain ⟨Q, e, g1, g2, g3⟩ := h.ex
  exact ⟨h.wf, Q, e, g1.mono hd h1 h2, g2, le_trans g3 (mul_le_mul_of_nonneg_right (by exact_mod_cast h3) hd.nonneg)⟩

/-- The state of the loop after `k` rounds. -/
structure TanInv (δ : ℝ) (P L : Nat) (z : ℝ) (k : Nat) (s : TanSt) : Prop where
  xa : Rb δ (2 * L * k) (6 * k) ((-(z * z)) ^ k) s.xa
  fct : FctOk δ P (28 * (k + 1)) (6 * k) (2 * k + 2) s.fct s.inc
  c : FracOk δ (14 * ((k + 1) * (k + 1))) (3 * ((k + 1) * (k + 1))) (k * 2 ^ 25) (tSum 0 z k) s.p1 s.q1
  s : FracOk δ (14 * ((k + 1) * (k + 1))) (3 * ((k + 1) * (k + 1))) (k * 2 ^ 25) (tSum 1 z k) s.p2 s.q2

theorem tanRound_spec (hd : DOk δ) (hp : PrecOk δ P P) (hz : z * z ≤ 1 / 64) {xx : Num} (hx : Rb δ (2 * L) 3 (-(z * z)) xx)
    (hL : L ≤ 2 ^ 14) (hk : k ≤ 5500) {s : TanSt} (h : TanInv δ P L z k s) :
    ∃ s', tanRound P xx s = .ok s' ∧ TanInv δ P L z (k + 1) s' := by
  obtain ⟨m, hm⟩ : ∃ m, m = (k + 1) * (k + 1) := ⟨_, rfl⟩
  have hm1 : m ≤ 5501 * 5501 := by rw [hm]; exact Nat.mul_le_mul (by omega) (by omega)
  have hm2 : (k + 1 + 1) * (k + 1 + 1) = m + 2 * k + 3 := by rw [hm]; ring
  have hLk : 2 * L * k ≤ 2 * 2 ^ 14 * 5500 := Nat.mul_le_mul (by omega) hk
  have hc := h.c
  have hs := h.s
  rw [← hm] at hc hs
  unfold tanRound
  obtain ⟨xa, x1, x2, -⟩ := h.xa.mul hd hp hx (by omega) (by omega) (by omega)
  rw [← pow_succ] at x2
  rw [x1]
  dsimp only
  have b0 := tSum_bounds 0 hz k
  have b0' := tSum_bounds 0 hz (k + 1)
  have b1 := tSum_bounds 1 hz k
  have b1' := tSum_bounds 1 hz (k + 1)
  have hsm : ((1 : ℝ) / 64) ^ (k + 1) ≤ 1 / 8 := by
    refine le_trans (pow_le_of_le_one (by norm_num) (by norm_num) (by omega)) (by norm_num)
  have t0 := le_trans (tTerm_le 0 hz k) hsm
  have t1 := le_trans (tTerm_le 1 hz k) hsm
  rw [tSum_succ] at b0' b1'
  rw [show 2 * k + 2 + 0 = 2 * k + 2 by ring] at b0' t0
  obtain ⟨p1, q1, c1, c2⟩ := hc.half hd hp h.fct.fct x2 b0.1 b0.2 b0'.1 b0'.2 t0 (by omega) (by omega) (by omega) (by omega) (by omega)
  rw [c1]
  dsimp only
  obtain ⟨f, i, f1, f2⟩ := tanFct_spec hd hp h.fct (by omega) (by omega) (by omega)
  rw [f1]
  dsimp only
  obtain ⟨p2, q2, s1, s2⟩ := hs.half hd hp f2.fct x2 b1.1 b1.2 b1'.1 b1'.2 t1 (by omega) (by omega) (by omega) (by omega) (by omega)
  rw [s1]
  dsimp only
  obtain ⟨f', i', g1, g2⟩ := tanFct_spec hd hp f2 (by omega) (by omega) (by omega)
  rw [g1]
  refine ⟨_, rfl, ?_, ?_, ?_, ?_⟩
  · dsimp only
    exact x2.mono hd (by rw [show 2 * L * (k + 1) = 2 * L * k + 2 * L by ring]) (by omega)
  · dsimp only
    rw [show 2 * (k + 1) + 2 = 2 * k + 2 + 1 + 1 by ring]
    exact ⟨g2.fct.mono hd (by omega) (by omega), g2.nat, g2.inc, g2.incLen⟩
  · dsimp only
    rw [hm2, tSum_succ]
    exact c2.mono hd (by omega) (by omega) (by omega)
  · dsimp only
    rw [hm2, tSum_succ]
    exact s2.mono hd (by omega) (by omega) (by omega)

theorem Rb.mag (hd : DOk δ) {Y : ℝ} {v : Num} (h : Rb δ M N Y v) (hN : N ≤ 2 ^ 60) : |Y| / 2 ≤ |(v.toK : ℝ)| ∧ |(v.toK : ℝ)| ≤ 2 * |Y| := by
  obtain ⟨θ, h1, h2⟩ := h.err
  have h3 := abs_le.1 (rel_half' hd hN h2)
  rw [h1, abs_mul, abs_of_nonneg (show 0 ≤ 1 + θ by linarith)]
  have := abs_nonneg Y
  constructor <;> nlinarith

theorem Rb.exp (hd : DOk δ) {Y : ℝ} {v : Num} (h : Rb δ M N Y v) (hN : N ≤ 2 ^ 60) (hM : M ≤ 2 ^ 30) :
    (2 : ℝ) ^ (v.e - 1) ≤ |(v.toK : ℝ)| ∧ |(v.toK : ℝ)| < 2 ^ v.e := by
  refine exp_bounds_abs h.wf (le_trans ?_ (h.mag hd hN).1)
  have h1 := h.mg.lo
  have h2 : (2 : ℝ) ^ EMIN ≤ 2 ^ (-(M : ℤ) - 1) := zpow_le_zpow_right₀ (by norm_num) (by unfold EMIN; omega)
  rw [zpow_sub_one₀ (by norm_num)] at h2
  linarith

theorem TanInv.exps (hd : DOk δ) (hz : z * z ≤ 1 / 64) (hL : L ≤ 2 ^ 14) (hk : k ≤ 5501) {s : TanSt} (h : TanInv δ P L z k s) :
    s.xa.e ≤ 2 - 6 * (k : ℤ) ∧ 1 ≤ s.fct.e ∧
      (z * z) ^ k / ((2 * k + 2).factorial : ℝ) ≤ 4 * 2 ^ (s.xa.e - s.fct.e + 1) := by
  have hLk : 2 * L * k ≤ 2 * 2 ^ 14 * 5501 := Nat.mul_le_mul (by omega) hk
  have hX : |(-(z * z)) ^ k| = (z * z) ^ k := by rw [abs_pow, abs_neg, abs_of_nonneg (mul_self_nonneg z)]
  have m1 := h.xa.mag hd (by omega)
  have e1 := h.xa.exp hd (by omega) (by omega)
  have m2 := h.fct.fct.mag hd (by omega)
  have e2 := h.fct.fct.exp hd (by omega) (by omega)
  rw [hX] at m1
  have hf0 : (2 : ℝ) ≤ ((2 * k + 2).factorial : ℝ) := by
    have : 2 ≤ (2 * k + 2).factorial := le_trans (by omega) (Nat.self_le_factorial (2 * k + 2))
    exact_mod_cast this
  rw [abs_of_pos (by linarith : (0 : ℝ) < ((2 * k + 2).factorial : ℝ))] at m2
  refine ⟨?_, ?_, ?_⟩
  · have h1 : (z * z) ^ k ≤ (1 / 64) ^ k := pow_le_pow_left₀ (mul_self_nonneg z) hz k
    have h2 : ((1 : ℝ) / 64) ^ k = 2 ^ (-(6 * (k : ℤ))) := by
      rw [show (1 : ℝ) / 64 = 2 ^ (-6 : ℤ) by norm_num, ← zpow_natCast, ← zpow_mul]; congr 1
    have h3 : (2 : ℝ) ^ (s.xa.e - 1) < 2 ^ (2 + -(6 * (k : ℤ))) := by
      rw [zpow_add₀ (by norm_num), show (2 : ℝ) ^ (2 : ℤ) = 4 by norm_num]
      have : (0 : ℝ) < 2 ^ (-(6 * (k : ℤ))) := by positivity
      linarith [e1.1, m1.2]
    have := (zpow_lt_zpow_iff_right₀ (by norm_num : (1 : ℝ) < 2)).1 h3
    omega
  · have h3 : (2 : ℝ) ^ (0 : ℤ) < 2 ^ s.fct.e := by
      rw [zpow_zero]
      linarith [e2.2, m2.1]
    have := (zpow_lt_zpow_iff_right₀ (by norm_num : (1 : ℝ) < 2)).1 h3
    omega
  · rw [div_le_iff₀ (by linarith)]
    have h1 : (2 : ℝ) ^ s.xa.e = 2 ^ (s.xa.e - s.fct.e + 1) * 2 ^ (s.fct.e - 1) := by
      rw [← zpow_add₀ (by norm_num)]; congr 1; ring
    have h2 : (2 : ℝ) ^ (s.xa.e - s.fct.e + 1) * 2 ^ (s.fct.e - 1) ≤ 2 ^ (s.xa.e - s.fct.e + 1) * (2 * ((2 * k + 2).factorial : ℝ)) :=
      mul_le_mul_of_nonneg_left (by linarith [e2.1, m2.2]) (by positivity)
    linarith [e1.2, m1.1]

theorem tanLoop_spec (hd : DOk δ) (hp : PrecOk δ P P) (hP : P ≤ 25000) (hz : z * z ≤ 1 / 64) {xx : Num}
    (hx : Rb δ (2 * L) 3 (-(z * z)) xx) (hL : L ≤ 2 ^ 14) :
    ∀ (f k : Nat) (s : TanSt), P + 2 ≤ k + f → 6 * k ≤ P + 7 → TanInv δ P L z k s →
      ∃ s' k', tanLoop P xx f s = .ok s' ∧ k' ≤ 4168 ∧ TanInv δ P L z k' s' ∧ (P : ℤ) < s'.fct.e - s'.xa.e
  | 0, k, s, h1, h2, _ => by
    exfalso
    have := hp.pos
    have h3 := hp.eq
    have h4 : 64 ≤ P := by
      by_contra hc
      rw [roundP_word (by omega)] at h3
      omega
    omega
  | f + 1, k, s, h1, h2, h => by
    have hk : k ≤ 4168 := by omega
    obtain ⟨a1, a2, -⟩ := h.exps hd hz hL (by omega)
    rw [tanLoop]
    by_cases hc : s.fct.e - s.xa.e ≤ (P : ℤ)
    · rw [if_pos hc]
      obtain ⟨s', r1, r2⟩ := tanRound_spec hd hp hz hx hL (by omega) h
      rw [r1]
      exact tanLoop_spec hd hp hP hz hx hL f (k + 1) s' (by omega) (by omega) r2
    · rw [if_neg hc]
      exact ⟨s, k, rfl, hk, h, by omega⟩

/-- The number at the start is close to a value close to one. -/
theorem FracOk.rel (hd : DOk δ) {S : ℝ} {a q : Num} (h : FracOk δ M N E C a q) (hS1 : 3 / 4 ≤ S) (hS2 : S ≤ 5 / 4) (hCS : |C - S| ≤ δ)
    (hE : E + 1 ≤ 2 ^ 38) : ∃ Q, Rb δ M N Q q ∧ Rb δ (M + 1) (2 ^ 39) (Q * S) a := by
  obtain ⟨Q, e, h1, h2, h3⟩ := h.ex
  refine ⟨Q, h1, h.wf, ⟨(C - S + e) / S, ?_, ?_⟩, h1.mg.mul (Mg.near ?_ ?_)⟩
  · rw [h2]
    have : S ≠ 0 := by linarith
    field_simp
    ring
  · rw [abs_div, abs_of_pos (by linarith : 0 < S), div_le_iff₀ (by linarith)]
    refine le_trans (abs_add_le _ _) ?_
    have hE' : (E : ℝ) + 1 ≤ 2 ^ 38 := by exact_mod_cast hE
    have k1 := mul_le_mul_of_nonneg_right hE' hd.nonneg
    have k2 : (0 : ℝ) ≤ 2 ^ 38 * δ := mul_nonneg (by positivity) hd.nonneg
    have k3 : ((2 ^ 39 : ℕ) : ℝ) * δ * S = (2 ^ 38 * δ) * (2 * S) := by push_cast; ring
    rw [k3]
    have k4 := mul_le_mul_of_nonneg_left (show (1 : ℝ) ≤ 2 * S by linarith) k2
    linarith
  · rw [abs_of_pos (by linarith)]; linarith
  · rw [abs_of_pos (by linarith)]; linarith

theorem tanSeriesRun_spec (hd : DOk δ) (hp : PrecOk δ P P) (hP : P ≤ 25000) {x : Num} (hx : x.WF) (hlen : 64 * x.m.m.length = P)
    (hL : L ≤ 2 ^ 14) (hxl : (2 : ℝ) ^ (-(L : ℤ)) ≤ |(x.toK : ℝ)|) (hx1 : |(x.toK : ℝ)| ≤ 1 / 8) :
    ∃ v, tanSeriesRun x = .ok v ∧ v.WF ∧ 64 * v.m.m.length = P ∧ v.inexact = true ∧
      ∃ θ, (v.toK : ℝ) = Real.tan x.toK * (1 + θ) ∧ |θ| ≤ 2 ^ 43 * δ := by
  obtain ⟨z, hz⟩ : ∃ z : ℝ, z = x.toK := ⟨_, rfl⟩
  rw [← hz] at hxl hx1 ⊢
  have hz0 : 0 < |z| := lt_of_lt_of_le (by positivity) hxl
  have hzz : z * z ≤ 1 / 64 := by
    rw [← abs_mul_abs_self]
    calc |z| * |z| ≤ 1 / 8 * (1 / 8) := mul_le_mul hx1 hx1 hz0.le (by norm_num)
      _ = _ := by norm_num
  have hmb : x.m.maxBitLen = P := by unfold Mantissa.maxBitLen; omega
  unfold tanSeriesRun
  dsimp only
  rw [hmb]
  have rx : Rb δ L 0 z x := ⟨hx, ⟨0, by rw [← hz]; ring, by simp⟩, hxl, by
    refine le_trans hx1 (le_trans (by norm_num) (one_le_zpow₀ (by norm_num : (1 : ℝ) ≤ 2) (by omega : (0 : ℤ) ≤ L)))⟩
  obtain ⟨xx, x1, x2, -⟩ := rx.mul hd hp rx (by omega) (by omega) (by omega)
  rw [x1]
  dsimp only
  have rn : Rb δ (2 * L) 3 (-(z * z)) xx.invSign := by
    rw [invSign_eq_neg]
    obtain ⟨θ, t1, t2⟩ := x2.err
    refine ⟨x2.wf.neg, ⟨θ, by rw [Num.toK_neg, t1]; ring, t2⟩, ?_⟩
    have := x2.mg
    rw [show L + L = 2 * L by ring] at this
    exact ⟨by rw [abs_neg]; exact this.lo, by rw [abs_neg]; exact this.hi⟩
  obtain ⟨o, o1, o2⟩ := IsNat.fromWord (d := 1) (by norm_num) (by unfold B; norm_num)
  obtain ⟨w, w1, w2⟩ := IsNat.fromWord (d := 2) (by norm_num) (by unfold B; norm_num)
  rw [o1]
  dsimp only
  rw [w1]
  dsimp only
  have hwl : w.m.m.length = 1 := by
    obtain ⟨w', g1, -, g3, -⟩ := fromWord_spec (K := ℝ) (d := 2) (p := 1) (by unfold B; omega) (by norm_num) (by unfold PMAX; norm_num)
    rw [w1] at g1
    injection g1 with g1
    rw [← g1] at g3
    have hk : precBits 1 = 64 := by decide
    omega
  have ro : ∀ M, Rb δ M 0 1 o := fun M => by
    have := Rb.of_nat (δ := δ) (M := M) o2 (by
      rw [Nat.cast_one]
      exact one_le_zpow₀ (by norm_num) (by omega))
    rwa [Nat.cast_one] at this
  have fo : ∀ M N C, C = (1 : ℝ) → FracOk δ M N (0 * 2 ^ 25) C o o := fun M N C hC =>
    ⟨o2.wf, 1, 0, (ro M).mono hd le_rfl (Nat.zero_le _), by rw [o2.eq, hC]; norm_num, by simp⟩
  have inv0 : TanInv δ P L z 0 ⟨o, w, w, o, o, o, o⟩ := by
    refine ⟨?_, ⟨?_, ?_, ?_, hwl⟩, fo _ _ _ (tSum_zero _ _), fo _ _ _ (tSum_zero _ _)⟩
    · dsimp only; rw [pow_zero]; exact ro _
    · dsimp only
      have e : ((2 * 0 + 2).factorial : ℝ) = ((2 : ℕ) : ℝ) := by norm_num [Nat.factorial]
      rw [e]
      refine Rb.of_nat w2 ?_
      norm_num
    · intro _
      dsimp only
      have e : (2 * 0 + 2).factorial = 2 := by norm_num [Nat.factorial]
      rw [e]; exact w2
    · exact w2
  obtain ⟨s, k, s1, s2, s3, s4⟩ := tanLoop_spec hd hp hP hzz rn hL (P + 2) 0 _ (by omega) (by omega) inv0
  rw [s1]
  dsimp only
  obtain ⟨-, -, ht⟩ := s3.exps hd hzz hL (by omega)
  have ht2 : (z * z) ^ k / ((2 * k + 2).factorial : ℝ) ≤ 4 * δ := by
    refine le_trans ht (mul_le_mul_of_nonneg_left (le_trans (zpow_le_zpow_right₀ (by norm_num) ?_) hp.err) (by norm_num))
    omega
  have hδ := hd.nonneg
  have hcp := cos_partial (x := z) (by linarith) k
  have hsp := sin_partial (x := z) (by linarith) k
  rw [trigCoef_abs, abs_of_nonneg (mul_self_nonneg z)] at hcp
  rw [trigCoef_abs, abs_mul z, abs_of_nonneg (mul_self_nonneg z)] at hsp
  have hzn := abs_pos.1 hz0
  have hC : |tSum 0 z k - Real.cos z| ≤ δ := by
    rw [abs_sub_comm]
    unfold tSum
    refine le_trans hcp ?_
    have e : 2 * (z * z * (z * z) ^ k * (1 / ((2 * (k + 1) + 0).factorial : ℝ))) = 2 * (z * z) * ((z * z) ^ k / ((2 * k + 2).factorial : ℝ)) := by
      rw [show 2 * (k + 1) + 0 = 2 * k + 2 by ring]; ring
    rw [e]
    calc 2 * (z * z) * ((z * z) ^ k / ((2 * k + 2).factorial : ℝ)) ≤ 2 * (1 / 64) * (4 * δ) :=
          mul_le_mul (by linarith) ht2 (by have := mul_self_nonneg z; positivity) (by norm_num)
      _ ≤ δ := by linarith
  have hS : |tSum 1 z k - Real.sin z / z| ≤ δ := by
    have e : |tSum 1 z k - Real.sin z / z| = |Real.sin z - (z + z * (z * z) * serSum (trigCoef 1) (z * z) 1 k)| / |z| := by
      rw [← abs_div, abs_sub_comm]
      congr 1
      unfold tSum
      field_simp
    rw [e, div_le_iff₀ hz0]
    refine le_trans hsp ?_
    have e : 2 * (|z| * (z * z) * (z * z) ^ k * (1 / ((2 * (k + 1) + 1).factorial : ℝ))) =
        2 * (z * z) * ((z * z) ^ k / ((2 * (k + 1) + 1).factorial : ℝ)) * |z| := by ring
    rw [e]
    refine mul_le_mul_of_nonneg_right ?_ hz0.le
    have hf : (z * z) ^ k / ((2 * (k + 1) + 1).factorial : ℝ) ≤ (z * z) ^ k / ((2 * k + 2).factorial : ℝ) := by
      refine div_le_div_of_nonneg_left (pow_nonneg (mul_self_nonneg z) _) (by exact_mod_cast Nat.factorial_pos _) ?_
      exact_mod_cast Nat.factorial_le (by omega)
    calc 2 * (z * z) * ((z * z) ^ k / ((2 * (k + 1) + 1).factorial : ℝ)) ≤ 2 * (1 / 64) * (4 * δ) :=
          mul_le_mul (by linarith) (le_trans hf ht2) (by have := mul_self_nonneg z; positivity) (by norm_num)
      _ ≤ δ := by linarith
  have bC := tSum_bounds 0 hzz k
  have bS := tSum_bounds 1 hzz k
  have hδ1 : δ ≤ 1 / 8 := le_trans hd.small (by norm_num)
  have aC := abs_le.1 hC
  have aS := abs_le.1 hS
  have hkE : k * 2 ^ 25 + 1 ≤ 2 ^ 38 := by omega
  obtain ⟨Q1, q1, p1⟩ := s3.c.rel hd (S := Real.cos z) (by linarith) (by linarith) hC hkE
  obtain ⟨Q2, q2, p2⟩ := s3.s.rel hd (S := Real.sin z / z) (by linarith) (by linarith) hS hkE
  obtain ⟨m, hm⟩ : ∃ m, m = (k + 1) * (k + 1) := ⟨_, rfl⟩
  have hm1 : m ≤ 4169 * 4169 := by rw [hm]; exact Nat.mul_le_mul (by omega) (by omega)
  rw [← hm] at q1 p1 q2 p2
  obtain ⟨n0, n1, n2, -⟩ := p2.mul hd hp q1 (by omega) (by omega) (by omega)
  rw [n1]
  dsimp only
  obtain ⟨n3, n4, n5, -⟩ := n2.mul hd hp rx (by omega) (by omega) (by omega)
  rw [n4]
  dsimp only
  obtain ⟨n6, n7, n8, -⟩ := p1.mul hd hp q2 (by omega) (by omega) (by omega)
  rw [n7]
  dsimp only
  obtain ⟨v, v1, v2, v3⟩ := n5.div hd hp n8 (by omega) (by omega) (by omega)
  rw [v1]
  obtain ⟨θ, t1, t2⟩ := v2.err
  refine ⟨_, rfl, ?_, v3, rfl, θ, ?_, le_trans t2 (mul_le_mul_of_nonneg_right ?_ hδ)⟩
  · exact ⟨v2.wf.1, v2.wf.2, v2.wf.3, v2.wf.4, v2.wf.5, v2.wf.6⟩
  · show (v.toK : ℝ) = _
    rw [t1, Real.tan_eq_sin_div_cos]
    have e1 := q1.mg.ne
    have e2 := q2.mg.ne
    have e3 : Real.cos z ≠ 0 := by linarith
    congr 1
    field_simp
  · have : (2 * (2 ^ 39 + 3 * m + 3 + 0 + 3) + 2 * (2 ^ 39 + 3 * m + 3) + 3 : ℕ) ≤ 2 ^ 43 := by omega
    exact_mod_cast this

end AF
