import Verif.Lemmas.CosFun
import Verif.Lemmas.ConstNum
import Verif.Model.Tan
/-!
# Numbers of large magnitude close to a real value, for the series of the tangent
-/

namespace AF

set_option linter.unusedSectionVars false

/-- The magnitude of `X` is between `2^-M` and `2^M`. -/
structure Mg (M : Nat) (X : ℝ) : Prop where
  lo : (2 : ℝ) ^ (-(M : ℤ)) ≤ |X|
  hi : |X| ≤ 2 ^ (M : ℤ)

variable {δ : ℝ} {P p M M₁ M₂ N N₁ N₂ : Nat} {X Y : ℝ} {v x y : Num}

theorem Mg.pos (h : Mg M X) : 0 < |X| := lt_of_lt_of_le (by positivity) h.lo

theorem Mg.ne (h : Mg M X) : X ≠ 0 := abs_pos.1 h.pos

theorem Mg.mono (h : Mg M₁ X) (hM : M₁ ≤ M) : Mg M X :=
  ⟨le_trans (zpow_le_zpow_right₀ (by norm_num) (by omega)) h.lo, le_trans h.hi (zpow_le_zpow_right₀ (by norm_num) (by omega))⟩

theorem Mg.mul (h : Mg M₁ X) (g : Mg M₂ Y) : Mg (M₁ + M₂) (X * Y) := by
  constructor
  · rw [abs_mul, show -((M₁ + M₂ : ℕ) : ℤ) = -(M₁ : ℤ) + -(M₂ : ℤ) by push_cast; ring, zpow_add₀ (by norm_num)]
    exact mul_le_mul h.lo g.lo (by positivity) (abs_nonneg _)
  · rw [abs_mul, show ((M₁ + M₂ : ℕ) : ℤ) = (M₁ : ℤ) + (M₂ : ℤ) by push_cast; ring, zpow_add₀ (by norm_num)]
    exact mul_le_mul h.hi g.hi (abs_nonneg _) (by positivity)

theorem Mg.div (h : Mg M₁ X) (g : Mg M₂ Y) : Mg (M₁ + M₂) (X / Y) := by
  have hi : Mg M₂ Y⁻¹ := by
    constructor
    · rw [abs_inv, zpow_neg]
      exact inv_anti₀ g.pos g.hi
    · rw [abs_inv]
      have := inv_anti₀ (by positivity) g.lo
      rwa [zpow_neg, inv_inv] at this
  rw [div_eq_mul_inv]
  exact h.mul hi

theorem Mg.near (h1 : 1 / 2 ≤ |X|) (h2 : |X| ≤ 2) : Mg 1 X :=
  ⟨by norm_num; linarith, by norm_num; linarith⟩

theorem Mg.pert (h : Mg M X) {θ : ℝ} (hθ : |θ| ≤ 1 / 2) : Mg (M + 1) (X * (1 + θ)) := by
  have := abs_le.1 hθ
  refine h.mul (Mg.near ?_ ?_)
  · rw [abs_of_nonneg (by linarith)]; linarith
  · rw [abs_of_nonneg (by linarith)]; linarith

/-- A truncated operation on a value in range. -/
theorem big_step (hp : PrecOk δ p P) {ix : Bool} {r : Except Err Num} (h : Delivers .none (roundP p) Y ix r)
    (hm : Mg M Y) (hM : M ≤ 2 ^ 30) :
    ∃ v, r = .ok v ∧ v.WF ∧ 64 * v.m.m.length = P ∧ (∃ θ, (v.toK : ℝ) = Y * (1 + θ) ∧ |θ| ≤ δ) ∧ (ix = true → v.inexact = true) := by
  have h1 : (2 : ℝ) ^ (EMIN - 1) ≤ |Y| := le_trans (zpow_le_zpow_right₀ (by norm_num) (by unfold EMIN; omega)) hm.lo
  rw [hp.eq] at h
  have hY := hm.pos
  cases r with
  | ok v =>
    have g := (h.normal h1).none_abs
    refine ⟨v, rfl, h.1, h.2.1, ⟨v.toK / Y - 1, ?_, ?_⟩, fun hi => h.2.2.2.2.1.2 (Or.inl hi)⟩
    · have := hm.ne
      field_simp; ring
    · have hY0 := hm.ne
      rw [show v.toK / Y - 1 = (v.toK - Y) / Y by field_simp, abs_div, div_le_iff₀ hY, mul_comm]
      exact le_trans g (mul_le_mul_of_nonneg_left hp.err hY.le)
  | error e =>
    exfalso
    obtain ⟨_, t, h3, h4⟩ := h
    obtain ⟨g1, -, -⟩ := h3.none_rel
    have h5 : (2 : ℝ) ^ (M : ℤ) < 2 ^ EMAX := zpow_lt_zpow_right₀ (by norm_num) (by unfold EMAX; omega)
    have := hm.hi
    linarith

theorem big_mul (hp : PrecOk δ p P) (hx : x.WF) (hy : y.WF) (hm : Mg M ((x.toK : ℝ) * y.toK)) (hM : M ≤ 2 ^ 30) :
    ∃ v, x.mul y p .none = .ok v ∧ v.WF ∧ 64 * v.m.m.length = P ∧ ∃ θ, (v.toK : ℝ) = x.toK * y.toK * (1 + θ) ∧ |θ| ≤ δ := by
  obtain ⟨v, v1, v2, v3, v4, -⟩ := big_step hp (mulGeneral_spec (K := ℝ) hx hy hp.pos (by rw [hp.eq]; exact hp.lt) .none) hm hM
  exact ⟨v, v1, v2, v3, v4⟩

theorem big_add (hp : PrecOk δ p P) (hx : x.WF) (hy : y.WF) (hm : Mg M ((x.toK : ℝ) + y.toK)) (hM : M ≤ 2 ^ 30) :
    ∃ v, x.add y p .none = .ok v ∧ v.WF ∧ 64 * v.m.m.length = P ∧ ∃ θ, (v.toK : ℝ) = (x.toK + y.toK) * (1 + θ) ∧ |θ| ≤ δ := by
  have hs := addSub_spec (K := ℝ) hx hy hp.pos (by rw [hp.eq]; exact hp.lt) true .none
  rw [if_pos rfl] at hs
  obtain ⟨v, v1, v2, v3, v4, -⟩ := big_step hp hs hm hM
  exact ⟨v, v1, v2, v3, v4⟩

theorem big_div (hp : PrecOk δ p P) (hx : x.WF) (hy : y.WF) (hm : Mg M ((x.toK : ℝ) / y.toK)) (hM : M ≤ 2 ^ 30) :
    ∃ v, x.div y p .none = .ok v ∧ v.WF ∧ 64 * v.m.m.length = P ∧ (∃ θ, (v.toK : ℝ) = x.toK / y.toK * (1 + θ) ∧ |θ| ≤ δ) ∧
      (x.inexact = true → v.inexact = true) := by
  have hy0 : y.isZero = false := by
    rw [← Bool.not_eq_true, ← hy.toK_eq_zero (K := ℝ)]
    intro h
    have := hm.ne
    rw [h, div_zero] at this
    exact this rfl
  have hx0 : x.isZero = false := by
    rw [← Bool.not_eq_true, ← hx.toK_eq_zero (K := ℝ)]
    intro h
    have := hm.ne
    rw [h, zero_div] at this
    exact this rfl
  obtain ⟨v, v1, v2, v3, v4, v5⟩ := big_step hp (div_spec (K := ℝ) hx hy hy0 hp.pos (by rw [hp.eq]; exact hp.lt) .none) hm hM
  refine ⟨v, v1, v2, v3, v4, fun hi => v5 ?_⟩
  unfold divIx
  rw [if_neg (by rw [hx0]; exact Bool.false_ne_true), hi, Bool.true_or]

/-- The number `v` is `Y` up to the relative error `N * δ`. -/
structure Rb (δ : ℝ) (M N : Nat) (Y : ℝ) (v : Num) : Prop where
  wf : v.WF
  err : ∃ θ, (v.toK : ℝ) = Y * (1 + θ) ∧ |θ| ≤ N * δ
  mg : Mg M Y

theorem rel_half' (hd : DOk δ) (hN : N ≤ 2 ^ 60) {a : ℝ} (ha : |a| ≤ N * δ) : |a| ≤ 1 / 2 :=
  le_trans (rel_half hd hN ha) (by norm_num)

theorem Rb.mul (hd : DOk δ) (hp : PrecOk δ p P) (hx : Rb δ M₁ N₁ X x) (hy : Rb δ M₂ N₂ Y y) (hM : M₁ + M₂ + 2 ≤ 2 ^ 30)
    (hN₁ : N₁ ≤ 2 ^ 42) (hN₂ : N₂ ≤ 2 ^ 42) :
    ∃ v, x.mul y p .none = .ok v ∧ Rb δ (M₁ + M₂) (N₁ + N₂ + 3) (X * Y) v ∧ 64 * v.m.m.length = P := by
  obtain ⟨a, a1, a2⟩ := hx.err
  obtain ⟨b, b1, b2⟩ := hy.err
  obtain ⟨v, v1, v2, v3, t, t1, t2⟩ := big_mul hp hx.wf hy.wf (M := M₁ + 1 + (M₂ + 1)) (by
    rw [a1, b1]
    exact (hx.mg.pert (rel_half' hd (by omega) a2)).mul (hy.mg.pert (rel_half' hd (by omega) b2))) (by omega)
  obtain ⟨c, c1, c2⟩ := rel_comp hd (by omega) (by omega) a2 b2
  obtain ⟨d, d1, d2⟩ := rel_comp (N := N₁ + N₂ + 1) (M := 1) hd (by omega) (by omega) c2 (by rw [Nat.cast_one, one_mul]; exact t2)
  refine ⟨v, v1, ⟨v2, ⟨d, ?_, d2⟩, hx.mg.mul hy.mg⟩, v3⟩
  rw [t1, a1, b1, ← d1, ← c1]; ring

theorem Rb.div (hd : DOk δ) (hp : PrecOk δ p P) (hx : Rb δ M₁ N₁ X x) (hy : Rb δ M₂ N₂ Y y) (hM : M₁ + M₂ + 2 ≤ 2 ^ 30)
    (hN₁ : N₁ ≤ 2 ^ 40) (hN₂ : N₂ ≤ 2 ^ 40) :
    ∃ v, x.div y p .none = .ok v ∧ Rb δ (M₁ + M₂) (2 * N₁ + 2 * N₂ + 3) (X / Y) v ∧ 64 * v.m.m.length = P := by
  obtain ⟨a, a1, a2⟩ := hx.err
  obtain ⟨b, b1, b2⟩ := hy.err
  obtain ⟨v, v1, v2, v3, ⟨t, t1, t2⟩, -⟩ := big_div hp hx.wf hy.wf (M := M₁ + 1 + (M₂ + 1)) (by
    rw [a1, b1]
    exact (hx.mg.pert (rel_half' hd (by omega) a2)).div (hy.mg.pert (rel_half' hd (by omega) b2))) (by omega)
  have hb := abs_le.1 (rel_half' hd (by omega) b2)
  have hb0 : 0 < 1 + b := by linarith
  obtain ⟨d, d1, d2⟩ := rel_comp (N := 2 * N₁ + 2 * N₂) (M := 1) (a := (a - b) / (1 + b)) hd (by omega) (by omega) (by
    rw [abs_div, abs_of_pos hb0, div_le_iff₀ hb0]
    have h1 := abs_sub a b
    push_cast
    have h3 : (0 : ℝ) ≤ (2 * N₁ + 2 * N₂) * δ := mul_nonneg (by positivity) hd.nonneg
    have h2 := mul_le_mul_of_nonneg_left (show 1 / 2 ≤ 1 + b by linarith) h3
    linarith) (by rw [Nat.cast_one, one_mul]; exact t2)
  refine ⟨v, v1, ⟨v2, ⟨d, ?_, le_trans d2 (mul_le_mul_of_nonneg_right (by push_cast; linarith) hd.nonneg)⟩, hx.mg.div hy.mg⟩, v3⟩
  have hY := hy.mg.ne
  rw [t1, a1, b1, ← d1]
  field_simp
  ring

theorem Rb.of_nat {n : Nat} (h : IsNat v n) (hM : (n : ℝ) ≤ 2 ^ (M : ℤ)) : Rb δ M 0 n v := by
  have h1 : (1 : ℝ) ≤ n := by exact_mod_cast h.pos
  refine ⟨h.wf, ⟨0, by rw [h.eq]; ring, by simp⟩, ?_, by rw [abs_of_pos (by linarith)]; exact hM⟩
  rw [abs_of_pos (by linarith)]
  exact le_trans (zpow_le_one_of_nonpos₀ (by norm_num) (by omega)) h1

theorem Rb.mono (hd : DOk δ) (h : Rb δ M₁ N₁ Y v) (hM : M₁ ≤ M) (hN : N₁ ≤ N) : Rb δ M N Y v := by
  obtain ⟨θ, h1, h2⟩ := h.err
  exact ⟨h.wf, ⟨θ, h1, le_trans h2 (mul_le_mul_of_nonneg_right (by exact_mod_cast hN) hd.nonneg)⟩, h.mg.mono hM⟩

/-! ## The counter and the factorial -/

theorem inc_step {n : Nat} {v : Num} (h : IsNat v n) (hl : v.m.m.length = 1) (hn : n < 2 ^ 40) :
    ∃ w, v.add Num.ONE v.m.maxBitLen .none = .ok w ∧ IsNat w (n + 1) ∧ w.m.m.length = 1 := by
  have m1 : v.m.maxBitLen = 64 := by unfold Mantissa.maxBitLen; omega
  rw [m1]
  have ha := addSub_spec (K := ℝ) h.wf ONE_WF (p := 64) (by norm_num) (by decide) true .none
  rw [if_pos rfl, ONE_toK, h.eq] at ha
  obtain ⟨w, w1, w2, w3, w4, -⟩ := fromWord_spec (K := ℝ) (d := n + 1) (p := 64) (by unfold B; omega) (by norm_num)
    (by unfold PMAX; norm_num)
  rw [show (n : ℝ) + 1 = w.toK by rw [w4]; push_cast; ring, show roundP 64 = 64 by decide] at ha
  obtain ⟨i, i1, i2, i3, i4, i6, -⟩ := Delivers.rep w2 (by norm_num) (by rw [w3]; decide) ha
  have hli : i.m.m.length = 1 := by omega
  have hix : addIx v Num.ONE = false := by
    have h1 : Num.ONE.isZero = false := by decide
    have h2 : Num.ONE.inexact = false := by decide
    unfold addIx
    rw [h.nz, h1, h.exact, h2]
    rfl
  rw [w4] at i4
  refine ⟨i, i1, ⟨i2, i4, by rw [i6, hix], ?_, Nat.succ_pos n⟩, hli⟩
  have h6 := i2.abs_lt_zpow (K := ℝ)
  rw [i4, abs_of_nonneg (by positivity)] at h6
  have h7 : (1 : ℝ) ≤ ((n + 1 : ℕ) : ℝ) := by exact_mod_cast Nat.succ_pos n
  have h8 : (0 : ℤ) < i.e := by
    by_contra hc
    have := zpow_le_one_of_nonpos₀ (a := (2 : ℝ)) (by norm_num) (not_lt.1 hc)
    linarith
  rw [hli]; omega

/-- The counter and the factorial of the loop. -/
structure FctOk (δ : ℝ) (P M N n : Nat) (f i : Num) : Prop where
  fct : Rb δ M N (n.factorial : ℝ) f
  nat : f.m.maxBitLen < P → IsNat f n.factorial
  inc : IsNat i n
  incLen : i.m.m.length = 1

theorem tanFct_spec (hd : DOk δ) (hp : PrecOk δ P P) {n : Nat} {f i : Num} (h : FctOk δ P M N n f i) (hn : n + 1 ≤ 2 ^ 14)
    (hM : M + 30 ≤ 2 ^ 30) (hN : N ≤ 2 ^ 42) :
    ∃ f' i', tanFct P f i = .ok (f', i') ∧ FctOk δ P (M + 14) (N + 3) (n + 1) f' i' := by
  unfold tanFct
  obtain ⟨w, w1, w2, w3⟩ := inc_step h.inc h.incLen (by omega)
  rw [w1]
  dsimp only
  have hw : Rb δ 14 0 ((n + 1 : ℕ) : ℝ) w := Rb.of_nat w2 (by
    have : ((n + 1 : ℕ) : ℝ) ≤ ((2 ^ 14 : ℕ) : ℝ) := by exact_mod_cast hn
    refine le_trans this (le_of_eq ?_)
    norm_num)
  have he : ((n + 1).factorial : ℝ) = (n.factorial : ℝ) * ((n + 1 : ℕ) : ℝ) := by
    rw [Nat.factorial_succ]; push_cast; ring
  by_cases hc : f.m.maxBitLen < P
  · rw [if_pos hc]
    have hmg := h.fct.mg.mul hw.mg
    rcases (h.nat hc).mul w2 with ⟨⟨v, v1, v2⟩, -⟩ | ⟨-, h2⟩
    · rw [v1]
      have e2 : n.factorial * (n + 1) = (n + 1).factorial := by rw [Nat.factorial_succ]; ring
      rw [e2] at v2
      refine ⟨v, w, rfl, ⟨?_, fun _ => v2, w2, w3⟩⟩
      refine (Rb.of_nat v2 ?_).mono hd le_rfl (by omega)
      have := hmg.hi
      rw [← he] at this
      refine le_trans (le_abs_self _) this
    · exfalso
      have h3 := hmg.hi
      rw [Nat.cast_mul] at h2
      have h5 : (2 : ℝ) ^ ((M + 14 : ℕ) : ℤ) < 2 ^ EMAX := zpow_lt_zpow_right₀ (by norm_num) (by unfold EMAX; omega)
      have := le_abs_self ((n.factorial : ℝ) * ((n + 1 : ℕ) : ℝ))
      linarith
  · rw [if_neg hc]
    obtain ⟨v, v1, v2, v3⟩ := h.fct.mul hd hp hw (by omega) hN (by omega)
    rw [v1]
    refine ⟨v, w, rfl, ⟨by rw [he]; exact v2.mono hd le_rfl (by omega), ?_, w2, w3⟩⟩
    intro hlt
    exfalso
    unfold Mantissa.maxBitLen at hlt
    omega

/-! ## Half of a round -/

theorem tanHalf_spec (hd : DOk δ) (hp : PrecOk δ P P) {Mq Mf Mx Nq Nf Nx E : Nat} {Q F X C e : ℝ} {q f x a : Num}
    (hq : Rb δ Mq Nq Q q) (hf : Rb δ Mf Nf F f) (hx : Rb δ Mx Nx X x) (ha : a.WF) (hae : (a.toK : ℝ) = Q * (C + e)) (he : |e| ≤ E * δ)
    (hC1 : 3 / 4 ≤ C) (hC2 : C ≤ 5 / 4) (hD1 : 3 / 4 ≤ C + X / F) (hD2 : C + X / F ≤ 5 / 4) (hXF : |X / F| ≤ 1 / 8)
    (hM : Mq + Mf + Mx + 8 ≤ 2 ^ 30) (hNq : Nq ≤ 2 ^ 27) (hNf : Nf ≤ 2 ^ 16) (hNx : Nx ≤ 2 ^ 16) (hE : E ≤ 2 ^ 44) :
    ∃ a' q' : Num, tanHalf P x f a q = .ok (a', q') ∧ Rb δ (Mq + Mf) (Nq + Nf + 3) (Q * F) q' ∧ a'.WF ∧ 
      ∃ e', (a'.toK : ℝ) = Q * F * (C + X / F + e') ∧ |e'| ≤ (E + 2 ^ 25 : ℕ) * δ := by
  have hδ := hd.nonneg
  have hδ1 := hd.small
  have he1 : |e| ≤ 1 / 2 ^ 40 := rel_half hd (by omega) he
  have he2 := abs_le.1 he1
  have hsm : (1 : ℝ) / 2 ^ 40 ≤ 1 / 1000 := by norm_num
  have hCe : Mg 1 (C + e) := Mg.near (by rw [abs_of_nonneg (by linarith)]; linarith) (by rw [abs_of_nonneg (by linarith)]; linarith)
  obtain ⟨φ, f1, f2⟩ := hf.err
  obtain ⟨κ, q1, q2⟩ := hq.err
  obtain ⟨ξ, x1, x2⟩ := hx.err
  unfold tanHalf
  obtain ⟨u, u1, u2, -, s, s1, s2⟩ := big_mul hp ha hf.wf (M := Mq + 1 + (Mf + 1)) (by
    rw [hae, f1]
    exact (hq.mg.mul hCe).mul (hf.mg.pert (rel_half' hd (by omega) f2))) (by omega)
  rw [u1]
  dsimp only
  obtain ⟨n, n1, n2, -⟩ := hx.mul hd hp hq (by omega) (by omega) (by omega)
  rw [n1]
  dsimp only
  obtain ⟨h, n3, n4⟩ := n2.err
  obtain ⟨g, g1, g2⟩ := rel_comp (N := Nf) (M := 1) hd (by omega) (by omega) f2 (by rw [Nat.cast_one, one_mul]; exact s2)
  have hQ := hq.mg.ne
  have hF := hf.mg.ne
  have eu : (u.toK : ℝ) = Q * F * ((C + e) * (1 + g)) := by rw [s1, hae, f1, ← g1]; ring
  have en : (n.toK : ℝ) = Q * F * (X / F * (1 + h)) := by rw [n3]; field_simp
  have hg1 : |g| ≤ 1 / 2 ^ 40 := rel_half hd (by omega) g2
  have hh1 : |h| ≤ 1 / 2 ^ 40 := rel_half hd (by omega) n4
  obtain ⟨z, hz⟩ : ∃ z : ℝ, z = e + (C + e) * g + X / F * h := ⟨_, rfl⟩
  have hCe2 : |C + e| ≤ 2 := by rw [abs_of_nonneg (by linarith)]; linarith
  have hzb : |z| ≤ |e| + 2 * |g| + 1 / 8 * |h| := by
    rw [hz]
    refine le_trans (abs_add_three _ _ _) ?_
    rw [abs_mul, abs_mul]
    have := mul_le_mul_of_nonneg_right hCe2 (abs_nonneg g)
    have := mul_le_mul_of_nonneg_right hXF (abs_nonneg h)
    linarith
  have hz1 : |z| ≤ 1 / 100 := by linarith
  have hz2 := abs_le.1 hz1
  have es : (u.toK : ℝ) + n.toK = Q * F * (C + X / F + z) := by rw [eu, en, hz]; ring
  obtain ⟨w, w1, w2, -, t, t1, t2⟩ := big_add hp u2 n2.wf (M := Mq + Mf + 1) (by
    rw [es]
    exact (hq.mg.mul hf.mg).mul (Mg.near (by rw [abs_of_nonneg (by linarith)]; linarith) (by rw [abs_of_nonneg (by linarith)]; linarith)))
    (by omega)
  rw [w1]
  dsimp only
  obtain ⟨r, r1, r2, -⟩ := hq.mul hd hp hf (by omega) (by omega) (by omega)
  rw [r1]
  refine ⟨w, r, rfl, r2, w2, z + (C + X / F + z) * t, by rw [t1, es]; ring, ?_⟩
  have hb : |C + X / F + z| ≤ 2 := by rw [abs_of_nonneg (by linarith)]; linarith
  refine le_trans (abs_add_le _ _) ?_
  rw [abs_mul]
  have h1 := mul_le_mul hb t2 (abs_nonneg t) (by norm_num)
  have k1 : 2 * |g| ≤ (2 * (2 ^ 16 + 2)) * δ := by
    have : (((Nf + 1 + 1 : ℕ) : ℝ)) ≤ 2 ^ 16 + 2 := by
      have : (Nf : ℝ) ≤ 2 ^ 16 := by exact_mod_cast hNf
      push_cast; linarith
    have := mul_le_mul_of_nonneg_right this hδ
    linarith
  have k2 : |h| ≤ (2 ^ 27 + 2 ^ 16 + 3) * δ := by
    refine le_trans n4 (mul_le_mul_of_nonneg_right ?_ hδ)
    have a1 : (Nx : ℝ) ≤ 2 ^ 16 := by exact_mod_cast hNx
    have a2 : (Nq : ℝ) ≤ 2 ^ 27 := by exact_mod_cast hNq
    push_cast
    linarith
  push_cast
  linarith

end AF
