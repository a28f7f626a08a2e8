import Verif.Lemmas.TrigReal
/-!
# The sine by series
-/

namespace AF

set_option linter.unusedSectionVars false

variable {δ : ℝ} {P P₀ p : Nat}

theorem mul_ix (hp : PrecOk δ p P) {x y v : Num} (hx : x.WF) (hy : y.WF) (h : x.mul y p .none = .ok v) (hi : x.inexact = true)
    (hx0 : x.isZero = false) (hy0 : y.isZero = false) : v.inexact = true := by
  have hs := mulGeneral_spec (K := ℝ) hx hy hp.pos (by rw [hp.eq]; exact hp.lt) .none
  have e : x.mulGeneral y p .none false = .ok v := h
  rw [e] at hs
  refine hs.2.2.2.2.1.2 (Or.inl ?_)
  unfold mulIx
  rw [hx0, hy0, hi]
  rfl

theorem abs_sub_ix (hp : PrecOk δ p P) {a b : Num} (ha : a.WF) (hb : b.WF) (hia : a.inexact = true) (hi : b.inexact = true)
    (h2 : |(a.toK : ℝ) - b.toK| ≤ 2 ^ 64) {s : ℝ} (hs : (2 : ℝ) ^ (EMIN - 1) ≤ s * 2 ^ (1 - (P : ℤ))) :
    ∃ v, a.sub b p .none = .ok v ∧ v.WF ∧ 64 * v.m.m.length = P ∧ v.inexact = true ∧
      |(v.toK : ℝ) - (a.toK - b.toK)| ≤ max |(a.toK : ℝ) - b.toK| s * δ := by
  have hd := addSub_spec (K := ℝ) ha hb hp.pos (by rw [hp.eq]; exact hp.lt) false .none
  rw [if_neg (by simp), ← sub_eq_add_neg] at hd
  obtain ⟨v, v1, v2, v3, v4⟩ := abs_step hp hd h2 hs
  refine ⟨v, v1, v2, v3, ?_, v4⟩
  rw [v1] at hd
  refine hd.2.2.2.2.1.2 (Or.inl ?_)
  unfold addIx
  split
  · exact hi
  · split
    · exact hia
    · rw [hi, Bool.or_true]

/-- The triple angle with an error in the sine. -/
theorem sin_triple_err {S ε K : ℝ} (hS : |S| ≤ 1) (hε : |ε| ≤ 1 / 8) (hK : (K = 3 ∧ S * S ≤ 1 / 2) ∨ K = 9) :
    |(3 * (S + ε) - 4 * ((S + ε) * (S + ε) * (S + ε))) - (3 * S - 4 * (S * S * S))| ≤ |ε| * (K + 16 * |ε|) := by
  rw [show (3 * (S + ε) - 4 * ((S + ε) * (S + ε) * (S + ε))) - (3 * S - 4 * (S * S * S)) =
    ε * (3 - 4 * (3 * (S * S) + 3 * (S * ε) + ε * ε)) by ring, abs_mul]
  refine mul_le_mul_of_nonneg_left ?_ (abs_nonneg _)
  have h1 : 0 ≤ 3 * (S * S) + 3 * (S * ε) + ε * ε := by nlinarith [sq_nonneg (S + ε / 2), sq_nonneg ε]
  have h2 : S * ε ≤ |ε| := by
    calc S * ε ≤ |S * ε| := le_abs_self _
      _ = |S| * |ε| := abs_mul _ _
      _ ≤ _ := mul_le_of_le_one_left (abs_nonneg _) hS
  have h3 : ε * ε ≤ |ε| * (1 / 8) := by
    rw [← abs_mul_abs_self]
    exact mul_le_mul_of_nonneg_left hε (abs_nonneg _)
  have h4 : S * S ≤ 1 := by
    rw [← abs_mul_abs_self]
    exact mul_le_one₀ hS (abs_nonneg _) hS
  have h5 := abs_nonneg ε
  rw [abs_le]
  rcases hK with ⟨rfl, hK⟩ | rfl <;> constructor <;> linarith

theorem sin_lower {z : ℝ} (hz : |z| ≤ 21 / 10) : |z| / 8 ≤ |Real.sin z| := by
  have hp := Real.pi_gt_three
  have hp' := Real.pi_le_four
  rw [Real.abs_sin_eq_sin_abs_of_abs_le_pi (by linarith)]
  have h0 := abs_nonneg z
  generalize |z| = t at *
  have e : 1 / 2 ≤ 2 / Real.pi := by
    rw [div_le_div_iff₀ (by norm_num) Real.pi_pos]; linarith
  rcases le_total t (Real.pi / 2) with h | h
  · have h1 := Real.mul_le_sin h0 h
    have h2 := mul_le_mul_of_nonneg_right e h0
    linarith
  · have h1 := Real.mul_le_sin (x := Real.pi - t) (by linarith) (by linarith)
    rw [Real.sin_pi_sub] at h1
    have h2 := mul_le_mul_of_nonneg_right e (show 0 ≤ Real.pi - t by linarith)
    linarith

/-- The number `v` is the sine of `z` up to an error relative to `z`. -/
structure An (δ : ℝ) (P E : Nat) (z : ℝ) (v : Num) : Prop where
  wf : v.WF
  len : 64 * v.m.m.length = P
  ix : v.inexact = true
  err : |(v.toK : ℝ) - Real.sin z| ≤ E * δ * |z|

theorem three_rl : Rl δ 128 0 0 3 Num.THREE :=
  ⟨THREE_WF, by decide, ⟨0, by rw [THREE_toK]; norm_num, by simp⟩, by norm_num⟩

theorem four_rl : Rl δ 128 0 0 4 Num.FOUR :=
  ⟨FOUR_WF, by decide, ⟨0, by rw [FOUR_toK]; norm_num, by simp⟩, by norm_num⟩

set_option maxHeartbeats 800000 in
/-- One step of `sin_arg_restore`. -/
theorem sinRestore_step (hd : DOk δ) (hp : PrecOk δ P P) (hP : P ≤ 2 ^ 21) {E K ℓ : Nat} {z : ℝ} {s : Num} (h : An δ P E z s)
    (hE : E ≤ 2 ^ 57) (hz : |z| ≤ 21 / 10) (hℓ : (2 : ℝ) ^ (-(ℓ : ℤ)) ≤ |z|) (hℓ2 : ℓ ≤ 2 ^ 25)
    (hK : (K = 1 ∧ |z| ≤ 7 / 10) ∨ K = 3) :
    ∃ s', (∀ n, Num.sinRestoreLoop P (n + 1) s = Num.sinRestoreLoop P n s') ∧ An δ P (K * E + 2 ^ 20) (3 * z) s' := by
  obtain ⟨S, hS⟩ : ∃ S, S = Real.sin z := ⟨_, rfl⟩
  obtain ⟨ε, hε⟩ : ∃ ε : ℝ, ε = s.toK - S := ⟨_, rfl⟩
  have hsS : (s.toK : ℝ) = S + ε := by rw [hε]; ring
  have herr : |ε| ≤ E * δ * |z| := by rw [hε, hS]; exact h.err
  have hEδ : (E : ℝ) * δ ≤ 1 / 2 ^ 40 := cast_small hd (by omega)
  have hEδ0 : 0 ≤ (E : ℝ) * δ := mul_nonneg (Nat.cast_nonneg _) hd.nonneg
  have hz0 : 0 < |z| := lt_of_lt_of_le (by positivity) hℓ
  have hEz : (E : ℝ) * δ * |z| ≤ 1 / 2 ^ 40 * |z| := mul_le_mul_of_nonneg_right hEδ hz0.le
  have hε1 : |ε| ≤ 1 / 100 := by
    refine le_trans herr (le_trans hEz ?_)
    norm_num; linarith
  have hεz : |ε| ≤ |z| / 100 := by
    refine le_trans herr (le_trans hEz ?_)
    norm_num; linarith
  have hSz : |S| ≤ |z| := by rw [hS]; exact Real.abs_sin_le_abs
  have hS1 : |S| ≤ 1 := by rw [hS]; exact Real.abs_sin_le_one z
  have hSl : |z| / 8 ≤ |S| := by rw [hS]; exact sin_lower hz
  have hs1 : |(s.toK : ℝ)| ≤ 101 / 100 := by
    rw [hsS]; exact le_trans (abs_add_le _ _) (by linarith)
  have hsz : |(s.toK : ℝ)| ≤ 2 * |z| := by
    rw [hsS]; exact le_trans (abs_add_le _ _) (by linarith)
  have hsl : |z| / 16 ≤ |(s.toK : ℝ)| := by
    rw [hsS]
    have := abs_sub_abs_le_abs_sub S (-ε)
    rw [abs_neg, sub_neg_eq_add] at this
    linarith
  have hlb : (2 : ℝ) ^ (-((ℓ + 4 : ℕ) : ℤ)) ≤ |(s.toK : ℝ)| := by
    refine le_trans ?_ hsl
    rw [show (-((ℓ + 4 : ℕ) : ℤ)) = -(ℓ : ℤ) + -4 by push_cast; ring, zpow_add₀ (by norm_num), show (2 : ℝ) ^ (-4 : ℤ) = 1 / 16 by norm_num]
    linarith
  have r0 : Rl δ P (ℓ + 4) 0 s.toK s := Rl.of_exact h.wf h.len hlb
  have hs0 := abs_nonneg (s.toK : ℝ)
  have hss : |(s.toK : ℝ) * s.toK| ≤ 11 / 10 := by
    rw [abs_mul]
    calc |(s.toK : ℝ)| * |(s.toK : ℝ)| ≤ 101 / 100 * (101 / 100) := mul_le_mul hs1 hs1 hs0 (by norm_num)
      _ ≤ _ := by norm_num
  have hsss : |(s.toK : ℝ) * s.toK * s.toK| ≤ 11 / 10 * |(s.toK : ℝ)| := by
    rw [abs_mul]
    exact mul_le_mul_of_nonneg_right hss hs0
  have l2 : (2 : ℝ) ^ (-((2 * (ℓ + 4) : ℕ) : ℤ)) ≤ |(s.toK : ℝ) * s.toK| := by
    rw [abs_mul, show (-((2 * (ℓ + 4) : ℕ) : ℤ)) = -((ℓ + 4 : ℕ) : ℤ) + -((ℓ + 4 : ℕ) : ℤ) by push_cast; ring, zpow_add₀ (by norm_num)]
    exact mul_le_mul hlb hlb (by positivity) hs0
  have l3 : (2 : ℝ) ^ (-((3 * (ℓ + 4) : ℕ) : ℤ)) ≤ |(s.toK : ℝ) * s.toK * s.toK| := by
    rw [abs_mul, show (-((3 * (ℓ + 4) : ℕ) : ℤ)) = -((2 * (ℓ + 4) : ℕ) : ℤ) + -((ℓ + 4 : ℕ) : ℤ) by push_cast; ring, zpow_add₀ (by norm_num)]
    exact mul_le_mul l2 hlb (by positivity) (abs_nonneg _)
  obtain ⟨c0, c1, c2⟩ := r0.mul hd hp r0 l2 (by omega) (by norm_num) (by norm_num) (le_trans hss (by norm_num))
  obtain ⟨d0, d1, d2⟩ := c2.mul hd hp r0 l3 (by omega) (by norm_num) (by norm_num) (le_trans hsss (by norm_num; linarith))
  have e3 : |(s.toK : ℝ) * 3| = 3 * |(s.toK : ℝ)| := by rw [abs_mul, abs_of_pos (show (0 : ℝ) < 3 by norm_num)]; ring
  have e4 : |(s.toK : ℝ) * s.toK * s.toK * 4| = 4 * |(s.toK : ℝ) * s.toK * s.toK| := by
    rw [abs_mul, abs_of_pos (show (0 : ℝ) < 4 by norm_num)]; ring
  obtain ⟨p1, p11, p12⟩ := r0.mul hd hp three_rl (ℓ := ℓ + 4) (by rw [e3]; linarith) (by omega) (by norm_num) (by norm_num)
    (by rw [e3]; norm_num; linarith)
  obtain ⟨p2, p21, p22⟩ := d2.mul hd hp four_rl (ℓ := 3 * (ℓ + 4)) (by rw [e4]; linarith [abs_nonneg ((s.toK : ℝ) * s.toK * s.toK)]) (by omega) (by norm_num)
    (by norm_num) (by rw [e4]; exact le_trans (b := 5) (by linarith) (by norm_num))
  have z0 := r0.nz hd (by norm_num)
  have ic : c0.inexact = true := mul_ix hp h.wf h.wf c1 h.ix z0 z0
  have id : d0.inexact = true := mul_ix hp c2.wf h.wf d1 ic (c2.nz hd (by norm_num)) z0
  have i1 : p1.inexact = true := mul_ix hp h.wf THREE_WF p11 h.ix z0 (three_rl.nz hd (by norm_num))
  have i2 : p2.inexact = true := mul_ix hp d2.wf FOUR_WF p21 id (d2.nz hd (by norm_num)) (four_rl.nz hd (by norm_num))
  obtain ⟨a, a1, a2⟩ := p12.err
  obtain ⟨b, b1, b2⟩ := p22.err
  have hδ := hd.nonneg
  have hδ1 : δ ≤ 1 / 1000 := le_trans hd.small (by norm_num)
  have a2' : |a| ≤ 3 * δ := by push_cast at a2; linarith
  have b2' : |b| ≤ 9 * δ := by push_cast at b2; linarith
  have m1 := (p12.mag hd (by norm_num)).2
  have m2 := (p22.mag hd (by norm_num)).2
  rw [e3] at m1
  rw [e4] at m2
  have q1 : |(p1.toK : ℝ)| ≤ 4 * |(s.toK : ℝ)| := by
    refine le_trans m1 ?_
    norm_num; linarith
  have q2 : |(p2.toK : ℝ)| ≤ 5 * |(s.toK : ℝ)| := by
    have h5 : 4 * |(s.toK : ℝ) * s.toK * s.toK| ≤ 22 / 5 * |(s.toK : ℝ)| := by linarith
    refine le_trans m2 (le_trans (mul_le_mul_of_nonneg_right h5 (by norm_num)) ?_)
    norm_num; linarith
  have q3 : |(p1.toK : ℝ) - p2.toK| ≤ 18 * |z| := by
    have := abs_sub (p1.toK : ℝ) p2.toK
    linarith
  obtain ⟨v, v1, v2, v3, v4, v5⟩ := abs_sub_ix hp p12.wf p22.wf i1 i2 (le_trans q3 (by norm_num; linarith)) (s := |z|) (by
    refine le_trans ?_ (mul_le_mul_of_nonneg_right hℓ (by positivity))
    rw [← zpow_add₀ (by norm_num)]
    exact zpow_le_zpow_right₀ (by norm_num) (by unfold EMIN; omega))
  refine ⟨v, fun n => ?_, v2, v3, v4, ?_⟩
  · conv_lhs => unfold Num.sinRestoreLoop
    rw [c1]; dsimp only
    rw [d1]; dsimp only
    rw [p11]; dsimp only
    rw [p21]; dsimp only
    rw [v1]
  · have w1 : |(v.toK : ℝ) - (p1.toK - p2.toK)| ≤ 18 * |z| * δ :=
      le_trans v5 (mul_le_mul_of_nonneg_right (max_le q3 (by linarith)) hδ)
    have w2 : |(s.toK : ℝ) * 3 * a| ≤ 18 * |z| * δ := by
      rw [abs_mul, e3]
      calc 3 * |(s.toK : ℝ)| * |a| ≤ 6 * |z| * (3 * δ) := mul_le_mul (by linarith) a2' (abs_nonneg _) (by linarith)
        _ = _ := by ring
    have w3 : |(s.toK : ℝ) * s.toK * s.toK * 4 * b| ≤ 90 * |z| * δ := by
      rw [abs_mul, e4]
      calc 4 * |(s.toK : ℝ) * s.toK * s.toK| * |b| ≤ 10 * |z| * (9 * δ) := mul_le_mul (by linarith) b2' (abs_nonneg _) (by linarith)
        _ = _ := by ring
    have w4 := sin_triple_err (S := S) (ε := ε) (K := 3 * K) hS1 (by linarith) (by
      rcases hK with ⟨rfl, hK⟩ | rfl
      · left
        refine ⟨by norm_num, ?_⟩
        rw [← abs_mul_abs_self]
        calc |S| * |S| ≤ 7 / 10 * (7 / 10) := mul_le_mul (by linarith) (by linarith) (abs_nonneg _) (by norm_num)
          _ ≤ _ := by norm_num
      · right; norm_num)
    have hE' : (E : ℝ) ≤ 2 ^ 57 := by exact_mod_cast hE
    have w5 : |ε| * (3 * K + 16 * |ε|) ≤ (3 * K * E + 2 ^ 20) * δ * |z| := by
      have u1 : |ε| * |ε| ≤ 2 ^ 14 * (21 / 10) * (δ * |z|) := by
        have u2 : (E : ℝ) * (E * δ) ≤ 2 ^ 14 := by
          calc (E : ℝ) * (E * δ) ≤ 2 ^ 57 * (2 ^ 57 * (1 / 2 ^ 100)) := by
                refine mul_le_mul hE' (mul_le_mul hE' ?_ hδ (by positivity)) hEδ0 (by positivity)
                refine le_trans hd.small ?_
                norm_num
            _ = _ := by norm_num
        calc |ε| * |ε| ≤ (E * δ * |z|) * (E * δ * |z|) := mul_le_mul herr herr (abs_nonneg _) (by positivity)
          _ = (E * (E * δ)) * |z| * (δ * |z|) := by ring
          _ ≤ 2 ^ 14 * (21 / 10) * (δ * |z|) := by
              refine mul_le_mul_of_nonneg_right ?_ (by positivity)
              exact mul_le_mul u2 hz hz0.le (by positivity)
      have u3 : |ε| * (3 * K) ≤ E * δ * |z| * (3 * K) := mul_le_mul_of_nonneg_right herr (by positivity)
      have u4 : 0 ≤ δ * |z| := by positivity
      have u5 : (3 * K * E + 2 ^ 20) * δ * |z| = E * δ * |z| * (3 * K) + 2 ^ 20 * (δ * |z|) := by ring
      rw [mul_add, u5]
      generalize δ * |z| = y at *
      have u6 : |ε| * (16 * |ε|) ≤ 2 ^ 20 * y := by
        rw [show |ε| * (16 * |ε|) = 16 * (|ε| * |ε|) by ring]
        norm_num at u1 ⊢
        linarith
      linarith
    have hsin : Real.sin (3 * z) = 3 * S - 4 * (S * S * S) := by rw [Real.sin_three_mul, hS]; ring
    have e5 : (v.toK : ℝ) - Real.sin (3 * z) = (v.toK - (p1.toK - p2.toK)) + s.toK * 3 * a - s.toK * s.toK * s.toK * 4 * b +
        ((3 * (S + ε) - 4 * ((S + ε) * (S + ε) * (S + ε))) - (3 * S - 4 * (S * S * S))) := by
      rw [hsin, a1, b1, ← hsS]; ring
    rw [e5]
    refine le_trans (abs_add_le _ _) (le_trans (add_le_add (le_trans (abs_sub _ _) (add_le_add (abs_add_le _ _) le_rfl)) (le_trans w4 w5)) ?_)
    rw [abs_mul 3 z, abs_of_pos (show (0 : ℝ) < 3 by norm_num)]
    have u4 : 0 ≤ δ * |z| := by positivity
    have u7 : ((K * E + 2 ^ 20 : ℕ) : ℝ) * δ * (3 * |z|) = 3 * K * E * (δ * |z|) + 3 * 2 ^ 20 * (δ * |z|) := by push_cast; ring
    have u8 : (3 * (K : ℝ) * E + 2 ^ 20) * δ * |z| = 3 * K * E * (δ * |z|) + 2 ^ 20 * (δ * |z|) := by ring
    rw [u7, u8]
    rw [show 18 * |z| * δ = 18 * (δ * |z|) by ring] at w1 w2
    rw [show 90 * |z| * δ = 90 * (δ * |z|) by ring] at w3
    generalize δ * |z| = y at *
    linarith

theorem An.mono (hd : DOk δ) {E M : Nat} {z : ℝ} {v : Num} (h : An δ P E z v) (hE : E ≤ M) : An δ P M z v :=
  ⟨h.wf, h.len, h.ix, le_trans h.err (mul_le_mul_of_nonneg_right
    (mul_le_mul_of_nonneg_right (by exact_mod_cast hE) hd.nonneg) (abs_nonneg _))⟩

/-- `sin_arg_restore`. -/
theorem sinRestoreLoop_spec (hd : DOk δ) (hp : PrecOk δ P P) (hP : P ≤ 2 ^ 21) {ℓ : Nat} (hℓ2 : ℓ ≤ 2 ^ 25) :
    ∀ (n E : Nat) (z : ℝ) (s : Num), An δ P E z s → E + 2 ^ 20 * n ≤ 2 ^ 57 → |z| * 3 ^ n ≤ 63 / 10 → (2 : ℝ) ^ (-(ℓ : ℤ)) ≤ |z| →
      ∃ v, Num.sinRestoreLoop P n s = .ok v ∧ An δ P (3 * (E + 2 ^ 20 * n)) (z * 3 ^ n) v
  | 0, E, z, s, h, _, _, _ => ⟨s, rfl, by rw [pow_zero, mul_one]; exact h.mono hd (by omega)⟩
  | 1, E, z, s, h, hE, hz, hl => by
    rw [pow_one] at hz
    obtain ⟨v, v1, v2⟩ := sinRestore_step hd hp hP h (by omega) (by linarith) hl hℓ2 (K := 3) (Or.inr rfl)
    refine ⟨v, by rw [v1]; rfl, ?_⟩
    rw [pow_one, mul_comm z]
    exact v2.mono hd (by omega)
  | n + 2, E, z, s, h, hE, hz, hl => by
    have h3 : (1 : ℝ) ≤ 3 ^ n := one_le_pow₀ (by norm_num)
    have hz0 := abs_nonneg z
    have hz9 : |z| * 9 ≤ 63 / 10 := by
      refine le_trans ?_ hz
      rw [pow_add]
      refine mul_le_mul_of_nonneg_left ?_ hz0
      norm_num; exact h3
    have hE1 : 1 * E + 2 ^ 20 + 2 ^ 20 * (n + 1) ≤ 2 ^ 57 := by rw [one_mul]; linarith only [hE]
    have hE2 : 3 * (1 * E + 2 ^ 20 + 2 ^ 20 * (n + 1)) ≤ 3 * (E + 2 ^ 20 * (n + 2)) := by rw [one_mul]; linarith only []
    have hE3 : E ≤ 2 ^ 57 := le_trans (Nat.le_add_right _ _) hE
    obtain ⟨s', v1, v2⟩ := sinRestore_step hd hp hP h hE3 (by linarith) hl hℓ2 (K := 1) (Or.inl ⟨rfl, by linarith⟩)
    have e : |3 * z| = 3 * |z| := by rw [abs_mul, abs_of_pos (show (0 : ℝ) < 3 by norm_num)]
    obtain ⟨v, w1, w2⟩ := sinRestoreLoop_spec hd hp hP hℓ2 (n + 1) (1 * E + 2 ^ 20) (3 * z) s' v2 hE1 (by
      rw [e]
      refine le_trans (le_of_eq ?_) hz
      rw [pow_succ 3 (n + 1)]; ring) (by rw [e]; linarith)
    refine ⟨v, by rw [v1]; exact w1, ?_⟩
    rw [show z * 3 ^ (n + 2) = 3 * z * 3 ^ (n + 1) by rw [pow_succ 3 (n + 1)]; ring]
    exact w2.mono hd hE2

end AF
