import Verif.Lemmas.PiSeries
/-!
# Binary splitting of the Chudnovsky series
-/

namespace AF

set_option linter.unusedSectionVars false

theorem IsInt.mulN {x y : Num} {M N : ℕ} (hx : IsInt x M) (hy : IsInt y N) {i : ℕ} (h : M * N < 2 ^ i)
    (hi : i < 1000) : ∃ v, x.mulFullPrec y = .ok v ∧ IsInt v (M * N : ℕ) := by
  rcases hx.mul hy with ⟨⟨v, h1, h2⟩, -⟩ | ⟨-, h2⟩
  · exact ⟨v, h1, by push_cast; exact h2⟩
  · exfalso
    have h3 : ((M * N : ℕ) : ℝ) < 2 ^ EMAX := lt_emax_of_pow (c := 1) (n := i) (by omega) (by rw [one_mul]; exact h)
    have h4 : |((M * N : ℤ) : ℝ)| = ((M * N : ℕ) : ℝ) := by push_cast; rw [abs_of_nonneg (by positivity)]
    rw [h4] at h2
    linarith

theorem IsInt.fromU {u : Nat} (h0 : 0 < u) (hu : u < 2 ^ 64) : ∃ v, Num.fromU 64 u 64 = .ok v ∧ IsInt v u := by
  obtain ⟨v, h1, h2, h3, h4, h5⟩ := fromWord_spec (K := ℝ) (d := u) (by rw [B_eq]; exact hu) (p := 64)
    (by norm_num) (by decide)
  refine ⟨v, by unfold Num.fromU; rw [if_neg (by norm_num)]; exact h1, h2, by rw [h4]; simp, h5, ?_, by omega⟩
  have hl : v.m.m.length = 1 := by
    have : precBits 64 = 64 := by decide
    omega
  have h6 := h2.abs_lt_zpow (K := ℝ)
  rw [h4, abs_of_nonneg (by positivity)] at h6
  have h7 : (1 : ℝ) ≤ u := by exact_mod_cast h0
  have h8 : (0 : ℤ) < v.e := by
    by_contra hc
    have := zpow_le_one_of_nonpos₀ (a := (2 : ℝ)) (by norm_num) (not_lt.1 hc)
    linarith
  rw [hl]; omega

theorem piLeaf_eq {b : Nat} {n0 n1 n2 n3 r m0 m1 m2 m3 q k0 p : Num} (e1 : Num.fromU 64 (6 * b - 5) 64 = .ok n0)
    (e2 : Num.fromU 64 (2 * b - 1) 64 = .ok n1) (e3 : Num.fromU 64 (6 * b - 1) 64 = .ok n2)
    (e4 : n0.mulFullPrec n1 = .ok n3) (e5 : n3.mulFullPrec n2 = .ok r)
    (e6 : Num.fromU 64 10939058860032000 64 = .ok m0) (e7 : Num.fromU 64 b 64 = .ok m1)
    (e8 : m1.mulFullPrec m1 = .ok m2) (e9 : m2.mulFullPrec m1 = .ok m3) (e10 : m0.mulFullPrec m3 = .ok q)
    (e11 : Num.fromU 64 (13591409 + 545140134 * b) 64 = .ok k0) (e12 : r.mulFullPrec k0 = .ok p) :
    piLeaf b = .ok (if b % 2 ≠ 0 then p.invSign else p, q, r, 1) := by
  simp only [piLeaf, e1, e2, e3, e4, e5, e6, e7, e8, e9, e10, e11, e12]

theorem piLeaf_spec {a : Nat} (ha : a < 2 ^ 33) : ∃ t, piLeaf (a + 1) = .ok t ∧ PiRep t a 1 := by
  have hR := chR_succ a
  have hb : ∀ {M N i j : ℕ}, M < 2 ^ i → N < 2 ^ j → M * N < 2 ^ (i + j) := by
    intro M N i j h1 h2
    rw [pow_add]
    exact Nat.mul_lt_mul'' h1 h2
  obtain ⟨n0, e1, g1⟩ := IsInt.fromU (u := 6 * (a + 1) - 5) (by omega) (by omega)
  obtain ⟨n1, e2, g2⟩ := IsInt.fromU (u := 2 * (a + 1) - 1) (by omega) (by omega)
  obtain ⟨n2, e3, g3⟩ := IsInt.fromU (u := 6 * (a + 1) - 1) (by omega) (by omega)
  have b1 : 6 * (a + 1) - 5 < 2 ^ 64 := by omega
  have b2 : 2 * (a + 1) - 1 < 2 ^ 64 := by omega
  have b3 : 6 * (a + 1) - 1 < 2 ^ 64 := by omega
  obtain ⟨n3, e4, g4⟩ := g1.mulN g2 (hb b1 b2) (by norm_num)
  have bR := hb (hb b1 b2) b3
  obtain ⟨r, e5, g5⟩ := g4.mulN g3 bR (by norm_num)
  obtain ⟨C, hC⟩ : ∃ C, C = 10939058860032000 := ⟨_, rfl⟩
  have b5 : C < 2 ^ 64 := by omega
  obtain ⟨m0, e6, g6⟩ := IsInt.fromU (u := C) (by omega) b5
  obtain ⟨m1, e7, g7⟩ := IsInt.fromU (u := a + 1) (by omega) (by omega)
  have b4 : a + 1 < 2 ^ 64 := by omega
  obtain ⟨m2, e8, g8⟩ := g7.mulN g7 (hb b4 b4) (by norm_num)
  obtain ⟨m3, e9, g9⟩ := g8.mulN g7 (hb (hb b4 b4) b4) (by norm_num)
  obtain ⟨q, e10, g10⟩ := g6.mulN g9 (hb b5 (hb (hb b4 b4) b4)) (by norm_num)
  obtain ⟨A, hA⟩ : ∃ A, A = 13591409 + 545140134 * (a + 1) := ⟨_, rfl⟩
  have b6 : A < 2 ^ 64 := by omega
  obtain ⟨k0, e11, g11⟩ := IsInt.fromU (u := A) (by omega) b6
  obtain ⟨p, e12, g12⟩ := g5.mulN g11 (hb bR b6) (by norm_num)
  rw [hC] at e6
  rw [hA] at e11
  refine ⟨_, piLeaf_eq e1 e2 e3 e4 e5 e6 e7 e8 e9 e10 e11 e12, by norm_num, ?_, ?_, ?_, rfl⟩
  · rw [piP_one]
    unfold chS chA chR
    rw [← hA]
    dsimp only
    split
    · exact g12.invSign
    · exact g12
  · have : piQ a 1 = chQ (a + 1) := by simp [piQ, serQ]
    rw [this]; unfold chQ; rw [← hC]; exact g10
  · have : piR a 1 = chR (a + 1) := by simp [piR, serQ]
    rw [this]; unfold chR; exact g5

theorem piMerge_spec {ta tb : Num × Num × Num × Nat} {a m n : Nat} (ha : PiRep ta a m) (hb : PiRep tb (a + m) n) :
    (∃ t, piMerge ta tb = .ok t ∧ PiRep t a (m + n)) ∨ IsOvf (piMerge ta tb) ∧ 2 ^ 24 < a + m + n := by
  have hQ : (piQ a (m + n) : ℤ) = piQ a m * piQ (a + m) n := by
    have : piQ a (m + n) = piQ a m * piQ (a + m) n := serQ_add _ _ _ _
    exact_mod_cast this
  have hR : (piR a (m + n) : ℤ) = piR a m * piR (a + m) n := by
    have : piR a (m + n) = piR a m * piR (a + m) n := serQ_add _ _ _ _
    exact_mod_cast this
  have hP : piP a (m + n) = piP a m * piQ (a + m) n + piP (a + m) n * piR a m := by
    rw [piP_add]; ring
  have hn := ha.pos
  have hP0 : piP a (m + n) ≠ 0 := (piP_lt (m + n) a).2 (by omega)
  have ht := ha.n
  have ht' := hb.n
  -- the sizes of the intermediate values
  have hfit : a + m + n ≤ 2 ^ 24 →
      |((piR a m * piR (a + m) n : ℤ) : ℝ)| < 2 ^ EMAX ∧ |((piQ a m * piQ (a + m) n : ℤ) : ℝ)| < 2 ^ EMAX ∧
      |((piP a m * piQ (a + m) n : ℤ) : ℝ)| < 2 ^ EMAX ∧ |((piP (a + m) n * piR a m : ℤ) : ℝ)| < 2 ^ EMAX ∧
      |((piP a m * piQ (a + m) n + piP (a + m) n * piR a m : ℤ) : ℝ)| < 2 ^ EMAX := by
    intro h
    obtain ⟨f1, f2, f3⟩ := pi_fits (a := a) (n := m + n) (by omega)
    obtain ⟨-, f4, f5⟩ := pi_fits (a := a) (n := m) (by omega)
    obtain ⟨-, f6, f7⟩ := pi_fits (a := a + m) (n := n) (by omega)
    have hQr : ((2 ^ 64 * piQ a (m + n) : ℕ) : ℝ) = 2 ^ 64 * (piQ a m : ℝ) * piQ (a + m) n := by
      have : ((piQ a (m + n) : ℤ) : ℝ) = ((piQ a m * piQ (a + m) n : ℤ) : ℝ) := by rw [hQ]
      push_cast at this ⊢
      rw [this]; ring
    have q1 : (1 : ℝ) ≤ piQ a m := by exact_mod_cast piQ_pos a m
    have q2 : (1 : ℝ) ≤ piQ (a + m) n := by exact_mod_cast piQ_pos (a + m) n
    have r1 : (piR a m : ℝ) ≤ piQ a m := by
      exact_mod_cast le_trans (Nat.le_mul_of_pos_left _ (by positivity)) (piR_le a m)
    rw [hQr] at f1 f2 f3
    push_cast at f4 f6
    refine ⟨?_, ?_, ?_, ?_, ?_⟩
    · rw [← hR]
      push_cast
      rw [abs_of_nonneg (by positivity)]
      linarith
    · push_cast
      rw [abs_of_nonneg (by positivity)]
      have : (0 : ℝ) ≤ (piQ a m : ℝ) * piQ (a + m) n := by positivity
      nlinarith
    · push_cast
      rw [abs_mul, abs_of_nonneg (show (0 : ℝ) ≤ piQ (a + m) n by positivity)]
      exact lt_trans (mul_lt_mul_of_pos_right f4 (by linarith)) (by norm_num at f1 ⊢; exact f1)
    · push_cast
      rw [abs_mul, abs_of_nonneg (show (0 : ℝ) ≤ piR a m by positivity)]
      refine lt_of_le_of_lt (mul_le_mul f6.le r1 (by positivity) (by positivity)) ?_
      linarith
    · rw [← hP]
      exact lt_trans f2 f1
  unfold piMerge
  rcases ha.r.mul hb.r with ⟨⟨r, g1, g2⟩, -⟩ | ⟨⟨sg, g1⟩, g2⟩
  · rw [g1]
    dsimp only
    rcases ha.q.mul hb.q with ⟨⟨q, g3, g4⟩, -⟩ | ⟨⟨sg, g3⟩, g4⟩
    · rw [g3]
      dsimp only
      rcases ha.p.mul hb.q with ⟨⟨n0, g5, g6⟩, -⟩ | ⟨⟨sg, g5⟩, g6⟩
      · rw [g5]
        dsimp only
        rcases hb.p.mul ha.r with ⟨⟨n1, g7, g8⟩, -⟩ | ⟨⟨sg, g7⟩, g8⟩
        · rw [g7]
          dsimp only
          rcases g6.add g8 (by rw [← hP]; exact hP0) with ⟨⟨p, g9, g10⟩, -⟩ | ⟨⟨sg, g9⟩, g10⟩
          · left
            rw [g9]
            refine ⟨_, rfl, by omega, ?_, ?_, ?_, ?_⟩
            · rw [hP]; exact g10
            · rw [hQ]; exact g4
            · rw [hR]; exact g2
            · rw [ht, ht']
          · right
            rw [g9]
            exact ⟨⟨sg, rfl⟩, not_le.1 fun h => absurd g10 (not_le.2 (hfit h).2.2.2.2)⟩
        · right
          rw [g7]
          exact ⟨⟨sg, rfl⟩, not_le.1 fun h => absurd g8 (not_le.2 (hfit h).2.2.2.1)⟩
      · right
        rw [g5]
        exact ⟨⟨sg, rfl⟩, not_le.1 fun h => absurd g6 (not_le.2 (hfit h).2.2.1)⟩
    · right
      rw [g3]
      exact ⟨⟨sg, rfl⟩, not_le.1 fun h => absurd g4 (not_le.2 (hfit h).2.1)⟩
  · right
    rw [g1]
    exact ⟨⟨sg, rfl⟩, not_le.1 fun h => absurd g2 (not_le.2 (hfit h).1)⟩

theorem piSeries : SeriesOkS piLeaf piMerge PiRep (2 ^ 24) (9 * 2 ^ 21) where
  leaf := fun _ ha => piLeaf_spec ha
  merge := fun ha hb _ => piMerge_spec ha hb
  bound := by
    intro t n h
    by_contra hc
    push Not at hc
    have := pi_large hc
    have h1 := h.q.wf.abs_lt_zpow (K := ℝ)
    rw [h.q.eq] at h1
    push_cast at h1
    rw [abs_of_nonneg (by positivity)] at h1
    have h2 : (2 : ℝ) ^ t.2.1.e ≤ 2 ^ EMAX := zpow_le_zpow_right₀ (by norm_num) h.q.wf.emax
    linarith
  nmax_le := by norm_num

end AF
