import Verif.Lemmas.ExprLoop
import Verif.Lemmas.Mono
/-!
# An expression whose rounds never end: `(1/3)*3 - 1`
-/

namespace AF

theorem e_of_val {v : Num} (hv : v.WF) {k : ℤ} (h1 : (2 : ℝ) ^ (k - 1) ≤ |(v.toK : ℝ)|) (h2 : |(v.toK : ℝ)| < 2 ^ k) (hk : EMIN ≤ k) : v.e = k := by
  have hz : v.isZero = false := by
    rw [← Bool.not_eq_true]
    intro hz
    rw [hv.toK_eq_zero.2 hz, abs_zero] at h1
    have : (0 : ℝ) < 2 ^ (k - 1) := by positivity
    linarith
  obtain ⟨q, r1, r2, r3, -⟩ := Num.WF.mag (K := ℝ) hv hz
  have a1 := (zpow_lt_zpow_iff_right₀ (by norm_num : (1 : ℝ) < 2)).1 (lt_of_le_of_lt h1 r2)
  have a2 := (zpow_lt_zpow_iff_right₀ (by norm_num : (1 : ℝ) < 2)).1 (lt_of_le_of_lt r1 h2)
  omega

/-- A truncated operation whose truncated result is known. -/
theorem deliver_eq {P : Nat} (hP : 0 < P) {S T : ℝ} {ix : Bool} {r : BF} (h : DeliversBF .none P S ix r) (hS : InRange S)
    (hT : RoundsPrec .none P S T) : ∃ v, r = .num v ∧ v.WF ∧ (v.toK : ℝ) = T ∧ (v.inexact = true ↔ ix = true ∨ T ≠ S) ∧ (0 < S → v.s = .pos) := by
  have hlo : (2 : ℝ) ^ (EMIN - 1) ≤ |S| := le_trans (zpow_le_zpow_right₀ (by norm_num) (by omega)) hS.1
  have hhi : |S| < 2 ^ EMAX := lt_of_lt_of_le hS.2 (zpow_le_zpow_right₀ (by norm_num) (by omega))
  cases r with
  | num v =>
    have h5 := (Delivers.normal h hlo).unique hP hT
    refine ⟨v, rfl, h.1, h5, ?_, h.2.2.1⟩
    rw [← h5]; exact h.2.2.2.2.1
  | inf s =>
    obtain ⟨_, t, h5, h6⟩ := h
    rw [h5.unique hP hT] at h6
    rcases hT with ⟨h7, h8⟩ | ⟨q, -, -, k, -, h8, -⟩
    · exact absurd h7 hS.ne
    · exact absurd (lt_of_le_of_lt (le_trans h6 h8) hhi) (lt_irrefl _)
  | nan e => exact absurd h id

theorem inRange_of {S : ℝ} (k l : ℤ) (h1 : (2 : ℝ) ^ k ≤ |S|) (h2 : |S| < 2 ^ l) (hk : EMIN + 1 ≤ k) (hl : l ≤ EMAX - 1) : InRange S :=
  ⟨le_trans (zpow_le_zpow_right₀ (by norm_num) hk) h1, lt_of_lt_of_le h2 (zpow_le_zpow_right₀ (by norm_num) hl)⟩

theorem three_dvd {P : Nat} (hP : 2 ∣ P) : ∃ k : ℕ, 3 * k + 2 = 2 ^ (P + 1) := by
  obtain ⟨j, rfl⟩ := hP
  induction j with
  | zero => exact ⟨0, by norm_num⟩
  | succ j ih =>
    obtain ⟨k, hk⟩ := ih
    refine ⟨4 * k + 2, ?_⟩
    rw [show 2 * (j + 1) + 1 = 2 * j + 1 + 2 by ring, pow_add, ← hk]
    ring

/-- The expression `(a/b)*b - a`. -/
def MExpr.restart (a b : Num) : MExpr := .sub (.mul (.div (.var (.num a)) (.var (.num b))) (.var (.num b))) (.var (.num a))

theorem restart_round {w p E : Nat} {emin emax : Int} {a b : Num} (hw : ValidP w) (hpw : p + 64 ≤ w) (hP : precBits w ≤ 2 ^ 30)
    (ha : a.WF) (hb : b.WF) (ha1 : (a.toK : ℝ) = 1) (hb3 : (b.toK : ℝ) = 3) (hla : 64 * a.m.m.length ≤ p + 64) (hlb : 64 * b.m.m.length ≤ p + 64)
    (hmin : emin ≤ 1) (hmax : 2 ≤ emax) (hE : E ≤ precBits w) :
    (MExpr.restart a b).eval w emin emax [3, 3, E] 0 = .error [3, 3, precBits w + 1] := by
  have hP30 : ((precBits w : ℕ) : ℤ) ≤ 2 ^ 30 := by exact_mod_cast hP
  have hP64 : 64 ≤ precBits w := by unfold precBits; omega
  have hEN : EMIN = -2147483648 := rfl
  have hEX : EMAX = 2147483647 := rfl
  have ra : InRange (a.toK : ℝ) := by
    rw [ha1]; exact inRange_of 0 1 (by norm_num) (by norm_num) (by omega) (by omega)
  have rb : InRange (b.toK : ℝ) := by
    rw [hb3]; exact inRange_of 0 2 (by norm_num) (by norm_num) (by omega) (by omega)
  have ea : a.e = 1 := e_of_val ha (by rw [ha1]; norm_num) (by rw [ha1]; norm_num) (by omega)
  have eb : b.e = 2 := e_of_val hb (by rw [hb3]; norm_num) (by rw [hb3]; norm_num) (by omega)
  obtain ⟨x, x1, x2, x3, x4⟩ := argument_spec (emin := emin) (emax := emax) hw hpw ha hla ra (by omega) (by omega)
  obtain ⟨y, y1, y2, y3, y4⟩ := argument_spec (emin := emin) (emax := emax) hw hpw hb hlb rb (by omega) (by omega)
  rw [ha1] at x3
  rw [hb3] at y3
  have hPp : 0 < precBits w := by omega
  obtain ⟨k, hk⟩ := three_dvd (P := precBits w) (by unfold precBits; omega)
  generalize hPe : precBits w = P at *
  have hkR : (3 : ℝ) * k + 2 = 2 ^ (P + 1) := by exact_mod_cast hk
  -- the unit of the last place of the quotient
  obtain ⟨u, hu⟩ : ∃ u : ℝ, u = 2 ^ (-1 - (P : ℤ)) := ⟨_, rfl⟩
  have hu0 : 0 < u := by rw [hu]; positivity
  have hu2 : (3 * k + 2) * u = 1 := by
    rw [hkR, hu, ← zpow_natCast, ← zpow_add₀ (by norm_num)]
    rw [show ((P + 1 : ℕ) : ℤ) + (-1 - (P : ℤ)) = 0 by push_cast; ring, zpow_zero]
  have h2u : 2 * u = 2 ^ (-(P : ℤ)) := by
    rw [hu, ← zpow_one_add₀ (by norm_num)]; congr 1; ring
  have husmall : 2 * u ≤ 1 / 4 := by
    rw [h2u]
    calc (2 : ℝ) ^ (-(P : ℤ)) ≤ 2 ^ (-2 : ℤ) := zpow_le_zpow_right₀ (by norm_num) (by omega)
      _ = _ := by norm_num
  -- the quotient
  have hd := BF.div_delivers (K := ℝ) x2 y2 (by rw [y3]; norm_num) hw .none
  rw [hPe, x3, y3] at hd
  obtain ⟨q, q1, q2, q3, q4, -⟩ := deliver_eq (T := k * u) hPp hd
    (inRange_of (-2) 0 (by norm_num [abs_of_pos]) (by norm_num [abs_of_pos]) (by omega) (by omega)) (by
      refine Or.inr ⟨-1, by norm_num [abs_of_pos], by norm_num [abs_of_pos], (k : ℤ), ?_, ?_, ?_, ?_⟩
      · rw [hu]; push_cast; rfl
      · rw [abs_of_pos (by norm_num : (0 : ℝ) < 1 / 3), abs_of_nonneg (by positivity)]; nlinarith
      · rw [abs_of_pos (by norm_num : (0 : ℝ) < 1 / 3), abs_of_nonneg (by positivity), ← hu]; nlinarith
      · positivity)
  have qi : q.inexact = true := q4.2 (Or.inr (by intro h; nlinarith))
  -- times three
  have hku : 0 < (k : ℝ) * u := by nlinarith
  have hqz : q.isZero = false := by
    rw [← Bool.not_eq_true]; intro h
    rw [q2.toK_eq_zero.2 h] at q3; linarith
  have hyz : y.isZero = false := by
    rw [← Bool.not_eq_true]; intro h
    rw [y2.toK_eq_zero.2 h] at y3; norm_num at y3
  have hxz : x.isZero = false := by
    rw [← Bool.not_eq_true]; intro h
    rw [x2.toK_eq_zero.2 h] at x3; norm_num at x3
  have hm := BF.mul_delivers (K := ℝ) q2 y2 hw .none
  rw [hPe, q3, y3, show (k : ℝ) * u * 3 = 1 - 2 * u by linarith] at hm
  have hm0 : |1 - 2 * u| = 1 - 2 * u := abs_of_pos (by linarith)
  obtain ⟨m, m1, m2, m3, m4, m5⟩ := deliver_eq (T := 1 - 2 * u) hPp hm
    (inRange_of (-1) 0 (by rw [hm0]; norm_num; linarith) (by rw [hm0]; norm_num; linarith) (by omega) (by omega)) (by
      refine Or.inr ⟨0, by rw [hm0]; norm_num; linarith, by rw [hm0]; norm_num; linarith, (2 ^ P - 1 : ℤ), ?_, le_rfl, ?_, ?_⟩
      · push_cast
        rw [h2u, zero_sub, sub_mul, one_mul, ← zpow_natCast, ← zpow_add₀ (by norm_num), add_neg_cancel, zpow_zero]
      · have : (0 : ℝ) < 2 ^ (0 - (P : ℤ)) := by positivity
        linarith
      · exact mul_self_nonneg _)
  have mi : m.inexact = true := m4.2 (Or.inl (by unfold mulIx; rw [hqz, hyz, qi]; rfl))
  have me : m.e = 0 := e_of_val m2 (by rw [m3, hm0]; norm_num; linarith) (by rw [m3, hm0]; norm_num; linarith) (by omega)
  have xe : x.e = 1 := e_of_val x2 (by rw [x3]; norm_num) (by rw [x3]; norm_num) (by omega)
  have xs : x.s = .pos := by
    have h := Num.toK_eq (K := ℝ) x
    rw [x3] at h
    cases hs : x.s
    · rw [hs] at h; simp only [Sign.toK, neg_mul, one_mul, abs_one] at h; norm_num at h
    · rfl
  -- minus one
  have hs := BF.sub_delivers (K := ℝ) m2 x2 hw .none
  rw [hPe, m3, x3, show 1 - 2 * u - 1 = -(2 * u) by ring] at hs
  have hs0 : |-(2 * u)| = 2 ^ (-(P : ℤ)) := by rw [abs_neg, abs_of_pos (by linarith), h2u]
  obtain ⟨s, s1, s2, s3, s4, -⟩ := deliver_eq (T := -(2 * u)) hPp hs
    (inRange_of (-(P : ℤ)) 0 (by rw [hs0]) (by rw [hs0]; exact zpow_lt_zpow_right₀ (by norm_num) (by omega)) (by omega) (by omega)) (by
      refine Or.inr ⟨1 - (P : ℤ), by rw [hs0]; exact zpow_le_zpow_right₀ (by norm_num) (by omega),
        by rw [hs0]; exact zpow_lt_zpow_right₀ (by norm_num) (by omega), -(2 ^ (P - 1) : ℤ), ?_, le_rfl, ?_, ?_⟩
      · push_cast
        rw [h2u, neg_mul, ← zpow_natCast, ← zpow_add₀ (by norm_num)]
        congr 2
        omega
      · have : (0 : ℝ) < 2 ^ (1 - (P : ℤ) - (P : ℤ)) := by positivity
        linarith
      · exact mul_self_nonneg _)
  have se : s.e = 1 - P := e_of_val s2 (by rw [s3, hs0]; exact zpow_le_zpow_right₀ (by norm_num) (by omega))
    (by rw [s3, hs0]; exact zpow_lt_zpow_right₀ (by norm_num) (by omega)) (by omega)
  have ms : m.s = .pos := m5 (by linarith)
  unfold MExpr.restart
  simp only [MExpr.eval, x1, y1, q1, m1, s1, MExpr.init, List.length_append, List.length_cons, List.length_nil]
  have hcan : MExpr.cancelled true (.num m) (.num x) (.num s) [3, 3, E] 2 = some (P + 1) := by
    unfold MExpr.cancelled
    simp only [BF.inexact, mi, Bool.true_or, if_true, BF.exponent, BF.sign, me, xe, se, ms, xs]
    rw [if_pos ⟨by decide, by simp⟩]
    have h1 : (max (0 : ℤ) 1 - (1 - (P : ℤ))).natAbs + 1 = P + 1 := by omega
    rw [h1, if_pos (by simp; omega)]
  norm_num
  rw [hcan]

theorem restart_loop {p : Nat} {rm : RM} {emin emax : Int} {a b : Num} (ha : a.WF) (hb : b.WF) (ha1 : (a.toK : ℝ) = 1) (hb3 : (b.toK : ℝ) = 3)
    (hla : 64 * a.m.m.length ≤ p + 64) (hlb : 64 * b.m.m.length ≤ p + 64) (hmin : emin ≤ 1) (hmax : 2 ≤ emax) :
    ∀ f E : Nat, f * (p + 134) + E ≤ 2 ^ 30 → exprLoop (MExpr.restart a b) p rm emin emax f [3, 3, E] = none := by
  intro f
  induction f with
  | zero => intro E _; rfl
  | succ f ih =>
    intro E h
    rw [Nat.succ_mul] at h
    have hU : (2 : ℕ) ^ 60 < USIZE_MAX := by decide
    have hsum : ([3, 3, E] : List Nat).sum = 6 + E := by simp; omega
    have hPb : precBits (p + 70 + E) ≤ p + 133 + E := by unfold precBits; omega
    have hPl : p + 70 + E ≤ precBits (p + 70 + E) := by unfold precBits; omega
    simp only [exprLoop]
    rw [hsum, show p + 64 + (6 + E) = p + 70 + E by ring, min_eq_right (by norm_num at h hU ⊢; omega)]
    rw [restart_round (p := p) ⟨by omega, by norm_num at h ⊢; omega⟩ (by omega) (by omega) ha hb ha1 hb3 hla hlb hmin hmax (by omega)]
    exact ih _ (by omega)

end AF
