import Verif.Lemmas.DecFrom
/-!
# The loop of the conversion of decimal digits
-/

namespace AF

set_option linter.unusedSectionVars false

/-- An exact number rounded once. -/
theorem DecOk.of_delivers {rm : RM} {P : Nat} {X : ℚ} {v : Num} (hlo : (2 : ℚ) ^ (EMIN - 1) ≤ |X|)
    (h : Delivers rm P X false (.ok v)) : DecOk rm P X v := by
  have hN := h.normal hlo
  obtain ⟨g1, g2, g3, g4, g5, g6⟩ := h
  refine ⟨g1, g2, g3, g4, fun h => ?_, fun _ h => ?_, fun _ => ?_, fun hn => ?_, fun hn => ?_⟩
  · rw [h] at g5
    simpa using g5
  · simpa using g5.1 h
  · rcases g6 with g6 | ⟨_, g6, _⟩
    · exact g6
    · exact absurd hlo (not_le.2 g6)
  · refine (hN.nearest_rel hn).trans (mul_le_mul_of_nonneg_left ?_ (abs_nonneg _))
    have h1 : (0 : ℚ) < 2 ^ (-(P : ℤ)) := by positivity
    have h2 : (0 : ℚ) < 2 ^ (-60 : ℤ) := by positivity
    nlinarith
  · subst hn
    refine hN.none_abs.trans (mul_le_mul_of_nonneg_left ?_ (abs_nonneg _))
    have h1 : (0 : ℚ) < 2 ^ (1 - (P : ℤ)) := by positivity
    have h2 : (0 : ℚ) < 2 ^ (-60 : ℤ) := by positivity
    nlinarith

/-- The outcome of the conversion of decimal digits with the value `X`; under `S` it is a number. -/
def DecRes (rm : RM) (P : Nat) (X : ℚ) (S : Prop) : Except Err Num → Prop
  | .ok v => DecOk rm P X v
  | .error e => e = .invalidArgument ∧ ¬ S

/-- One round of the loop. -/
theorem fromDec_round {x : Num} (hx : x.WF) (hxi : x.inexact = false) {n : Int} {k r : Nat}
    (hn : n.natAbs = k * TEN_PWR_MAX_FROM_DEC + r) (hr : r < TEN_PWR_MAX_FROM_DEC) {g : ℚ}
    (hg : g = if decide (n < 0) then 10⁻¹ else 10) (hD1 : 1 ≤ |(x.toK : ℚ)|) (hD2 : |(x.toK : ℚ)| < 2 ^ EMAX)
    (hlo : (2 : ℚ) ^ EMIN ≤ |x.toK * g ^ n.natAbs|) (hhi : |x.toK * g ^ n.natAbs| < 2 ^ (EMAX - 2))
    {N w pw : Nat} (hN : N = k + (if r ≠ 0 then 1 else 0)) (hN0 : 0 < N) (hw : 64 ∣ w)
    (hp : 0 < pw) (hpm : 64 * pw < PMAX) (hpw : 64 * pw + 64 ≤ w) (rm : RM) {D : ℤ} (hxD : (x.toK : ℚ) = D) {S : Prop}
    (hS : S → (rm.directed = true ∨ rm = .none) ∧ n.natAbs ≤ 2 ^ 33) (hsm : S → w ≤ 2 ^ 60 - 2 ^ 40)
    (rest : Except Err Num)
    (hrest : roundP (w + 3 * N) < PMAX → (S → w < 64 * pw + 2 ^ 37 + 4 * n.natAbs) →
      DecRes rm (64 * pw) (x.toK * g ^ n.natAbs) S rest) :
    DecRes rm (64 * pw) (x.toK * g ^ n.natAbs) S
      (match x.fromDecStep n k r (w + 3 * N) with
      | .error e => .error e
      | .ok f =>
        match (f.setSign x.s).trySetPrecision (64 * pw) rm w with
        | .error e => .error e
        | .ok (true, r) => .ok r
        | .ok (false, _) => rest) := by
  have hEM : ∀ a : ℤ, (2 : ℚ) ^ a = 2 * 2 ^ (a - 1) := by
    intro a
    rw [← zpow_one_add₀ (by norm_num)]; congr 1; ring
  rcases fromDecStep_spec hx hxi hn hr hg hD1 hD2 hlo hhi hN hN0 hw rfl with
    ⟨f, f1, f2, f3, f4, f5⟩ | ⟨f1, f2⟩
  swap
  · rw [f1]
    refine ⟨rfl, fun hs => ?_⟩
    have h1 := hsm hs
    obtain ⟨_, h2⟩ := hS hs
    have hT0 : 1 ≤ TEN_PWR_MAX_FROM_DEC := by decide
    have h3 : k ≤ k * TEN_PWR_MAX_FROM_DEC := Nat.le_mul_of_pos_right _ hT0
    have h4 : N ≤ n.natAbs + 1 := by rw [hN]; split <;> omega
    have hPM : PMAX = 2 ^ 62 - 2 ^ 31 - 1 := rfl
    have hU : USIZE_MAX = 2 ^ 64 - 1 := rfl
    have h5 : roundP (w + 3 * N) ≤ w + 3 * N + 63 := by
      unfold roundP
      refine (Nat.div_mul_le_self _ _).trans (Nat.min_le_left _ _)
    omega
  rw [f1]
  dsimp only
  obtain ⟨h1, h2, _⟩ := roundP_ge f2
  obtain ⟨e1, e2⟩ := scale_error_small hN0 hw h2 (by omega : w + 3 * N ≤ roundP (w + 3 * N))
  obtain ⟨c, c0, c1, c2⟩ := f3.ex
  have hcw : |c - 1| ≤ 2 ^ (-(w : ℤ) - 2) := by rw [abs_le]; constructor <;> linarith
  have hε : (2 : ℚ) ^ (-(w : ℤ) - 2) ≤ 1 / 4 := by
    rw [show (1 / 4 : ℚ) = 2 ^ (-2 : ℤ) by norm_num]
    exact zpow_le_zpow_right₀ (by norm_num) (by omega)
  obtain ⟨c3, c4⟩ := abs_le.1 hcw
  have hc0 : 0 < c := by linarith
  set X : ℚ := x.toK * g ^ n.natAbs with hX
  have hg0 : 0 < g := by rw [hg]; split <;> norm_num
  have hgn : 0 < g ^ n.natAbs := pow_pos hg0 _
  have habs : |(f.toK : ℚ)| = |X| * c := by rw [c0, abs_mul, abs_of_pos hc0]
  have hflo : (2 : ℚ) ^ (EMIN - 1) ≤ |(f.toK : ℚ)| := by
    rw [habs]; have := hEM EMIN; nlinarith [abs_nonneg X]
  have hX1 : (2 : ℚ) ^ (EMIN - 1) ≤ |X| :=
    le_trans (zpow_le_zpow_right₀ (by norm_num) (by omega)) hlo
  have hX0 : X ≠ 0 := by
    intro h; rw [h, abs_zero] at hX1; exact absurd hX1 (not_le.2 (by positivity))
  have hsf : f.s = x.s := by
    have hx0 : (x.toK : ℚ) ≠ 0 := by intro h; rw [hX, h, zero_mul] at hX0; exact hX0 rfl
    rcases lt_or_gt_of_ne hx0 with h | h
    · rw [toK_sign_neg h]
      refine toK_sign_neg (K := ℚ) ?_
      rw [c0, hX]
      exact mul_neg_of_neg_of_pos (mul_neg_of_neg_of_pos h hgn) hc0
    · rw [toK_sign_pos h]
      refine toK_sign_pos (K := ℚ) ?_
      rw [c0, hX]
      exact mul_pos (mul_pos h hgn) hc0
  have hset : f.setSign x.s = f := by
    rw [← hsf]; rfl
  rw [hset]
  have hwl : w ≤ 64 * f.m.m.length := by rw [f4]; omega
  cases htr : f.trySetPrecision (64 * pw) rm w with
  | error e =>
    exfalso
    obtain ⟨_, q2⟩ := tryPrec_error (by omega) hpm (by omega) hwl htr
    have hfz : f.isZero = false := by
      rw [← Bool.not_eq_true, ← f3.wf.toK_eq_zero (K := ℚ), c0]
      exact mul_ne_zero hX0 hc0.ne'
    obtain ⟨q, q1, _, q3, _⟩ := f3.wf.mag (K := ℚ) hfz
    have hq : q = EMAX := by
      rw [q2] at q3
      have := EMIN_lt_EMAX
      omega
    rw [hq, habs] at q1
    have h5 := hEM (EMAX - 1)
    rw [show EMAX - 1 - 1 = EMAX - 2 by ring] at h5
    nlinarith [abs_nonneg X]
  | ok b =>
    obtain ⟨b, v⟩ := b
    cases b with
    | true =>
      dsimp only
      exact (tryPrec_apx f3.wf hX1 hflo c0 hcw f3.exact hp hpm hpw hw hwl htr).1
    | false =>
      dsimp only
      refine hrest f2 fun hs => ?_
      by_contra hcon
      push Not at hcon
      obtain ⟨hmode, hn33⟩ := hS hs
      rcases hmode with hdir | hnone
      swap
      · obtain ⟨h8, _⟩ := tryPrec_eq_setPrec (by omega) (by omega) hwl (by omega) (Or.inr (Or.inl hnone)) htr
          (Or.inr (Or.inl hnone))
        cases h8
      obtain ⟨hfi, j, hj⟩ := tryPrec_reject (K := ℚ) f3.wf hp hpw hw hwl hdir htr
      have hfe : f.e ≤ 2 ^ 31 := by
        have := f3.wf.emax
        have hE : EMAX = 2147483647 := rfl
        omega
      have hX2 : |X| ≤ 2 * |(f.toK : ℚ)| := by rw [habs]; nlinarith [abs_nonneg X]
      have hflt := f3.wf.abs_lt_zpow (K := ℚ)
      have hXe : |X| < 2 ^ (f.e + 1) := by
        rw [hEM (f.e + 1), show f.e + 1 - 1 = f.e by ring]; linarith
      have hclose : |(|X| - j * 2 ^ (f.e - ((64 * pw : ℕ) : ℤ)))| < 2 ^ (f.e - (w : ℤ) + 1) := by
        have h8 : |(|X| - |(f.toK : ℚ)|)| < 2 ^ (f.e - (w : ℤ)) := by
          rw [habs, show |X| - |X| * c = -(|X| * (c - 1)) by ring, abs_neg, abs_mul, abs_abs]
          have h9 : (2 : ℚ) ^ (f.e - (w : ℤ)) = 2 ^ (f.e + 1) * (2 * 2 ^ (-(w : ℤ) - 2)) := by
            rw [← zpow_one_add₀ (by norm_num), ← zpow_add₀ (by norm_num)]; congr 1; ring
          rw [h9]
          have h10 : (0 : ℚ) < 2 ^ (-(w : ℤ) - 2) := by positivity
          have h11 : |X| * |c - 1| ≤ |X| * 2 ^ (-(w : ℤ) - 2) := mul_le_mul_of_nonneg_left hcw (abs_nonneg _)
          have h12 : |X| * (2 : ℚ) ^ (-(w : ℤ) - 2) < 2 ^ (f.e + 1) * 2 ^ (-(w : ℤ) - 2) :=
            mul_lt_mul_of_pos_right hXe h10
          have h13 : (0 : ℚ) < 2 ^ (f.e + 1) * 2 ^ (-(w : ℤ) - 2) := by positivity
          linarith
        have h14 := abs_add_le (|X| - |(f.toK : ℚ)|) (|(f.toK : ℚ)| - j * 2 ^ (f.e - ((64 * pw : ℕ) : ℤ)))
        rw [sub_add_sub_cancel] at h14
        rw [hEM (f.e - (w : ℤ) + 1), show f.e - (w : ℤ) + 1 - 1 = f.e - w by ring]
        linarith
      have hXD : X = D * g ^ n.natAbs := by rw [hX, hxD]
      have heq := dec_gap hg hXD hfe (by omega) hclose
      have hD3 : |D| < 2 ^ 2 ^ 31 := by
        rw [hxD] at hD2
        have h15 : (2 : ℚ) ^ EMAX ≤ 2 ^ (2 ^ 31 : ℕ) := by
          rw [← zpow_natCast]
          refine zpow_le_zpow_right₀ (by norm_num) ?_
          unfold EMAX; norm_num
        have h16 := hD2.trans_le h15
        generalize 2 ^ 31 = M at h16 ⊢
        exact_mod_cast h16
      have hlen : w ≤ roundP (w + 3 * N) := by omega
      have hni := f5 (by omega) fun i _ hi => by
        rw [hxD]
        exact dec_rep hg hXD heq hXe hD3 (by omega) hi
      rw [hni] at hfi
      cases hfi

theorem fromDecLoop_spec {x : Num} (hx : x.WF) (hxi : x.inexact = false) {n : Int} {k r : Nat}
    (hn : n.natAbs = k * TEN_PWR_MAX_FROM_DEC + r) (hr : r < TEN_PWR_MAX_FROM_DEC) {g : ℚ}
    (hg : g = if decide (n < 0) then 10⁻¹ else 10) (hD1 : 1 ≤ |(x.toK : ℚ)|) (hD2 : |(x.toK : ℚ)| < 2 ^ EMAX)
    (hlo : (2 : ℚ) ^ EMIN ≤ |x.toK * g ^ n.natAbs|) (hhi : |x.toK * g ^ n.natAbs| < 2 ^ (EMAX - 2))
    {N pw : Nat} (hN : N = k + (if r ≠ 0 then 1 else 0)) (hN0 : 0 < N)
    (hp : 0 < pw) (hpm : 64 * pw < PMAX) (rm : RM) {D : ℤ} (hxD : (x.toK : ℚ) = D) {S : Prop}
    (hS : S → (rm.directed = true ∨ rm = .none) ∧ n.natAbs ≤ 2 ^ 33) (hS2 : S → 64 * pw ≤ 2 ^ 59) :
    ∀ (f pwrk pinc : Nat), 64 ∣ pwrk → 64 ∣ pinc → 64 * pw + 64 ≤ pwrk →
      pinc ≤ pwrk + 64 → 5 ^ f * PMAX ≤ 6 ^ f * (pwrk + pinc) →
      (S → pwrk ≤ 2 ^ 60 - 2 ^ 40 ∧ pinc ≤ pwrk / 5 + 127) →
      DecRes rm (64 * pw) (x.toK * g ^ n.natAbs) S
        (x.fromDecLoop x.s n k r (3 * N) (64 * pw) rm (f + 2) pwrk pinc) := by
  intro f
  induction f with
  | zero =>
    intro pwrk pinc h1 h2 h3 h5 h6 h7
    unfold Num.fromDecLoop
    apply fromDec_round hx hxi hn hr hg hD1 hD2 hlo hhi hN hN0 h1 hp hpm h3 rm hxD hS (fun h => (h7 h).1)
    intro hv hlt
    unfold Num.fromDecLoop
    have hbig : PMAX ≤ pwrk + pinc := by simpa using h6
    apply fromDec_round hx hxi hn hr hg hD1 hD2 hlo hhi hN hN0 (Nat.dvd_add h1 h2) hp hpm (by omega) rm hxD hS
      (fun h => by have := h7 h; have := hlt h; have := hS h; have := hS2 h; omega)
    intro hv' _
    obtain ⟨r1, r2, r3⟩ := roundP_ge hv'
    omega
  | succ f ih =>
    intro pwrk pinc h1 h2 h3 h5 h6 h7
    unfold Num.fromDecLoop
    apply fromDec_round hx hxi hn hr hg hD1 hD2 hlo hhi hN hN0 h1 hp hpm h3 rm hxD hS (fun h => (h7 h).1)
    intro hv hlt
    obtain ⟨r1, r2, r3⟩ := roundP_ge hv
    have hP : PMAX = 4611686016279904255 := rfl
    obtain ⟨s1, s2, s3⟩ := roundP_step (x := pwrk + pinc) (by omega) (Nat.dvd_add h1 h2)
    refine ih (pwrk + pinc) (roundP ((pwrk + pinc) / 5)) (Nat.dvd_add h1 h2) s1 (by omega) (by omega) ?_ (fun h => by
      have := h7 h; have := hlt h; have := hS h; have := hS2 h; omega)
    have h8 : 6 * (pwrk + pinc) ≤ 5 * (pwrk + pinc + roundP ((pwrk + pinc) / 5)) := by omega
    have h9 : 6 ^ f * (6 * (pwrk + pinc)) ≤ 6 ^ f * (5 * (pwrk + pinc + roundP ((pwrk + pinc) / 5))) :=
      Nat.mul_le_mul_left _ h8
    have h10 : 5 ^ (f + 1) * PMAX = 5 * (5 ^ f * PMAX) := by rw [pow_succ]; ring
    have h11 : 6 ^ (f + 1) * (pwrk + pinc) = 6 ^ f * (6 * (pwrk + pinc)) := by rw [pow_succ]; ring
    have h12 : 6 ^ f * (5 * (pwrk + pinc + roundP ((pwrk + pinc) / 5))) =
        5 * (6 ^ f * (pwrk + pinc + roundP ((pwrk + pinc) / 5))) := by ring
    omega

/-- Digits without scaling: the exact number is rounded. -/
theorem fromDecLoop_zero {x : Num} (hx : x.WF) (hxi : x.inexact = false) (n : Int)
    (hlo : (2 : ℚ) ^ EMIN ≤ |(x.toK : ℚ)|) (hhi : |(x.toK : ℚ)| < 2 ^ (EMAX - 2)) {pw : Nat}
    (hp : 0 < pw) (hpm : 64 * pw < PMAX) (rm : RM) (f pinc : Nat) (S : Prop) :
    DecRes rm (64 * pw) x.toK S
      (x.fromDecLoop x.s n 0 0 0 (64 * pw) rm (f + 1) (64 * pw + 64) pinc) := by
  have hX1 : (2 : ℚ) ^ (EMIN - 1) ≤ |(x.toK : ℚ)| :=
    le_trans (zpow_le_zpow_right₀ (by norm_num) (by omega)) hlo
  have hD := setPrecision_delivers (K := ℚ) hx hp hpm rm
  rw [hxi] at hD
  have hset : x.setSign x.s = x := rfl
  have hstep : x.fromDecStep n 0 0 (64 * pw + 64 + 0) = .ok x := rfl
  have hmb : x.m.maxBitLen = x.m.m.length * 64 := rfl
  have hkey : ∀ e, x.setPrecision (64 * pw) rm ≠ .error e := by
    intro e he
    rw [he] at hD
    obtain ⟨_, t, h2, h3⟩ := hD
    have h4 := h2.abs_le (by omega) hhi.le
    have h5 : (2 : ℚ) ^ (EMAX - 2) < 2 ^ EMAX := zpow_lt_zpow_right₀ (by norm_num) (by omega)
    linarith
  unfold Num.fromDecLoop
  rw [hstep]
  dsimp only
  rw [hset]
  have htry : ∃ v, x.trySetPrecision (64 * pw) rm (64 * pw + 64) = .ok (true, v) ∧
      x.setPrecision (64 * pw) rm = .ok v := by
    by_cases hl : 64 * x.m.m.length ≤ 64 * pw
    · refine ⟨{ x with m := x.m.setLength (64 * pw) }, ?_, ?_⟩
      · unfold Num.trySetPrecision Num.setPrecisionInternal
        rw [if_neg (by omega), if_neg (by rw [hmb]; omega), if_neg (by omega)]
      · unfold Num.setPrecision Num.setPrecisionInternal
        rw [if_neg (by omega), if_neg (by rw [hmb]; omega), if_neg (by omega)]
    · have hl2 : 64 * pw + 64 ≤ 64 * x.m.m.length := by omega
      cases htr : x.trySetPrecision (64 * pw) rm (64 * pw + 64) with
      | error e =>
        exfalso
        obtain ⟨_, q2⟩ := tryPrec_error (by omega) hpm (by omega) hl2 htr
        have hfz : x.isZero = false := by
          rw [← Bool.not_eq_true, ← hx.toK_eq_zero (K := ℚ)]
          intro h; rw [h, abs_zero] at hX1; exact absurd hX1 (not_le.2 (by positivity))
        obtain ⟨q, q1, _, q3, _⟩ := hx.mag (K := ℚ) hfz
        have hq : q = EMAX := by
          rw [q2] at q3
          have := EMIN_lt_EMAX
          omega
        rw [hq] at q1
        have h5 : (2 : ℚ) ^ (EMAX - 2) < 2 ^ (EMAX - 1) := zpow_lt_zpow_right₀ (by norm_num) (by omega)
        linarith
      | ok b =>
        obtain ⟨b, v⟩ := b
        obtain ⟨b1, b2⟩ := tryPrec_eq_setPrec (by omega) (by omega) hl2 (by omega) (Or.inl hxi) htr (Or.inl hxi)
        subst b1
        exact ⟨v, rfl, b2⟩
  obtain ⟨v, v1, v2⟩ := htry
  rw [v1]
  dsimp only
  rw [v2] at hD
  exact DecOk.of_delivers hX1 hD

end AF
