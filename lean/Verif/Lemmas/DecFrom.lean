import Verif.Lemmas.DecScale
import Verif.Lemmas.TryReject
/-!
# Conversion of decimal digits
-/

namespace AF

set_option linter.unusedSectionVars false

theorem ten_pow_range {n : Nat} (hn : n ≤ TEN_PWR_MAX_FROM_DEC) :
    (10 : ℚ) ^ n < 2 ^ (EMAX - 2) := by
  have h1 : (10 : ℚ) ^ n ≤ 10 ^ TEN_PWR_MAX_FROM_DEC := pow_le_pow_right₀ (by norm_num) hn
  have h2 : (10 : ℚ) ^ TEN_PWR_MAX_FROM_DEC < 2 ^ 2147483645 := by
    have := ten_pow_lt
    generalize TEN_PWR_MAX_FROM_DEC = T at *
    generalize 2147483645 = m at *
    exact_mod_cast this
  have h3 : EMAX - 2 = ((2147483645 : ℕ) : ℤ) := by unfold EMAX; norm_num
  rw [h3, zpow_natCast]
  generalize 2147483645 = m at *
  exact lt_of_le_of_lt h1 h2

theorem EMIN_one : (2 : ℚ) ^ EMIN ≤ 1 := zpow_le_one_of_nonpos₀ (by norm_num) (by unfold EMIN; norm_num)

theorem roundP_valid {p : Nat} (hp : 0 < p) (h : roundP p < PMAX) : ValidP p ∧ precBits p = roundP p := by
  have h1 := roundP_eq h
  have h2 : precBits p = roundP p := by rw [h1]; unfold precBits wordLen; rfl
  exact ⟨⟨hp, by rw [h2]; exact h⟩, h2⟩

/-- A rounded precision is at least the precision, or too large. -/
theorem roundP_large (p : Nat) : p ≤ roundP p ∨ PMAX + 64 ≤ roundP p := by
  unfold roundP
  by_cases h : p + 63 ≤ USIZE_MAX
  · rw [Nat.min_eq_left h]; left; omega
  · rw [Nat.min_eq_right (by omega)]; right; decide

theorem powi_ten_invalid {n px : Nat} (hn : 1 ≤ n) (hnB : n < B) (hp : 0 < px) (h : ¬ roundP px < PMAX) :
    Num.TEN.powi n px .none = .error .invalidArgument := by
  have hP : PMAX = 4611686016279904255 := rfl
  have hU : USIZE_MAX = 2 ^ 64 - 1 := rfl
  unfold Num.powi Num.powiInternal
  dsimp only
  rw [if_neg (by omega)]
  by_cases h1 : n = 1
  · rw [if_pos (by simp [h1])]
    unfold Num.setPrecision Num.setPrecisionInternal
    rw [if_pos (by omega)]
  · have hz : Num.TEN.isZero = false := by decide
    rw [if_neg (by simp [hz, h1])]
    obtain ⟨bp, b1, b2, b3, b4⟩ := powStrip_spec (n := n) (by omega) hnB
    have hb1 : 0 < bp := by
      by_contra hc
      have : bp = 0 := by omega
      rw [this] at b3; omega
    rw [b4]
    dsimp only
    unfold Num.powLoop
    have hle := roundP_large (roundP px)
    have hmb : Num.TEN.m.maxBitLen = 128 := rfl
    have hl : Num.TEN.m.m.length = 2 := rfl
    have hmax : roundP (roundP px) ≤ Nat.max (roundP (roundP px)) Num.TEN.m.maxBitLen := Nat.le_max_left _ _
    have hmax2 : 128 ≤ Nat.max (roundP (roundP px)) Num.TEN.m.maxBitLen := by rw [hmb]; exact Nat.le_max_right _ _
    generalize Nat.max (roundP (roundP px)) Num.TEN.m.maxBitLen = M at *
    rw [powTry_invalid hb1 (by rw [hl]; omega) (by omega) ?_]
    · rfl
    · have := roundP_large (M + 64 + bp * 2)
      omega

/-- The powers of ten used for scaling. -/
theorem powi_ten {n px : Nat} (hn1 : 1 ≤ n) (hn : n ≤ TEN_PWR_MAX_FROM_DEC) (hp : 0 < px) :
    (∃ t d, Num.TEN.powi n px .none = .ok t ∧ roundP px < PMAX ∧ t.WF ∧ (t.toK : ℚ) = 10 ^ n * d ∧
      |d - 1| ≤ 2 ^ (1 - (roundP px : ℤ)) ∧ (t.inexact = false → (t.toK : ℚ) = 10 ^ n) ∧
      (128 * n ≤ roundP px → t.inexact = false)) ∨
    (Num.TEN.powi n px .none = .error .invalidArgument ∧ 2 ^ 60 < roundP px) := by
  have hT : TEN_PWR_MAX_FROM_DEC = 646456991 := by decide
  have hB : B = 2 ^ 64 := rfl
  have hPM : PMAX = 2 ^ 62 - 2 ^ 31 - 1 := rfl
  by_cases hpm : roundP px < PMAX
  swap
  · right
    exact ⟨powi_ten_invalid hn1 (by rw [hB]; omega) hp hpm, by omega⟩
  obtain ⟨hv, hpb⟩ := roundP_valid hp hpm
  have hlo : (2 : ℚ) ^ (EMIN - 1) ≤ 10 ^ n := by
    have h1 : (1 : ℚ) ≤ 10 ^ n := one_le_pow₀ (by norm_num)
    have h2 : (2 : ℚ) ^ (EMIN - 1) ≤ 1 := zpow_le_one_of_nonpos₀ (by norm_num) (by unfold EMIN; norm_num)
    linarith
  have hhi := ten_pow_range hn
  have hd0 : (0 : ℚ) ≤ 2 ^ (1 - (roundP px : ℤ)) := by positivity
  by_cases h1 : n = 1
  · subst h1
    left
    have hq := roundP_eq hpm
    have hD := setPrecision_delivers (K := ℚ) ten_WF (show 0 < wordLen px by unfold wordLen; omega)
      (by rw [← hq]; exact hpm) .none
    rw [ten_toK, ← hq] at hD
    have hz : Num.TEN.isZero = false := by decide
    have he : Num.TEN.powi 1 px .none = Num.TEN.setPrecision (roundP px) .none := by
      unfold Num.powi Num.powiInternal
      simp
    rw [he]
    cases hr : Num.TEN.setPrecision (roundP px) .none with
    | ok t =>
      rw [hr] at hD
      have hN := hD.normal (by rw [abs_of_pos (by norm_num)]; simpa using hlo)
      have ht : (t.toK : ℚ) = 10 := hN.of_int (k := 10) (a := 0) (by norm_num) (by
        have : (2 : ℤ) ^ 4 ≤ 2 ^ roundP px := pow_le_pow_right₀ (by norm_num) (by rw [← hpb]; unfold precBits; omega)
        rw [abs_of_pos (by norm_num)]
        linarith)
      exact ⟨t, 1, rfl, hpm, hD.1, by rw [ht]; norm_num, by rw [sub_self, abs_zero]; exact hd0, fun _ => by rw [ht]; norm_num,
        fun _ => setPrecision_exact_flag (k := 10) (a := 0) ten_WF rfl (show 0 < wordLen px by unfold wordLen; omega)
          (by rw [← hq]; exact hpm) (by rw [ten_toK, abs_of_pos (by norm_num)]; simpa using hlo)
          (by rw [ten_toK]; norm_num) (by
            rw [← hq]
            have : (2 : ℤ) ^ 4 ≤ 2 ^ roundP px := pow_le_pow_right₀ (by norm_num) (by rw [← hpb]; unfold precBits; omega)
            rw [abs_of_pos (by norm_num)]
            linarith) (by rw [← hq]; exact hr)⟩
    | error e =>
      exfalso
      rw [hr] at hD
      obtain ⟨_, u, h2, h3⟩ := hD
      obtain ⟨h4, _, _⟩ := h2.none_rel
      rw [abs_of_pos (show (0 : ℚ) < 10 by norm_num)] at h4
      have h5 : (2 : ℚ) ^ (EMAX - 2) ≤ 2 ^ EMAX := zpow_le_zpow_right₀ (by norm_num) (by omega)
      rw [pow_one] at hhi
      linarith
  · have h := powiInternal_spec ten_WF (by decide) (show 2 ≤ n by omega) (by rw [hB]; omega) hv
      (by rw [ten_toK, abs_of_pos (by norm_num)]; exact hlo) .none true
    rw [hpb] at h
    have e0 : Num.TEN.powi n px .none = Num.TEN.powiInternal n px .none true := rfl
    rw [e0]
    cases hr : Num.TEN.powiInternal n px .none true with
    | ok t =>
      rw [hr] at h
      simp only [PowRes, ten_toK] at h
      left
      obtain ⟨n1, n2, n3⟩ := h.none rfl
      have h10 : (0 : ℚ) < 10 ^ n := by positivity
      have ht0 : 0 ≤ (t.toK : ℚ) := by
        by_contra hc
        push Not at hc
        nlinarith
      rw [abs_of_pos h10, abs_of_nonneg ht0] at n1 n2
      refine ⟨t, t.toK / 10 ^ n, rfl, hpm, h.wf, by field_simp, ?_, fun hi => (h.exact hi).2, fun h128 =>
        powi_exact ten_WF (by decide) rfl (by omega) (by rw [hB]; omega) hv
          (by rw [ten_toK, abs_of_pos (by norm_num)]; exact hlo) .none true
          (by rw [hpb]; have hl : Num.TEN.m.m.length = 2 := rfl
              rw [hl]; exact h128) hr⟩
      have h64 : (2 : ℚ) ^ (-(roundP px : ℤ) - 64) ≤ 2 ^ (1 - (roundP px : ℤ)) :=
        zpow_le_zpow_right₀ (by norm_num) (by omega)
      rw [abs_le]
      constructor
      · rw [le_sub_iff_add_le, le_div_iff₀ h10]; nlinarith
      · rw [sub_le_iff_le_add, div_le_iff₀ h10]; nlinarith
    | error e =>
      rw [hr] at h
      simp only [PowRes, ten_toK] at h
      rcases h with ⟨s, _, h2, _⟩ | ⟨rfl, h2⟩
      · rw [abs_of_pos (by positivity)] at h2
        exact absurd h2 (not_le.2 hhi)
      · right
        refine ⟨rfl, ?_⟩
        have hl : Num.TEN.m.m.length = 2 := rfl
        rw [hl] at h2
        omega

/-- The accumulated error of `N` scaling steps. -/
theorem scale_error_small {N w P : Nat} (hN : 0 < N) (hw : 64 ∣ w) (hP : 64 ∣ P) (hPw : w + 3 * N ≤ P) :
    (1 + (2 : ℚ) ^ (1 - (P : ℤ))) ^ (2 * N) ≤ 1 + 2 ^ (-(w : ℤ) - 2) ∧
    1 - 2 ^ (-(w : ℤ) - 2) ≤ (1 - (2 : ℚ) ^ (1 - (P : ℤ))) ^ (2 * N) := by
  have hP64 : w + 64 ≤ P := by omega
  set u : ℚ := 2 ^ (1 - (P : ℤ)) with hu
  have hu0 : 0 ≤ u := by positivity
  have hu1 : u ≤ 1 := zpow_le_one_of_nonpos₀ (by norm_num) (by omega)
  set d : ℚ := 2 ^ (-(w : ℤ) - 3) with hd
  have hd0 : 0 < d := by positivity
  have hd1 : d ≤ 1 / 8 := by
    rw [hd, show (1 / 8 : ℚ) = 2 ^ (-3 : ℤ) by norm_num]
    exact zpow_le_zpow_right₀ (by norm_num) (by omega)
  have hdd : (2 : ℚ) ^ (-(w : ℤ) - 2) = 2 * d := by
    rw [hd, ← zpow_one_add₀ (by norm_num)]; congr 1; ring
  have hNle : N ≤ 2 ^ (P - w - 5) := by
    by_cases h : 3 ≤ N
    · exact (Nat.lt_two_pow_self).le.trans (Nat.pow_le_pow_right (by norm_num) (by omega))
    · have : 2 ^ 1 ≤ 2 ^ (P - w - 5) := Nat.pow_le_pow_right (by norm_num) (by omega)
      omega
  have hs : ((2 * N : ℕ) : ℚ) * u ≤ d := by
    have h1 : (N : ℚ) ≤ 2 ^ ((P : ℤ) - w - 5) := by
      have : (N : ℚ) ≤ 2 ^ (P - w - 5) := by exact_mod_cast hNle
      rw [show (P : ℤ) - w - 5 = ((P - w - 5 : ℕ) : ℤ) by omega, zpow_natCast]; exact this
    push_cast
    calc 2 * (N : ℚ) * u ≤ 2 * 2 ^ ((P : ℤ) - w - 5) * u :=
          mul_le_mul_of_nonneg_right (mul_le_mul_of_nonneg_left h1 (by norm_num)) hu0
      _ = d := by
          rw [hu, hd, ← zpow_one_add₀ (by norm_num), ← zpow_add₀ (by norm_num)]; congr 1; ring
  constructor
  · have h1 := one_add_pow_le u hu0 (2 * N) (by linarith)
    rw [hdd]
    have h2 : 0 ≤ ((2 * N : ℕ) : ℚ) * u := by positivity
    nlinarith
  · have h1 := one_add_mul_le_pow (show (-2 : ℚ) ≤ -u by linarith) (2 * N)
    rw [hdd, sub_eq_add_neg 1 u]
    linarith

/-- The range of the scaled values. -/
theorem scale_range {D g : ℚ} {neg : Bool} (hg : g = if neg then 10⁻¹ else 10) (hD1 : 1 ≤ |D|)
    (hD2 : |D| < 2 ^ EMAX) {n : Nat} (hlo : (2 : ℚ) ^ EMIN ≤ |D * g ^ n|)
    (hhi : |D * g ^ n| < 2 ^ (EMAX - 2)) {j : Nat} (hj : 1 ≤ j) (hjn : j ≤ n) :
    (2 : ℚ) ^ EMIN ≤ |D * g ^ j| ∧ |D * g ^ j| < 2 ^ (EMAX - 1) := by
  have hEM : ∀ a : ℤ, (2 : ℚ) ^ a = 2 * 2 ^ (a - 1) := by
    intro a
    rw [← zpow_one_add₀ (by norm_num)]; congr 1; ring
  have hD0 : 0 ≤ |D| := abs_nonneg _
  cases neg with
  | false =>
    simp only [Bool.false_eq_true, if_false] at hg
    subst hg
    rw [abs_mul, abs_of_pos (show (0 : ℚ) < 10 ^ n by positivity)] at hlo hhi
    rw [abs_mul, abs_of_pos (show (0 : ℚ) < 10 ^ j by positivity)]
    have h1 : (1 : ℚ) ≤ 10 ^ j := one_le_pow₀ (by norm_num)
    have h2 : (10 : ℚ) ^ j ≤ 10 ^ n := pow_le_pow_right₀ (by norm_num) hjn
    have h3 : |D| * 10 ^ j ≤ |D| * 10 ^ n := mul_le_mul_of_nonneg_left h2 hD0
    have h4 : 1 ≤ |D| * 10 ^ j := by nlinarith
    have h5 := hEM (EMAX - 1)
    rw [show EMAX - 1 - 1 = EMAX - 2 by ring] at h5
    have h6 : (0 : ℚ) < 2 ^ (EMAX - 2) := by positivity
    exact ⟨EMIN_one.trans h4, by linarith⟩
  | true =>
    simp only [if_true] at hg
    subst hg
    rw [abs_mul, abs_of_pos (show (0 : ℚ) < 10⁻¹ ^ n by positivity)] at hlo hhi
    rw [abs_mul, abs_of_pos (show (0 : ℚ) < 10⁻¹ ^ j by positivity)]
    have h1 : (10⁻¹ : ℚ) ^ n ≤ 10⁻¹ ^ j := pow_le_pow_of_le_one (by norm_num) (by norm_num) hjn
    have h2 : (10⁻¹ : ℚ) ^ j ≤ 10⁻¹ ^ 1 := pow_le_pow_of_le_one (by norm_num) (by norm_num) hj
    rw [pow_one] at h2
    have h3 : |D| * 10⁻¹ ^ j ≤ |D| * 10⁻¹ := mul_le_mul_of_nonneg_left h2 hD0
    have h5 := hEM EMAX
    have h6 : (0 : ℚ) < 2 ^ (EMAX - 1) := by positivity
    exact ⟨hlo.trans (mul_le_mul_of_nonneg_left h1 hD0), by linarith⟩

/-- The scaled value in a round of the conversion. -/
theorem fromDecStep_spec {x : Num} (hx : x.WF) (hxi : x.inexact = false) {n : Int} {k r : Nat}
    (hn : n.natAbs = k * TEN_PWR_MAX_FROM_DEC + r) (hr : r < TEN_PWR_MAX_FROM_DEC) {g : ℚ}
    (hg : g = if decide (n < 0) then 10⁻¹ else 10) (hD1 : 1 ≤ |(x.toK : ℚ)|) (hD2 : |(x.toK : ℚ)| < 2 ^ EMAX)
    (hlo : (2 : ℚ) ^ EMIN ≤ |x.toK * g ^ n.natAbs|) (hhi : |x.toK * g ^ n.natAbs| < 2 ^ (EMAX - 2))
    {N pf w : Nat} (hN : N = k + (if r ≠ 0 then 1 else 0)) (hN0 : 0 < N) (hw : 64 ∣ w) (hpf : pf = w + 3 * N) :
    (∃ f, x.fromDecStep n k r pf = .ok f ∧ roundP pf < PMAX ∧
      ScApx (x.toK * g ^ n.natAbs) (2 ^ (1 - (roundP pf : ℤ))) (2 * N) f ∧ 64 * f.m.m.length = roundP pf ∧
      (2 ^ 37 ≤ roundP pf → (∀ j, 1 ≤ j → j ≤ n.natAbs → Rep (roundP pf) (x.toK * g ^ j)) → f.inexact = false)) ∨
    (x.fromDecStep n k r pf = .error .invalidArgument ∧ 2 ^ 60 < roundP pf) := by
  have hT0 : 0 < TEN_PWR_MAX_FROM_DEC := by decide
  have hTv : TEN_PWR_MAX_FROM_DEC = 646456991 := by decide
  have hX0 : (x.toK : ℚ) ≠ 0 := by intro h; rw [h, abs_zero] at hD1; linarith
  have hp0 : 0 < pf := by omega
  have hg0 : 0 < g := by rw [hg]; split <;> norm_num
  have hgT : ∀ m : Nat, (if decide (n < 0) then ((10 : ℚ) ^ m)⁻¹ else 10 ^ m) = g ^ m := by
    intro m
    rw [hg]
    by_cases h : n < 0
    · simp [h]
    · simp [h]
  have hx0 : ScApx x.toK (2 ^ (1 - (roundP pf : ℤ))) 0 x := ⟨hx, ⟨1, by ring, by simp, by simp⟩, fun _ => rfl⟩
  have hP64 : 64 ∣ roundP pf := by unfold roundP; exact Nat.dvd_mul_left _ _
  have hfacts : roundP pf < PMAX → (0 : ℚ) < 2 ^ (1 - (roundP pf : ℤ)) ∧ (2 : ℚ) ^ (1 - (roundP pf : ℤ)) ≤ 1 / 2 ∧
      (1 + (2 : ℚ) ^ (1 - (roundP pf : ℤ))) ^ (2 * N) ≤ 2 ∧ 1 / 2 ≤ (1 - (2 : ℚ) ^ (1 - (roundP pf : ℤ))) ^ (2 * N) := by
    intro hpm
    obtain ⟨h1, h2, _⟩ := roundP_ge hpm
    obtain ⟨e1, e2⟩ := scale_error_small hN0 hw h2 (by omega : w + 3 * N ≤ roundP pf)
    have h3 : (2 : ℚ) ^ (-(w : ℤ) - 2) ≤ 1 / 4 := by
      rw [show (1 / 4 : ℚ) = 2 ^ (-2 : ℤ) by norm_num]
      exact zpow_le_zpow_right₀ (by norm_num) (by omega)
    refine ⟨by positivity, ?_, by linarith, by linarith⟩
    rw [show (1 / 2 : ℚ) = 2 ^ (-1 : ℤ) by norm_num]
    exact zpow_le_zpow_right₀ (by norm_num) (by omega)
  obtain ⟨q, hq, hs⟩ : ∃ q : Except Err Num, q = (if k ≠ 0 then
      match Num.TEN.powi TEN_PWR_MAX_FROM_DEC pf .none with
      | .error e => .error e
      | .ok t => Num.scaleLoop t pf (decide (n < 0)) k x
    else .ok x) ∧ x.fromDecStep n k r pf = (match q with
      | .error e => .error e
      | .ok f =>
        if r ≠ 0 then
          match Num.TEN.powi r pf .none with
          | .error e => .error e
          | .ok t => Num.scaleLoop t pf (decide (n < 0)) 1 f
        else .ok f) := ⟨_, rfl, rfl⟩
  -- the full powers
  have hfirst : (∃ f, q = .ok f ∧ (0 < k → roundP pf < PMAX) ∧
      ScApx (x.toK * g ^ (k * TEN_PWR_MAX_FROM_DEC)) (2 ^ (1 - (roundP pf : ℤ))) (2 * k) f ∧
      (0 < k → 64 * f.m.m.length = roundP pf) ∧
      (2 ^ 37 ≤ roundP pf → (∀ j, 1 ≤ j → j ≤ n.natAbs → Rep (roundP pf) (x.toK * g ^ j)) → f.inexact = false)) ∨
      (q = .error .invalidArgument ∧ 2 ^ 60 < roundP pf) := by
    rw [hq]
    by_cases hk : k = 0
    · left
      subst hk
      refine ⟨x, by simp, fun h => absurd h (lt_irrefl _), ?_, fun h => absurd h (lt_irrefl _), fun _ _ => hxi⟩
      simpa using hx0
    · rw [if_pos hk]
      rcases powi_ten (n := TEN_PWR_MAX_FROM_DEC) (px := pf) hT0 le_rfl hp0 with
        ⟨t, d, t1, t2, t3, t4, t5, t6, t7⟩ | ⟨t1, t2⟩
      · left
        rw [t1]
        dsimp only
        obtain ⟨f1, f2, f3, f4⟩ := hfacts t2
        have hrange : ∀ j, 1 ≤ j → j ≤ k →
            (2 : ℚ) ^ EMIN ≤ |x.toK * (if decide (n < 0) then ((10 : ℚ) ^ TEN_PWR_MAX_FROM_DEC)⁻¹
              else 10 ^ TEN_PWR_MAX_FROM_DEC) ^ j| ∧
            |x.toK * (if decide (n < 0) then ((10 : ℚ) ^ TEN_PWR_MAX_FROM_DEC)⁻¹
              else 10 ^ TEN_PWR_MAX_FROM_DEC) ^ j| < 2 ^ (EMAX - 1) := by
          intro j hj1 hj2
          rw [hgT, ← pow_mul]
          refine scale_range hg hD1 hD2 hlo hhi (Nat.mul_pos hT0 (by omega)) ?_
          rw [hn, Nat.mul_comm]
          exact (Nat.mul_le_mul_right _ hj2).trans (Nat.le_add_right _ _)
        obtain ⟨v, v1, v2, v3, v4⟩ := scaleLoop_spec (T := (10 : ℚ) ^ TEN_PWR_MAX_FROM_DEC) (pow_pos (by norm_num) _)
          f1 f2 le_rfl t3 t4 t5 t6 hp0 t2 rfl (decide (n < 0)) k 0 x.toK x hX0 hx0
          (le_trans (pow_le_pow_right₀ (by linarith) (by omega)) f3)
          (le_trans f4 (pow_le_pow_of_le_one (by linarith) (by linarith) (by omega))) hrange
        rw [hgT, ← pow_mul, Nat.mul_comm, Nat.zero_add] at v2
        refine ⟨v, v1, fun _ => t2, v2, v3, fun hb hrep => v4 hxi (t7 (by omega)) fun j hj1 hj2 => ?_⟩
        rw [hgT, ← pow_mul]
        refine hrep _ (Nat.mul_pos hT0 (by omega)) ?_
        rw [hn, Nat.mul_comm]
        exact (Nat.mul_le_mul_right _ hj2).trans (Nat.le_add_right _ _)
      · right
        rw [t1]
        exact ⟨rfl, t2⟩
  rw [hs]
  rcases hfirst with ⟨f, f1, f2, f3, f4, f5⟩ | ⟨f1, f2⟩
  swap
  · right
    rw [f1]
    exact ⟨rfl, f2⟩
  rw [f1]
  dsimp only
  by_cases hr0 : r = 0
  · left
    have hk0 : 0 < k := by
      rw [hN, hr0] at hN0; simpa using hN0
    rw [if_neg (by simp [hr0])]
    have hNk : N = k := by rw [hN, hr0]; simp
    refine ⟨f, rfl, f2 hk0, ?_, f4 hk0, f5⟩
    rw [hn, hr0, Nat.add_zero, hNk]
    exact f3
  · rw [if_pos hr0]
    have hNk : N = k + 1 := by rw [hN]; simp [hr0]
    rcases powi_ten (n := r) (px := pf) (by omega) hr.le hp0 with ⟨t, d, t1, t2, t3, t4, t5, t6, t7⟩ | ⟨t1, t2⟩
    · left
      rw [t1]
      dsimp only
      obtain ⟨e1, e2, e3, e4⟩ := hfacts t2
      have hA0 : (x.toK : ℚ) * g ^ (k * TEN_PWR_MAX_FROM_DEC) ≠ 0 := mul_ne_zero hX0 (pow_ne_zero _ hg0.ne')
      obtain ⟨v, v1, v2, v3, v4⟩ := scaleLoop_spec (T := (10 : ℚ) ^ r) (pow_pos (by norm_num) _)
          e1 e2 le_rfl t3 t4 t5 t6 hp0 t2 rfl (decide (n < 0)) 1 (2 * k) _ f hA0 f3
          (by rw [show 2 * k + 2 * 1 = 2 * N by omega]; exact e3)
          (by rw [show 2 * k + 2 * 1 = 2 * N by omega]; exact e4) (by
            intro j hj1 hj2
            have : j = 1 := by omega
            subst this
            rw [hgT, pow_one, mul_assoc, ← pow_add, ← hn]
            exact scale_range hg hD1 hD2 hlo hhi (by omega) le_rfl)
      rw [hgT, pow_one, mul_assoc, ← pow_add, ← hn, show 2 * k + 2 * 1 = 2 * N by omega] at v2
      refine ⟨v, v1, t2, v2, v3 (by omega), fun hb hrep => v4 (f5 hb hrep) (t7 (by omega)) fun j hj1 hj2 => ?_⟩
      have : j = 1 := by omega
      subst this
      rw [hgT, pow_one, mul_assoc, ← pow_add, ← hn]
      exact hrep _ (by omega) le_rfl
    · right
      rw [t1]
      exact ⟨rfl, t2⟩

/-- A scaled integer close to a multiple of a power of two is that multiple. -/
theorem dec_gap {D : ℤ} {X g : ℚ} {neg : Bool} (hg : g = if neg then 10⁻¹ else 10) {N : Nat} (hX : X = D * g ^ N)
    {e : ℤ} {P w j : Nat} (he : e ≤ 2 ^ 31) (hw : P + 2 ^ 31 + 1 + 4 * N ≤ w)
    (h : |(|X| - j * 2 ^ (e - (P : ℤ)))| < 2 ^ (e - (w : ℤ) + 1)) : |X| = j * 2 ^ (e - (P : ℤ)) := by
  obtain ⟨s, hs⟩ : ∃ s : ℕ, s = ((P : ℤ) - e).toNat := ⟨_, rfl⟩
  obtain ⟨c, hc⟩ : ∃ c : ℕ, (c : ℤ) = e - P + s := ⟨(e - P + s).toNat, by omega⟩
  have h10 : (0 : ℚ) < 10 ^ N := by positivity
  have hint : ∃ M : ℤ, |X| * 10 ^ N = M := by
    have hgp : 0 < g ^ N := by rw [hg]; split <;> positivity
    rw [hX, abs_mul, abs_of_pos hgp, hg]
    cases neg with
    | false =>
      refine ⟨|D| * 10 ^ N * 10 ^ N, ?_⟩
      push_cast
      simp
    | true =>
      refine ⟨|D|, ?_⟩
      push_cast
      simp only [if_true]
      rw [inv_pow, mul_assoc, inv_mul_cancel₀ h10.ne', mul_one]
  obtain ⟨M, hM⟩ := hint
  have hA : (|X| - j * 2 ^ (e - (P : ℤ))) * (10 ^ N * 2 ^ s) = ((M * 2 ^ s - j * 2 ^ c * 10 ^ N : ℤ) : ℚ) := by
    have e1 : (2 : ℚ) ^ (e - (P : ℤ)) * 2 ^ s = 2 ^ c := by
      rw [← zpow_natCast, ← zpow_natCast, ← zpow_add₀ (by norm_num), hc]
    push_cast
    rw [← hM, ← e1]; ring
  have hlt : |(|X| - j * 2 ^ (e - (P : ℤ))) * (10 ^ N * 2 ^ s)| < 1 := by
    rw [abs_mul, abs_of_pos (show (0 : ℚ) < 10 ^ N * 2 ^ s by positivity)]
    have h1 : (10 : ℚ) ^ N ≤ 2 ^ (4 * N) := by
      rw [pow_mul]; exact pow_le_pow_left₀ (by norm_num) (by norm_num) N
    calc |(|X| - j * 2 ^ (e - (P : ℤ)))| * (10 ^ N * 2 ^ s) < 2 ^ (e - (w : ℤ) + 1) * (10 ^ N * 2 ^ s) :=
          mul_lt_mul_of_pos_right h (by positivity)
      _ ≤ 2 ^ (e - (w : ℤ) + 1) * (2 ^ (4 * N) * 2 ^ s) := by gcongr
      _ = 2 ^ (e - (w : ℤ) + 1 + (4 * N : ℕ) + s) := by
          rw [zpow_add₀ (by norm_num) _ (s : ℤ), zpow_add₀ (by norm_num) _ ((4 * N : ℕ) : ℤ), zpow_natCast, zpow_natCast]; ring
      _ ≤ 1 := zpow_le_one_of_nonpos₀ (by norm_num) (by push_cast; omega)
  rw [hA] at hlt
  have hz : (M * 2 ^ s - j * 2 ^ c * 10 ^ N : ℤ) = 0 := by
    rw [← Int.abs_lt_one_iff]
    exact_mod_cast hlt
  rw [hz, Int.cast_zero] at hA
  rcases mul_eq_zero.1 hA with h0 | h0
  · linarith
  · exact absurd h0 (by positivity)

/-- The values on the way to a dyadic result are short. -/
theorem dec_rep {D : ℤ} {X g : ℚ} {neg : Bool} (hg : g = if neg then 10⁻¹ else 10) {N : Nat} (hX : X = D * g ^ N)
    {e : ℤ} {P Q j : Nat} (hj : |X| = j * 2 ^ (e - (P : ℤ))) (hXe : |X| < 2 ^ (e + 1)) (hD : |D| < 2 ^ 2 ^ 31)
    (hQ : P + 2 ^ 31 + 1 + 4 * N ≤ Q) {i : Nat} (hi : i ≤ N) : Rep Q (D * g ^ i) := by
  have h10 : ∀ m ≤ N, (10 : ℤ) ^ m ≤ 2 ^ (4 * N) := by
    intro m hm
    calc (10 : ℤ) ^ m ≤ 16 ^ m := pow_le_pow_left₀ (by norm_num) (by norm_num) m
      _ = 2 ^ (4 * m) := by rw [pow_mul]; norm_num
      _ ≤ 2 ^ (4 * N) := pow_le_pow_right₀ (by norm_num) (by omega)
  cases neg with
  | false =>
    simp only [Bool.false_eq_true, if_false] at hg
    refine ⟨D * 10 ^ i, 0, by rw [hg]; push_cast; simp, ?_⟩
    rw [abs_mul, abs_of_pos (show (0 : ℤ) < 10 ^ i by positivity)]
    generalize 2 ^ 31 = M at *
    calc |D| * 10 ^ i ≤ |D| * 2 ^ (4 * N) := mul_le_mul_of_nonneg_left (h10 i hi) (abs_nonneg _)
      _ < 2 ^ M * 2 ^ (4 * N) := mul_lt_mul_of_pos_right hD (by positivity)
      _ = 2 ^ (M + 4 * N) := by rw [pow_add]
      _ ≤ 2 ^ Q := pow_le_pow_right₀ (by norm_num) (by omega)
  | true =>
    simp only [if_true] at hg
    have hjlt : (j : ℤ) < 2 ^ (P + 1) := by
      have h1 : (j : ℚ) * 2 ^ (e - (P : ℤ)) < 2 ^ (P + 1) * 2 ^ (e - (P : ℤ)) := by
        rw [← hj]
        refine hXe.trans_eq ?_
        rw [← zpow_natCast, ← zpow_add₀ (by norm_num)]; congr 1; push_cast; ring
      have h2 := lt_of_mul_lt_mul_right h1 (by positivity)
      exact_mod_cast h2
    obtain ⟨σ, hσ, hσ2⟩ : ∃ σ : ℤ, X = σ * |X| ∧ |σ| = 1 := by
      rcases abs_choice X with h | h
      · exact ⟨1, by rw [h]; simp, by simp⟩
      · exact ⟨-1, by rw [h]; simp, by simp⟩
    refine ⟨σ * j * 10 ^ (N - i), e - P, ?_, ?_⟩
    · have h1 : (D : ℚ) * g ^ i = X * 10 ^ (N - i) := by
        have h2 : g ^ N * 10 ^ (N - i) = g ^ i := by
          rw [show N = i + (N - i) by omega, pow_add, hg, mul_assoc, show i + (N - i) - i = N - i by omega, inv_pow,
            inv_pow, inv_mul_cancel₀ (by positivity), mul_one]
        rw [hX, mul_assoc, h2]
      rw [h1, hσ, hj]; push_cast; ring
    · rw [abs_mul, abs_mul, hσ2, one_mul, Nat.abs_cast, abs_of_pos (show (0 : ℤ) < 10 ^ (N - i) by positivity)]
      generalize 2 ^ 31 = M at *
      calc (j : ℤ) * 10 ^ (N - i) ≤ j * 2 ^ (4 * N) := mul_le_mul_of_nonneg_left (h10 _ (by omega)) (by positivity)
        _ < 2 ^ (P + 1) * 2 ^ (4 * N) := mul_lt_mul_of_pos_right hjlt (by positivity)
        _ = 2 ^ (P + 1 + 4 * N) := by rw [← pow_add]
        _ ≤ 2 ^ Q := pow_le_pow_right₀ (by norm_num) (by omega)

end AF
