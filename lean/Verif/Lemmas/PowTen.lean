import Verif.Lemmas.DecFrom
/-!
# Powers of short numbers are exact

As `powi_exact`, with the number of significant bits in place of the length of the mantissa.
-/

namespace AF

/-- `powTry_spec` for a number with `b` significant bits. -/
theorem powTry_int {x : Num} (hx : x.WF) (hz : x.isZero = false) {n bp px : Nat} (hb : bp < 64)
    (hbn : 2 ^ bp ≤ n) (hnb : n < 2 ^ (bp + 1)) (hlen : 64 * x.m.m.length ≤ px) (hpm : roundP px < PMAX)
    (hp : 0 < px) (hlo : (2 : ℚ) ^ (EMIN - 1) ≤ |(x.toK : ℚ)| ^ n)
    {b : Nat} {k a : ℤ} (h1 : (x.toK : ℚ) = k * 2 ^ a) (h2 : |k| < 2 ^ b) :
    (∃ v, x.powTry px bp ((n - 2 ^ bp) * 2 ^ (64 - bp)) = .ok v ∧
      PowApx x.toK b (roundP px) n v) ∨
    (∃ sg, x.powTry px bp ((n - 2 ^ bp) * 2 ^ (64 - bp)) = .error (.exponentOverflow sg) ∧
      (2 : ℚ) ^ EMAX ≤ (|(x.toK : ℚ)| * (1 + 2 ^ (1 - (roundP px : ℤ)))) ^ n) := by
  have hX : (x.toK : ℚ) ≠ 0 := by
    intro h; rw [hx.toK_eq_zero.1 h] at hz; cases hz
  have hpP : px < PMAX := by
    have := roundP_eq hpm
    unfold wordLen at this
    omega
  have harg : (Num.mk x.e x.s x.m false).WF := ⟨hx.wf, hx.bits, hx.emin, hx.emax, hx.norm, hx.sized⟩
  have hargK : ((Num.mk x.e x.s x.m false).toK : ℚ) = x.toK := rfl
  unfold Num.powTry
  dsimp only
  have hS := setPrecision_spec (K := ℚ) harg hp hpP .fromZero
  have hok : ∃ v, (Num.mk x.e x.s x.m false).setPrecision px .fromZero = .ok v := by
    have hmb : x.m.maxBitLen = x.m.m.length * 64 := rfl
    unfold Num.setPrecision Num.setPrecisionInternal
    rw [if_neg (by omega), if_neg (by dsimp only; omega), if_neg (by omega)]
    exact ⟨_, rfl⟩
  obtain ⟨v, hv⟩ := hok
  rw [hv] at hS ⊢
  dsimp only at hS ⊢
  obtain ⟨⟨c1, c2, c3, c4, c5⟩, c6⟩ := hS
  have hvK : (v.toK : ℚ) = x.toK := c6 hlen
  have hvi : v.inexact = false := by
    have h := c4 (Or.inl (by decide))
    cases hh : v.inexact with
    | false => rfl
    | true =>
      rw [hh] at h
      rcases h.1 rfl with h | h
      · cases h
      · exact absurd hvK h
  have h0 : PowApx x.toK b (roundP px) 1 v :=
    ⟨c1, by rw [c2, roundP_eq hpm], ⟨1, by rw [hvK]; ring, le_rfl, by simp⟩, fun _ => by rw [hvK, pow_one],
      fun _ => hvi⟩
  exact powMul_spec hX harg hargK rfl h1 h2 hp hpm rfl hlo bp (n - 2 ^ bp) 1 v hb
    (by rw [pow_succ] at hnb; omega) one_pos (by omega) h0

/-- `powi_exact` for a number with `b` significant bits. -/
theorem powi_exact_int {x v : Num} (hx : x.WF) (hz : x.isZero = false) (hxi : x.inexact = false) {n p : Nat} (hn : 2 ≤ n)
    (hnB : n < B) (hp : ValidP p) (hlo : (2 : ℚ) ^ (EMIN - 1) ≤ |(x.toK : ℚ)| ^ n) (rm : RM) (upd : Bool)
    {b : Nat} {k a : ℤ} (k1 : (x.toK : ℚ) = k * 2 ^ a) (k2 : |k| < 2 ^ b)
    (hle : 64 * x.m.m.length ≤ precBits p) (hsm : b * n ≤ precBits p) (h : x.powiInternal n p rm upd = .ok v) : v.inexact = false := by
  obtain ⟨bp, b1, b2, b3, b4⟩ := powStrip_spec (n := n) (by omega) hnB
  have hb1 : 1 ≤ bp := by
    by_contra hc
    have : bp = 0 := by omega
    rw [this] at b3; omega
  have hq : precBits p = 64 * ((p + 63) / 64) := rfl
  have hp0 := hp.pos
  have hlt := hp.lt
  have hidem : precBits (precBits p) = precBits p := by unfold precBits; omega
  have hpp : ValidP (precBits p) := ⟨by omega, by rw [hidem]; exact hlt⟩
  have hmax : Nat.max (precBits p) x.m.maxBitLen = precBits p := by
    apply Nat.max_eq_left
    unfold Mantissa.maxBitLen; omega
  unfold Num.powiInternal at h
  dsimp only at h
  rw [hp.roundP, if_neg (by omega), if_neg (by simp [hz]; omega), hpp.roundP, hidem, b4, hmax] at h
  dsimp only at h
  unfold Num.powLoop at h
  set pw := (p + 63) / 64 with hpw
  set w := precBits p + 64 with hw
  by_cases hv : roundP (w + bp * 2) < PMAX
  swap
  · rw [powTry_invalid (by omega) (by omega) (by omega) hv] at h
    cases h
  obtain ⟨r1, r2, r3⟩ := roundP_ge hv
  rcases powTry_int hx hz b1 b2 b3 (px := w + bp * 2) (by omega) hv (by omega) hlo k1 k2 with ⟨t, ht, hA⟩ | ⟨sg, ht, hA⟩
  swap
  · rw [ht] at h; cases h
  rw [ht] at h
  dsimp only at h
  have hti : t.inexact = false := hA.small (by omega)
  have htk := hA.exact hti
  have hk1 : (t.toK : ℚ) = ((k ^ n : ℤ) : ℚ) * 2 ^ (a * n) := by
    rw [htk, k1, mul_pow, zpow_mul, zpow_natCast]; push_cast; ring
  have hk2 : |k ^ n| < 2 ^ (64 * pw) := by
    rw [abs_pow, ← hq]
    calc |k| ^ n < (2 ^ b) ^ n := pow_lt_pow_left₀ k2 (abs_nonneg _) (by omega)
      _ = 2 ^ (b * n) := by rw [← pow_mul]
      _ ≤ 2 ^ precBits p := pow_le_pow_right₀ (by norm_num) hsm
  have hlo' : (2 : ℚ) ^ (EMIN - 1) ≤ |(t.toK : ℚ)| := by rw [htk, abs_pow]; exact hlo
  rw [hq] at h
  have key : ∀ r : Num, t.setPrecision (64 * pw) rm = .ok r → r.inexact = false := fun r hr =>
    setPrecision_exact_flag hA.wf hti (by omega) (by omega) hlo' hk1 hk2 hr
  by_cases hsub : t.e = EMIN ∧ t.m.n = 1
  · rw [if_pos hsub] at h
    have : (if upd = true then { t with inexact := t.inexact || x.inexact } else t) = t := by
      cases upd
      · rfl
      · rw [if_pos rfl, hti, hxi, Bool.or_false]
        cases t; simp_all
    rw [this] at h
    exact key v h
  · rw [if_neg hsub] at h
    have hl := hA.len
    cases htr : t.trySetPrecision (64 * pw) rm w with
    | error e => rw [htr] at h; cases h
    | ok b =>
      obtain ⟨b, r⟩ := b
      obtain ⟨h1, h2⟩ := tryPrec_eq_setPrec (by omega) (by omega) (by omega) (by omega) (Or.inl hti) htr (Or.inl hti)
      subst h1
      rw [htr] at h
      dsimp only at h
      injection h with h
      have := key r h2
      rw [← h]
      cases upd <;> simp [this, hxi]

/-- The powers of ten that fit into the precision are exact. -/
theorem powi_ten_exact {n px : Nat} {t : Num} (hn1 : 2 ≤ n) (hn : n ≤ TEN_PWR_MAX_FROM_DEC) (hp : 0 < px)
    (hpm : roundP px < PMAX) (h128 : 128 ≤ roundP px) (h3 : 3 * n ≤ roundP px) (h : Num.TEN.powi n px .none = .ok t) :
    t.inexact = false := by
  have hT : TEN_PWR_MAX_FROM_DEC = 646456991 := by decide
  have hB : B = 2 ^ 64 := rfl
  obtain ⟨hv, hpb⟩ := roundP_valid hp hpm
  have hlo : (2 : ℚ) ^ (EMIN - 1) ≤ 10 ^ n := by
    have h1 : (1 : ℚ) ≤ 10 ^ n := one_le_pow₀ (by norm_num)
    have h2 : (2 : ℚ) ^ (EMIN - 1) ≤ 1 := zpow_le_one_of_nonpos₀ (by norm_num) (by unfold EMIN; norm_num)
    linarith
  have hl : Num.TEN.m.m.length = 2 := rfl
  exact powi_exact_int ten_WF (by decide) rfl (by omega) (by rw [hB]; omega) hv
    (by rw [ten_toK, abs_of_pos (by norm_num)]; exact hlo) .none true (b := 3) (k := 5) (a := 1)
    (by rw [ten_toK]; norm_num) (by norm_num) (by rw [hpb, hl]; exact h128) (by rw [hpb]; exact h3) h

end AF
