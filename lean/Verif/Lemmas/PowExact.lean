import Verif.Lemmas.PowLoop
/-!
# Powers that fit into the precision are exact
-/

namespace AF

set_option linter.unusedSectionVars false

/-- An exact value with few bits keeps its flag. -/
theorem setPrecision_exact_flag {t v : Num} (ht : t.WF) (hi : t.inexact = false) {pw : Nat} (hp : 0 < pw)
    (hpm : 64 * pw < PMAX) {rm : RM} (hlo : (2 : ℚ) ^ (EMIN - 1) ≤ |(t.toK : ℚ)|) {k a : ℤ}
    (hk : (t.toK : ℚ) = k * 2 ^ a) (hk2 : |k| < 2 ^ (64 * pw)) (h : t.setPrecision (64 * pw) rm = .ok v) :
    v.inexact = false := by
  have hD := setPrecision_delivers (K := ℚ) ht hp hpm rm
  rw [h, hi] at hD
  have h6 : (v.toK : ℚ) = t.toK := (hD.normal hlo).of_int hk hk2
  have h5 := hD.2.2.2.2.1
  cases hv : v.inexact with
  | false => rfl
  | true =>
    rw [hv] at h5
    rcases h5.1 rfl with h7 | h7
    · cases h7
    · exact absurd h6 h7

theorem powi_exact {x v : Num} (hx : x.WF) (hz : x.isZero = false) (hxi : x.inexact = false) {n p : Nat} (hn : 2 ≤ n)
    (hnB : n < B) (hp : ValidP p) (hlo : (2 : ℚ) ^ (EMIN - 1) ≤ |(x.toK : ℚ)| ^ n) (rm : RM) (upd : Bool)
    (hsm : 64 * x.m.m.length * n ≤ precBits p) (h : x.powiInternal n p rm upd = .ok v) : v.inexact = false := by
  obtain ⟨bp, b1, b2, b3, b4⟩ := powStrip_spec (n := n) (by omega) hnB
  have hb1 : 1 ≤ bp := by
    by_contra hc
    have : bp = 0 := by omega
    rw [this] at b3; omega
  have hq : precBits p = 64 * ((p + 63) / 64) := rfl
  have hp0 := hp.pos
  have hlt := hp.lt
  have hidem : precBits (precBits p) = precBits p := by unfold precBits; omega
  have hpp : ValidP (precBits p) := ⟨by omega, by rw [hidem]; exact hlt⟩
  have hle : 64 * x.m.m.length ≤ 64 * x.m.m.length * n := Nat.le_mul_of_pos_right _ (by omega)
  have hmax : Nat.max (precBits p) x.m.maxBitLen = precBits p := by
    apply Nat.max_eq_left
    unfold Mantissa.maxBitLen; omega
  unfold Num.powiInternal at h
  dsimp only at h
  rw [hp.roundP, if_neg (by omega), if_neg (by simp [hz]; omega), hpp.roundP, hidem, b4, hmax] at h
  dsimp only at h
  unfold Num.powLoop at h
  set pw := (p + 63) / 64 with hpw
  set w := precBits p + 64 with hw
  by_cases hv : roundP (w + bp * 2) < PMAX
  swap
  · rw [powTry_invalid (by omega) (by omega) (by omega) hv] at h
    cases h
  obtain ⟨r1, r2, r3⟩ := roundP_ge hv
  rcases powTry_spec hx hz b1 b2 b3 (px := w + bp * 2) (by omega) hv (by omega) hlo with ⟨t, ht, hA⟩ | ⟨sg, ht, hA⟩
  swap
  · rw [ht] at h; cases h
  rw [ht] at h
  dsimp only at h
  have hti : t.inexact = false := hA.small (by omega)
  have htk := hA.exact hti
  obtain ⟨k, a, k1, k2⟩ := x.toK_int hx
  have hk1 : (t.toK : ℚ) = ((k ^ n : ℤ) : ℚ) * 2 ^ (a * n) := by
    rw [htk, k1, mul_pow, zpow_mul, zpow_natCast]; push_cast; ring
  have hk2 : |k ^ n| < 2 ^ (64 * pw) := by
    rw [abs_pow, ← hq]
    calc |k| ^ n < (2 ^ (64 * x.m.m.length)) ^ n := pow_lt_pow_left₀ k2 (abs_nonneg _) (by omega)
      _ = 2 ^ (64 * x.m.m.length * n) := by rw [← pow_mul]
      _ ≤ 2 ^ precBits p := pow_le_pow_right₀ (by norm_num) hsm
  have hlo' : (2 : ℚ) ^ (EMIN - 1) ≤ |(t.toK : ℚ)| := by rw [htk, abs_pow]; exact hlo
  rw [hq] at h
  have key : ∀ r : Num, t.setPrecision (64 * pw) rm = .ok r → r.inexact = false := fun r hr =>
    setPrecision_exact_flag hA.wf hti (by omega) (by omega) hlo' hk1 hk2 hr
  by_cases hsub : t.e = EMIN ∧ t.m.n = 1
  · rw [if_pos hsub] at h
    have : (if upd = true then { t with inexact := t.inexact || x.inexact } else t) = t := by
      cases upd
      · rfl
      · rw [if_pos rfl, hti, hxi, Bool.or_false]
        cases t; simp_all
    rw [this] at h
    exact key v h
  · rw [if_neg hsub] at h
    have hl := hA.len
    cases htr : t.trySetPrecision (64 * pw) rm w with
    | error e => rw [htr] at h; cases h
    | ok b =>
      obtain ⟨b, r⟩ := b
      obtain ⟨h1, h2⟩ := tryPrec_eq_setPrec (by omega) (by omega) (by omega) (by omega) (Or.inl hti) htr (Or.inl hti)
      subst h1
      rw [htr] at h
      dsimp only at h
      injection h with h
      have := key r h2
      rw [← h]
      cases upd <;> simp [this, hxi]

end AF
