import Verif.Lemmas.DecBig
/-!
# The loop of the conversion to decimal digits on large numbers

The working precision grows past the exponent, the rounds before that may end the loop as well.
-/

namespace AF

/-- A round on a large number either asks for more precision or ends with correctly rounded digits. -/
theorem toDecBody_large {x : Num} (hx : x.WF) (hx0 : (x.toK : ℚ) ≠ 0) {w : Nat} {rm : RM} (hrm : rm ≠ .none) (hw : 64 * w ≤ 2 ^ 30)
    (he1 : ((64 * w : ℕ) : ℤ) ≤ x.e + 64) (he2 : x.e ≤ 1500000000) (hlen : 64 * x.m.m.length + 128 ≤ 64 * w)
    (hl : 64 * x.m.m.length ≤ 2 ^ 28) {n : Nat} (hn : n = decDigits (64 * x.m.m.length)) (hnw : 10 ^ (n + 17) ≤ 2 ^ (64 * w - 1))
    {tp : List TenPow} (htp : TenHist tp)
    (hgap : ∀ (k : ℤ) (v : ℕ), v < 2 ^ (64 * w + 10) → |(|x.toK| * 10 ^ k : ℚ) - v| ≤ 2 ^ 13 → GapFree v)
    (hgap2 : ∀ j : ℕ, j ≤ 6 → GapFree (val x.m.m * 2 ^ j)) :
    (∃ tp', TenHist tp' ∧ x.toDecBody rm n 0 64 (64 * w) tp = (.more, tp')) ∨
    ∃ d : Digits, (x.toDecBody rm n 0 64 (64 * w) tp).1 = .done (.ok d) ∧ (d.1 = x.s ∧ EMIN ≤ d.2.2 ∧ d.2.2 ≤ EMAX) ∧ d.2.1.length ≤ n ∧
      (∀ v ∈ d.2.1, v ≤ 9) ∧ RoundsDec rm n x.toK (radixVal 10 d) := by
  have hEM : EMIN = -2147483648 := rfl
  have hEX : EMAX = 2147483647 := rfl
  by_cases he3 : ((64 * w : ℕ) : ℤ) + 4 ≤ x.e ∧ x.e ≤ ((64 * w : ℕ) : ℤ) + 6
  · left
    rw [hn]
    exact toDecBody_mid hx hx0 (w := w) rm hw he3.1 he3.2 hl htp hgap2
  obtain ⟨nw, shift, ix, ds, tp', b0, b1, b2, b3, b4, b5, b6, b7, b8, b9, b10, b11⟩ := toDecBody_big hx hx0 (n := n) rm hw he1 he2
    hlen he3 hnw htp hgap
  have hn0 : 0 < n := by rw [hn]; unfold decDigits; omega
  have hT : (0 : ℚ) < 10 ^ nw := by positivity
  have hsx : (x.s.toK : ℚ) * (|x.toK| * 10 ^ nw) / 10 ^ 0 * 10 ^ (-nw) = x.toK := by
    rw [pow_zero, div_one, zpow_neg, ← mul_assoc, mul_assoc (_ * _ : ℚ), mul_inv_cancel₀ hT.ne', mul_one]
    rw [Num.abs_val]; unfold Num.toK; ring
  rw [toDecTail_shift b8 b2 b3] at b1
  rcases toDecTail_spec (s := x.s) (n := n) (k := 0) (ix := ix) hrm b5 b6 hn0 (by omega) b8 b4 b7 b9 b11 with
    ⟨t1, _⟩ | ⟨d, t1, ⟨t2, _⟩, t3, t4, t5⟩
  · left
    refine ⟨tp', b0, ?_⟩
    rw [b1]
    rw [show Num.toDecTail x.s rm n 0 shift 3 ix ds = .more from t1]
  · right
    have he := toDecTail_exp b8 t1
    refine ⟨(d.1, d.2.1, d.2.2 - nw), ?_, ⟨t2, by dsimp only; omega, by dsimp only; omega⟩, t3, t4, ?_⟩
    · rw [b1]
      rw [show Num.toDecTail x.s rm n 0 shift 3 ix ds = .done (.ok d) from t1]
    · rw [radixVal_shift, ← hsx]
      exact roundsDec_shift t5 _

/-- The loop from any precision that is large enough for the digits. -/
theorem toDecLoop_all {x : Num} (hx : x.WF) (hx0 : (x.toK : ℚ) ≠ 0) (he : -600000000 ≤ x.e) {rm : RM} (hrm : rm ≠ .none)
    (he3 : x.e ≤ 1500000000) {n Q W : Nat} (hl : 64 * x.m.m.length ≤ 2 ^ 28) (hn : n = decDigits (64 * x.m.m.length)) (hQ : Q ≤ 2 ^ 30) (hWe : x.e + 64 ≤ W)
    (hgap : ∀ (k : ℤ) (v : ℕ), v < 2 ^ (Q + 10) → |(|x.toK| * 10 ^ k : ℚ) - v| ≤ 2 ^ 13 → GapFree v)
    (hgap2 : ∀ j : ℕ, j ≤ 6 → GapFree (val x.m.m * 2 ^ j))
    (hstop : (∀ (z : ℕ) (q : ℤ), 10 ^ (q - 1) ≤ 2 * |(x.toK : ℚ)| → |(x.toK : ℚ)| < 2 * 10 ^ q →
        40000 * 10 ^ q / 2 ^ W ≤ |(|x.toK| : ℚ) - z * 10 ^ (q - n - 1)|) ∨
      ∀ w j : ℕ, W ≤ 64 * w → ((64 * w : ℕ) : ℤ) - x.e = j → 3 * (j * 301029996 / 1000000000 + 1) ≤ 64 * w ∧
        Rep (64 * w) (x.toK * 10 ^ (j * 301029996 / 1000000000 + 1))) (g : Nat) :
    ∀ (f w c : Nat) (tp : List TenPow), TenHist tp → 3 ≤ w → 1 ≤ c → 2 * c ≤ w → 64 * w * 3 ^ f ≤ Q * 2 ^ f →
      64 * x.m.m.length + 128 ≤ 64 * w → 10 ^ (n + 17) ≤ 2 ^ (64 * w - 1) → W ≤ 64 * w + 64 * f →
      ∃ d : Digits, (x.toDecLoop rm n 0 (f + 1 + g) 64 (64 * w) (64 * c) tp).1 = .ok d ∧ (d.1 = x.s ∧ EMIN ≤ d.2.2 ∧ d.2.2 ≤ EMAX) ∧ d.2.1.length ≤ n ∧
        (∀ v ∈ d.2.1, v ≤ 9) ∧ RoundsDec rm n x.toK (radixVal 10 d) := by
  have hn0 : 0 < n := by rw [hn]; unfold decDigits; omega
  have hgapN : ∀ k v : ℕ, v < 2 ^ (Q + 10) → |(|x.toK| * 10 ^ k : ℚ) - v| ≤ 2 ^ 13 → GapFree v := by
    intro k v h1 h2
    exact hgap (k : ℤ) v h1 (by rw [zpow_natCast]; exact h2)
  intro f
  induction f with
  | zero =>
    intro w c tp htp hw hc1 hc2 hwQ hlen hnw hW
    exact toDecLoop_spec hx hx0 he hrm hn0 hQ hgapN hstop g 0 w c tp htp hw hc1 hc2 hwQ (by push_cast; omega) hnw hW
  | succ f ih =>
    intro w c tp htp hw hc1 hc2 hwQ hlen hnw hW
    by_cases hex : x.e + 64 ≤ (64 * w : ℕ)
    · exact toDecLoop_spec hx hx0 he hrm hn0 hQ hgapN hstop g (f + 1) w c tp htp hw hc1 hc2 hwQ hex hnw hW
    have h23 : 2 ^ (f + 1) ≤ 3 ^ (f + 1) := Nat.pow_le_pow_left (by norm_num) _
    have hwQ' : 64 * w ≤ Q := by
      by_contra hc
      have h1 : (Q + 1) * 3 ^ (f + 1) ≤ 64 * w * 3 ^ (f + 1) := Nat.mul_le_mul_right _ (by omega)
      have h2 : (Q + 1) * 2 ^ (f + 1) ≤ (Q + 1) * 3 ^ (f + 1) := Nat.mul_le_mul_left _ h23
      have h3 : 0 < 2 ^ (f + 1) := by positivity
      nlinarith
    rcases toDecBody_large hx hx0 (w := w) hrm (by omega) (by omega) he3 hlen hl hn hnw htp
      (fun k v hv h => hgap k v (lt_of_lt_of_le hv (Nat.pow_le_pow_right (by norm_num) (by omega))) h) hgap2 with
      ⟨tp', htp', hb⟩ | ⟨d, d1, d2⟩
    · have hrp : roundP ((64 * w + 64 * c) / 5) = 64 * (((64 * w + 64 * c) / 5 + 63) / 64) := roundP_dec (by omega)
      obtain ⟨d, d1, d2⟩ := ih (w + c) (((64 * w + 64 * c) / 5 + 63) / 64) tp' htp' (by omega) (by omega) (by omega)
        (by
          have h3 : 0 < 3 ^ f := by positivity
          rw [pow_succ, pow_succ] at hwQ
          have : (w + c) * 2 ≤ w * 3 := by omega
          have h4 : (w + c) * 2 * 3 ^ f ≤ w * 3 * 3 ^ f := Nat.mul_le_mul_right _ this
          nlinarith) (by omega)
        (hnw.trans (Nat.pow_le_pow_right (by norm_num) (by omega))) (by omega)
      refine ⟨d, ?_, d2⟩
      rw [show f + 1 + 1 + g = (f + 1 + g) + 1 by ring, toDecLoop_more hb rfl, hrp, ← Nat.mul_add]
      rw [← Nat.mul_add] at d1
      exact d1
    · refine ⟨d, ?_, d2⟩
      rw [show f + 1 + 1 + g = (f + 1 + g) + 1 by ring]
      unfold Num.toDecLoop
      generalize x.toDecBody rm n 0 64 (64 * w) tp = b at d1
      rcases b with ⟨b1, b2⟩
      dsimp only at d1
      subst d1
      rfl

/-- The whole conversion. -/
theorem convToDec_all {x : Num} (hx : x.WF) (hx0 : (x.toK : ℚ) ≠ 0) (he1 : -600000000 ≤ x.e) (he3 : x.e ≤ 1500000000)
    (hl : 64 * x.m.m.length ≤ 2 ^ 28) {rm : RM} (hrm : rm ≠ .none)
    {tp : List TenPow} (htp : TenHist tp) {n p f : Nat} (hn : n = decDigits (64 * x.m.m.length)) (hp : p = decStart n)
    (he2 : x.e + 64 ≤ (p + 64 * f : ℕ))
    (hf : f < 400) (hfp : p * 3 ^ f < 2 ^ 30 * 2 ^ f)
    (hgap : ∀ (k : ℤ) (v : ℕ), v < 2 ^ (p * 3 ^ f / 2 ^ f + 11) → |(|x.toK| * 10 ^ k : ℚ) - v| ≤ 2 ^ 13 → GapFree v)
    (hgap2 : ∀ j : ℕ, j ≤ 6 → GapFree (val x.m.m * 2 ^ j))
    (hstop : (∀ (z : ℕ) (q : ℤ), 10 ^ (q - 1) ≤ 2 * |(x.toK : ℚ)| → |(x.toK : ℚ)| < 2 * 10 ^ q →
        40000 * 10 ^ q / 2 ^ (p + 64 * f) ≤ |(|x.toK| : ℚ) - z * 10 ^ (q - n - 1)|) ∨
      ∀ w j : ℕ, p + 64 * f ≤ 64 * w → ((64 * w : ℕ) : ℤ) - x.e = j → 3 * (j * 301029996 / 1000000000 + 1) ≤ 64 * w ∧
        Rep (64 * w) (x.toK * 10 ^ (j * 301029996 / 1000000000 + 1))) :
    ∃ d : Digits, (x.convToDec rm tp).1 = .ok d ∧ (d.1 = x.s ∧ EMIN ≤ d.2.2 ∧ d.2.2 ≤ EMAX) ∧ d.2.1.length ≤ n ∧
      (∀ v ∈ d.2.1, v ≤ 9) ∧ RoundsDec rm n x.toK (radixVal 10 d) := by
  have hEM : EMIN = -2147483648 := rfl
  obtain ⟨hxn, _⟩ := normal_of_e hx hx0 (by omega)
  have hlen0 : 0 < x.m.m.length := by
    rcases Nat.eq_zero_or_pos x.m.m.length with h | h
    · exfalso
      apply hx0
      unfold Num.toK
      rw [List.length_eq_zero_iff.1 h]; simp [val]
    · exact h
  have hnb : n ≤ 600000000 := by rw [hn]; unfold decDigits; omega
  have h3 := ten_pow_start hnb
  have hw : p = 64 * ((n * 3321928095 / 1000000000 + 65 + 63) / 64) := by rw [hp]; rfl
  set w := (n * 3321928095 / 1000000000 + 65 + 63) / 64 with hwd
  have hn1 : n = 64 * x.m.m.length * 301029996 / 1000000000 + 1 := by rw [hn]; rfl
  have hconv : x.convToDec rm tp = x.toDecLoop rm n 0 400 64 (64 * w) 64 tp := by
    unfold Num.convToDec
    rw [if_neg (by omega)]
    have h4 : x.m.maxBitLen = 64 * x.m.m.length := by unfold Mantissa.maxBitLen; omega
    dsimp only
    rw [h4, hxn, Nat.sub_self, ← hn1, roundP_dec (by omega), hwd]
  rw [hconv, show 400 = f + 1 + (399 - f) by omega, show (64 : ℕ) = 64 * 1 by rfl]
  refine toDecLoop_all hx hx0 he1 hrm he3 (Q := p * 3 ^ f / 2 ^ f + 1) (W := p + 64 * f) hl hn ?_ he2
    (fun k v hv => hgap k v (by rwa [show p * 3 ^ f / 2 ^ f + 1 + 10 = p * 3 ^ f / 2 ^ f + 11 by ring] at hv)) hgap2 hstop (399 - f) f w 1 tp htp (by omega)
    (by omega) (by omega) ?_ (by omega) ?_ (by omega)
  · have : p * 3 ^ f / 2 ^ f < 2 ^ 30 := Nat.div_lt_of_lt_mul (by rw [Nat.mul_comm (2 ^ f)]; exact hfp)
    omega
  · rw [← hw]
    have h5 := Nat.lt_div_mul_add (a := p * 3 ^ f) (b := 2 ^ f) (by positivity)
    rw [Nat.add_mul, one_mul]
    omega
  · have h5 : (10 : ℕ) ^ 17 ≤ 2 ^ 57 := by norm_num
    calc 10 ^ (n + 17) = 10 ^ n * 10 ^ 17 := by rw [pow_add]
      _ ≤ 2 ^ (n * 3321928095 / 1000000000 + 5) * 2 ^ 57 := Nat.mul_le_mul h3 h5
      _ = 2 ^ (n * 3321928095 / 1000000000 + 62) := by rw [← pow_add]
      _ ≤ _ := Nat.pow_le_pow_right (by norm_num) (by omega)

end AF
