import Verif.Lemmas.DecFmt
/-!
# The conversion to decimal digits in mode `None`

The first round ends the loop, the digits are cut off.
-/

namespace AF

/-- The rounding attempt in mode `None`. -/
theorem toDecTail_none {s : Sign} {n k shift : Nat} {ix : Bool} {ds : List Nat} {X : ℚ}
    (hd : ∀ d ∈ ds, d ≤ 9) (hh : ds.head? ≠ some 0) (hn : 0 < n) (hk : k ≤ 536870911) (hlen : ds.length ≤ 2 ^ 30 + 20)
    (hsh : shift ≤ 10) (hln : n + 17 ≤ ds.length) (hX : |X - digNat 10 ds| ≤ 2 ^ (shift + 3)) :
    ∃ d : Digits, Num.toDecTail s .none n k shift 3 ix ds = .done (.ok d) ∧ (d.1 = s ∧ EMIN ≤ d.2.2 ∧ d.2.2 ≤ EMAX) ∧ d.2.1.length ≤ n ∧
      (∀ v ∈ d.2.1, v ≤ 9) ∧ CloseDec n (s.toK * X / 10 ^ k) (radixVal 10 d) := by
  set D := (shift + 3) * 301029996 / 1000000000 + 1 with hD
  have hD4 : D ≤ 4 := by omega
  have hEM : EMIN = -2147483648 := rfl
  have hEX : EMAX = 2147483647 := rfl
  unfold Num.toDecTail
  dsimp only
  rw [show (ds.length : ℤ) - (((shift + 3) * 301029996 / 1000000000 : ℕ) : ℤ) - 1 = (ds.length : ℤ) - D by rw [hD]; push_cast; ring]
  have hesub : (EMIN - ((ds.length : ℤ) - (k : ℤ))).toNat = 0 := by omega
  rw [hesub, show max ((ds.length : ℤ) - (k : ℤ)) EMIN = (ds.length : ℤ) - k by omega]
  rw [if_pos ⟨by omega, by omega⟩]
  obtain ⟨L, hL⟩ : ∃ L, ds.length = L + D := ⟨ds.length - D, by omega⟩
  rw [show ((ds.length : ℤ) - D).toNat = L by omega]
  unfold tryRoundDec roundDec
  rw [if_pos hn]
  simp only [if_true, Bool.false_eq_true, if_false]
  refine ⟨_, rfl, ?_⟩
  unfold Num.toDecFinish
  simp only [gt_iff_lt, lt_irrefl, false_and, if_false]
  rw [show (ds.take L).take n = ds.take n by rw [List.take_take, Nat.min_eq_left (by omega)]]
  have hl : (ds.take n).length = n := by rw [List.length_take]; omega
  refine ⟨⟨trivial, by omega, by omega⟩, ?_, fun v hv => hd v (List.mem_of_mem_take (List.mem_of_mem_take hv)), ?_⟩
  · rw [List.length_take]; omega
  rw [trim_value, hl]
  have hlo : 10 ^ (n - 1) ≤ digNat 10 (ds.take n) := by
    cases ds with
    | nil => simp at hln
    | cons a l =>
      have ha : a ≠ 0 := by
        intro h; exact hh (by simp [h])
      obtain ⟨n', rfl⟩ : ∃ n', n = n' + 1 := ⟨n - 1, by omega⟩
      rw [List.take_succ_cons]
      have := digNat_ge (b := 10) (ds := l.take n') ha
      rw [List.length_take] at this
      rw [List.length_cons] at hln
      rwa [show min n' l.length = n' by omega] at this
  have hhi : digNat 10 (ds.take n) < 10 ^ n := by
    have := digNat_lt (b := 10) (ds := ds.take n) (by norm_num)
      (fun d h => by have := hd d (List.mem_of_mem_take h); omega)
    rwa [hl] at this
  have hsplit : digNat 10 ds = digNat 10 (ds.take n) * 10 ^ (ds.length - n) + digNat 10 (ds.drop n) := by
    conv_lhs => rw [← List.take_append_drop n ds]
    rw [digNat_append, List.length_drop]
  have htail : digNat 10 (ds.drop n) < 10 ^ (ds.length - n) := by
    have := digNat_lt (b := 10) (ds := ds.drop n) (by norm_num)
      (fun d h => by have := hd d (List.mem_of_mem_drop h); omega)
    rwa [List.length_drop] at this
  have hz : ∀ a b : ℤ, (10 : ℚ) ^ a * 10 ^ b = 10 ^ (a + b) := fun a b => (zpow_add₀ (by norm_num) a b).symm
  have hsplitq : (digNat 10 ds : ℚ) = digNat 10 (ds.take n) * 10 ^ (ds.length - n) + digNat 10 (ds.drop n) := by
    exact_mod_cast hsplit
  have htailq : (digNat 10 (ds.drop n) : ℚ) < 10 ^ (ds.length - n) := by exact_mod_cast htail
  have h0 : (0 : ℚ) ≤ digNat 10 (ds.drop n) := by positivity
  have hloq : (10 : ℚ) ^ (n - 1) ≤ digNat 10 (ds.take n) := by exact_mod_cast hlo
  have hhiq : (digNat 10 (ds.take n) : ℚ) < 10 ^ n := by exact_mod_cast hhi
  have hu : (10 : ℚ) ^ 17 ≤ 10 ^ (ds.length - n) := pow_le_pow_right₀ (by norm_num) (by omega)
  have hX13 : |X - digNat 10 ds| ≤ 2 ^ 13 := hX.trans (pow_le_pow_right₀ (by norm_num) (by omega))
  have huz : (10 : ℚ) ^ ((ds.length : ℤ) - k - n) = 10 ^ (ds.length - n) / 10 ^ k := by
    rw [← zpow_natCast, ← zpow_natCast, ← zpow_sub₀ (by norm_num)]; congr 1; omega
  have hs : |(s.toK : ℚ)| = 1 := by cases s <;> simp [Sign.toK]
  have hkp : (0 : ℚ) < 10 ^ k := by positivity
  refine ⟨(ds.length : ℤ) - k, ?_, ?_, ?_⟩
  · rw [abs_mul, abs_mul, hs, one_mul, abs_of_nonneg (by positivity), abs_of_pos (by positivity),
      show (ds.length : ℤ) - k - 1 = ((n - 1 : ℕ) : ℤ) + ((ds.length : ℤ) - k - n) by omega, zpow_add₀ (by norm_num), zpow_natCast]
    exact mul_le_mul_of_nonneg_right hloq (by positivity)
  · rw [abs_mul, abs_mul, hs, one_mul, abs_of_nonneg (by positivity), abs_of_pos (by positivity)]
    calc _ < (10 : ℚ) ^ n * 10 ^ ((ds.length : ℤ) - k - n) := mul_lt_mul_of_pos_right hhiq (by positivity)
      _ = _ := by rw [← zpow_natCast, hz]; congr 1; ring
  · rw [huz, show s.toK * X / 10 ^ k - s.toK * (digNat 10 (ds.take n)) * (10 ^ (ds.length - n) / 10 ^ k) =
      s.toK * ((X - digNat 10 (ds.take n) * 10 ^ (ds.length - n)) / 10 ^ k) by ring, abs_mul, hs, one_mul, abs_div,
      abs_of_pos hkp, div_mul_eq_mul_div]
    refine div_le_div_of_nonneg_right ?_ hkp.le
    obtain ⟨e1, e2⟩ := abs_le.1 hX13
    generalize (10 : ℚ) ^ (ds.length - n) = u at *
    norm_num at e1 e2 hu
    rw [abs_le]
    constructor <;> linarith

/-- The first round. -/
theorem toDecBody_none {x : Num} (hx : x.WF) (hx0 : (x.toK : ℚ) ≠ 0)
    {n w j : Nat} (hn : 0 < n) (hw : 64 * w ≤ 2 ^ 30) (hj : ((64 * w : ℕ) : ℤ) - x.e = j) (hj1 : 64 ≤ j) (hj2 : j ≤ 1700000000)
    (hnw : 10 ^ (n + 17) ≤ 2 ^ (64 * w - 1)) {tp : List TenPow} (htp : TenHist tp)
    (hgap : ∀ v : ℕ, v < 2 ^ (64 * w + 10) → |(|x.toK| * 10 ^ (j * 301029996 / 1000000000 + 1) : ℚ) - v| ≤ 2 ^ 13 → GapFree v) :
    ∃ d : Digits, (x.toDecBody .none n 0 64 (64 * w) tp).1 = .done (.ok d) ∧ (d.1 = x.s ∧ EMIN ≤ d.2.2 ∧ d.2.2 ≤ EMAX) ∧ d.2.1.length ≤ n ∧
      (∀ v ∈ d.2.1, v ≤ 9) ∧ CloseDec n x.toK (radixVal 10 d) := by
  set k := j * 301029996 / 1000000000 + 1 with hk
  have hw1 : 1 ≤ w := by
    rcases Nat.eq_zero_or_pos w with h | h
    · subst h
      have : 10 ^ 1 ≤ 10 ^ (n + 17) := Nat.pow_le_pow_right (by norm_num) (by omega)
      simp at hnw this
    · exact h
  obtain ⟨y, shift, m, y1, hye, hshift, hm, hsh, m1, m2, m3, herr, hNlo, _, _⟩ := toDec_scaled hx hx0 hw1 hw hj hj1 hj2 hk
  set X : ℚ := |x.toK| * 10 ^ k with hX
  have herr13 : |X - val m.m| ≤ 2 ^ 13 := herr.trans (pow_le_pow_right₀ (by norm_num) (by omega))
  have hNhi : val m.m < 2 ^ (64 * w + shift) := by
    rw [← m3, m2]; exact Nat.lt_size_self _
  have hNhi10 : val m.m < 2 ^ (64 * w + 10) := lt_of_lt_of_le hNhi (Nat.pow_le_pow_right (by norm_num) (by omega))
  obtain ⟨ds, d1, d2, d3, d4⟩ := C33_to_dec_partial tp htp m m1 m2 (by omega) (hgap _ hNhi10 herr13)
  have hdlt := digNat_lt (b := 10) (ds := ds) (by norm_num) (fun d h => by have := d3 d h; omega)
  rw [d2] at hdlt
  have hlen1 : n + 17 < ds.length := by
    by_contra hc
    have : 10 ^ ds.length ≤ 10 ^ (n + 17) := Nat.pow_le_pow_right (by norm_num) (by omega)
    omega
  have hdge : 10 ^ (ds.length - 1) ≤ val m.m := by
    rw [← d2]
    cases ds with
    | nil => simp at hlen1
    | cons a l =>
      have ha : a ≠ 0 := by
        intro h; exact d4 (by simp [h])
      simpa using digNat_ge (b := 10) (ds := l) ha
  have hlen2 : ds.length ≤ 2 ^ 30 + 20 := by
    by_contra hc
    have h1 : 2 ^ (ds.length - 1) ≤ 10 ^ (ds.length - 1) := Nat.pow_le_pow_left (by norm_num) _
    have h2 : 2 ^ (64 * w + shift) ≤ 2 ^ (ds.length - 1) := Nat.pow_le_pow_right (by norm_num) (by omega)
    omega
  have hsx : (x.s.toK : ℚ) * X / 10 ^ k = x.toK := by
    rw [hX, ← mul_assoc, mul_div_cancel_right₀ _ (by positivity)]
    rw [Num.abs_val]; unfold Num.toK; ring
  have hbody : x.toDecBody .none n 0 64 (64 * w) tp =
      (Num.toDecTail x.s .none n k shift 3 y.inexact ds, tenpowers tp (Num.decDepth m.n)) :=
    (toDecBody_eq hj hk y1 hye hshift hm).trans (toDecConv_eq d1)
  rw [← d2] at herr
  obtain ⟨d, t1, t2, t3, t4, t5⟩ := toDecTail_none (s := x.s) (k := k) (ix := y.inexact) d3 d4 hn (by omega) hlen2 hsh (by omega) herr
  rw [hsx] at t5
  exact ⟨d, by rw [hbody, t1], t2, t3, t4, t5⟩

/-- The whole conversion. -/
theorem convToDec_none {x : Num} (hx : x.WF) (hx0 : (x.toK : ℚ) ≠ 0) (he1 : -600000000 ≤ x.e)
    (hl : 64 * x.m.m.length ≤ 2 ^ 28) {tp : List TenPow} (htp : TenHist tp) {n p : Nat}
    (hn : n = decDigits (64 * x.m.m.length)) (hp : p = decStart n) (he2 : x.e + 64 ≤ p)
    (hgap : ∀ k v : ℕ, v < 2 ^ (p + 10) → |(|x.toK| * 10 ^ k : ℚ) - v| ≤ 2 ^ 13 → GapFree v) :
    ∃ d : Digits, (x.convToDec .none tp).1 = .ok d ∧ (d.1 = x.s ∧ EMIN ≤ d.2.2 ∧ d.2.2 ≤ EMAX) ∧ d.2.1.length ≤ n ∧
      (∀ v ∈ d.2.1, v ≤ 9) ∧ CloseDec n x.toK (radixVal 10 d) := by
  have hEM : EMIN = -2147483648 := rfl
  obtain ⟨hxn, _⟩ := normal_of_e hx hx0 (by omega)
  have hlen0 : 0 < x.m.m.length := by
    rcases Nat.eq_zero_or_pos x.m.m.length with h | h
    · exfalso
      apply hx0
      unfold Num.toK
      rw [List.length_eq_zero_iff.1 h]; simp [val]
    · exact h
  have hnb : n ≤ 600000000 := by rw [hn]; unfold decDigits; omega
  have hnc : n ≤ 90000000 := by rw [hn]; unfold decDigits; omega
  have h3 := ten_pow_start hnb
  have hw : p = 64 * ((n * 3321928095 / 1000000000 + 65 + 63) / 64) := by rw [hp]; rfl
  set w := (n * 3321928095 / 1000000000 + 65 + 63) / 64 with hwd
  have hn1 : n = 64 * x.m.m.length * 301029996 / 1000000000 + 1 := by rw [hn]; rfl
  have hconv : x.convToDec .none tp = x.toDecLoop .none n 0 400 64 (64 * w) 64 tp := by
    unfold Num.convToDec
    rw [if_neg (by omega)]
    have h4 : x.m.maxBitLen = 64 * x.m.m.length := by unfold Mantissa.maxBitLen; omega
    dsimp only
    rw [h4, hxn, Nat.sub_self, ← hn1, roundP_dec (by omega), hwd]
  obtain ⟨j, hj⟩ : ∃ j : ℕ, ((64 * w : ℕ) : ℤ) - x.e = j := ⟨(((64 * w : ℕ) : ℤ) - x.e).toNat, by omega⟩
  have h5 : (10 : ℕ) ^ 17 ≤ 2 ^ 57 := by norm_num
  obtain ⟨d, d1, d2⟩ := toDecBody_none hx hx0 (n := n) (by omega) (by omega) hj (by omega) (by omega) (by
      calc 10 ^ (n + 17) = 10 ^ n * 10 ^ 17 := by rw [pow_add]
        _ ≤ 2 ^ (n * 3321928095 / 1000000000 + 5) * 2 ^ 57 := Nat.mul_le_mul h3 h5
        _ = 2 ^ (n * 3321928095 / 1000000000 + 62) := by rw [← pow_add]
        _ ≤ _ := Nat.pow_le_pow_right (by norm_num) (by omega)) htp
    (fun v hv => hgap _ v (by rw [hw]; exact hv))
  refine ⟨d, ?_, d2⟩
  rw [hconv]
  unfold Num.toDecLoop
  generalize x.toDecBody .none n 0 64 (64 * w) tp = b at d1
  rcases b with ⟨b1, b2⟩
  dsimp only at d1
  subst d1
  rfl

end AF
