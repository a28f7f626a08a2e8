import Verif.Lemmas.FftMul
/-!
# Operands for which the transform has a coefficient beyond its modulus
-/

namespace AF

/-- `n` words of ones. -/
theorem val_ones (n : Nat) : val (List.replicate n WMAX) + 1 = B ^ n := by
  induction n with
  | zero => simp
  | succ n ih =>
    rw [List.replicate_succ, val, pow_succ, ← ih]
    have := WMAX_eq
    have := B_pos
    rw [show WMAX = B - 1 by omega]
    obtain ⟨b, hb⟩ : ∃ b, B = b + 1 := ⟨B - 1, by omega⟩
    rw [hb]; simp only [Nat.add_sub_cancel]; ring

theorem wf_ones (n : Nat) : Wf (List.replicate n WMAX) := by
  intro x hx
  rw [List.eq_of_mem_replicate hx]; decide

/-- Parts before the last one can be skipped. -/
theorem fftBitParts_skip {d : List Nat} (hd : Wf d) {m plen : Nat} (hm : m % 64 ≠ 0)
    (hp : (m + 63) / 64 + 1 ≤ plen) (a f s : Nat)
    (h : ∀ b, b < a → (s + b * m) / 64 + ((m + 63) / 64 + 1) ≤ d.length) :
    nv (fftBitParts plen m d (a + f) s) a = nv (fftBitParts plen m d f (s + a * m)) 0 := by
  induction a generalizing s with
  | zero => simp
  | succ a ih =>
    obtain ⟨x, e, -, -⟩ := fftBitParts_full hd hm hp (a + f) (s := s) (by simpa using h 0 (by omega))
    rw [show a + 1 + f = a + f + 1 by omega, e, nv_succ, ih]
    · congr 2; ring
    · intro b hb
      have := h (b + 1) (by omega)
      rw [show s + m + b * m = s + (b + 1) * m by ring]; exact this

theorem convC_ge {K : Nat} (p q : Nat → Nat) {n : Nat} (hn : n < K) : p 0 * q n ≤ convC K p q n := by
  rw [convC_eq p q hn]
  have := Finset.single_le_sum (f := fun a => p a * q (n - a)) (s := Finset.range (n + 1))
    (fun _ _ => Nat.zero_le _) (Finset.mem_range.2 (by omega : 0 < n + 1))
  simpa using this

/-- Lengths of the operands of the witness. -/
def wrongLen1 : Nat := 32505856
/-- Lengths of the operands of the witness. -/
def wrongLen2 : Nat := 34603010

theorem wrong_params : fftParams ((wrongLen1 + wrongLen2) * 64) =
    { k1 := 64, k := 6, m := 67108866, n1 := 134217792, t := 2097153 } := by
  decide +kernel

/-- The modulus is below the product of a part of `m` bits and one of `m + 62` bits. -/
theorem wrong_gt (a b : Nat) (ha : 2 ≤ a) (hb : 2 ≤ b) : a * b < (4 * a - 1) * (b - 1) := by
  obtain ⟨x, rfl⟩ : ∃ x, a = x + 2 := ⟨a - 2, by omega⟩
  obtain ⟨y, rfl⟩ : ∃ y, b = y + 2 := ⟨b - 2, by omega⟩
  rw [show 4 * (x + 2) - 1 = 4 * x + 7 by omega, show y + 2 - 1 = y + 1 by omega]
  nlinarith

theorem ones_mod {v n m : Nat} (hv : v + 1 = 2 ^ n) (h : m ≤ n) : v % 2 ^ m = 2 ^ m - 1 := by
  have e : 2 ^ n = 2 ^ m * 2 ^ (n - m) := by rw [← pow_add]; congr 1; omega
  have hm := Nat.two_pow_pos m
  obtain ⟨c, hc⟩ : ∃ c, 2 ^ (n - m) = c + 1 := ⟨2 ^ (n - m) - 1, by have := Nat.two_pow_pos (n - m); omega⟩
  rw [show v = (2 ^ m - 1) + 2 ^ m * c by rw [hc] at e; rw [e, Nat.mul_add] at hv; omega,
    Nat.add_mul_mod_self_left, Nat.mod_eq_of_lt (by omega)]

theorem ones_div {v n s : Nat} (hv : v + 1 = 2 ^ n) (h : s ≤ n) : v / 2 ^ s = 2 ^ (n - s) - 1 := by
  have e : 2 ^ n = 2 ^ s * 2 ^ (n - s) := by rw [← pow_add]; congr 1; omega
  have hm := Nat.two_pow_pos s
  obtain ⟨c, hc⟩ : ∃ c, 2 ^ (n - s) = c + 1 := ⟨2 ^ (n - s) - 1, by have := Nat.two_pow_pos (n - s); omega⟩
  rw [show v = (2 ^ s - 1) + 2 ^ s * c by rw [hc] at e; rw [e, Nat.mul_add] at hv; omega,
    Nat.add_mul_div_left _ _ hm, Nat.div_eq_of_lt (by omega), hc]; omega

/-- The coefficient 32 of the product of the witness, for symbolic sizes. -/
theorem wrong_coef {n1 n2 m plen a : Nat} (hm : m % 64 ≠ 0) (hp : (m + 63) / 64 + 1 ≤ plen)
    (h1 : (m + 63) / 64 + 1 ≤ n1) (hmn : m ≤ 64 * n1)
    (h2 : ∀ b, b < 32 → b * m / 64 + ((m + 63) / 64 + 1) ≤ n2)
    (h3 : 32 * m / 64 + ((m + 63) / 64 + 1) > n2) (h4 : 32 * m / 64 < n2)
    (ham : m = a + 2) (ha : 1 ≤ a) (h5 : a < 64 * n2 - 32 * m) :
    2 ^ (a + (64 * n2 - 32 * m)) < convC (2 ^ 6)
      (nv (fftDecompose (List.replicate n1 WMAX) m 64 plen))
      (nv (fftDecompose (List.replicate n2 WMAX) m 64 plen)) 32 := by
  refine lt_of_lt_of_le ?_ (convC_ge _ _ (by norm_num))
  have e1 : nv (fftDecompose (List.replicate n1 WMAX) m 64 plen) 0 = 2 ^ m - 1 := by
    unfold fftDecompose
    rw [if_neg hm]
    obtain ⟨x, e, -, hv⟩ := fftBitParts_full (wf_ones n1) hm hp 63 (s := 0)
      (by rw [List.length_replicate, Nat.zero_div]; omega)
    rw [e, nv_zero, hv, pow_zero, Nat.div_one]
    refine ones_mod (n := 64 * n1) ?_ hmn
    rw [val_ones, B_pow]
  have e2 : nv (fftDecompose (List.replicate n2 WMAX) m 64 plen) 32 = 2 ^ (64 * n2 - 32 * m) - 1 := by
    unfold fftDecompose
    rw [if_neg hm, show 64 = 32 + (31 + 1) by rfl]
    rw [fftBitParts_skip (wf_ones n2) hm hp 32 (31 + 1) 0
      (by intro b hb; rw [List.length_replicate, Nat.zero_add]; exact h2 b hb)]
    obtain ⟨x, e, -, hv, -⟩ := fftBitParts_last (wf_ones n2) hp 31 (s := 0 + 32 * m)
      (by rw [List.length_replicate, Nat.zero_add]; exact h3)
      (by rw [List.length_replicate, Nat.zero_add]; exact h4)
    rw [e, nv_zero, hv, Nat.zero_add]
    refine ones_div (n := 64 * n2) ?_ (by omega)
    rw [val_ones, B_pow]
  rw [e1, e2, pow_add]
  generalize 64 * n2 - 32 * m = c at *
  rw [ham, pow_add, Nat.mul_comm (2 ^ a) (2 ^ 2)]
  refine wrong_gt _ _ ?_ ?_
  · calc 2 = 2 ^ 1 := rfl
      _ ≤ 2 ^ a := Nat.pow_le_pow_right (by norm_num) ha
  · calc 2 = 2 ^ 1 := rfl
      _ ≤ 2 ^ c := Nat.pow_le_pow_right (by norm_num) (by omega)

/-- With 64 parts the transform can lose part of a product. -/
theorem fftMulWith_wrong {mul : MulFn} (hmul : MulAt mul 2097154) :
    val (fftMulWith mul (List.replicate wrongLen1 WMAX) (List.replicate wrongLen2 WMAX) (wrongLen1 + wrongLen2)) <
      val (List.replicate wrongLen1 WMAX) * val (List.replicate wrongLen2 WMAX) := by
  have hP : fftParams (((List.replicate wrongLen1 WMAX).length + (List.replicate wrongLen2 WMAX).length) * 64) =
      { k1 := 64, k := 6, m := 67108866, n1 := 134217792, t := 2097153 } := by
    rw [List.length_replicate, List.length_replicate]; exact wrong_params
  refine fftMulWith_lt (n := 32) (wf_ones _) (wf_ones _) ?_ ?_ ?_ ?_ ?_
  · rw [List.length_replicate, List.length_replicate]; decide
  · rw [hP]; exact hmul
  · rw [List.length_replicate, List.length_replicate]
  · rw [hP]; norm_num
  · unfold fftCoef
    rw [hP]
    dsimp only
    have := wrong_coef (n1 := wrongLen1) (n2 := wrongLen2) (m := 67108866) (plen := 134217792 / 64 + 1)
      (a := 67108864) (by decide) (by decide) (by decide) (by decide)
      (by intro b hb; unfold wrongLen2; omega) (by decide) (by decide) rfl (by decide) (by decide)
    rw [B_pow, show 64 * (134217792 / 64) = 67108864 + (64 * wrongLen2 - 32 * 67108866) by decide]
    exact this

end AF
