import Verif.Lemmas.Adjust
/-!
# `abs_add` and `abs_sub` round the exact sum and difference
-/

namespace AF

variable {K : Type*} [Field K] [LinearOrder K] [IsStrictOrderedRing K]

theorem wordLen_mul (p : Nat) : wordLen (64 * p) = p := by unfold wordLen; omega

/-- The fraction in `[1/2, 1)` held by normalised words. -/
def frac (m : List Nat) : K := (val m : K) / 2 ^ (64 * m.length)

theorem frac_pos {m : List Nat} (hm : Normd m) : (0 : K) < frac m := by
  have : (0:K) < val m := by exact_mod_cast hm.pos
  unfold frac; positivity

theorem frac_lt_one {m : List Nat} (hm : Wf m) : (frac m : K) < 1 := by
  unfold frac
  rw [div_lt_one (by positivity)]
  exact_mod_cast val_lt_two_pow hm

theorem half_le_frac {m : List Nat} (hm : Normd m) : (1 / 2 : K) ≤ frac m := by
  unfold frac
  rw [div_le_div_iff₀ (by norm_num) (by positivity)]
  have h := hm.2.2
  have h2 := two_pow_split (64 * m.length) (by have := hm.2.1; omega)
  have : 1 * 2 ^ (64 * m.length) ≤ val m * 2 := by omega
  exact_mod_cast this

theorem val_ext (m : List Nat) (l : Nat) (hl : m.length ≤ l) :
    ((val (List.replicate (l - m.length) 0 ++ m) : ℕ) : K) = frac m * 2 ^ (64 * l) := by
  rw [val_zeros_append, B_pow]
  unfold frac
  have e1 : (2 : K) ^ (64 * l) = 2 ^ (64 * (l - m.length)) * 2 ^ (64 * m.length) := by
    rw [← pow_add]; congr 1; omega
  rw [e1]; push_cast; field_simp

theorem ext_length (m : List Nat) (l : Nat) (hl : m.length ≤ l) :
    (List.replicate (l - m.length) 0 ++ m).length = l := by simp; omega

theorem ext_wf {m : List Nat} (hm : Wf m) (k : Nat) : Wf (List.replicate k 0 ++ m) :=
  wf_append.2 ⟨wf_zeros _, hm⟩

/-- Right shift that loses no bits. -/
theorem val_ext_shift {m : List Nat} (hm : Wf m) (l s : Nat) (hl : m.length ≤ l)
    (hs : s ≤ 64 * (l - m.length)) :
    val (shiftRight (List.replicate (l - m.length) 0 ++ m) s) =
      val m * 2 ^ (64 * (l - m.length) - s) ∧
    ((val (shiftRight (List.replicate (l - m.length) 0 ++ m) s) : ℕ) : K) =
      frac m / 2 ^ s * 2 ^ (64 * l) := by
  have h1 : val (shiftRight (List.replicate (l - m.length) 0 ++ m) s) =
      val m * 2 ^ (64 * (l - m.length) - s) := by
    rw [val_shiftRight (ext_wf hm _), val_zeros_append, B_pow]
    have : 2 ^ (64 * (l - m.length)) = 2 ^ (64 * (l - m.length) - s) * 2 ^ s := by
      rw [← pow_add]; congr 1; omega
    rw [this, mul_comm _ (val m), ← mul_assoc, Nat.mul_div_cancel _ (by positivity)]
  refine ⟨h1, ?_⟩
  rw [h1]
  unfold frac
  have e1 : (2 : K) ^ (64 * l) = 2 ^ (64 * (l - m.length) - s) * 2 ^ s * 2 ^ (64 * m.length) := by
    rw [← pow_add, ← pow_add]; congr 1; omega
  rw [e1]; push_cast; field_simp

theorem RSS_take_eq (m : List Nat) (l s : Nat) (hl : m.length ≤ l) :
    RSS.take l (RSS.new m s 0 (l - m.length)) =
      shiftRight (List.replicate (l - m.length) 0 ++ m) s := by
  have := RSS.take_new m s (l - m.length)
  rwa [Nat.sub_add_cancel hl] at this

/-- Setting the clear top bit. -/
theorem set_top {s : List Nat} (hs : Wf s) (hl : 0 < s.length) (h : val s < 2 ^ (64 * s.length - 1)) :
    val (s.set (s.length - 1) (wd s (s.length - 1) ||| MSB)) = val s + 2 ^ (64 * s.length - 1) ∧
    Wf (s.set (s.length - 1) (wd s (s.length - 1) ||| MSB)) := by
  set i := s.length - 1 with hi
  have hil : i < s.length := by omega
  have hsplit := split_at_wd s hil
  have hdrop : s.drop (i + 1) = [] := by rw [List.drop_eq_nil_iff]; omega
  have hwd := wd_lt hs hil
  have hval : val s = val (s.take i) + B ^ i * wd s i := by
    conv_lhs => rw [hsplit, hdrop]
    rw [val_append, List.length_take, min_eq_left (by omega)]; simp
  have hw63 : wd s i < 2 ^ 63 := by
    by_contra hc
    have h1 : B ^ i * 2 ^ 63 ≤ B ^ i * wd s i := Nat.mul_le_mul_left _ (by omega)
    have h2 : B ^ i * 2 ^ 63 = 2 ^ (64 * s.length - 1) := by
      rw [B_pow, ← pow_add]; congr 1; omega
    omega
  have hor : wd s i ||| MSB = wd s i + 2 ^ 63 := by
    rw [Nat.lor_comm, MSB_eq, or_eq_add (s := 63) (by norm_num) hw63, add_comm]
  have hor_lt : wd s i ||| MSB < B := by rw [hor, B_eq]; omega
  refine ⟨?_, hs.set _ hor_lt⟩
  have hset : s.set i (wd s i ||| MSB) = s.take i ++ [wd s i ||| MSB] := by
    rw [List.set_eq_take_append_cons_drop, if_pos hil, hdrop]
  rw [hset, val_append, List.length_take, min_eq_left (by omega), hval, hor]
  have h2 : B ^ i * 2 ^ 63 = 2 ^ (64 * s.length - 1) := by
    rw [B_pow, ← pow_add]; congr 1; omega
  rw [← h2]; simp; ring

/-- Setting the lowest bit of the words. -/
theorem set_low {m : List Nat} (hm : Wf m) (hl : 0 < m.length) :
    val (m.set 0 (wd m 0 ||| 1)) = val m / 2 * 2 + 1 ∧ Wf (m.set 0 (wd m 0 ||| 1)) := by
  cases m with
  | nil => simp at hl
  | cons x xs =>
    obtain ⟨hx, hxs⟩ := wf_cons.1 hm
    have hw : wd (x :: xs) 0 = x := by simp [wd]
    have hor : x ||| 1 = x / 2 * 2 + 1 := by
      have h1 : x ||| 1 = (x / 2 * 2) ||| 1 := by
        rcases Nat.mod_two_eq_zero_or_one x with h | h
        · have : x / 2 * 2 = x := by omega
          rw [this]
        · have h2 : (x / 2 * 2) ||| 1 = x := by
            rw [or_eq_add (s := 1) (by simp) (by norm_num)]; omega
          rw [h2]
          conv_lhs => rw [← h2]
          rw [Nat.lor_assoc, Nat.or_self, h2]
      rw [h1, or_eq_add (s := 1) (by simp) (by norm_num)]
    have hlt : x ||| 1 < B := or_lt_B hx one_lt_B
    rw [hw, List.set_cons_zero, val_cons, val_cons, hor]
    refine ⟨?_, Wf.cons (hor ▸ hlt) hxs⟩
    have : B * val xs = 2 * (2 ^ 63 * val xs) := by rw [B_eq]; ring
    omega

theorem frac_of_val {m : List Nat} {X : K} (h : (val m : K) = X * 2 ^ (64 * m.length)) :
    (val m : K) / 2 ^ (64 * m.length) = X := by
  rw [h, mul_div_assoc, div_self (by positivity), mul_one]

/-- Result description shared by `abs_add` and `abs_sub`: the mantissa has `p` words, is
normalised, and is the exact magnitude `X` rounded to `64 p` bits, with exponent `-shift`. -/
def MantOk (rm : RM) (pos : Bool) (p : Nat) (X : K) (ix : Bool) (r : Int × Mantissa × Bool) : Prop :=
  r.2.1.m.length = p ∧ Wf r.2.1.m ∧ r.2.1.n = 64 * p ∧
  NR rm pos (64 * p) X (val r.2.1.m) (-r.1) ∧
  (r.2.2 = true ↔ ix = true ∨ (val r.2.1.m : K) * 2 ^ (-r.1 - (64 * p : ℕ)) ≠ X)

theorem MantOk_exact {m : List Nat} (hm : Normd m) {p : Nat} (hp : 0 < p) (rm : RM)
    (pos ix : Bool) {X : K} {c : ℤ} (hX : (val m : K) * 2 ^ c = X * 2 ^ (64 * m.length)) :
    MantOk rm pos p X ix
      (-c - (if (adjustPrec m p rm pos false ix).2.1 then 1 else 0),
        { m := (adjustPrec m p rm pos false ix).1,
          n := (adjustPrec m p rm pos false ix).1.length * 64 },
        (adjustPrec m p rm pos false ix).2.2) := by
  obtain ⟨h1, h2, h3, h4⟩ := NR_of_adjust (K := K) hm hp rm pos ix
  have h5 := h3.scale c
  have hXX : (val m : K) / 2 ^ (64 * m.length) * 2 ^ c = X := by
    rw [div_mul_eq_mul_div, hX, mul_div_assoc, div_self (by positivity), mul_one]
  rw [hXX] at h5
  refine ⟨h1, h2, by dsimp only; rw [h1]; ring, ?_, ?_⟩
  · convert h5 using 1; dsimp only; ring
  · rw [h4]
    dsimp only
    have e1 : -(-c - (if (adjustPrec m p rm pos false ix).2.1 = true then (1:ℤ) else 0)) -
        ((64 * p : ℕ) : ℤ) =
        ((if (adjustPrec m p rm pos false ix).2.1 = true then (1:ℤ) else 0) - ((64 * p : ℕ) : ℤ)) + c := by
      ring
    rw [e1, two_zpow_add, ← mul_assoc, ← hXX]
    have : (2 : K) ^ c ≠ 0 := (two_zpow_pos c).ne'
    rw [ne_eq, ne_eq, mul_left_inj' this]

theorem MantOk_sticky {m : List Nat} (hm : Normd m) {p : Nat} (hp : 0 < p) (hpL : p < m.length)
    (rm : RM) (pos ix : Bool) {X : K} {c : ℤ} {a b : Nat} (ha : a < val m) (hb : val m < b)
    (hXa : (a : K) * 2 ^ c < X * 2 ^ (64 * m.length)) (hXb : X * 2 ^ (64 * m.length) < b * 2 ^ c)
    (hab : b ≤ (a / 2 ^ (64 * (m.length - p) - 1) + 1) * 2 ^ (64 * (m.length - p) - 1)) :
    MantOk rm pos p X ix
      (-c - (if (adjustPrec m p rm pos false true).2.1 then 1 else 0),
        { m := (adjustPrec m p rm pos false true).1,
          n := (adjustPrec m p rm pos false true).1.length * 64 },
        (adjustPrec m p rm pos false true).2.2) := by
  have hc := two_zpow_pos (K := K) c
  have hcc : (2 : K) ^ (-c) * 2 ^ c = 1 := by rw [two_zpow_mul]; simp
  have hcn := two_zpow_pos (K := K) (-c)
  obtain ⟨h1, h2, h3, h4, h5⟩ := NR_of_adjust_sticky (K := K) hm hp hpL rm pos (X := X * 2 ^ (-c)) ha hb
    (by
      have := mul_lt_mul_of_pos_right hXa hcn
      rw [mul_assoc, mul_comm ((2:K) ^ c), hcc, mul_one] at this
      calc (a : K) < _ := this
        _ = _ := by ring)
    (by
      have := mul_lt_mul_of_pos_right hXb hcn
      rw [mul_assoc (b : K), mul_comm ((2:K) ^ c), hcc, mul_one] at this
      calc _ = X * 2 ^ (64 * m.length) * 2 ^ (-c) := by ring
        _ < _ := this) hab
  have h6 := h3.scale c
  rw [mul_assoc, hcc, mul_one] at h6
  refine ⟨h1, h2, by dsimp only; rw [h1]; ring, ?_, ?_⟩
  · convert h6 using 1; dsimp only; ring
  · dsimp only
    rw [h4]
    have : (val (adjustPrec m p rm pos false true).1 : K) *
        2 ^ (-(-c - (if (adjustPrec m p rm pos false true).2.1 = true then (1:ℤ) else 0)) -
          ((64 * p : ℕ) : ℤ)) ≠ X := by
      have e1 : -(-c - (if (adjustPrec m p rm pos false true).2.1 = true then (1:ℤ) else 0)) -
          ((64 * p : ℕ) : ℤ) =
          ((if (adjustPrec m p rm pos false true).2.1 = true then (1:ℤ) else 0) - ((64 * p : ℕ) : ℤ)) + c := by
        ring
      rw [e1, two_zpow_add, ← mul_assoc]
      intro hX
      apply h5
      rw [← hX, mul_assoc _ ((2:K) ^ c), mul_comm ((2:K) ^ c), hcc, mul_one]
    exact ⟨fun _ => Or.inr this, fun _ => rfl⟩

omit [LinearOrder K] [IsStrictOrderedRing K] in
theorem pow_split {a b c : Nat} (h : a = b + c) : (2 : K) ^ a = 2 ^ b * 2 ^ c := by
  rw [h, pow_add]

theorem shifted_lt {m : List Nat} (hm : Normd m) (n d sh : Nat) (hnd : n + d ≤ sh) :
    frac m / 2 ^ sh * (2:K) ^ n < 1 / 2 ^ d := by
  obtain ⟨k, rfl⟩ := Nat.exists_eq_add_of_le hnd
  have hf := frac_lt_one (K := K) hm.1
  have e2 : (1:K) ≤ 2 ^ k := one_le_pow₀ (by norm_num)
  have e1 : frac m / 2 ^ (n + d + k) * (2:K) ^ n = frac m / 2 ^ k * (1 / 2 ^ d) := by
    rw [pow_add, pow_add]; field_simp
  rw [e1]
  have h3 : frac m / (2:K) ^ k < 1 := by rw [div_lt_one (by positivity)]; linarith
  have h4 : (0:K) < 1 / 2 ^ d := by positivity
  calc _ < 1 * ((1:K) / 2 ^ d) := mul_lt_mul_of_pos_right h3 h4
    _ = _ := by ring

/-- `abs_add` with a finite target precision. -/
theorem absAdd_spec {m1 m2 : List Nat} (h1 : Normd m1) (h2 : Normd m2) {p : Nat} (hp : 0 < p)
    (sh : Nat) (rm : RM) (pos ix : Bool) :
    MantOk rm pos p (frac m1 + frac m2 / 2 ^ sh : K) ix
      (absAdd m1 m2 (64 * p) sh rm pos false ix) := by
  have hf1 := half_le_frac (K := K) h1
  have hf2 := half_le_frac (K := K) h2
  have hf1' := frac_lt_one (K := K) h1.1
  have hf2' := frac_lt_one (K := K) h2.1
  have hL1 := h1.2.1
  have hL2 := h2.2.1
  unfold absAdd
  rw [wordLen_mul]
  simp only [Bool.not_false, Bool.and_true]
  by_cases hs0 : sh = 0
  · -- equal exponents
    subst hs0
    simp only [ne_eq, not_true_eq_false, decide_false, Bool.false_and, if_true, Bool.or_false]
    set l := max m1.length m2.length + 1 with hl
    have hl1 : m1.length ≤ l := by omega
    have hl2 : m2.length ≤ l := by omega
    rw [RSS_take_eq m1 l 1 hl1, RSS_take_eq m2 l 1 hl2]
    obtain ⟨a1, a2⟩ := val_ext_shift (K := K) h1.1 l 1 hl1 (by omega)
    obtain ⟨b1, b2⟩ := val_ext_shift (K := K) h2.1 l 1 hl2 (by omega)
    set A := shiftRight (List.replicate (l - m1.length) 0 ++ m1) 1 with hA
    set C := shiftRight (List.replicate (l - m2.length) 0 ++ m2) 1 with hC
    have hAl : A.length = l := by rw [hA, shiftRight_length, ext_length _ _ hl1]
    have hCl : C.length = l := by rw [hC, shiftRight_length, ext_length _ _ hl2]
    have hAw : Wf A := shiftRight_wf (ext_wf h1.1 _) _
    have hCw : Wf C := shiftRight_wf (ext_wf h2.1 _) _
    obtain ⟨s1, s2, s3, s4⟩ := addLoop_spec hAw hCw (hAl.trans hCl.symm) (Nat.zero_le 1)
    set S := addLoop 0 A C with hS
    have hpow : (2:K) ^ (64 * l) ≠ 0 := by positivity
    have hsum : (val A : K) + val C = (frac m1 + frac m2) / 2 * 2 ^ (64 * l) := by
      rw [a2, b2]; ring
    have hlt : val A + val C < B ^ l := by
      have : ((val A + val C : ℕ) : K) < ((B ^ l : ℕ) : K) := by
        rw [B_pow]; push_cast; rw [hsum]
        have : (0:K) < 2 ^ (64 * l) := by positivity
        calc (frac m1 + frac m2) / 2 * 2 ^ (64 * l) < 1 * 2 ^ (64 * l) :=
              mul_lt_mul_of_pos_right (by linarith) this
          _ = _ := by ring
      exact_mod_cast this
    have hSc : S.2 = 0 := by
      rw [hAl] at s1
      by_contra hc
      have : B ^ l ≤ B ^ l * S.2 := Nat.le_mul_of_pos_right _ (by omega)
      omega
    have hSv : val S.1 = val A + val C := by rw [hSc] at s1; simpa using s1
    have hSl : S.1.length = l := s3.trans hAl
    have hSvK : (val S.1 : K) = (frac m1 + frac m2) / 2 * 2 ^ (64 * l) := by
      rw [hSv]; push_cast; exact hsum
    have hN : Normd S.1 := by
      refine ⟨s4, by omega, ?_⟩
      rw [hSl]
      have : ((2 ^ (64 * l - 1) : ℕ) : K) ≤ ((val S.1 : ℕ) : K) := by
        rw [hSvK]
        have e1 : (2:K) ^ (64 * l) = 2 * 2 ^ (64 * l - 1) := by
          rw [← pow_succ']; congr 1
        rw [e1]; push_cast
        have : (0:K) < 2 ^ (64 * l - 1) := by positivity
        nlinarith
      exact_mod_cast this
    have key := MantOk_exact (K := K) hN hp rm pos ix (X := frac m1 + frac m2 / 2 ^ 0) (c := 1) (by
      rw [hSvK, hSl]; simp; ring)
    exact key
  · by_cases hfar : (sh + 62) / 64 > p ∧ (sh + 62) / 64 > m1.length
    · -- the second operand is only sticky
      have hd : (decide ((sh + 62) / 64 > p) && decide ((sh + 62) / 64 > m1.length)) = true := by
        simp [hfar.1, hfar.2]
      simp only [ne_eq, hs0, not_false_eq_true, decide_true, Bool.true_and, hd, if_false, if_true,
        Bool.or_true]
      set m3 := (if p + 1 ≥ m1.length then List.replicate (p + 1 - m1.length) 0 ++ m1
        else m1.drop (m1.length - (p + 1))) with hm3
      -- the scaled exact value lies strictly between consecutive integers `t`, `t+1`
      have hδpos : (0:K) < frac m2 / 2 ^ sh := by have := frac_pos (K := K) h2; positivity
      have hm3w : Wf m3 := by
        rw [hm3]; split
        · exact ext_wf h1.1 _
        · exact h1.1.drop _
      have hm3l : m3.length = p + 1 := by
        rw [hm3]; split
        · exact ext_length _ _ (by omega)
        · rw [List.length_drop]; omega
      have hδ := fun n d (h : n + d ≤ sh) => shifted_lt (K := K) h2 n d sh h
      obtain ⟨v1, v2⟩ := set_low hm3w (by omega)
      set m4 := m3.set 0 (wd m3 0 ||| 1) with hm4
      have hm4l : m4.length = p + 1 := by rw [hm4, List.length_set, hm3l]
      have hpe : 64 * (m4.length - p) - 1 = 63 := by rw [hm4l]; omega
      have hm3lo : 2 ^ (64 * (p + 1) - 1) ≤ val m3 := by
        rw [hm3]; split
        · rename_i hle
          rw [val_zeros_append, B_pow]
          calc 2 ^ (64 * (p + 1) - 1) = 2 ^ (64 * (p + 1 - m1.length)) * 2 ^ (64 * m1.length - 1) := by
                rw [← pow_add]; congr 1; omega
            _ ≤ _ := Nat.mul_le_mul_left _ h1.2.2
        · rename_i hle
          rw [val_drop h1.1, B_pow, Nat.le_div_iff_mul_le (by positivity), ← pow_add]
          exact le_trans (le_of_eq (by congr 1; omega)) h1.2.2
      have hN : Normd m4 := by
        refine ⟨v2, by omega, ?_⟩
        rw [hm4l, v1]
        have := two_pow_split (64 * (p + 1) - 1) (by omega)
        omega
      have hpp : (0:K) < 2 ^ (64 * (p + 1)) := by positivity
      have hcell : ∀ a b : ℕ, a < val m4 → val m4 < b →
          (a : K) < (frac m1 + frac m2 / 2 ^ sh) * 2 ^ (64 * m4.length) →
          (frac m1 + frac m2 / 2 ^ sh) * 2 ^ (64 * m4.length) < (b : K) →
          b ≤ (a / 2 ^ 63 + 1) * 2 ^ 63 →
          MantOk rm pos p (frac m1 + frac m2 / 2 ^ sh : K) ix
            (-((0:ℕ):ℤ) - (if (adjustPrec m4 p rm pos false true).2.1 then 1 else 0),
              { m := (adjustPrec m4 p rm pos false true).1,
                n := (adjustPrec m4 p rm pos false true).1.length * 64 },
              (adjustPrec m4 p rm pos false true).2.2) := by
        intro a b q1 q2 q3 q4 q5
        exact MantOk_sticky (K := K) hN hp (by omega) rm pos ix (c := ((0:ℕ):ℤ)) q1 q2
          (by simpa using q3) (by simpa using q4) (by rw [hpe]; exact q5)
      by_cases hle : m1.length ≤ p
      · have hm3e : m3 = List.replicate (p + 1 - m1.length) 0 ++ m1 := by
          rw [hm3, if_pos (by omega)]
        have ht : ∃ c, val m3 = 2 ^ 64 * c := by
          rw [hm3e, val_zeros_append, B_pow]
          refine ⟨2 ^ (64 * (p - m1.length)) * val m1, ?_⟩
          rw [← mul_assoc, ← pow_add]; congr 2; omega
        obtain ⟨c, hc⟩ := ht
        have hX : (frac m1 + frac m2 / 2 ^ sh) * (2:K) ^ (64 * m4.length) =
            val m3 + frac m2 / 2 ^ sh * 2 ^ (64 * p) * 2 ^ 64 := by
          rw [hm3e, val_ext m1 (p + 1) (by omega), hm4l, add_mul]
          congr 1
          rw [mul_assoc, ← pow_add]; congr 2
        apply hcell (val m3) (val m3 + 2 ^ 63)
        · rw [v1]; omega
        · rw [v1]; omega
        · rw [hX]
          have : (0:K) < frac m2 / 2 ^ sh * 2 ^ (64 * p) * 2 ^ 64 := by positivity
          linarith
        · rw [hX]
          have := hδ (64 * p) 2 (by omega)
          push_cast
          norm_num at this ⊢
          nlinarith
        · omega
      · have hm3e : val m3 = val m1 / 2 ^ (64 * (m1.length - (p + 1))) := by
          rw [hm3]; split
          · rename_i h
            have : m1.length - (p + 1) = 0 := by omega
            have h2 : p + 1 - m1.length = 0 := by omega
            rw [this, h2]; simp
          · rw [val_drop h1.1, B_pow]
        set d := 64 * (m1.length - (p + 1)) with hd'
        have hdm := Nat.div_add_mod (val m1) (2 ^ d)
        have hmod := Nat.mod_lt (val m1) (show 0 < 2 ^ d by positivity)
        have hdpos : (0:K) < 2 ^ d := by positivity
        have hX : (frac m1 + frac m2 / 2 ^ sh) * (2:K) ^ (64 * m4.length) * 2 ^ d =
            val m1 + frac m2 / 2 ^ sh * 2 ^ (64 * m1.length) := by
          have e1 : (2:K) ^ (64 * m4.length) * 2 ^ d = 2 ^ (64 * m1.length) := by
            rw [hm4l, ← pow_add]; congr 1; omega
          rw [mul_assoc, e1, add_mul]
          congr 1
          unfold frac; field_simp
        have hdl := hδ (64 * m1.length) 0 (by omega)
        have hlow : (val m3 : K) < (frac m1 + frac m2 / 2 ^ sh) * (2:K) ^ (64 * m4.length) := by
          apply lt_of_mul_lt_mul_right _ hdpos.le
          rw [hX]
          have : ((val m3 * 2 ^ d : ℕ) : K) ≤ val m1 := by
            rw [hm3e]; exact_mod_cast Nat.div_mul_le_self _ _
          push_cast at this
          have h0 : (0:K) < frac m2 / 2 ^ sh * 2 ^ (64 * m1.length) := by positivity
          linarith
        have hup : (frac m1 + frac m2 / 2 ^ sh) * (2:K) ^ (64 * m4.length) < val m3 + 1 := by
          apply lt_of_mul_lt_mul_right _ hdpos.le
          rw [hX]
          have : ((val m1 + 1 : ℕ) : K) ≤ (((val m3 + 1) * 2 ^ d : ℕ) : K) := by
            rw [hm3e]
            have : val m1 + 1 ≤ (val m1 / 2 ^ d + 1) * 2 ^ d := by
              rw [add_mul, mul_comm]; omega
            exact_mod_cast this
          push_cast at this
          norm_num at hdl
          linarith
        apply hcell (val m3 / 2 * 2) (val m3 / 2 * 2 + 2)
        · rw [v1]; omega
        · rw [v1]; omega
        · refine lt_of_le_of_lt ?_ hlow
          exact_mod_cast (show val m3 / 2 * 2 ≤ val m3 by omega)
        · refine lt_of_lt_of_le hup ?_
          exact_mod_cast (show val m3 + 1 ≤ val m3 / 2 * 2 + 2 by omega)
        · omega
    · -- general case
      have hd : (decide ((sh + 62) / 64 > p) && decide ((sh + 62) / 64 > m1.length)) = false := by
        rw [Bool.and_eq_false_iff]
        by_contra hc
        push Not at hc
        simp at hc
        exact hfar ⟨hc.1, hc.2⟩
      simp only [ne_eq, hs0, not_false_eq_true, decide_true, Bool.true_and, hd, if_false,
        Bool.or_false, Bool.false_eq_true]
      set l := max m1.length ((sh + 63) / 64 + m2.length) + 1 with hl
      have hl1 : m1.length ≤ l := by omega
      have hl2 : m2.length ≤ l := by omega
      rw [RSS_take_eq m2 l sh hl2]
      unfold extendedSlice
      have a2 := val_ext (K := K) m1 l hl1
      obtain ⟨b1, b2⟩ := val_ext_shift (K := K) h2.1 l sh hl2 (by omega)
      set A := List.replicate (l - m1.length) 0 ++ m1 with hA
      set C := shiftRight (List.replicate (l - m2.length) 0 ++ m2) sh with hC
      have hAl : A.length = l := ext_length _ _ hl1
      have hCl : C.length = l := by rw [hC, shiftRight_length, ext_length _ _ hl2]
      have hAw : Wf A := ext_wf h1.1 _
      have hCw : Wf C := shiftRight_wf (ext_wf h2.1 _) _
      obtain ⟨s1, s2, s3, s4⟩ := addLoop_spec hAw hCw (hAl.trans hCl.symm) (Nat.zero_le 1)
      set S := addLoop 0 A C with hS
      have hSl : S.1.length = l := s3.trans hAl
      rw [hAl, add_zero] at s1
      have hXv : ((val A + val C : ℕ) : K) = (frac m1 + frac m2 / 2 ^ sh) * 2 ^ (64 * l) := by
        push_cast; rw [a2, b2]; ring
      have hAlo : 2 ^ (64 * l - 1) ≤ val A := by
        rw [hA, val_zeros_append, B_pow]
        calc 2 ^ (64 * l - 1) = 2 ^ (64 * (l - m1.length)) * 2 ^ (64 * m1.length - 1) := by
              rw [← pow_add]; congr 1; omega
          _ ≤ _ := Nat.mul_le_mul_left _ h1.2.2
      by_cases hc : S.2 > 0
      · rw [if_pos hc]
        have hS2 : S.2 = 1 := by omega
        rw [hS2, mul_one] at s1
        have hSlt := val_lt s4
        rw [hSl] at hSlt
        have hBl : B ^ l = 2 * 2 ^ (64 * l - 1) := by
          rw [B_pow]; exact two_pow_split _ (by omega)
        have hev : ∃ c, val A + val C = 2 * c := by
          rw [b1, hA, val_zeros_append, B_pow]
          refine ⟨2 ^ (64 * (l - m1.length) - 1) * val m1 +
            val m2 * 2 ^ (64 * (l - m2.length) - sh - 1), ?_⟩
          rw [two_pow_split (64 * (l - m1.length)) (by omega),
            two_pow_split (64 * (l - m2.length) - sh) (by omega)]
          ring
        obtain ⟨c, hcc⟩ := hev
        have hT : val (shiftRight S.1 1) = val S.1 / 2 := by rw [val_shiftRight s4]; norm_num
        have hTw := shiftRight_wf s4 1
        have hTl : (shiftRight S.1 1).length = l := by rw [shiftRight_length, hSl]
        set T := shiftRight S.1 1 with hTd
        obtain ⟨g1, g2⟩ := set_top hTw (by omega) (by rw [hTl]; omega)
        have hUl : (T.set (T.length - 1) (wd T (T.length - 1) ||| MSB)).length = l := by
          rw [List.length_set, hTl]
        set U := T.set (T.length - 1) (wd T (T.length - 1) ||| MSB) with hU
        rw [hTl] at g1
        have hUv : 2 * val U = val A + val C := by omega
        have hN : Normd U := ⟨g2, by omega, by rw [hUl]; omega⟩
        have key := MantOk_exact (K := K) hN hp rm pos ix (X := frac m1 + frac m2 / 2 ^ sh)
          (c := (S.2 : ℤ)) (by
            rw [hUl, ← hXv, ← hUv, hS2]; push_cast; ring)
        exact key
      · rw [if_neg hc]
        have hS2 : S.2 = 0 := by omega
        rw [hS2, mul_zero, add_zero] at s1
        have hN : Normd S.1 := ⟨s4, by omega, by rw [hSl]; omega⟩
        have key := MantOk_exact (K := K) hN hp rm pos ix (X := frac m1 + frac m2 / 2 ^ sh)
          (c := (S.2 : ℤ)) (by
            rw [hSl, ← hXv, hS2, s1]; simp)
        exact key

theorem decLoop_zero (m : List Nat) : decLoop 0 m = m := by
  induction m with
  | nil => rfl
  | cons a as ih => simp [decLoop, ih]

theorem decLoop_spec {m : List Nat} (hm : Wf m) (h : 0 < val m) :
    val (decLoop 1 m) + 1 = val m ∧ Wf (decLoop 1 m) ∧ (decLoop 1 m).length = m.length := by
  induction m with
  | nil => simp at h
  | cons a as ih =>
    obtain ⟨ha, has⟩ := wf_cons.1 hm
    unfold decLoop
    simp only [gt_iff_lt, zero_lt_one, if_true]
    by_cases h0 : a = 0
    · rw [if_pos h0]
      subst h0
      have hB := B_pos
      have hv : 0 < val as := by
        rw [val_cons, zero_add] at h
        exact Nat.pos_of_mul_pos_left h
      obtain ⟨i1, i2, i3⟩ := ih has hv
      have hW := WMAX_eq
      refine ⟨?_, Wf.cons (by omega) i2, by simp [i3]⟩
      rw [val_cons, val_cons, ← i1, hW]
      have : B * (val (decLoop 1 as) + 1) = B * val (decLoop 1 as) + B := by ring
      omega
    · rw [if_neg h0, decLoop_zero]
      refine ⟨?_, Wf.cons (by omega) has, rfl⟩
      rw [val_cons, val_cons]; omega

/-- `abs_sub` with a finite target precision, for a strictly larger first operand. -/
theorem absSub_spec {m1 m2 : List Nat} (h1 : Normd m1) (h2 : Normd m2) {p : Nat} (hp : 0 < p)
    (sh : Nat) (rm : RM) (pos ix : Bool) (hgt : (frac m2 / 2 ^ sh : K) < frac m1) :
    MantOk rm pos p (frac m1 - frac m2 / 2 ^ sh : K) ix
      (absSub m1 m2 (64 * p) sh rm pos false ix) := by
  have hf1 := half_le_frac (K := K) h1
  have hf2 := half_le_frac (K := K) h2
  have hf1' := frac_lt_one (K := K) h1.1
  have hf2' := frac_lt_one (K := K) h2.1
  have hL1 := h1.2.1
  have hL2 := h2.2.1
  unfold absSub
  rw [wordLen_mul]
  simp only [Bool.not_false, Bool.and_true]
  unfold extendedSlice
  by_cases hfar : (sh + 62) / 64 > p ∧ (sh + 62) / 64 > m1.length
  · have hd : (decide ((sh + 62) / 64 > p) && decide ((sh + 62) / 64 > m1.length)) = true := by
      simp [hfar.1, hfar.2]
    simp only [hd, if_true, Bool.or_true]
    set l := max m1.length p + 1 with hl
    have hl1 : m1.length ≤ l := by omega
    have hAv := val_ext (K := K) m1 l hl1
    have hAl := ext_length m1 l hl1
    have hAw := ext_wf h1.1 (l - m1.length)
    have hAlo : 2 ^ (64 * l - 1) ≤ val (List.replicate (l - m1.length) 0 ++ m1) := by
      rw [val_zeros_append, B_pow]
      calc 2 ^ (64 * l - 1) = 2 ^ (64 * (l - m1.length)) * 2 ^ (64 * m1.length - 1) := by
            rw [← pow_add]; congr 1; omega
        _ ≤ _ := Nat.mul_le_mul_left _ h1.2.2
    have hAm : ∃ c, val (List.replicate (l - m1.length) 0 ++ m1) = 2 ^ 64 * c := by
      rw [val_zeros_append, B_pow]
      refine ⟨2 ^ (64 * (l - 1 - m1.length)) * val m1, ?_⟩
      rw [← mul_assoc, ← pow_add]; congr 2; omega
    set A := List.replicate (l - m1.length) 0 ++ m1 with hA
    have hAlt := val_lt_two_pow hAw
    rw [hAl] at hAlt
    have hApos : 0 < val A := lt_of_lt_of_le (by positivity) hAlo
    obtain ⟨d1, d2, d3⟩ := decLoop_spec hAw hApos
    set D := decLoop 1 A with hD
    rw [hAl] at d3
    have hp2 := two_pow_split (64 * l) (by omega)
    have hp3 := two_pow_split (64 * l - 1) (by omega)
    have hp4 : 2 ^ 2 ≤ 2 ^ (64 * l - 1 - 1) := Nat.pow_le_pow_right (by norm_num) (by omega)
    have hDne : val D ≠ 0 := by omega
    obtain ⟨x1, x2, x3, x4, x5⟩ := maximize_spec d2 hDne
    rw [d3] at x2 x3 x4
    have hN : Normd (maximize D).1 := ⟨x5, by omega, by rw [x4]; exact x3⟩
    have hsz : Nat.size (val D) = 64 * l ∨ Nat.size (val D) = 64 * l - 1 := by
      have a : Nat.size (val D) ≤ 64 * l := by rw [Nat.size_le]; omega
      have b : 64 * l - 2 < Nat.size (val D) := by
        rw [Nat.lt_size]
        rw [show 64 * l - 2 = 64 * l - 1 - 1 by omega]; omega
      omega
    set s := (maximize D).2 with hs
    have hs01 : s = 0 ∨ s = 1 := by omega
    set M := (maximize D).1 with hM
    obtain ⟨c, hc⟩ := hAm
    have hδpos : (0:K) < frac m2 / 2 ^ sh := by have := frac_pos (K := K) h2; positivity
    have hδ : frac m2 / 2 ^ sh * (2:K) ^ (64 * l) < 2 ^ 62 := by
      have e0 := shifted_lt (K := K) h2 (64 * l - 62) 0 sh (by omega)
      have e1 : (2:K) ^ (64 * l) = 2 ^ (64 * l - 62) * 2 ^ 62 := pow_split (by omega)
      rw [e1, ← mul_assoc]
      calc _ < 1 / 2 ^ 0 * (2:K) ^ 62 := mul_lt_mul_of_pos_right e0 (by positivity)
        _ = _ := by ring
    have hδ0 : (0:K) < frac m2 / 2 ^ sh * (2:K) ^ (64 * l) := mul_pos hδpos (by positivity)
    -- the interval
    set b := val A * 2 ^ s with hb
    have hbm : ∃ c', b = 2 ^ 64 * c' := ⟨c * 2 ^ s, by rw [hb, hc]; ring⟩
    obtain ⟨c', hc'⟩ := hbm
    have hbig : 2 ^ 63 ≤ val A := by
      refine le_trans ?_ hAlo
      exact Nat.pow_le_pow_right (by norm_num) (by omega)
    have hbpos : 0 < c' := by
      by_contra h0
      have : c' = 0 := by omega
      rw [this, mul_zero] at hc'
      have : 0 < b := by rw [hb]; exact Nat.mul_pos hApos (Nat.pow_pos (by norm_num))
      omega
    have hMv : val M = b - 2 ^ s := by
      rw [x1, hb, ← d1, add_mul, one_mul, Nat.add_sub_cancel]
    have hs2 : 2 ^ s ≤ 2 := by rcases hs01 with h | h <;> rw [h] <;> norm_num
    have hs3 : 0 < 2 ^ s := by positivity
    have hsK : (1:K) ≤ 2 ^ s ∧ (2:K) ^ s ≤ 2 := by rcases hs01 with h | h <;> rw [h] <;> norm_num
    have hcs : (2:K) ^ s * 2 ^ (-(s:ℤ)) = 1 := by
      rw [← zpow_natCast, two_zpow_mul]; simp
    have hcspos := two_zpow_pos (K := K) (-(s:ℤ))
    have hXe : (frac m1 - frac m2 / 2 ^ sh) * (2:K) ^ (64 * l) =
        (b - frac m2 / 2 ^ sh * 2 ^ (64 * l) * 2 ^ s) * 2 ^ (-(s:ℤ)) := by
      rw [sub_mul, sub_mul, mul_assoc (_ * _) ((2:K) ^ s), hcs, mul_one, hb]
      push_cast
      rw [mul_assoc _ ((2:K) ^ s), hcs, mul_one, hAv]
    have key := MantOk_sticky (K := K) hN hp (by rw [x4]; omega) rm pos ix
      (X := frac m1 - frac m2 / 2 ^ sh) (c := -(s:ℤ)) (a := b - 2 ^ 63) (b := b)
      (by rw [hMv]; omega) (by rw [hMv]; omega)
      (by
        rw [x4, hXe]
        apply mul_lt_mul_of_pos_right _ hcspos
        rw [Nat.cast_sub (by omega)]
        push_cast
        have : frac m2 / 2 ^ sh * (2:K) ^ (64 * l) * 2 ^ s < 2 ^ 62 * 2 := by
          exact lt_of_le_of_lt (mul_le_mul_of_nonneg_left hsK.2 hδ0.le)
            (mul_lt_mul_of_pos_right hδ (by norm_num))
        have e63 : (9223372036854775808:K) = 2 ^ 62 * 2 := by norm_num
        rw [e63]
        exact sub_lt_sub_left this _)
      (by
        rw [x4, hXe]
        apply mul_lt_mul_of_pos_right _ hcspos
        exact sub_lt_self _ (mul_pos hδ0 (by linarith [hsK.1])))
      (by
        rw [x4]
        have hd : ∃ d, 64 * (l - p) - 1 = 63 + 64 * d := ⟨l - p - 1, by omega⟩
        obtain ⟨d, hd⟩ := hd
        rw [hd]
        -- b = 2^63 (2c'), a = 2^63 (2c'-1)
        have hb2 : b = 2 ^ 63 * (2 * c') := by rw [hc']; ring
        have ha2 : b - 2 ^ 63 = 2 ^ 63 * (2 * c' - 1) := by
          rw [hb2, Nat.mul_sub, mul_one]
        rw [ha2, pow_add, Nat.mul_div_mul_left _ _ (by positivity), hb2]
        have hlt : 2 * c' - 1 < ((2 * c' - 1) / 2 ^ (64 * d) + 1) * 2 ^ (64 * d) := by
          have h1 := Nat.div_add_mod (2 * c' - 1) (2 ^ (64 * d))
          have h2 := Nat.mod_lt (2 * c' - 1) (show 0 < 2 ^ (64 * d) by positivity)
          have h3 := mul_comm ((2 * c' - 1) / 2 ^ (64 * d)) (2 ^ (64 * d))
          rw [add_mul, one_mul]
          omega
        calc 2 ^ 63 * (2 * c') ≤ 2 ^ 63 * (((2 * c' - 1) / 2 ^ (64 * d) + 1) * 2 ^ (64 * d)) :=
              Nat.mul_le_mul_left _ (by omega)
          _ = _ := by ring)
    rw [neg_neg] at key
    exact key
  · have hd : (decide ((sh + 62) / 64 > p) && decide ((sh + 62) / 64 > m1.length)) = false := by
      rw [Bool.and_eq_false_iff]
      by_contra hc
      push Not at hc
      simp at hc
      exact hfar ⟨hc.1, hc.2⟩
    simp only [hd, Bool.false_eq_true, if_false, Bool.or_false]
    set l := max m1.length ((sh + 63) / 64 + m2.length) with hl
    have hl1 : m1.length ≤ l := by omega
    have hl2 : m2.length ≤ l := by omega
    rw [RSS_take_eq m2 l sh hl2]
    have a2 := val_ext (K := K) m1 l hl1
    obtain ⟨b1, b2⟩ := val_ext_shift (K := K) h2.1 l sh hl2 (by omega)
    set A := List.replicate (l - m1.length) 0 ++ m1 with hA
    set C := shiftRight (List.replicate (l - m2.length) 0 ++ m2) sh with hC
    have hAl : A.length = l := ext_length _ _ hl1
    have hCl : C.length = l := by rw [hC, shiftRight_length, ext_length _ _ hl2]
    have hAw : Wf A := ext_wf h1.1 _
    have hCw : Wf C := shiftRight_wf (ext_wf h2.1 _) _
    have hpow : (0:K) < 2 ^ (64 * l) := by positivity
    have hlt : val C < val A := by
      have : (val C : K) < val A := by rw [a2, b2]; exact mul_lt_mul_of_pos_right hgt hpow
      exact_mod_cast this
    obtain ⟨s1, s2, s3, s4⟩ := subLoop_spec hAw hCw (hAl.trans hCl.symm) (Nat.zero_le 1)
    obtain ⟨t1, t2⟩ := subLoop_exact hAw hCw (hAl.trans hCl.symm) hlt.le
    set S := subLoop 0 A C with hS
    have hSl : S.1.length = l := s3.trans hAl
    have hXv : (val S.1 : K) = (frac m1 - frac m2 / 2 ^ sh) * 2 ^ (64 * l) := by
      rw [t1, Nat.cast_sub hlt.le, a2, b2]; ring
    obtain ⟨x1, x2, x3, x4, x5⟩ := maximize_spec s4 (show val S.1 ≠ 0 by omega)
    rw [hSl] at x3 x4
    have hN : Normd (maximize S.1).1 := ⟨x5, by omega, by rw [x4]; exact x3⟩
    have key := MantOk_exact (K := K) hN hp rm pos ix (X := frac m1 - frac m2 / 2 ^ sh)
      (c := -((maximize S.1).2 : ℤ)) (by
        rw [x4, ← hXv, x1]; push_cast
        rw [mul_assoc, ← zpow_natCast, two_zpow_mul]; simp)
    rw [neg_neg] at key
    exact key

end AF
