import Verif.Lemmas.Radix
import Verif.Lemmas.Finish
import Verif.Lemmas.Mono
/-!
# From digits in radix 2, 8 and 16
-/

namespace AF

set_option linter.unusedSectionVars false

variable {K : Type*} [Field K] [LinearOrder K] [IsStrictOrderedRing K]

/-! ## Binary -/

theorem binLoop_spec (ds : List Nat) : ∀ (shift d : Nat), shift < 64 → d < 2 ^ shift → (∀ v ∈ ds, v < 2) →
    ∃ ws, binLoop ds shift d = .ok ws ∧ Wf ws ∧ val ws = d + 2 ^ shift * digNat 2 ds.reverse ∧
      ws.length = (shift + ds.length + 63) / 64 := by
  induction ds with
  | nil =>
    intro shift d hs hd _
    by_cases h : shift > 0
    · refine ⟨[d], by simp [binLoop, h], ?_, by simp, by simp; omega⟩
      have : d < B := lt_trans hd (by rw [B_eq]; exact Nat.pow_lt_pow_right (by norm_num) hs)
      exact Wf.cons this Wf.nil
    · have h0 : shift = 0 := by omega
      subst h0
      have : d = 0 := by simpa using hd
      exact ⟨[], by simp [binLoop], Wf.nil, by simp [this], by simp⟩
  | cons v vs ih =>
    intro shift d hs hd hv
    have hv0 : v < 2 := hv v (List.mem_cons_self ..)
    have hvs : ∀ w ∈ vs, w < 2 := fun w hw => hv w (List.mem_cons_of_mem _ hw)
    have hsh : (v <<< shift) % B = v * 2 ^ shift := by
      rw [Nat.shiftLeft_eq, Nat.mod_eq_of_lt]
      rw [B_eq]
      calc v * 2 ^ shift ≤ 1 * 2 ^ shift := Nat.mul_le_mul_right _ (by omega)
        _ < 2 ^ 64 := by rw [Nat.one_mul]; exact Nat.pow_lt_pow_right (by norm_num) hs
    have hor : d ||| ((v <<< shift) % B) = d + v * 2 ^ shift := by
      rw [hsh, Nat.or_comm, or_eq_add (s := shift) (by simp) hd, Nat.add_comm]
    have hlt : d + v * 2 ^ shift < 2 ^ (shift + 1) := by
      have : v * 2 ^ shift ≤ 1 * 2 ^ shift := Nat.mul_le_mul_right _ (by omega)
      rw [pow_succ]; omega
    have hdig : digNat 2 (v :: vs).reverse = digNat 2 vs.reverse * 2 + v := by
      rw [List.reverse_cons, digNat_snoc]
    simp only [binLoop, hor, hdig]
    rw [if_neg (by omega)]
    by_cases h : shift + 1 = 64
    · rw [if_pos h]
      obtain ⟨ws, h1, h2, h3, h4⟩ := ih 0 0 (by omega) (by simp) hvs
      rw [h1]
      refine ⟨_, rfl, ?_, ?_, ?_⟩
      · apply Wf.cons _ h2
        rw [B_eq, ← h]; exact hlt
      · rw [val_cons, h3, B_eq, ← h, pow_succ]; ring
      · simp only [List.length_cons, h4]; omega
    · rw [if_neg h]
      obtain ⟨ws, h1, h2, h3, h4⟩ := ih (shift + 1) (d + v * 2 ^ shift) (by omega) hlt hvs
      refine ⟨ws, h1, h2, ?_, ?_⟩
      · rw [h3, pow_succ]; ring
      · simp only [List.length_cons, h4]; omega

theorem binLoop_bad (ds : List Nat) : ∀ (shift d : Nat), (∃ v ∈ ds, ¬ v < 2) →
    binLoop ds shift d = .error .invalidArgument := by
  induction ds with
  | nil => simp
  | cons v vs ih =>
    intro shift d h
    simp only [binLoop]
    by_cases hv : v > 1
    · rw [if_pos hv]
    · rw [if_neg hv]
      have : ∃ w ∈ vs, ¬ w < 2 := by
        obtain ⟨w, hw, hw2⟩ := h
        rcases List.mem_cons.1 hw with rfl | hw
        · omega
        · exact ⟨w, hw, hw2⟩
      split
      · rw [ih 0 0 this]
      · exact ih _ _ this

/-- The number read from binary digits, before rounding. -/
theorem convFromBinary_num {s : Sign} {digits : List Nat} {e : Int} {p : Nat} {rm : RM}
    (hne : digits ≠ []) (hlen : roundP digits.length < PMAX) (hd : ∀ v ∈ digits, v < 2) :
    ∃ x : Num, x.s = s ∧ x.e = e ∧ x.inexact = false ∧ Wf x.m.m ∧ x.m.n = Nat.size (val x.m.m) ∧
      x.m.m.length = wordLen digits.length ∧
      val x.m.m = digNat 2 digits * 2 ^ (64 * wordLen digits.length - digits.length) ∧
      Num.convFromBinary s digits e p rm =
        (if p < USIZE_MAX then x.setPrecision p rm
         else
          let shift := x.m.maxBitLen - x.m.n
          if shift > 0 ∧ e > EMIN then
            let es := (e - EMIN).toNat
            if es ≥ shift then
              .ok (Num.mk (e - (shift : Int)) s ⟨(maximize x.m.m).1, x.m.maxBitLen⟩ false)
            else .ok (Num.mk EMIN s ⟨shiftLeft x.m.m es, x.m.n + es⟩ false)
          else .ok x) := by
  have hl0 : 0 < digits.length := List.length_pos_iff.2 hne
  set sh := (if digits.length % 64 ≠ 0 then 64 - digits.length % 64 else digits.length % 64) with hsh
  have hsh1 : sh < 64 ∧ sh + digits.length = 64 * wordLen digits.length := by
    unfold wordLen
    rw [hsh]; split <;> omega
  obtain ⟨ws, h1, h2, h3, h4⟩ := binLoop_spec digits.reverse sh 0 hsh1.1 (by positivity)
    (fun v hv => hd v (List.mem_reverse.1 hv))
  rw [List.reverse_reverse] at h3
  rw [List.length_reverse] at h4
  have hwl : ws.length = wordLen digits.length := by omega
  have hfill : fillUp ws (wordLen digits.length) = .ok ws := by
    unfold fillUp
    rw [if_neg (by omega), hwl]; simp
  refine ⟨Num.mk e s (⟨ws, findBitLen ws⟩ : Mantissa) false, rfl, rfl, rfl, h2, findBitLen_eq h2, hwl, ?_, ?_⟩
  · simp only [h3]
    rw [show 64 * wordLen digits.length - digits.length = sh by omega]; ring
  · unfold Num.convFromBinary
    have : digits.isEmpty = false := by simpa [List.isEmpty_eq_false_iff] using hne
    rw [this, if_neg (by simp), if_neg (by omega)]
    simp only [← hsh, h1, hfill, Mantissa.updateBitLen]
    rfl

theorem radix_num_val {x : Num} {s : Sign} {b : Nat} {digits : List Nat} {e : Int} {N L : Nat}
    (hs : x.s = s) (hL : x.m.m.length = L) (hv : (val x.m.m : K) * 2 ^ (x.e - (64 * L : ℕ)) =
      (digNat b digits : K) * (b : K) ^ (e - digits.length)) :
    (x.toK : K) = radixVal b (s, digits, e) := by
  unfold Num.toK radixVal
  simp only
  rw [hs, hL, mul_assoc, hv, mul_assoc]

/-- The value read by `conv_from_binary`, before rounding. -/
theorem bin_val {x : Num} {s : Sign} {digits : List Nat} {e : Int}
    (hs : x.s = s) (he : x.e = e) (hL : x.m.m.length = wordLen digits.length)
    (hv : val x.m.m = digNat 2 digits * 2 ^ (64 * wordLen digits.length - digits.length)) :
    (x.toK : K) = radixVal 2 (s, digits, e) := by
  apply radix_num_val (N := 0) hs hL
  rw [hv, he, Nat.cast_mul, Nat.cast_pow, Nat.cast_ofNat, mul_assoc, ← zpow_natCast, ← two_zpow_add]
  congr 2
  have : digits.length ≤ 64 * wordLen digits.length := by unfold wordLen; omega
  push_cast [this]; ring

/-! ## Radix 8 and 16 -/

theorem firstShift_spec {s v : Nat} (hs : s = 3 ∨ s = 4) (h0 : 0 < v) (hv : v < 2 ^ s) :
    firstShift (1 <<< (s - 1)) 8 v < s ∧ v < 2 ^ (s - firstShift (1 <<< (s - 1)) 8 v) ∧
      2 ^ (s - firstShift (1 <<< (s - 1)) 8 v - 1) ≤ v := by
  rcases hs with rfl | rfl
  · have : v < 8 := by simpa using hv
    interval_cases v <;> decide
  · have : v < 16 := by simpa using hv
    interval_cases v <;> decide

theorem comScan_spec {s : Nat} (hs : s = 3 ∨ s = 4) (digits : List Nat) :
    (∃ z f, comScan s digits = .ok (z, f) ∧ z ≤ digits.length ∧
      (∀ v ∈ digits.take z, v = 0) ∧
      (z = digits.length ∨ ∃ v vs, digits.drop z = v :: vs ∧ 0 < v ∧ v < 2 ^ s ∧
        f < s ∧ v < 2 ^ (s - f) ∧ 2 ^ (s - f - 1) ≤ v)) ∨
    (comScan s digits = .error .invalidArgument ∧ ∃ v ∈ digits, ¬ v < 2 ^ s) := by
  induction digits with
  | nil => left; exact ⟨0, 0, rfl, by simp, by simp, Or.inl rfl⟩
  | cons v vs ih =>
    simp only [comScan]
    by_cases h0 : v = 0
    · rw [if_pos h0]
      rcases ih with ⟨z, f, h1, h2, h3, h4⟩ | ⟨h1, w, hw, hw2⟩
      · left
        rw [h1]
        refine ⟨z + 1, f, rfl, by simpa using h2, ?_, ?_⟩
        · intro w hw
          rw [List.take_succ_cons] at hw
          rcases List.mem_cons.1 hw with rfl | hw
          · exact h0
          · exact h3 w hw
        · rcases h4 with h4 | h4
          · left; simp [h4]
          · right; simpa using h4
      · right
        rw [h1]
        exact ⟨rfl, w, List.mem_cons_of_mem _ hw, hw2⟩
    · rw [if_neg h0]
      by_cases hv : v ≥ 1 <<< s
      · right
        rw [if_pos hv]
        refine ⟨rfl, v, List.mem_cons_self .., ?_⟩
        rw [Nat.shiftLeft_eq, Nat.one_mul] at hv; omega
      · left
        rw [if_neg hv]
        rw [Nat.shiftLeft_eq, Nat.one_mul] at hv
        obtain ⟨f1, f2, f3⟩ := firstShift_spec hs (by omega : 0 < v) (by omega)
        exact ⟨0, _, rfl, by simp, by simp, Or.inr ⟨v, vs, rfl, by omega, by omega, f1, f2, f3⟩⟩

/-- The value of words given most significant first, in a buffer of `k` words. -/
def bufVal (ws : List Nat) (k : Nat) : Nat := val (ws ++ List.replicate (k - ws.length) 0).reverse

theorem bufVal_cons {w : Nat} {ws : List Nat} {k : Nat} (h : ws.length ≤ k) :
    bufVal (w :: ws) (k + 1) = w * B ^ k + bufVal ws k := by
  unfold bufVal
  rw [List.cons_append, List.reverse_cons, val_append]
  simp only [List.length_cons, List.length_reverse, List.length_append, List.length_replicate,
    Nat.add_sub_add_right, show ws.length + (k - ws.length) = k by omega, val_cons, val_nil]
  ring

theorem bufVal_nil (k : Nat) : bufVal [] k = 0 := by unfold bufVal; simp

theorem comFill_spec {s : Nat} (hs : 0 < s) (hs2 : s ≤ 32) (vs : List Nat) : ∀ (k filled d : Nat),
    (∀ v ∈ vs, v < 2 ^ s) → 0 < filled → filled ≤ 64 + s →
    (s ≤ filled ∨ (d = 0 ∧ ∀ v, vs.head? = some v → v < 2 ^ filled)) →
    d < B → d % 2 ^ (64 + s - filled) = 0 → 0 < k → filled + s * vs.length ≤ 64 * k + s →
    ∃ ws, comFill s vs k filled d = .ok ws ∧ Wf ws ∧ ws.length ≤ k ∧
      bufVal ws k = d * B ^ (k - 1) + digNat (2 ^ s) vs * 2 ^ (64 * k + s - (filled + s * vs.length)) := by
  induction vs with
  | nil =>
    intro k filled d _ _ _ _ hd _ hk _
    by_cases h : d > 0
    · refine ⟨[d], by simp [comFill, h, hk], Wf.cons hd Wf.nil, by simp only [List.length_singleton]; omega, ?_⟩
      obtain ⟨k, rfl⟩ : ∃ k', k = k' + 1 := ⟨k - 1, by omega⟩
      rw [bufVal_cons (by simp), bufVal_nil]; simp
    · refine ⟨[], by simp [comFill, h], Wf.nil, by simp, ?_⟩
      have : d = 0 := by omega
      rw [bufVal_nil]; simp [this]
  | cons v vs ih =>
    intro k filled d hv hf0 hf hfs hd hal hk hT
    have hv0 : v < 2 ^ s := hv v (List.mem_cons_self ..)
    have hvs : ∀ w ∈ vs, w < 2 ^ s := fun w hw => hv w (List.mem_cons_of_mem _ hw)
    simp only [List.length_cons, Nat.mul_add, Nat.mul_one] at hT
    simp only [comFill]
    rw [if_neg (by rw [Nat.shiftLeft_eq, Nat.one_mul]; omega)]
    by_cases hc : filled ≤ 64
    · rw [if_pos hc]
      have hvB : v * 2 ^ (64 - filled) < 2 ^ (min (64 + s - filled) 64) := by
        rcases hfs with h | ⟨_, h⟩
        · rw [min_eq_left (by omega)]
          calc v * 2 ^ (64 - filled) < 2 ^ s * 2 ^ (64 - filled) := Nat.mul_lt_mul_of_pos_right hv0 (by positivity)
            _ = _ := by rw [← pow_add]; congr 1; omega
        · by_cases h' : s ≤ filled
          · rw [min_eq_left (by omega)]
            calc v * 2 ^ (64 - filled) < 2 ^ s * 2 ^ (64 - filled) := Nat.mul_lt_mul_of_pos_right hv0 (by positivity)
              _ = _ := by rw [← pow_add]; congr 1; omega
          · rw [min_eq_right (by omega)]
            calc v * 2 ^ (64 - filled) < 2 ^ filled * 2 ^ (64 - filled) :=
                  Nat.mul_lt_mul_of_pos_right (h v rfl) (by positivity)
              _ = _ := by rw [← pow_add]; congr 1; omega
      have hvB1 : v * 2 ^ (64 - filled) < 2 ^ 64 :=
        lt_of_lt_of_le hvB (Nat.pow_le_pow_right (by norm_num) (min_le_right _ _))
      have hvB2 : v * 2 ^ (64 - filled) < 2 ^ (64 + s - filled) :=
        lt_of_lt_of_le hvB (Nat.pow_le_pow_right (by norm_num) (min_le_left _ _))
      have hsh : (v <<< (64 - filled)) % B = v * 2 ^ (64 - filled) := by
        rw [Nat.shiftLeft_eq, Nat.mod_eq_of_lt]; rw [B_eq]; exact hvB1
      have hor : d ||| ((v <<< (64 - filled)) % B) = d + v * 2 ^ (64 - filled) := by
        rw [hsh, or_eq_add hal hvB2]
      have hdB : d + v * 2 ^ (64 - filled) < B := by
        rw [← hor]; exact or_lt_B hd (by rw [hsh, B_eq]; exact hvB1)
      rw [hor]
      obtain ⟨ws, h1, h2, h3, h4⟩ := ih k (filled + s) (d + v * 2 ^ (64 - filled)) hvs (by omega) (by omega)
        (Or.inl (by omega)) hdB (by
          rw [show 64 + s - (filled + s) = 64 - filled by omega]
          have : d % 2 ^ (64 - filled) = 0 := by
            have e : 2 ^ (64 + s - filled) = 2 ^ (64 - filled) * 2 ^ s := by rw [← pow_add]; congr 1; omega
            rw [e] at hal
            have := Nat.mod_mul_right_mod d (2 ^ (64 - filled)) (2 ^ s)
            rw [hal] at this; simpa using this.symm
          rw [Nat.add_mod, this]; simp) hk (by omega)
      refine ⟨ws, h1, h2, h3, ?_⟩
      rw [h4, digNat_cons, Nat.add_mul, ← pow_mul, Nat.add_mul, Nat.add_assoc]
      congr 1
      simp only [List.length_cons, Nat.mul_add, Nat.mul_one]
      rw [show 64 * k + s - (filled + s + s * vs.length) = 64 * k + s - (filled + (s * vs.length + s)) by omega]
      congr 1
      rw [B_pow, Nat.mul_assoc, Nat.mul_assoc, ← pow_add, ← pow_add]
      congr 2; omega
    · rw [if_neg hc]
      obtain ⟨k, rfl⟩ : ∃ k', k = k' + 2 := ⟨k - 2, by omega⟩
      simp only
      rw [if_pos (show filled - 64 > 0 by omega)]
      set f := filled - 64 with hf'
      have hfs' : s ≤ filled := by omega
      have hsh : (v <<< (64 - f)) % B = v % 2 ^ f * 2 ^ (64 - f) := by
        rw [shl_mod _ _ (by omega), show 64 - (64 - f) = f by omega]
      have hvf : v >>> f < 2 ^ (s - f) := by
        rw [Nat.shiftRight_eq_div_pow, Nat.div_lt_iff_lt_mul (by positivity), ← pow_add,
          show s - f + f = s by omega]
        exact hv0
      have hor : d ||| (v >>> f) = d + v / 2 ^ f := by
        rw [or_eq_add (s := s - f) (by rw [show s - f = 64 + s - filled by omega]; exact hal) hvf,
          Nat.shiftRight_eq_div_pow]
      have hworB : d ||| (v >>> f) < B := by
        apply or_lt_B hd
        rw [B_eq]
        exact lt_of_lt_of_le hvf (Nat.pow_le_pow_right (by norm_num) (by omega))
      rw [hsh]
      obtain ⟨ws, h1, h2, h3, h4⟩ := ih (k + 1) (f + s) (v % 2 ^ f * 2 ^ (64 - f)) hvs (by omega) (by omega)
        (Or.inl (by omega)) (by rw [← hsh]; exact Nat.mod_lt _ B_pos) (by
          rw [show 64 + s - (f + s) = 64 - f by omega]; simp) (by omega) (by omega)
      rw [h1]
      refine ⟨_, rfl, Wf.cons hworB h2, by simp only [List.length_cons]; omega, ?_⟩
      rw [bufVal_cons h3, h4, hor, digNat_cons, ← pow_mul]
      simp only [List.length_cons, Nat.mul_add, Nat.mul_one, Nat.add_sub_cancel]
      rw [show k + 2 - 1 = k + 1 by omega,
        show 64 * k + 64 + s - (f + s + s * vs.length) = 64 * k + 64 * 2 + s - (filled + (s * vs.length + s)) by omega]
      set T := 64 * k + 64 * 2 + s - (filled + (s * vs.length + s))
      have e1 : v * 2 ^ (s * vs.length) * 2 ^ T = v / 2 ^ f * B ^ (k + 1) + v % 2 ^ f * 2 ^ (64 - f) * B ^ k := by
        have hdm := Nat.div_add_mod v (2 ^ f)
        have e2 : 2 ^ (s * vs.length) * 2 ^ T = 2 ^ (64 - f) * B ^ k := by
          rw [B_pow, ← pow_add, ← pow_add]; congr 1; omega
        have e3 : B ^ (k + 1) = 2 ^ f * 2 ^ (64 - f) * B ^ k := by
          rw [pow_succ, B_eq, ← pow_add, show f + (64 - f) = 64 by omega]; ring
        rw [Nat.mul_assoc, e2, e3]
        conv_lhs => rw [← hdm]
        ring
      rw [Nat.add_mul (v * 2 ^ (s * vs.length)), e1]
      ring

theorem comFill_bad {s : Nat} (vs : List Nat) : ∀ (k filled d : Nat),
    (∃ v ∈ vs, ¬ v < 2 ^ s) → 0 < k → filled + s * vs.length ≤ 64 * k + s →
    comFill s vs k filled d = .error .invalidArgument := by
  induction vs with
  | nil => simp
  | cons v vs ih =>
    intro k filled d h hk hT
    simp only [List.length_cons, Nat.mul_add, Nat.mul_one] at hT
    simp only [comFill]
    by_cases hv : v ≥ 1 <<< s
    · rw [if_pos hv]
    · rw [if_neg hv]
      rw [Nat.shiftLeft_eq, Nat.one_mul] at hv
      have hvs : ∃ w ∈ vs, ¬ w < 2 ^ s := by
        obtain ⟨w, hw, hw2⟩ := h
        rcases List.mem_cons.1 hw with rfl | hw
        · omega
        · exact ⟨w, hw, hw2⟩
      by_cases hc : filled ≤ 64
      · rw [if_pos hc]
        exact ih _ _ _ hvs hk (by omega)
      · rw [if_neg hc]
        obtain ⟨k, rfl⟩ : ∃ k', k = k' + 2 := ⟨k - 2, by omega⟩
        simp only
        rw [ih (k + 1) _ _ hvs (by omega) (by omega)]

end AF
