import Verif.Lemmas.Val
/-!
# Lemmas about the word loops: `find_one_from`, `RightShiftedSlice`, carries, truncation
-/

namespace AF

theorem size_add_mul {a k w : Nat} (ha : a < 2 ^ k) (hw : w ≠ 0) :
    Nat.size (a + 2 ^ k * w) = k + Nat.size w := by
  have hw0 : 0 < Nat.size w := Nat.size_pos.2 (Nat.pos_of_ne_zero hw)
  apply le_antisymm
  · rw [Nat.size_le, pow_add]
    have : w < 2 ^ Nat.size w := Nat.lt_size_self _
    calc a + 2 ^ k * w < 2 ^ k + 2 ^ k * w := by omega
      _ = 2 ^ k * (w + 1) := by ring
      _ ≤ _ := Nat.mul_le_mul_left _ this
  · have : k + (Nat.size w - 1) < Nat.size (a + 2 ^ k * w) := by
      rw [Nat.lt_size, pow_add]
      have : 2 ^ (Nat.size w - 1) ≤ w := by rw [← Nat.lt_size]; omega
      calc 2 ^ k * 2 ^ (Nat.size w - 1) ≤ 2 ^ k * w := Nat.mul_le_mul_left _ this
        _ ≤ _ := by omega
    omega

theorem size_mul_two_pow {w : Nat} (hw : w ≠ 0) (k : Nat) : Nat.size (w * 2 ^ k) = Nat.size w + k := by
  have := size_add_mul (a := 0) (k := k) (by positivity) hw
  rw [zero_add, mul_comm] at this
  rw [this, add_comm]

/-! ## `find_one_from` -/

theorem findOneLoop_eq (shift : Nat) (l : List Nat) :
    findOneLoop shift l =
      if (topScan l).1 ≠ 0 then some (shift + ((topScan l).2 + lz (topScan l).1)) else none := by
  induction l generalizing shift with
  | nil => simp [findOneLoop, topScan]
  | cons v vs ih =>
    unfold findOneLoop topScan
    split
    · simp
    · rename_i h
      rw [ih]
      split
      · congr 1; dsimp only; ring
      · rfl

theorem findOneFrom_spec {m : List Nat} (hm : Wf m) {start : Nat} (hs : start < 64 * m.length) :
    findOneFrom m start =
      if val m % 2 ^ (64 * m.length - start) = 0 then none
      else some (64 * m.length - Nat.size (val m % 2 ^ (64 * m.length - start))) := by
  set idx := start / 64 with hidx
  set sb := start % 64 with hsb
  have hstart : start = 64 * idx + sb := by omega
  have hsb64 : sb < 64 := by omega
  have hil : idx < m.length := by omega
  obtain ⟨lo, v, hlo⟩ : ∃ lo v, m.take (m.length - idx) = lo ++ [v] := by
    have hne : m.take (m.length - idx) ≠ [] := by
      intro h
      have := congrArg List.length h
      simp only [List.length_take, List.length_nil] at this
      omega
    exact ⟨_, _, (List.dropLast_append_getLast hne).symm⟩
  have hwt := hm.take (m.length - idx)
  rw [hlo] at hwt
  obtain ⟨hwlo, hwv⟩ := wf_append.1 hwt
  have hv : v < B := hwv v (by simp)
  have hlen : lo.length + 1 = m.length - idx := by
    have := congrArg List.length hlo
    simp only [List.length_take, List.length_append, List.length_cons, List.length_nil] at this
    omega
  have hrev : m.reverse.drop idx = v :: lo.reverse := by
    have h1 : m.reverse.drop idx = (m.take (m.length - idx)).reverse := by
      rw [List.drop_reverse]
    rw [h1, hlo]; simp
  have hmod : val m % 2 ^ (64 * m.length - start) =
      val lo + 2 ^ (64 * lo.length) * (v % 2 ^ (64 - sb)) := by
    have h1 : val m % B ^ (m.length - idx) = val lo + B ^ lo.length * v := by
      rw [← val_take hm, hlo, val_append]; simp
    have h2 : (2:Nat) ^ (64 * m.length - start) ∣ B ^ (m.length - idx) := by
      rw [B_pow]; apply pow_dvd_pow; omega
    rw [← Nat.mod_mod_of_dvd _ h2, h1, B_pow,
      show 64 * m.length - start = 64 * lo.length + (64 - sb) by omega, pow_add]
    have hlt := val_lt_two_pow hwlo
    rw [Nat.mod_mul, Nat.add_mul_mod_self_left, Nat.mod_eq_of_lt hlt,
      Nat.add_mul_div_left _ _ (by positivity), Nat.div_eq_of_lt hlt, zero_add]
  have hltlo := val_lt_two_pow hwlo
  unfold findOneFrom
  dsimp only
  rw [if_neg (by omega), ← hidx, ← hsb, hrev]
  dsimp only
  rw [hmod, shl_mod v sb (by omega)]
  by_cases hw : v % 2 ^ (64 - sb) = 0
  · rw [hw]
    simp only [zero_mul, ne_eq, not_true_eq_false, if_false, mul_zero, add_zero]
    rw [findOneLoop_eq]
    by_cases hz : val lo = 0
    · rw [if_pos hz, if_neg (by simp [val_reverse_zero_iff.2 hz])]
    · obtain ⟨h1, h2, h3, h4⟩ := topScan_spec hwlo hz
      rw [if_pos h1, if_neg hz, h2]
      congr 1; omega
  · have hne : v % 2 ^ (64 - sb) * 2 ^ sb ≠ 0 := by positivity
    have hdB : v % 2 ^ (64 - sb) * 2 ^ sb < B := by rw [← shl_mod v sb (by omega)]; exact shl_mod_lt _ _
    have hs1 := size_word (Nat.pos_of_ne_zero hne) hdB
    have hs2 := lz_le (Nat.pos_of_ne_zero hne) hdB
    rw [size_mul_two_pow hw] at hs1
    rw [if_pos hne, if_neg (by positivity), size_add_mul hltlo hw]
    congr 1; omega

theorem findOneFrom_ge {m : List Nat} {start : Nat} (hs : 64 * m.length ≤ start) :
    findOneFrom m start = none := by
  unfold findOneFrom; dsimp only; rw [if_pos (by omega)]

theorem findOneFrom_none {m : List Nat} (hm : Wf m) (start : Nat) :
    findOneFrom m start = none ↔ val m % 2 ^ (64 * m.length - start) = 0 := by
  by_cases hs : start < 64 * m.length
  · rw [findOneFrom_spec hm hs]; split <;> simp_all
  · rw [findOneFrom_ge (by omega), show 64 * m.length - start = 0 by omega]; simp [Nat.mod_one]

/-! ## `RightShiftedSlice` -/

/-- The list of words an iterator state still stands for, before shifting. -/
def RSS.words (r : RSS) : List Nat := List.replicate r.ext 0 ++ (r.prev.toList ++ r.s)

/-- What the iterator emits: the words shifted right by `bits`. -/
def shrOpt (bits : Nat) (m : List Nat) : List Nat := if bits = 0 then m else shrBits bits m

theorem shrOpt_cons_cons (bits x y : Nat) (ys : List Nat) :
    shrOpt bits (x :: y :: ys) =
      (if bits = 0 then x else ((x >>> bits) ||| ((y <<< (64 - bits)) % B))) :: shrOpt bits (y :: ys) := by
  unfold shrOpt; split <;> simp [shrBits]

theorem shrOpt_single (bits x : Nat) : shrOpt bits [x] = [if bits = 0 then x else x >>> bits] := by
  unfold shrOpt; split <;> simp [shrBits]

theorem RSS.take_none (k : Nat) (r : RSS) (hd : r.default = 0) (he : r.ext = 0) (hp : r.prev = none) :
    RSS.take k r = List.replicate k 0 := by
  induction k with
  | zero => rfl
  | succ k ih =>
    have : r.next = (0, r) := by unfold RSS.next; simp [he, hp, hd]
    rw [RSS.take, this]; simp [List.replicate_succ, ih]

theorem RSS.take_spec (n k : Nat) (r : RSS) (hn : r.words.length = n) (hd : r.default = 0)
    (hp : r.prev = none → r.s = []) :
    RSS.take (n + k) r = shrOpt r.bits r.words ++ List.replicate k 0 := by
  induction n generalizing r with
  | zero =>
    have h0 : r.words = [] := List.length_eq_zero_iff.1 hn
    have he : r.ext = 0 := by
      simp only [RSS.words, List.append_eq_nil_iff, List.replicate_eq_nil_iff] at h0; exact h0.1
    have hpn : r.prev = none := by
      simp only [RSS.words, List.append_eq_nil_iff] at h0
      cases hh : r.prev with
      | none => rfl
      | some x => simp [hh] at h0
    rw [zero_add, RSS.take_none k r hd he hpn, h0]
    unfold shrOpt; split <;> simp [shrBits]
  | succ n ih =>
    have hstep : ∃ w r', r.next = (w, r') ∧ r'.default = 0 ∧ (r'.prev = none → r'.s = []) ∧
        r'.words.length = n ∧ r'.bits = r.bits ∧
        shrOpt r.bits r.words = w :: shrOpt r.bits r'.words := by
      obtain ⟨s, bits, prev, default, ext⟩ := r
      simp only at hd hp
      subst hd
      have h0 : shrOpt bits [] = [] := by unfold shrOpt; split <;> simp [shrBits]
      unfold RSS.next
      cases ext with
      | succ e =>
        have hw : ∀ s prev, (RSS.mk s bits prev 0 (e + 1)).words =
            0 :: (RSS.mk s bits prev 0 e).words := by
          intro s prev; simp [RSS.words, List.replicate_succ]
        rw [if_pos (by simp)]
        dsimp only
        rw [hw] at hn ⊢
        have hl := Nat.succ.inj hn
        by_cases hb : e + 1 - 1 = 0 ∧ bits > 0
        · rw [if_pos hb]
          have he : e = 0 := by omega
          subst he
          cases prev with
          | none =>
            have hs := hp rfl
            subst hs
            refine ⟨_, _, rfl, rfl, fun _ => rfl, hl, rfl, ?_⟩
            simp [RSS.words, shrOpt_single, h0]
          | some hi =>
            refine ⟨_, _, rfl, rfl, by simp, hl, rfl, ?_⟩
            simp [RSS.words, shrOpt_cons_cons]; omega
        · rw [if_neg hb]
          refine ⟨_, _, rfl, rfl, hp, hl, rfl, ?_⟩
          by_cases hb0 : bits = 0
          · simp [shrOpt, hb0]
          · cases e with
            | zero => exact absurd ⟨rfl, by omega⟩ hb
            | succ e =>
              simp [RSS.words, List.replicate_succ, shrOpt_cons_cons]
      | zero =>
        rw [if_neg (by simp)]
        cases prev with
        | none =>
          exfalso
          have := hp rfl
          simp [RSS.words, this] at hn
        | some lo =>
          dsimp only
          cases s with
          | nil =>
            dsimp only
            have hn0 : n = 0 := by simpa [RSS.words] using hn.symm
            split
            · rename_i hb
              refine ⟨_, _, rfl, rfl, fun _ => rfl, by simp [RSS.words, hn0], rfl, ?_⟩
              subst hb; simp [RSS.words, shrOpt_single, h0]
            · rename_i hb
              refine ⟨_, _, rfl, rfl, fun _ => rfl, by simp [RSS.words, hn0], rfl, ?_⟩
              simp [RSS.words, shrOpt_single, h0, hb]
          | cons hi t =>
            dsimp only
            have hn1 : (hi :: t).length = n := by simpa [RSS.words] using hn
            split
            · rename_i hb
              refine ⟨_, _, rfl, rfl, by simp, by simpa [RSS.words] using hn1, rfl, ?_⟩
              simp [RSS.words, shrOpt_cons_cons, hb]
            · rename_i hb
              refine ⟨_, _, rfl, rfl, by simp, by simpa [RSS.words] using hn1, rfl, ?_⟩
              simp [RSS.words, shrOpt_cons_cons, hb, Nat.or_comm]
    obtain ⟨w, r', h1, h2, h3, h4, h5, h6⟩ := hstep
    rw [show n + 1 + k = (n + k) + 1 by ring, RSS.take, h1]
    dsimp only
    rw [ih r' h4 h2 h3, h6, h5]
    rfl

/-- The right-shift iterator over `s` extended below by `ext` zero words yields, in `l` items,
the same words as the in-place right shift. -/
theorem RSS.take_new (s : List Nat) (shift ext : Nat) :
    RSS.take (ext + s.length) (RSS.new s shift 0 ext) =
      shiftRight (List.replicate ext 0 ++ s) shift := by
  set r := RSS.new s shift 0 ext with hr
  set S := List.replicate ext 0 ++ s with hS
  have hSl : S.length = ext + s.length := by simp [hS]
  have hbits : r.bits = shift % 64 := by rw [hr]; unfold RSS.new; dsimp only; split <;> rfl
  have hdef : r.default = 0 := by rw [hr]; unfold RSS.new; dsimp only; split <;> rfl
  have hprev : r.prev = none → r.s = [] := by
    rw [hr]; unfold RSS.new; dsimp only; split <;> simp
  have hwords : r.words = S.drop (shift / 64) := by
    have h1 : S.drop (shift / 64) = List.replicate (ext - shift / 64) 0 ++
        s.drop (shift / 64 - ext) := by
      rw [hS, List.drop_append]; simp
    rw [h1, hr]
    unfold RSS.new RSS.words
    dsimp only
    have h2 : (if ext > shift / 64 then 0 else shift / 64 - ext) = shift / 64 - ext := by
      split <;> omega
    have h3 : (if ext > shift / 64 then ext - shift / 64 else 0) = ext - shift / 64 := by
      split <;> omega
    rw [h2, h3]
    cases s.drop (shift / 64 - ext) <;> simp
  have hlen : r.words.length = S.length - shift / 64 := by rw [hwords]; simp
  by_cases hi : shift / 64 ≥ S.length
  · have h0 : r.words.length = 0 := by omega
    have := RSS.take_spec 0 S.length r h0 hdef hprev
    rw [zero_add, List.length_eq_zero_iff.1 h0] at this
    rw [← hSl, this]
    unfold shiftRight shrOpt
    dsimp only
    rw [if_pos hi]
    split <;> simp [shrBits]
  · have := RSS.take_spec (S.length - shift / 64) (shift / 64) r hlen hdef hprev
    rw [show S.length - shift / 64 + shift / 64 = S.length by omega] at this
    rw [← hSl, this, hwords, hbits]
    unfold shiftRight shrOpt
    dsimp only
    rw [if_neg hi]
    by_cases hb : shift % 64 = 0
    · rw [if_pos hb, if_neg (by omega)]
      split
      · rfl
      · have h0 : shift / 64 = 0 := by omega
        simp [h0]
    · rw [if_neg hb, if_pos (by omega)]

/-! ## Carry loops -/

theorem addCarry_spec {a b c : Nat} (ha : a < B) (hb : b < B) (hc : c ≤ 1) :
    (addCarry a b c).1 + B * (addCarry a b c).2 = a + b + c ∧ (addCarry a b c).1 < B ∧
      (addCarry a b c).2 ≤ 1 := by
  unfold addCarry; dsimp only; split <;> refine ⟨?_, ?_, ?_⟩ <;> (try dsimp only) <;> omega

theorem subBorrow_spec {a b c : Nat} (ha : a < B) (hb : b < B) (hc : c ≤ 1) :
    (subBorrow a b c).1 + b + c = a + B * (subBorrow a b c).2 ∧ (subBorrow a b c).1 < B ∧
      (subBorrow a b c).2 ≤ 1 := by
  unfold subBorrow; split <;> refine ⟨?_, ?_, ?_⟩ <;> (try dsimp only) <;> omega

theorem addLoop_spec {a b : List Nat} {c : Nat} (ha : Wf a) (hb : Wf b) (hl : a.length = b.length)
    (hc : c ≤ 1) :
    val (addLoop c a b).1 + B ^ a.length * (addLoop c a b).2 = val a + val b + c ∧
      (addLoop c a b).2 ≤ 1 ∧ (addLoop c a b).1.length = a.length ∧ Wf (addLoop c a b).1 := by
  induction a generalizing b c with
  | nil => cases b with
    | nil => simp [addLoop, hc, Wf.nil]
    | cons y ys => simp at hl
  | cons x xs ih => cases b with
    | nil => simp at hl
    | cons y ys =>
      obtain ⟨hx, hxs⟩ := wf_cons.1 ha
      obtain ⟨hy, hys⟩ := wf_cons.1 hb
      obtain ⟨h1, h2, h3⟩ := addCarry_spec hx hy hc
      obtain ⟨i1, i2, i3, i4⟩ := ih hxs hys (by simpa using hl) h3
      simp only [addLoop, val_cons, List.length_cons, pow_succ]
      refine ⟨?_, i2, by rw [i3], Wf.cons h2 i4⟩
      generalize (addCarry x y c).1 = u at *
      generalize (addCarry x y c).2 = v at *
      calc u + B * val (addLoop v xs ys).1 + B ^ xs.length * B * (addLoop v xs ys).2
          = u + B * (val (addLoop v xs ys).1 + B ^ xs.length * (addLoop v xs ys).2) := by ring
        _ = (u + B * v) + B * (val xs + val ys) := by rw [i1]; ring
        _ = _ := by rw [h1]; ring

theorem subLoop_spec {a b : List Nat} {c : Nat} (ha : Wf a) (hb : Wf b) (hl : a.length = b.length)
    (hc : c ≤ 1) :
    val (subLoop c a b).1 + val b + c = val a + B ^ a.length * (subLoop c a b).2 ∧
      (subLoop c a b).2 ≤ 1 ∧ (subLoop c a b).1.length = a.length ∧ Wf (subLoop c a b).1 := by
  induction a generalizing b c with
  | nil => cases b with
    | nil => simp [subLoop, hc, Wf.nil]
    | cons y ys => simp at hl
  | cons x xs ih => cases b with
    | nil => simp at hl
    | cons y ys =>
      obtain ⟨hx, hxs⟩ := wf_cons.1 ha
      obtain ⟨hy, hys⟩ := wf_cons.1 hb
      obtain ⟨h1, h2, h3⟩ := subBorrow_spec hx hy hc
      obtain ⟨i1, i2, i3, i4⟩ := ih hxs hys (by simpa using hl) h3
      simp only [subLoop, val_cons, List.length_cons, pow_succ]
      refine ⟨?_, i2, by rw [i3], Wf.cons h2 i4⟩
      generalize (subBorrow x y c).1 = u at *
      generalize (subBorrow x y c).2 = v at *
      calc u + B * val (subLoop v xs ys).1 + (y + B * val ys) + c
          = (u + y + c) + B * (val (subLoop v xs ys).1 + val ys) := by ring
        _ = x + B * (val (subLoop v xs ys).1 + val ys + v) := by rw [h1]; ring
        _ = _ := by rw [i1]; ring

/-- Without a final borrow the loop computes the exact difference. -/
theorem subLoop_exact {a b : List Nat} (ha : Wf a) (hb : Wf b) (hl : a.length = b.length)
    (hle : val b ≤ val a) :
    val (subLoop 0 a b).1 = val a - val b ∧ (subLoop 0 a b).2 = 0 := by
  obtain ⟨h1, h2, h3, h4⟩ := subLoop_spec ha hb hl (Nat.zero_le 1)
  have h5 := val_lt h4
  rw [h3] at h5
  have h6 : (subLoop 0 a b).2 = 0 := by
    by_contra hc
    have h7 : (subLoop 0 a b).2 = 1 := by omega
    rw [h7] at h1; omega
  rw [h6] at h1
  exact ⟨by omega, h6⟩

/-! ## Truncation and extension -/

theorem truncTo_eq (m : List Nat) (n : Nat) :
    truncTo m (n * 64) = (shiftRight m ((m.length - n) * 64)).take n := by
  unfold truncTo; dsimp only
  rw [show (n * 64 + 63) / 64 = n by omega]

theorem truncTo_eq_drop {m : List Nat} {n : Nat} (hn : n ≤ m.length) :
    truncTo m (n * 64) = m.drop (m.length - n) := by
  rw [truncTo_eq]
  unfold shiftRight
  dsimp only
  rw [Nat.mul_div_cancel _ (by norm_num), Nat.mul_mod_left]
  split
  · have : n = 0 := by omega
    subst this
    simp
  · rw [if_neg (by omega)]
    split
    · rw [List.take_append_of_le_length (by simp; omega), List.take_of_length_le (by simp; omega)]
    · have : m.length - n = 0 := by omega
      rw [this, List.drop_zero, List.take_of_length_le (by omega)]

theorem tryExtend_eq {m : List Nat} {n : Nat} (hn : m.length ≤ n) :
    tryExtend m (n * 64) = List.replicate (n - m.length) 0 ++ m := by
  unfold tryExtend
  dsimp only
  rw [show (n * 64 + 63) / 64 = n by omega]
  unfold shiftLeft
  dsimp only
  rw [Nat.mul_div_cancel _ (by norm_num), Nat.mul_mod_left]
  simp only [List.length_append, List.length_replicate]
  split
  · have : m = [] := List.length_eq_zero_iff.1 (by omega)
    subst this
    simp
  · rw [if_neg (by omega)]
    split
    · congr 1
      rw [show m.length + (n - m.length) - (n - m.length) = m.length by omega]
      simp
    · have : n - m.length = 0 := by omega
      simp [this]

theorem truncTrailingZeroes_eq (m : List Nat) :
    truncTrailingZeroes m = m.dropWhile (· = 0) := by
  unfold truncTrailingZeroes
  dsimp only
  set k := (m.takeWhile (· = 0)).length with hk
  have hkl : k ≤ m.length := by rw [hk]; exact (List.takeWhile_prefix _).length_le
  have hdw : m.dropWhile (· = 0) = m.drop k := by
    have := List.takeWhile_append_dropWhile (p := (· = 0)) (l := m)
    conv_rhs => rw [← this]
    rw [List.drop_append, hk]
    simp
  split
  · rw [hdw]
    have := truncTo_eq_drop (m := m) (n := m.length - k) (by omega)
    rw [truncTo_eq, show m.length - (m.length - k) = k by omega] at this
    exact this
  · have : k = 0 := by omega
    rw [hdw, this]; simp

theorem dropWhile_zero_split (m : List Nat) :
    ∃ k, m = List.replicate k 0 ++ m.dropWhile (· = 0) := by
  induction m with
  | nil => exact ⟨0, rfl⟩
  | cons x xs ih =>
    by_cases h : x = 0
    · obtain ⟨k, hk⟩ := ih
      refine ⟨k + 1, ?_⟩
      simp only [h, decide_true, List.dropWhile_cons_of_pos, List.replicate_succ, List.cons_append]
      rw [← hk]
    · exact ⟨0, by simp [h]⟩

theorem truncLeadingZeroes_split (m : List Nat) :
    ∃ k, m = truncLeadingZeroes m ++ List.replicate k 0 := by
  unfold truncLeadingZeroes
  dsimp only
  obtain ⟨k, hk⟩ := dropWhile_zero_split m.reverse
  set t := (m.reverse.takeWhile (· = 0)).length with ht
  have htw : m.reverse.takeWhile (· = 0) = List.replicate t 0 := by
    rw [List.eq_replicate_iff]
    refine ⟨rfl, fun b hb => ?_⟩
    have := List.all_eq_true.1 (List.all_takeWhile (p := fun x : Nat => decide (x = 0)) (l := m.reverse)) b hb
    simpa using this
  have htl : t ≤ m.length := by
    rw [ht]; simpa using (List.takeWhile_prefix (p := (· = 0)) (l := m.reverse)).length_le
  split
  · refine ⟨t, ?_⟩
    have h1 : m.reverse = List.replicate t 0 ++ m.reverse.drop t := by
      conv_lhs => rw [← List.take_append_drop t m.reverse]
      congr 1
      rw [← htw, ht]
      exact (List.prefix_iff_eq_take.1 (List.takeWhile_prefix _)).symm
    have h2 := congrArg List.reverse h1
    simp only [List.reverse_reverse, List.reverse_append, List.reverse_replicate] at h2
    rw [List.drop_reverse, List.reverse_reverse] at h2
    exact h2
  · exact ⟨0, by simp⟩

theorem val_truncLeadingZeroes (m : List Nat) : val (truncLeadingZeroes m) = val m := by
  obtain ⟨k, hk⟩ := truncLeadingZeroes_split m
  conv_rhs => rw [hk]
  rw [val_append_zeros]

end AF
