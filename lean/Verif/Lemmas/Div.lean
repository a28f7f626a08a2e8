import Verif.Lemmas.DivBasic
import Verif.Lemmas.Adjust
import Mathlib.Tactic.LinearCombination
/-!
# Recursive and blockwise division of words (`div_recursive`, `div_unbalanced`)
-/

namespace AF

/-- The top bit of the divisor is set. -/
def TopSet (b : List Nat) : Prop := Wf b ∧ 0 < b.length ∧ B ^ b.length ≤ 2 * val b

theorem Normd.topSet {b : List Nat} (h : Normd b) : TopSet b := by
  refine ⟨h.1, h.2.1, ?_⟩
  rw [B_pow, two_pow_split _ (by have := h.2.1; omega)]
  exact Nat.mul_le_mul_left _ h.2.2

theorem TopSet.pos {b : List Nat} (h : TopSet b) : 0 < val b := by
  have := B_pow_pos b.length
  have := h.2.2
  omega

theorem TopSet.top {b : List Nat} (h : TopSet b) : wd b (b.length - 1) ≠ 0 := by
  intro h0
  obtain ⟨h1, h2, h3⟩ := h
  have hl := wd_last (m := b) (n := b.length - 1) (by omega)
  rw [h0, Nat.mul_zero, Nat.add_zero] at hl
  have h4 := val_lt (h1.take (b.length - 1))
  rw [List.length_take, min_eq_left (by omega)] at h4
  have h5 : B ^ b.length = B ^ (b.length - 1) * B := by
    rw [← pow_succ]; congr 1; omega
  have h6 : B ^ (b.length - 1) * 2 ≤ B ^ (b.length - 1) * B :=
    Nat.mul_le_mul_left _ (by unfold B; norm_num)
  omega

theorem TopSet.drop {b : List Nat} (h : TopSet b) {k : Nat} (hk : k < b.length) : TopSet (b.drop k) := by
  obtain ⟨h1, h2, h3⟩ := h
  refine ⟨h1.drop k, by rw [List.length_drop]; omega, ?_⟩
  have e : B ^ b.length = B ^ k * B ^ (b.length - k) := by rw [← pow_add]; congr 1; omega
  have ev := val_take_drop b k hk.le
  have hl := val_lt (h1.take k)
  rw [List.length_take, min_eq_left hk.le] at hl
  rw [List.length_drop]
  have hev : 2 ∣ B ^ (b.length - k) := by
    have : b.length - k = (b.length - k - 1) + 1 := by omega
    rw [this, pow_succ]
    exact Dvd.dvd.mul_left (by unfold B; norm_num) _
  obtain ⟨c, hc⟩ := hev
  rw [e, hc, ev] at h3
  rw [hc]
  have h4 : B ^ k * c < B ^ k * (val (b.drop k) + 1) := by
    rw [Nat.mul_add]
    have e2 : B ^ k * (2 * c) = 2 * (B ^ k * c) := by ring
    rw [e2] at h3
    omega
  have := Nat.lt_of_mul_lt_mul_left h4
  omega

theorem SS.neg_iff {a : SS} : (a.neg && a.m.any (· ≠ 0)) = true ↔ a.toZ < 0 := by
  rw [Bool.and_eq_true, any_ne_zero_iff]
  unfold SS.toZ
  constructor
  · rintro ⟨h1, h2⟩; rw [if_pos h1]; omega
  · intro h
    by_cases h1 : a.neg = true
    · rw [if_pos h1] at h; exact ⟨h1, by omega⟩
    · rw [if_neg h1] at h; omega

theorem divCorrection_spec (f : Nat) (a : SS) (q : List Nat) (S : List Nat) (T : ℤ)
    (ha : Wf a.m) (hq : Wf q) (hS : Wf S) (hSl : (val S : ℤ) < (B ^ a.m.length : ℕ))
    (hT : T = val q * val S + a.toZ) (hT0 : 0 ≤ T) (hub : a.toZ < val S) (hf : val q ≤ f) :
    let r := divCorrection f a q ⟨false, S⟩
    r.1.m.length = a.m.length ∧ Wf r.1.m ∧ r.2.length = q.length ∧ Wf r.2 ∧
      T = val r.2 * val S + r.1.toZ ∧ 0 ≤ r.1.toZ ∧ r.1.toZ < val S := by
  induction f generalizing a q with
  | zero =>
    simp only [divCorrection]
    have : val q = 0 := by omega
    refine ⟨by trivial, ha, by trivial, hq, hT, ?_, hub⟩
    rw [this] at hT; simp at hT; omega
  | succ f ih =>
    simp only [divCorrection]
    by_cases h : (a.neg && a.m.any (· ≠ 0)) = true
    · rw [if_pos h]
      have hneg := SS.neg_iff.1 h
      have hq0 : val q ≠ 0 := by
        intro h0; rw [h0] at hT; simp at hT; omega
      obtain ⟨d1, d2, d3⟩ := decrementAbs_spec hq hq0
      have hsz : (SS.mk false S).toZ = val S := by simp [SS.toZ]
      have hab : |a.toZ| < ((B ^ a.m.length : ℕ) : ℤ) := by
        rw [SS.abs_toZ]; exact_mod_cast val_lt ha
      have hSn : (0 : ℤ) ≤ val S := Int.natCast_nonneg _
      obtain ⟨e1, e2, e3⟩ := SS.addSubAssign_spec (s1 := a) (s2 := ⟨false, S⟩) ha hS true
        (r := a.toZ + val S) (by rw [if_pos rfl, hsz]) (by
          rw [abs_lt] at hab ⊢
          constructor <;> omega)
      have hdq : (val q : ℤ) = val (decrementAbs q) + 1 := by exact_mod_cast d3.symm
      have := ih (a.addAssign ⟨false, S⟩) (decrementAbs q) e2 d2 (by
          rw [show (a.addAssign ⟨false, S⟩).m.length = a.m.length from e1]; exact hSl)
        (by rw [show (a.addAssign ⟨false, S⟩).toZ = _ from e3, hT, hdq]; ring)
        (by rw [show (a.addAssign ⟨false, S⟩).toZ = _ from e3]; omega)
        (by omega)
      obtain ⟨i1, i2, i3, i4, i5, i6, i7⟩ := this
      exact ⟨i1.trans e1, i2, i3.trans d1, i4, i5, i6, i7⟩
    · rw [if_neg h]
      have : ¬ a.toZ < 0 := fun hh => h (SS.neg_iff.2 hh)
      exact ⟨rfl, ha, rfl, hq, hT, not_lt.1 this, hub⟩

theorem divFix_spec {a : SS} {q S : List Nat} {T : Nat}
    (ha : Wf a.m) (hq : Wf q) (hS : Wf S) (hSl : val S < B ^ a.m.length)
    (hT : (T : ℤ) = val q * val S + a.toZ) (hub : a.toZ < val S) :
    (divFix a q ⟨false, S⟩).1.m.length = a.m.length ∧ Wf (divFix a q ⟨false, S⟩).1.m ∧
      (divFix a q ⟨false, S⟩).2.length = q.length ∧ Wf (divFix a q ⟨false, S⟩).2 ∧
      T = val (divFix a q ⟨false, S⟩).2 * val S + val (divFix a q ⟨false, S⟩).1.m ∧
      val (divFix a q ⟨false, S⟩).1.m < val S := by
  unfold divFix
  by_cases h : a.neg = true
  · rw [if_pos h]
    obtain ⟨c1, c2, c3, c4, c5, c6, c7⟩ := divCorrection_spec (fftMul.val q) a q S T ha hq hS
      (by exact_mod_cast hSl) hT (Int.natCast_nonneg _) hub (by rw [fftMul_val])
    generalize divCorrection (fftMul.val q) a q ⟨false, S⟩ = r at *
    have hv : r.1.toZ = val r.1.m := by
      have := SS.abs_toZ r.1
      rw [abs_of_nonneg c6] at this; exact this
    rw [hv] at c5 c7
    exact ⟨c1, c2, c3, c4, by exact_mod_cast c5, by exact_mod_cast c7⟩
  · rw [if_neg h]
    have hv : a.toZ = val a.m := by unfold SS.toZ; rw [if_neg h]
    rw [hv] at hT hub
    exact ⟨rfl, ha, rfl, hq, by exact_mod_cast hT, by exact_mod_cast hub⟩

/-- The cut-off list is an initial part, and its top word is not zero. -/
theorem truncLeadingZeroes_take (m : List Nat) :
    truncLeadingZeroes m = m.take (truncLeadingZeroes m).length := by
  obtain ⟨k, hk⟩ := truncLeadingZeroes_split m
  generalize truncLeadingZeroes m = t at *
  rw [hk]
  simp

theorem truncLeadingZeroes_len_le (m : List Nat) : (truncLeadingZeroes m).length ≤ m.length := by
  obtain ⟨k, hk⟩ := truncLeadingZeroes_split m
  generalize truncLeadingZeroes m = t at *
  rw [hk]
  simp

theorem truncLeadingZeroes_eq (m : List Nat) :
    truncLeadingZeroes m = (m.reverse.dropWhile (· = 0)).reverse := by
  unfold truncLeadingZeroes
  dsimp only
  have h1 : (m.reverse.takeWhile (· = 0)).length + (m.reverse.dropWhile (· = 0)).length = m.length := by
    rw [← List.length_append, List.takeWhile_append_dropWhile, List.length_reverse]
  have h2 : m.reverse.dropWhile (· = 0) = m.reverse.drop (m.reverse.takeWhile (· = 0)).length := by
    have h3 := List.takeWhile_append_dropWhile (p := fun x : Nat => decide (x = 0)) (l := m.reverse)
    have h4 := congrArg (List.drop (m.reverse.takeWhile (· = 0)).length) h3
    rw [List.drop_left] at h4
    exact h4
  split
  · rw [h2, List.drop_reverse, List.reverse_reverse]
  · rename_i h
    have h0 : (m.reverse.takeWhile (· = 0)).length = 0 := by omega
    rw [h2, h0]; simp

theorem truncLeadingZeroes_lower (m : List Nat) (h : 0 < (truncLeadingZeroes m).length) :
    B ^ ((truncLeadingZeroes m).length - 1) ≤ val m := by
  rw [← val_truncLeadingZeroes]
  have e := truncLeadingZeroes_eq m
  generalize truncLeadingZeroes m = t at *
  cases hd : m.reverse.dropWhile (· = 0) with
  | nil => rw [hd] at e; simp at e; rw [e] at h; simp at h
  | cons x xs =>
    have hx : x ≠ 0 := by
      have := List.head_dropWhile_not (fun x : Nat => decide (x = 0)) (l := m.reverse) (by rw [hd]; simp)
      simp only [hd, List.head_cons] at this
      simpa using this
    rw [hd, List.reverse_cons] at e
    rw [e, val_append]
    simp only [List.length_append, List.length_cons, List.length_nil, val_cons, val_nil]
    have h3 : B ^ xs.reverse.length * 1 ≤ B ^ xs.reverse.length * (x + B * 0) :=
      Nat.mul_le_mul_left _ (by omega)
    simp only [zero_add, Nat.add_sub_cancel]
    omega

/-- What the recursive division guarantees. -/
def RecOk (a b : List Nat) (r : List Nat × List Nat) : Prop :=
  DivOk a b r ∧ (a.length < b.length → r = ([0], a)) ∧
    (b.length ≤ a.length → r.1.length = a.length - b.length + 1 ∧ b.length ≤ r.2.length ∧
      r.2.length ≤ a.length)

theorem divShort_spec {a b : List Nat} (ha : Wf a) (hb : TopSet b) (h : a.length < b.length) :
    DivOk a b ([0], a) := by
  refine ⟨Wf.cons B_pos Wf.nil, ha, by simp, ?_⟩
  dsimp only
  have h1 := val_lt ha
  have h2 : B ^ b.length = B ^ (b.length - 1) * B := by rw [← pow_succ]; congr 1; omega
  have h3 : B ^ a.length ≤ B ^ (b.length - 1) := Nat.pow_le_pow_right B_pos (by omega)
  have h4 : B ^ (b.length - 1) * 2 ≤ B ^ (b.length - 1) * B :=
    Nat.mul_le_mul_left _ (by unfold B; norm_num)
  have := hb.2.2
  omega

/-- One half of the recursive division: the quotient of the high part, corrected. -/
theorem divHalf {Rm Pm S q : List Nat} {A lo M ρ c b1 : Nat} (hRw : Wf Rm) (hPw : Wf Pm) (hSw : Wf S)
    (hq : Wf q) (hR : val Rm = lo + M * ρ) (hP : val Pm = val q * c) (hS : val S = M * b1 + c)
    (hA : A = lo + M * (val q * b1 + ρ)) (hlo : lo < M) (hρ : ρ < b1)
    (hSl : val S < B ^ Rm.length) (hPl : val Pm < B ^ Rm.length) :
    (divFix (SS.subAssign ⟨false, Rm⟩ ⟨false, Pm⟩) q ⟨false, S⟩).1.m.length = Rm.length ∧
      Wf (divFix (SS.subAssign ⟨false, Rm⟩ ⟨false, Pm⟩) q ⟨false, S⟩).1.m ∧
      (divFix (SS.subAssign ⟨false, Rm⟩ ⟨false, Pm⟩) q ⟨false, S⟩).2.length = q.length ∧
      Wf (divFix (SS.subAssign ⟨false, Rm⟩ ⟨false, Pm⟩) q ⟨false, S⟩).2 ∧
      A = val (divFix (SS.subAssign ⟨false, Rm⟩ ⟨false, Pm⟩) q ⟨false, S⟩).2 * val S +
        val (divFix (SS.subAssign ⟨false, Rm⟩ ⟨false, Pm⟩) q ⟨false, S⟩).1.m ∧
      val (divFix (SS.subAssign ⟨false, Rm⟩ ⟨false, Pm⟩) q ⟨false, S⟩).1.m < val S := by
  have hR0 : (SS.mk false Rm).toZ = val Rm := by simp [SS.toZ]
  have hP0 : (SS.mk false Pm).toZ = val Pm := by simp [SS.toZ]
  have hRl := val_lt hRw
  obtain ⟨e1, e2, e3⟩ := SS.addSubAssign_spec (s1 := ⟨false, Rm⟩) (s2 := ⟨false, Pm⟩) hRw hPw false
    (r := val Rm - val Pm) (by rw [hR0, hP0]; simp; ring) (by
      dsimp only
      rw [abs_lt]
      constructor <;> omega)
  have e1' : (SS.subAssign ⟨false, Rm⟩ ⟨false, Pm⟩).m.length = Rm.length := e1
  have e3' : (SS.subAssign ⟨false, Rm⟩ ⟨false, Pm⟩).toZ = (val Rm : ℤ) - val Pm := e3
  have := divFix_spec (a := SS.subAssign ⟨false, Rm⟩ ⟨false, Pm⟩) (q := q) (S := S) (T := A) e2 hq hSw
    (by rw [e1']; exact hSl)
    (by
      rw [e3', hR, hP, hS, hA]; push_cast; ring)
    (by
      rw [e3']
      have h1 : M * (ρ + 1) ≤ M * b1 := Nat.mul_le_mul_left _ hρ
      rw [Nat.mul_add, Nat.mul_one] at h1
      have h2 : val Rm < val S := by rw [hR, hS]; omega
      omega)
  rw [e1'] at this
  exact this

theorem fit_append_val {a b : List Nat} {L : Nat} (hl : a.length + b.length ≤ L) :
    val (fit L (a ++ b)) = val a + B ^ a.length * val b := by
  unfold fit
  rw [val_append_zeros, List.take_of_length_le (by simp; omega), val_append]

theorem take_prod_val {m q b : List Nat} (hm : Wf m) (hq : Wf q) (hb : Wf b)
    (hv : val m = val q * val b) : val (m.take (q.length + b.length)) = val q * val b := by
  rw [val_take hm, hv, pow_add]
  exact Nat.mod_eq_of_lt (Nat.mul_lt_mul'' (val_lt hq) (val_lt hb))

/-- The quotient by a divisor with the top bit set fits one more word than the lengths differ. -/
theorem quot_lt {a b : List Nat} (ha : Wf a) (hb : TopSet b) (hl : b.length ≤ a.length) {q r : Nat}
    (h : val a = q * val b + r) : q < B ^ (a.length - b.length + 1) := by
  have h1 := val_lt ha
  have e : B ^ a.length = B ^ (a.length - b.length) * B ^ b.length := by
    rw [← pow_add]; congr 1; omega
  have h2 : q * val b < B ^ (a.length - b.length) * 2 * val b := by
    calc q * val b ≤ val a := by omega
      _ < B ^ a.length := h1
      _ = B ^ (a.length - b.length) * B ^ b.length := e
      _ ≤ B ^ (a.length - b.length) * (2 * val b) := Nat.mul_le_mul_left _ hb.2.2
      _ = _ := by ring
  have h3 := Nat.lt_of_mul_lt_mul_right h2
  rw [pow_succ]
  exact h3.trans_le (Nat.mul_le_mul_left _ (by unfold B; norm_num))

set_option maxHeartbeats 1000000 in
theorem divRecWith_spec {rec : DivFn} {m1 m2 : List Nat} (h1 : Wf m1) (h2 : TopSet m2)
    (hl : m1.length ≤ 2 * m2.length)
    (hrec : ∀ a b, Wf a → TopSet b → a.length ≤ 2 * b.length → a.length < m1.length →
      RecOk a b (rec a b)) :
    RecOk m1 m2 (divRecWith rec m1 m2) := by
  unfold divRecWith
  by_cases hs : m1.length < m2.length
  · rw [if_pos hs]
    exact ⟨divShort_spec h1 h2 hs, fun _ => rfl, fun h => by omega⟩
  rw [if_neg hs]
  dsimp only
  by_cases hsm : m1.length - m2.length < 70
  · rw [if_pos hsm]
    obtain ⟨b1, b2, b3⟩ := divBasic_spec h1 h2.1 (by omega) h2.2.1 h2.top
    exact ⟨b1, fun h => absurd h hs, fun _ => ⟨b2, by omega, by omega⟩⟩
  rw [if_neg hsm]
  generalize hm : m1.length - m2.length = m at *
  generalize hk : m / 2 = k at *
  generalize hl1 : m1.length = l1 at *
  generalize hl2 : m2.length = l2 at *
  have hs' : ¬ m1.length < m2.length := by rw [hl1, hl2]; exact hs
  have hkl2 : k < m2.length := by omega
  have hb1 := h2.drop hkl2
  have hb1l : (m2.drop k).length = l2 - k := by rw [List.length_drop, hl2]
  have hb0l : (m2.take k).length = k := by rw [List.length_take, hl2]; omega
  have hb0 := h2.1.take k
  have hbv := val_take_drop m2 k hkl2.le
  -- first half
  obtain ⟨⟨d1, d2, d3, d4⟩, _, d6⟩ := hrec (m1.drop (2 * k)) (m2.drop k) (h1.drop _) hb1
    (by rw [List.length_drop, hb1l, hl1]; omega) (by rw [List.length_drop, hl1]; omega)
  obtain ⟨d7, d8, d9⟩ := d6 (by rw [hb1l, List.length_drop, hl1]; omega)
  rw [hb1l, List.length_drop, hl1] at d7
  rw [hb1l] at d8
  rw [List.length_drop, hl1] at d9
  generalize rec (m1.drop (2 * k)) (m2.drop k) = r1 at *
  have ha0l : (m1.take (2 * k)).length = 2 * k := by rw [List.length_take, hl1]; omega
  have ha0 := val_lt (h1.take (2 * k))
  rw [ha0l] at ha0
  have hAv := val_take_drop m1 (2 * k) (by omega)
  obtain ⟨p1, p2, p3⟩ := mulWords_spec d1 hb0 (len := l1 - k) (by rw [d7, hb0l]; omega)
  have hR := fit_append_val (a := m1.take (2 * k)) (b := r1.2) (L := l1) (by rw [ha0l]; omega)
  rw [ha0l] at hR
  have htw : Wf (List.replicate k 0 ++ mulWords r1.1 (m2.take k) (l1 - k)) :=
    wf_append.2 ⟨wf_zeros k, p2⟩
  have hPv : val ((List.replicate k 0 ++ mulWords r1.1 (m2.take k) (l1 - k)).take
      (r1.1.length + (m2.take k).length + k)) = val r1.1 * (B ^ k * val (m2.take k)) := by
    rw [show r1.1.length + (m2.take k).length + k = k + (r1.1.length + (m2.take k).length) by omega,
      List.take_append, List.take_of_length_le (by simp), val_zeros_append, List.length_replicate,
      Nat.add_sub_cancel_left, take_prod_val p2 d1 hb0 p3]
    ring
  have hSv : val (fit l1 (List.replicate k 0 ++ m2)) = B ^ (2 * k) * val (m2.drop k) + B ^ k * val (m2.take k) := by
    rw [fit_append_val (by simp; omega), val_replicate_zero, List.length_replicate, hbv,
      show 2 * k = k + k by omega, pow_add]
    ring
  have hm2lt : val m2 < B ^ l2 := by rw [← hl2]; exact val_lt h2.1
  have hSB : val (fit l1 (List.replicate k 0 ++ m2)) = B ^ k * val m2 := by
    rw [fit_append_val (by simp; omega), val_replicate_zero, List.length_replicate]; ring
  have hSlt : val (fit l1 (List.replicate k 0 ++ m2)) < B ^ l1 := by
    rw [hSB]
    calc B ^ k * val m2 < B ^ k * B ^ l2 := Nat.mul_lt_mul_of_pos_left hm2lt (B_pow_pos k)
      _ = B ^ (k + l2) := by rw [pow_add]
      _ ≤ B ^ l1 := Nat.pow_le_pow_right B_pos (by omega)
  have hPlt : val r1.1 * (B ^ k * val (m2.take k)) < B ^ l1 := by
    have h5 := val_lt d1
    have h6 := val_lt hb0
    rw [hb0l] at h6
    rw [d7] at h5
    calc val r1.1 * (B ^ k * val (m2.take k)) = B ^ k * (val r1.1 * val (m2.take k)) := by ring
      _ < B ^ k * (B ^ (l1 - 2 * k - (l2 - k) + 1) * B ^ k) :=
        Nat.mul_lt_mul_of_pos_left (Nat.mul_lt_mul'' h5 h6) (B_pow_pos k)
      _ = B ^ (k + (l1 - 2 * k - (l2 - k) + 1 + k)) := by rw [← pow_add, ← pow_add]
      _ ≤ B ^ l1 := Nat.pow_le_pow_right B_pos (by omega)
  obtain ⟨f1, f2, f3, f4, f5, f6⟩ := divHalf (A := val m1) (lo := val (m1.take (2 * k)))
    (M := B ^ (2 * k)) (ρ := val r1.2) (c := B ^ k * val (m2.take k)) (b1 := val (m2.drop k))
    (Rm := fit l1 (m1.take (2 * k) ++ r1.2))
    (Pm := (List.replicate k 0 ++ mulWords r1.1 (m2.take k) (l1 - k)).take
      (r1.1.length + (m2.take k).length + k))
    (S := fit l1 (List.replicate k 0 ++ m2)) (q := r1.1)
    (fit_wf (wf_append.2 ⟨h1.take _, d2⟩) _) (htw.take _)
    (fit_wf (wf_append.2 ⟨wf_zeros k, h2.1⟩) _) d1 hR hPv hSv (by rw [hAv, d3]) ha0 d4
    (by rw [fit_length]; exact hSlt) (by rw [fit_length, hPv]; exact hPlt)
  rw [fit_length] at f1
  rw [hSB] at f5 f6
  generalize divFix (SS.subAssign ⟨false, fit l1 (m1.take (2 * k) ++ r1.2)⟩
    ⟨false, (List.replicate k 0 ++ mulWords r1.1 (m2.take k) (l1 - k)).take
      (r1.1.length + (m2.take k).length + k)⟩) r1.1 ⟨false, fit l1 (List.replicate k 0 ++ m2)⟩ = F1 at *
  have hq1 : tryExtend F1.2 ((m + 1) * 64) = List.replicate k 0 ++ F1.2 := by
    rw [tryExtend_eq (by omega)]
    congr 2; omega
  rw [hq1]
  have hq1l : F1.2.length = m - k + 1 := by omega
  have hPk := B_pow_pos k
  have htz := truncLeadingZeroes_take F1.1.m
  have htv := val_truncLeadingZeroes F1.1.m
  have htlo := truncLeadingZeroes_lower F1.1.m
  have htle := truncLeadingZeroes_len_le F1.1.m
  rw [f1] at htle
  generalize hub : (truncLeadingZeroes F1.1.m).length = ub at *
  rw [htz] at htv
  have hublt : ub ≤ l2 + k := by
    by_contra hc
    have h5 := htlo (by omega)
    have h6 : B ^ (l2 + k) ≤ B ^ (ub - 1) := Nat.pow_le_pow_right B_pos (by omega)
    have h7 : B ^ k * val m2 < B ^ k * B ^ l2 := Nat.mul_lt_mul_of_pos_left hm2lt hPk
    rw [pow_add, Nat.mul_comm] at h6
    omega
  by_cases hubk : ub > k
  · rw [if_pos hubk]
    -- second half
    have hwu : Wf (F1.1.m.take ub) := f2.take _
    have hul : (F1.1.m.take ub).length = ub := by rw [List.length_take, f1]; omega
    have hal : ((F1.1.m.take ub).drop k).length = ub - k := by rw [List.length_drop, hul]
    obtain ⟨⟨g1, g2, g3, g4⟩, g5, g6⟩ := hrec ((F1.1.m.take ub).drop k) (m2.drop k) (hwu.drop k) hb1
      (by rw [hal, hb1l]; omega) (by rw [hal]; omega)
    rw [hal, hb1l] at g5 g6
    generalize rec ((F1.1.m.take ub).drop k) (m2.drop k) = r0 at *
    have g7 : r0.1.length ≤ k + 1 ∧ r0.2.length ≤ ub - k := by
      rcases Nat.lt_or_ge (ub - k) (l2 - k) with hc | hc
      · rw [g5 hc]; simp [hal]
      · obtain ⟨g8, _, g9⟩ := g6 hc
        omega
    obtain ⟨g7, g8⟩ := g7
    have hv3 : val F1.1.m = val (F1.1.m.take k) + B ^ k * val ((F1.1.m.take ub).drop k) := by
      rw [← htv, val_take_drop (F1.1.m.take ub) k (by omega), List.take_take, min_eq_left (by omega)]
    have ha3l : (F1.1.m.take k).length = k := by rw [List.length_take, f1]; omega
    have ha3lt := val_lt (f2.take k)
    rw [ha3l] at ha3lt
    obtain ⟨s1, s2, s3⟩ := mulWords_spec g1 hb0 (len := l1) (by rw [hb0l]; omega)
    have hR' := fit_append_val (a := F1.1.m.take k) (b := r0.2) (L := l1) (by rw [ha3l]; omega)
    rw [ha3l] at hR'
    have hPv' := take_prod_val s2 g1 hb0 s3
    have hPlt' : val r0.1 * val (m2.take k) < B ^ l1 := by
      have h5 := val_lt g1
      have h6 := val_lt hb0
      rw [hb0l] at h6
      calc val r0.1 * val (m2.take k) < B ^ r0.1.length * B ^ k := Nat.mul_lt_mul'' h5 h6
        _ = B ^ (r0.1.length + k) := by rw [pow_add]
        _ ≤ B ^ l1 := Nat.pow_le_pow_right B_pos (by omega)
    obtain ⟨t1, t2, t3, t4, t5, t6⟩ := divHalf (A := val F1.1.m) (lo := val (F1.1.m.take k))
      (M := B ^ k) (ρ := val r0.2) (c := val (m2.take k)) (b1 := val (m2.drop k))
      (Rm := fit l1 (F1.1.m.take k ++ r0.2))
      (Pm := (mulWords r0.1 (m2.take k) l1).take (r0.1.length + (m2.take k).length))
      (S := m2) (q := r0.1)
      (fit_wf (wf_append.2 ⟨f2.take _, g2⟩) _) (s2.take _) h2.1 g1 hR' hPv'
      (by rw [hbv]; ring) (by rw [hv3, g3]) ha3lt g4
      (by rw [fit_length]
          exact hm2lt.trans_le (Nat.pow_le_pow_right B_pos (by omega)))
      (by rw [fit_length, hPv']; exact hPlt')
    rw [fit_length] at t1
    generalize divFix (SS.subAssign ⟨false, fit l1 (F1.1.m.take k ++ r0.2)⟩
      ⟨false, (mulWords r0.1 (m2.take k) l1).take (r0.1.length + (m2.take k).length)⟩) r0.1
      ⟨false, m2⟩ = F0 at *
    have htot : val m1 = (val F0.2 + B ^ k * val F1.2) * val m2 + val F0.1.m := by
      rw [f5, t5]; ring
    have hqlt := quot_lt h1 h2 (by omega) htot
    rw [hl1, hl2, hm] at hqlt
    by_cases hq0 : F0.2.length > k
    · rw [if_pos hq0]
      have hdq : (List.replicate k 0 ++ F1.2).drop k = F1.2 := by
        rw [List.drop_append, List.drop_of_length_le (by simp)]; simp
      rw [hdq]
      have hsum : val F1.2 + val (F0.2.drop k) < B ^ F1.2.length := by
        have e : B ^ (m + 1) = B ^ k * B ^ F1.2.length := by
          rw [← pow_add, hq1l]; congr 1; omega
        rw [e] at hqlt
        have h5 := val_take_drop F0.2 k (by omega)
        have h6 : B ^ k * (val F1.2 + val (F0.2.drop k)) < B ^ k * B ^ F1.2.length := by
          rw [Nat.mul_add]
          omega
        exact Nat.lt_of_mul_lt_mul_left h6
      obtain ⟨w1, w2, w3⟩ := SS.addSubAssign_spec (s1 := ⟨false, F1.2⟩) (s2 := ⟨false, F0.2.drop k⟩)
        f4 (t4.drop k) true (r := val F1.2 + val (F0.2.drop k)) (by simp [SS.toZ]) (by
          rw [abs_of_nonneg (by positivity)]; exact_mod_cast hsum)
      have w3' : val (SS.addAssign ⟨false, F1.2⟩ ⟨false, F0.2.drop k⟩).m = val F1.2 + val (F0.2.drop k) := by
        have h5 := SS.abs_toZ (SS.addAssign ⟨false, F1.2⟩ ⟨false, F0.2.drop k⟩)
        rw [show (SS.addAssign ⟨false, F1.2⟩ ⟨false, F0.2.drop k⟩).toZ = _ from w3,
          abs_of_nonneg (by positivity)] at h5
        exact_mod_cast h5.symm
      have w1' : (SS.addAssign ⟨false, F1.2⟩ ⟨false, F0.2.drop k⟩).m.length = F1.2.length := w1
      have w2' : Wf (SS.addAssign ⟨false, F1.2⟩ ⟨false, F0.2.drop k⟩).m := w2
      generalize (SS.addAssign ⟨false, F1.2⟩ ⟨false, F0.2.drop k⟩).m = Q at *
      have htk : (F0.2.take k).length = k := by rw [List.length_take]; omega
      refine ⟨⟨wf_append.2 ⟨t4.take k, w2'⟩, t2, ?_, t6⟩, fun h => absurd h hs', fun _ => ⟨?_, ?_, ?_⟩⟩
      · dsimp only
        rw [htot, val_append, htk, w3', val_take_drop F0.2 k (by omega)]; ring
      · dsimp only
        rw [List.length_append, htk]; omega
      · dsimp only; omega
      · dsimp only; omega
    · rw [if_neg hq0]
      have hdq : (List.replicate k 0 ++ F1.2).drop F0.2.length = List.replicate (k - F0.2.length) 0 ++ F1.2 := by
        rw [List.drop_append, List.drop_replicate, List.length_replicate]
        have : F0.2.length - k = 0 := by omega
        rw [this, List.drop_zero]
      rw [hdq]
      refine ⟨⟨wf_append.2 ⟨t4, wf_append.2 ⟨wf_zeros _, f4⟩⟩, t2, ?_, t6⟩, fun h => absurd h hs',
        fun _ => ⟨?_, ?_, ?_⟩⟩
      · dsimp only
        rw [htot, val_append, val_zeros_append, ← Nat.mul_assoc, ← pow_add,
          show F0.2.length + (k - F0.2.length) = k by omega]
      · dsimp only
        simp only [List.length_append, List.length_replicate]; omega
      · dsimp only; omega
      · dsimp only; omega
  · rw [if_neg hubk]
    have hsmall : val F1.1.m < val m2 := by
      have h5 : val F1.1.m < B ^ k := by
        rw [← htv]
        have h6 := val_lt (f2.take ub)
        rw [List.length_take, f1, min_eq_left (by omega)] at h6
        exact h6.trans_le (Nat.pow_le_pow_right B_pos (by omega))
      have h7 : B ^ k * 2 ≤ B ^ l2 := by
        calc B ^ k * 2 ≤ B ^ k * B := Nat.mul_le_mul_left _ (by unfold B; norm_num)
          _ = B ^ (k + 1) := by rw [pow_succ]
          _ ≤ _ := Nat.pow_le_pow_right B_pos (by omega)
      have h8 := h2.2.2
      rw [hl2] at h8
      omega
    refine ⟨⟨wf_append.2 ⟨wf_zeros _, f4⟩, f2, ?_, hsmall⟩, fun h => absurd h hs',
      fun _ => ⟨?_, ?_, ?_⟩⟩
    · dsimp only
      rw [f5, val_zeros_append]; ring
    · dsimp only
      simp only [List.length_append, List.length_replicate]; omega
    · dsimp only; omega
    · dsimp only; omega

theorem divRecFuel_spec (f : Nat) : ∀ m1 m2, Wf m1 → TopSet m2 → m1.length ≤ 2 * m2.length →
    m1.length < f → RecOk m1 m2 (divRecFuel f m1 m2) := by
  induction f with
  | zero => intro m1 m2 _ _ _ h; omega
  | succ f ih =>
    intro m1 m2 h1 h2 hl hf
    exact divRecWith_spec h1 h2 hl fun a b ha hb hab hlt => ih a b ha hb hab (by omega)

theorem divRec_spec {m1 m2 : List Nat} (h1 : Wf m1) (h2 : TopSet m2)
    (hl : m1.length ≤ 2 * m2.length) : RecOk m1 m2 (divRec m1 m2) :=
  divRecFuel_spec _ m1 m2 h1 h2 hl (Nat.lt_succ_self _)

/-- Adding the carry words of the lower quotient block to the quotient found so far. -/
theorem quotJoin {q r : List Nat} {t : Nat} (hq : Wf q) (hr : Wf r) (ht : t ≤ r.length)
    (hlt : val r + B ^ t * val q < B ^ t * B ^ q.length) :
    Wf (r.take t ++ (SS.addAssign ⟨false, q⟩ ⟨false, r.drop t⟩).m) ∧
      (r.take t ++ (SS.addAssign ⟨false, q⟩ ⟨false, r.drop t⟩).m).length = t + q.length ∧
      val (r.take t ++ (SS.addAssign ⟨false, q⟩ ⟨false, r.drop t⟩).m) = val r + B ^ t * val q := by
  have hv := val_take_drop r t ht
  have hsum : val q + val (r.drop t) < B ^ q.length := by
    refine Nat.lt_of_mul_lt_mul_left (a := B ^ t) ?_
    rw [Nat.mul_add]
    omega
  obtain ⟨w1, w2, w3⟩ := SS.addSubAssign_spec (s1 := ⟨false, q⟩) (s2 := ⟨false, r.drop t⟩)
    hq (hr.drop t) true (r := val q + val (r.drop t)) (by simp [SS.toZ]) (by
      rw [abs_of_nonneg (by positivity)]; exact_mod_cast hsum)
  have w3' : val (SS.addAssign ⟨false, q⟩ ⟨false, r.drop t⟩).m = val q + val (r.drop t) := by
    have h5 := SS.abs_toZ (SS.addAssign ⟨false, q⟩ ⟨false, r.drop t⟩)
    rw [show (SS.addAssign ⟨false, q⟩ ⟨false, r.drop t⟩).toZ = _ from w3,
      abs_of_nonneg (by positivity)] at h5
    exact_mod_cast h5.symm
  have w1' : (SS.addAssign ⟨false, q⟩ ⟨false, r.drop t⟩).m.length = q.length := w1
  have w2' : Wf (SS.addAssign ⟨false, q⟩ ⟨false, r.drop t⟩).m := w2
  generalize (SS.addAssign ⟨false, q⟩ ⟨false, r.drop t⟩).m = Q at *
  have htk : (r.take t).length = t := by rw [List.length_take]; omega
  refine ⟨wf_append.2 ⟨hr.take t, w2'⟩, by rw [List.length_append, htk, w1'], ?_⟩
  rw [val_append, htk, w3', hv]; ring

theorem divBlocks_spec {A m2 : List Nat} (hA : Wf A) (h2 : TopSet m2) {M : Nat}
    (hM : A.length = M + m2.length) (f : Nat) : ∀ m buf q, m < f → m ≤ M → Wf buf → Wf q →
    buf.length = m + m2.length → q.length = M - m + 1 →
    val A = val q * B ^ m * val m2 + val buf →
    DivOk A m2 (divBlocks m2 f m buf q) ∧ (divBlocks m2 f m buf q).1.length = M + 1 ∧
      m2.length ≤ (divBlocks m2 f m buf q).2.length := by
  induction f with
  | zero => intro m buf q h; omega
  | succ f ih =>
    intro m buf q hmf hmM hb hq hbl hql hv
    unfold divBlocks
    dsimp only
    by_cases hmn : m > m2.length
    · rw [if_pos hmn]
      have hdl : (buf.drop (m - m2.length)).length = 2 * m2.length := by
        rw [List.length_drop, hbl]; omega
      obtain ⟨⟨r1, r2, r3, r4⟩, _, r6⟩ := divRec_spec (hb.drop (m - m2.length)) h2 (by omega)
      obtain ⟨r7, r8, r9⟩ := r6 (by omega)
      rw [hdl] at r7
      generalize divRec (buf.drop (m - m2.length)) m2 = r at *
      have hbv := val_take_drop buf (m - m2.length) (by omega)
      have htk : (buf.take (m - m2.length)).length = m - m2.length := by
        rw [List.length_take, hbl]; omega
      have hpm : B ^ m = B ^ (m - m2.length) * B ^ m2.length := by
        rw [← pow_add]; congr 1; omega
      have hv2 : val A = (val r.1 + B ^ m2.length * val q) * B ^ (m - m2.length) * val m2 +
          (val (buf.take (m - m2.length)) + B ^ (m - m2.length) * val r.2) := by
        rw [hv, hbv, r3, hpm]; ring
      have hlt := quot_lt hA h2 (by omega) hv2
      obtain ⟨j1, j2, j3⟩ := quotJoin (t := m2.length) hq r1 (by omega) (by
        refine Nat.lt_of_mul_lt_mul_right (a := B ^ (m - m2.length)) ?_
        refine hlt.trans_le (le_of_eq ?_)
        rw [← pow_add, ← pow_add]
        congr 1; omega)
      generalize r.1.take m2.length ++ (SS.addAssign ⟨false, q⟩ ⟨false, r.1.drop m2.length⟩).m = Q at *
      have hr2 : val (r.2.take m2.length) = val r.2 := by
        rw [val_take r2]
        exact Nat.mod_eq_of_lt (r4.trans (val_lt h2.1))
      have h2p := h2.2.1
      refine ih _ _ _ (by omega) (by omega) (wf_append.2 ⟨hb.take _, r2.take _⟩) j1 ?_ ?_ ?_
      · rw [List.length_append, htk, List.length_take]; omega
      · rw [j2, hql]; omega
      · rw [val_append, htk, hr2, j3]; exact hv2
    · rw [if_neg hmn]
      obtain ⟨⟨r1, r2, r3, r4⟩, _, r6⟩ := divRec_spec hb h2 (by omega)
      obtain ⟨r7, r8, r9⟩ := r6 (by omega)
      generalize divRec buf m2 = r at *
      have hv2 : val A = (val r.1 + B ^ m * val q) * val m2 + val r.2 := by
        rw [hv, r3]; ring
      have hlt := quot_lt hA h2 (by omega) hv2
      obtain ⟨j1, j2, j3⟩ := quotJoin (t := m) hq r1 (by omega) (by
        refine hlt.trans_le (le_of_eq ?_)
        rw [← pow_add]
        congr 1; omega)
      refine ⟨⟨j1, r2, ?_, r4⟩, ?_, r8⟩
      · dsimp only
        rw [j3]; exact hv2
      · dsimp only
        rw [j2, hql]; omega

/-- `div_unbalanced` returns the quotient and the remainder. -/
theorem divWords_spec {m1 m2 : List Nat} (h1 : Wf m1) (h2 : TopSet m2) :
    DivOk m1 m2 (divWords m1 m2) ∧ (m1.length < m2.length → divWords m1 m2 = ([0], m1)) ∧
      (m2.length ≤ m1.length → (divWords m1 m2).1.length = m1.length - m2.length + 1 ∧
        m2.length ≤ (divWords m1 m2).2.length) := by
  unfold divWords
  by_cases hs : m1.length < m2.length
  · rw [if_pos hs]
    exact ⟨divShort_spec h1 h2 hs, fun _ => rfl, fun h => by omega⟩
  rw [if_neg hs]
  dsimp only
  by_cases hm : m1.length - m2.length ≤ m2.length
  · rw [if_pos hm]
    obtain ⟨a, _, c⟩ := divRec_spec h1 h2 (by omega)
    exact ⟨a, fun h => absurd h hs, fun h => ⟨(c h).1, (c h).2.1⟩⟩
  rw [if_neg hm]
  by_cases hb : divBasicPrefer m2.length (m1.length - m2.length) = true
  · rw [if_pos hb]
    obtain ⟨a, b, c⟩ := divBasic_spec h1 h2.1 (by omega) h2.2.1 h2.top
    exact ⟨a, fun h => absurd h hs, fun _ => ⟨b, c.ge⟩⟩
  · rw [if_neg hb]
    obtain ⟨a, b, c⟩ := divBlocks_spec h1 h2 (M := m1.length - m2.length) (by omega)
      (m1.length - m2.length + 1) (m1.length - m2.length) m1 [0] (by omega) le_rfl h1
      (by intro x hx; simp at hx; subst hx; exact B_pos) (by omega) (by simp) (by simp [val])
    exact ⟨a, fun h => absurd h hs, fun _ => ⟨b, c⟩⟩

end AF
