import Verif.Lemmas.Words
import Verif.Model.Round
/-!
# `round_mantissa` without the roundability check rounds to a multiple of `2^n`
-/

namespace AF

/-- Should the magnitude `V / 2^n` be rounded away from zero? -/
def roundAway (rm : RM) (pos : Bool) (V n : Nat) : Bool :=
  match rm with
  | .none | .toZero => false
  | .fromZero => decide (V % 2 ^ n ≠ 0)
  | .up => pos && decide (V % 2 ^ n ≠ 0)
  | .down => !pos && decide (V % 2 ^ n ≠ 0)
  | .toEven => decide (2 ^ n < 2 * (V % 2 ^ n)) ||
      (decide (2 * (V % 2 ^ n) = 2 ^ n) && decide (V / 2 ^ n % 2 = 1))
  | .toOdd => decide (2 ^ n < 2 * (V % 2 ^ n)) ||
      (decide (2 * (V % 2 ^ n) = 2 ^ n) && decide (V / 2 ^ n % 2 = 0))

/-- The magnitude `V / 2^n` rounded to an integer. -/
def rndN (rm : RM) (pos : Bool) (V n : Nat) : Nat :=
  V / 2 ^ n + if roundAway rm pos V n then 1 else 0

theorem scanWords_false (td : Nat) (l : List Nat) (cc : Nat) (rz : Bool) :
    scanWords td l ⟨false, cc, rz⟩ = ⟨false, cc, rz && decide (val l = 0)⟩ := by
  induction l generalizing rz with
  | nil => simp [scanWords]
  | cons v vs ih =>
    have hB := B_pos
    unfold scanWords
    by_cases hv : v = 0
    · simp [hv, ih]
      by_cases h0 : val vs = 0
      · simp [h0]
      · have : ¬ B = 0 := by omega
        simp [h0, this]
    · simp [hv, ih]

theorem incWords_spec {l : List Nat} (hl : Wf l) :
    (incWords l).1.length = l.length ∧ Wf (incWords l).1 ∧
    ((incWords l).2 = false → val (incWords l).1 = val l + 1) ∧
    ((incWords l).2 = true → val l + 1 = B ^ l.length ∧ (incWords l).1 = List.replicate l.length 0) := by
  induction l with
  | nil => simp [incWords, Wf.nil]
  | cons v vs ih =>
    obtain ⟨hv, hvs⟩ := wf_cons.1 hl
    obtain ⟨h1, h2, h3, h4⟩ := ih hvs
    have hW := WMAX_eq
    have hB := one_lt_B
    unfold incWords
    split
    · refine ⟨by simp, Wf.cons (by omega) hvs, fun _ => by simp; omega, by simp⟩
    · rename_i h
      have hv2 : v = B - 1 := by omega
      dsimp only
      refine ⟨by simp [h1], Wf.cons B_pos h2, ?_, ?_⟩
      · intro h5
        rw [val_cons, val_cons, h3 h5, hv2, mul_add]; omega
      · intro h5
        obtain ⟨h6, h7⟩ := h4 h5
        refine ⟨?_, by rw [h7]; rfl⟩
        rw [val_cons, List.length_cons, pow_succ, ← h6, hv2, add_mul]
        have := mul_comm B (val vs)
        omega

theorem wd_append (a : List Nat) (w : Nat) (b : List Nat) : wd (a ++ w :: b) a.length = w := by
  simp [wd]

/-- Split a list at an index in range. -/
theorem split_at_wd (m : List Nat) {i : Nat} (hi : i < m.length) :
    m = m.take i ++ wd m i :: m.drop (i + 1) := by
  have h1 : m.drop i = wd m i :: m.drop (i + 1) := by
    rw [List.drop_eq_getElem_cons hi]; simp [wd, hi]
  conv_lhs => rw [← List.take_append_drop i m, h1]

theorem wd_lt {m : List Nat} (hm : Wf m) {i : Nat} (hi : i < m.length) : wd m i < B := by
  apply hm; rw [wd, List.getD_eq_getElem _ _ hi]; exact List.getElem_mem hi

theorem val_split {m : List Nat} {i : Nat} (hi : i < m.length) :
    val m = val (m.take i) + B ^ i * (wd m i + B * val (m.drop (i + 1))) := by
  conv_lhs => rw [split_at_wd m hi]
  rw [val_append, List.length_take, min_eq_left (by omega), val_cons]

/-- Quotient and remainder of a value by a power of two, read off the words. -/
theorem val_div_mod {m : List Nat} (hm : Wf m) {i t : Nat} (hi : i < m.length) (ht : t ≤ 64) :
    val m / 2 ^ (64 * i + t) = wd m i / 2 ^ t + 2 ^ (64 - t) * val (m.drop (i + 1)) ∧
    val m % 2 ^ (64 * i + t) = val (m.take i) + B ^ i * (wd m i % 2 ^ t) := by
  have hlo := val_lt (hm.take i)
  rw [List.length_take, min_eq_left (by omega)] at hlo
  have hB : B = 2 ^ t * 2 ^ (64 - t) := by rw [← pow_add, B_eq]; congr 1; omega
  rw [val_split hi, pow_add, ← B_pow]
  constructor
  · rw [← Nat.div_div_eq_div_mul, Nat.add_mul_div_left _ _ (B_pow_pos i), Nat.div_eq_of_lt hlo, zero_add]
    conv_lhs => rw [hB]
    rw [mul_assoc, Nat.add_mul_div_left _ _ (by positivity)]
  · rw [Nat.mod_mul, Nat.add_mul_mod_self_left, Nat.mod_eq_of_lt hlo,
      Nat.add_mul_div_left _ _ (B_pow_pos i), Nat.div_eq_of_lt hlo, zero_add]
    rw [show wd m i + B * val (m.drop (i + 1)) = wd m i + 2 ^ t * (2 ^ (64 - t) * val (m.drop (i + 1))) by
      rw [← mul_assoc, ← hB], Nat.add_mul_mod_self_left]

theorem wd_bit {m : List Nat} (hm : Wf m) {i t : Nat} (hi : i < m.length) (ht : t < 64) :
    (wd m i >>> t) &&& 1 = val m / 2 ^ (64 * i + t) % 2 := by
  rw [(val_div_mod hm hi (le_of_lt ht)).1, Nat.and_one_is_mod, Nat.shiftRight_eq_div_pow]
  have : 2 ^ (64 - t) = 2 * 2 ^ (63 - t) := by
    rw [← pow_succ']; congr 1; omega
  rw [this, mul_assoc, Nat.add_mul_mod_self_left]

theorem roundTail_false {i t w : Nat} {hi : List Nat} (hw : w < B) (hwf : Wf hi) (ht : t ≤ 64) :
    let m := List.replicate i 0 ++ w :: hi
    let r := roundTail m false i t
    r.2 = false ∧ val r.1 = val m / 2 ^ (64 * i + t) * 2 ^ (64 * i + t) ∧
      r.1.length = m.length ∧ Wf r.1 := by
  intro m r
  have hm : Wf m := wf_append.2 ⟨wf_zeros _, Wf.cons hw hwf⟩
  have hil : i < m.length := by simp [m]
  have hwd : wd m i = w := by have := wd_append (List.replicate i 0) w hi; simpa [m] using this
  have hr : r = (List.replicate i 0 ++ (if t ≥ 64 then 0 else ((w >>> t) <<< t) % B) :: hi, false) := by
    simp only [r, roundTail, hwd]
    rw [if_neg (by simp)]
    congr 1
    simp only [m]
    rw [List.set_append_right _ _ (by simp)]
    simp
  have hx : (if t ≥ 64 then 0 else ((w >>> t) <<< t) % B) = w / 2 ^ t * 2 ^ t := by
    split
    · have h64 : t = 64 := by omega
      rw [h64, ← B_eq, Nat.div_eq_of_lt hw, zero_mul]
    · rw [Nat.shiftLeft_eq, Nat.shiftRight_eq_div_pow, Nat.mod_eq_of_lt]
      exact lt_of_le_of_lt (Nat.div_mul_le_self _ _) hw
  have hdm := (val_div_mod hm hil ht).1
  rw [hr]
  refine ⟨rfl, ?_, by simp [m], ?_⟩
  · rw [hdm, hwd]
    have hdrop : m.drop (i + 1) = hi := by
      simp only [m]; rw [List.drop_append]; simp
    rw [hdrop]
    dsimp only
    rw [hx, val_zeros_append, val_cons, pow_add, ← B_pow]
    have hB : B = 2 ^ t * 2 ^ (64 - t) := by rw [← pow_add, B_eq]; congr 1; omega
    calc B ^ i * (w / 2 ^ t * 2 ^ t + B * val hi)
        = B ^ i * (w / 2 ^ t * 2 ^ t + (2 ^ t * 2 ^ (64 - t)) * val hi) := by rw [← hB]
      _ = _ := by ring
  · refine wf_append.2 ⟨wf_zeros _, Wf.cons ?_ hwf⟩
    rw [hx]; exact lt_of_le_of_lt (Nat.div_mul_le_self _ _) hw

theorem roundTail_true {i t w : Nat} {hi : List Nat} (hw : w < B) (hwf : Wf hi) (ht : t < 64) :
    let m := List.replicate i 0 ++ w :: hi
    let r := roundTail m true i t
    let k := (val m / 2 ^ (64 * i + t) + 1) * 2 ^ (64 * i + t)
    (k < 2 ^ (64 * m.length) → r.2 = false ∧ val r.1 = k) ∧
    (2 ^ (64 * m.length) ≤ k → r.2 = true ∧ val r.1 = 2 ^ (64 * m.length - 1)) ∧
      r.1.length = m.length ∧ Wf r.1 := by
  intro m r k
  have hm : Wf m := wf_append.2 ⟨wf_zeros _, Wf.cons hw hwf⟩
  have hil : i < m.length := by simp [m]
  have hwd : wd m i = w := by have := wd_append (List.replicate i 0) w hi; simpa [m] using this
  have hdrop : m.drop (i + 1) = hi := by simp only [m]; rw [List.drop_append]; simp
  have hdm := (val_div_mod hm hil (le_of_lt ht)).1
  rw [hwd, hdrop] at hdm
  have hB : B = 2 ^ t * 2 ^ (64 - t) := by rw [← pow_add, B_eq]; congr 1; omega
  have hBt : B >>> t = 2 ^ (64 - t) := by
    rw [Nat.shiftRight_eq_div_pow, hB, Nat.mul_div_cancel_left _ (by positivity)]
  have hml : m.length = i + 1 + hi.length := by simp [m]; omega
  have hk : k = B ^ i * ((w / 2 ^ t + 1) * 2 ^ t + B * val hi) := by
    simp only [k]
    rw [hdm, pow_add, ← B_pow]
    calc (w / 2 ^ t + 2 ^ (64 - t) * val hi + 1) * (B ^ i * 2 ^ t)
        = B ^ i * ((w / 2 ^ t + 1) * 2 ^ t + (2 ^ t * 2 ^ (64 - t)) * val hi) := by ring
      _ = _ := by rw [← hB]
  have hhi := val_lt hwf
  by_cases hc : (w >>> t) + 1 < B >>> t
  · have hc2 : w / 2 ^ t + 1 < 2 ^ (64 - t) := by rwa [hBt, Nat.shiftRight_eq_div_pow] at hc
    have hlt : (w / 2 ^ t + 1) * 2 ^ t < B := by
      calc (w / 2 ^ t + 1) * 2 ^ t < 2 ^ (64 - t) * 2 ^ t := Nat.mul_lt_mul_of_pos_right hc2 (by positivity)
        _ = B := by rw [hB]; ring
    have hr : r = (List.replicate i 0 ++ ((w / 2 ^ t + 1) * 2 ^ t) :: hi, false) := by
      simp only [r, roundTail, hwd]
      rw [if_pos trivial, if_pos ⟨hil, hc⟩]
      congr 1
      rw [Nat.shiftLeft_eq, Nat.shiftRight_eq_div_pow, Nat.mod_eq_of_lt hlt]
      simp only [m]
      rw [List.set_append_right _ _ (by simp)]
      simp
    have hwf2 : Wf (List.replicate i 0 ++ ((w / 2 ^ t + 1) * 2 ^ t) :: hi) :=
      wf_append.2 ⟨wf_zeros _, Wf.cons hlt hwf⟩
    have hv : val r.1 = k := by rw [hr, hk]; dsimp only; rw [val_zeros_append, val_cons]
    have hkl : k < 2 ^ (64 * m.length) := by
      rw [← hv]
      have := val_lt_two_pow (m := r.1) (by rw [hr]; exact hwf2)
      rwa [show r.1.length = m.length by rw [hr]; simp [m]] at this
    refine ⟨fun _ => ⟨by rw [hr], hv⟩, fun h => absurd hkl (not_lt.2 h), by rw [hr]; simp [m], by rw [hr]; exact hwf2⟩
  · have hc2 : w / 2 ^ t + 1 = 2 ^ (64 - t) := by
      rw [hBt, Nat.shiftRight_eq_div_pow] at hc
      have : w / 2 ^ t < 2 ^ (64 - t) := by
        apply Nat.div_lt_of_lt_mul; rw [← hB]; exact hw
      omega
    have hk2 : k = B ^ (i + 1) * (val hi + 1) := by
      rw [hk, hc2]
      calc B ^ i * (2 ^ (64 - t) * 2 ^ t + B * val hi)
          = B ^ i * ((2 ^ t * 2 ^ (64 - t)) + B * val hi) := by ring
        _ = B ^ i * (B + B * val hi) := by rw [← hB]
        _ = _ := by rw [pow_succ]; ring
    have hset : m.set i 0 = List.replicate (i + 1) 0 ++ hi := by
      simp only [m]
      rw [List.set_append_right _ _ (by simp)]
      simp [List.replicate_succ']
    obtain ⟨h1, h2, h3, h4⟩ := incWords_spec hwf
    have hd2 : (List.replicate (i + 1) 0 ++ hi).drop (i + 1) = hi := by
      rw [List.drop_append]; simp
    have ht2 : (List.replicate (i + 1) 0 ++ hi).take (i + 1) = List.replicate (i + 1) 0 := by
      rw [List.take_append]; simp
    have hr : r = (if (incWords hi).2 then
        ((List.replicate (i + 1) 0 ++ (incWords hi).1).set (m.length - 1) MSB, true)
        else (List.replicate (i + 1) 0 ++ (incWords hi).1, false)) := by
      simp only [r, roundTail]
      rw [if_pos trivial, hwd, if_neg (by rintro ⟨_, h⟩; exact hc h), hset, hd2, ht2]
    have hlt2 : (2:Nat) ^ (64 * m.length) = B ^ (i + 1) * B ^ hi.length := by
      rw [← B_pow, hml, pow_add]
    cases hov : (incWords hi).2 with
    | false =>
      rw [hov] at hr
      simp only [Bool.false_eq_true, if_false] at hr
      have hv := h3 hov
      have hwf2 : Wf (List.replicate (i + 1) 0 ++ (incWords hi).1) := wf_append.2 ⟨wf_zeros _, h2⟩
      have hvr : val r.1 = k := by rw [hr, hk2]; dsimp only; rw [val_zeros_append, hv]
      have hkl : k < 2 ^ (64 * m.length) := by
        rw [← hvr]
        have := val_lt_two_pow (m := r.1) (by rw [hr]; exact hwf2)
        rwa [show r.1.length = m.length by rw [hr, hml]; simp [h1]] at this
      refine ⟨fun _ => ⟨by rw [hr], hvr⟩, fun h => absurd hkl (not_lt.2 h), by rw [hr, hml]; simp [h1],
        by rw [hr]; exact hwf2⟩
    | true =>
      rw [hov] at hr
      simp only [if_true] at hr
      obtain ⟨h5, h6⟩ := h4 hov
      have hke : k = 2 ^ (64 * m.length) := by rw [hk2, h5, hlt2]
      have hrl : r.1 = List.replicate (m.length - 1) 0 ++ [MSB] := by
        rw [hr, h6]
        dsimp only
        rw [← List.replicate_add, show i + 1 + hi.length = (m.length - 1) + 1 by omega,
          List.replicate_succ', List.set_append_right _ _ (by simp)]
        simp
      refine ⟨fun h => absurd h (by rw [hke]; exact lt_irrefl _), fun _ => ⟨by rw [hr], ?_⟩, ?_, ?_⟩
      · rw [hrl, val_zeros_append, val_cons, val_nil, mul_zero, add_zero, B_pow, MSB_eq, ← pow_add]
        congr 1; omega
      · rw [hrl]; simp; omega
      · rw [hrl]
        refine wf_append.2 ⟨wf_zeros _, Wf.cons ?_ Wf.nil⟩
        rw [MSB_eq, B_eq]; norm_num

theorem roundPrep_false (m : List Nat) (i t cc : Nat) (ht : t < 64) :
    roundPrep m i t cc false = (⟨false, cc, decide (wd m i % 2 ^ t = 0)⟩, 0, i) := by
  unfold roundPrep
  split
  · rename_i h
    dsimp only
    have hrb : (wd m i <<< (64 - t)) % B = 0 ↔ wd m i % 2 ^ t = 0 := by
      rw [shl_mod _ _ (by omega), show 64 - (64 - t) = t by omega]
      simp
    split
    · rename_i h2
      rw [ne_eq, hrb] at h2
      simp [h2]
    · rename_i h2
      rw [ne_eq, not_not, hrb] at h2
      simp [h2]
  · have h0 : t = 0 := by omega
    simp [h0, Nat.mod_one]

theorem rem_zero_iff {m : List Nat} (hm : Wf m) {i t : Nat} (hi : i < m.length) (ht : t ≤ 64) :
    val m % 2 ^ (64 * i + t) = 0 ↔ wd m i % 2 ^ t = 0 ∧ val (m.take i) = 0 := by
  rw [(val_div_mod hm hi ht).2]
  have := B_pow_pos i
  constructor
  · intro h
    have h1 : val (m.take i) = 0 := by omega
    have h2 : B ^ i * (wd m i % 2 ^ t) = 0 := by omega
    rcases Nat.mul_eq_zero.1 h2 with h3 | h3
    · omega
    · exact ⟨h3, h1⟩
  · rintro ⟨h1, h2⟩; rw [h1, h2]; simp

theorem zeroed_val {m : List Nat} (hm : Wf m) {i t : Nat} (hi : i < m.length) (ht : t ≤ 64) :
    val (List.replicate i 0 ++ wd m i :: m.drop (i + 1)) / 2 ^ (64 * i + t) =
      val m / 2 ^ (64 * i + t) := by
  have hwf2 : Wf (List.replicate i 0 ++ wd m i :: m.drop (i + 1)) :=
    wf_append.2 ⟨wf_zeros _, Wf.cons (wd_lt hm hi) (hm.drop _)⟩
  rw [(val_div_mod hm hi ht).1, (val_div_mod hwf2 (by simp) ht).1]
  have h1 : wd (List.replicate i 0 ++ wd m i :: m.drop (i + 1)) i = wd m i := by
    have := wd_append (List.replicate i 0) (wd m i) (m.drop (i + 1)); simpa using this
  have h2 : (List.replicate i 0 ++ wd m i :: m.drop (i + 1)).drop (i + 1) = m.drop (i + 1) := by
    rw [List.drop_append]; simp
  rw [h1, h2]

/-- The contract of the rounding of `m` to a multiple of `2^n`. -/
def RoundOk (m : List Nat) (n k : Nat) (r : List Nat) (ret : Bool) : Prop :=
  r.length = m.length ∧ Wf r ∧
  (k * 2 ^ n < 2 ^ (64 * m.length) → ret = false ∧ val r = k * 2 ^ n) ∧
  (2 ^ (64 * m.length) ≤ k * 2 ^ n → ret = true ∧ val r = 2 ^ (64 * m.length - 1))

theorem roundTail_ok {m : List Nat} (hm : Wf m) {i t : Nat} (hi : i < m.length) (ht : t ≤ 64)
    (c : Bool) (hc : c = true → t < 64) :
    RoundOk m (64 * i + t) (val m / 2 ^ (64 * i + t) + if c then 1 else 0)
      (roundTail (List.replicate i 0 ++ m.drop i) c i t).1
      (roundTail (List.replicate i 0 ++ m.drop i) c i t).2 := by
  have hd : m.drop i = wd m i :: m.drop (i + 1) := by
    rw [List.drop_eq_getElem_cons hi]; simp [wd, hi]
  rw [hd, ← zeroed_val hm hi ht]
  have hlen : (List.replicate i 0 ++ wd m i :: m.drop (i + 1)).length = m.length := by
    simp; omega
  unfold RoundOk
  rw [← hlen]
  cases c with
  | false =>
    obtain ⟨h1, h2, h3, h4⟩ := roundTail_false (i := i) (wd_lt hm hi) (hm.drop (i + 1)) ht
    refine ⟨h3, h4, fun _ => ⟨h1, ?_⟩, fun h => ?_⟩
    · rw [h2]; simp
    · exfalso
      have := val_lt_two_pow h4
      rw [h3, h2] at this
      simp only [Bool.false_eq_true, if_false, add_zero] at h
      omega
  | true =>
    obtain ⟨h1, h2, h3, h4⟩ := roundTail_true (i := i) (wd_lt hm hi) (hm.drop (i + 1)) (hc rfl)
    exact ⟨h3, h4, h1, h2⟩

theorem roundDirected_spec {m : List Nat} (hm : Wf m) {n : Nat} (hn : n < 64 * m.length)
    {rm : RM} (h1 : rm ≠ .none) (h2 : rm ≠ .toEven) (h3 : rm ≠ .toOdd) (pos : Bool) (cc : Nat)
    (ix : Bool) :
    let R := roundDirected m n rm pos false cc ix
    R.check = false ∧ R.inexact = (ix || decide (val m % 2 ^ n ≠ 0)) ∧
      RoundOk m n (rndN rm pos (val m) n) R.m R.ret := by
  intro R
  have hi : n / 64 < m.length := by omega
  have hnn : 64 * (n / 64) + n % 64 = n := by omega
  have hrz : (decide (wd m (n / 64) % 2 ^ (n % 64) = 0) && decide (val (m.take (n / 64)).reverse = 0))
      = decide (val m % 2 ^ n = 0) := by
    rw [← Bool.decide_and, decide_eq_decide]
    have := rem_zero_iff hm (t := n % 64) hi (by omega)
    rw [hnn] at this
    rw [this]
    have hv : val (m.take (n / 64)).reverse = 0 ↔ val (m.take (n / 64)) = 0 := by
      rw [val_eq_zero_iff, val_eq_zero_iff]; simp
    rw [hv]
  have hR : R = roundDirected m n rm pos false cc ix := rfl
  unfold roundDirected at hR
  simp only [roundPrep_false m _ _ cc (show n % 64 < 64 by omega), scanWords_false, hrz,
    Bool.false_eq_true, if_false] at hR
  rw [hR]
  refine ⟨rfl, by simp, ?_⟩
  have key := roundTail_ok hm hi (t := n % 64) (by omega) (roundAway rm pos (val m) n) (by intro; omega)
  rw [hnn] at key
  have hc : directedAdd rm pos (decide (val m % 2 ^ n = 0)) = roundAway rm pos (val m) n := by
    unfold directedAdd roundAway
    cases rm <;> first | exact absurd rfl h1 | exact absurd rfl h2 | exact absurd rfl h3 | simp [Bool.and_comm]
  dsimp only
  rw [hc]
  exact key

theorem roundNearest_spec {m : List Nat} (hm : Wf m) {n : Nat} (hn0 : 0 < n)
    (hn : n < 64 * m.length) {rm : RM} (hrm : rm = .toEven ∨ rm = .toOdd) (pos : Bool) (cc : Nat)
    (ix : Bool) :
    let R := roundNearest m n rm false cc ix
    R.check = false ∧ R.inexact = (ix || decide (val m % 2 ^ n ≠ 0)) ∧
      RoundOk m n (rndN rm pos (val m) n) R.m R.ret := by
  intro R
  set i := (n - 1) / 64 with hidef
  set t := (n - 1) % 64 with htdef
  have hi : i < m.length := by omega
  have ht : t < 64 := by omega
  have hnn : 64 * i + t = n - 1 := by omega
  have hip : n / 64 < m.length := by omega
  have hnn2 : 64 * (n / 64) + n % 64 = n := by omega
  -- decomposition of the discarded part
  have hpow : 2 ^ n = 2 ^ (n - 1) * 2 := by rw [← pow_succ]; congr 1; omega
  have hmodn : val m % 2 ^ n = val m % 2 ^ (n - 1) + 2 ^ (n - 1) * (val m / 2 ^ (n - 1) % 2) := by
    rw [hpow, Nat.mod_mul]
  have hnum : (wd m i >>> t) &&& 1 = val m / 2 ^ (n - 1) % 2 := by rw [wd_bit hm hi ht, hnn]
  have hnump : (if n / 64 < m.length then (wd m (n / 64) >>> (n % 64)) &&& 1 else 0) =
      val m / 2 ^ n % 2 := by
    rw [if_pos hip, wd_bit hm hip (by omega), hnn2]
  have hrz : (decide (wd m i % 2 ^ t = 0) && decide (val (m.take i) = 0))
      = decide (val m % 2 ^ (n - 1) = 0) := by
    rw [← Bool.decide_and, decide_eq_decide]
    have := rem_zero_iff hm hi (le_of_lt ht)
    rw [hnn] at this
    rw [this]
  have hnn1 : n - 1 + 1 = n := by omega
  have hR : R = roundNearest m n rm false cc ix := rfl
  unfold roundNearest at hR
  simp only [← hidef, ← htdef, hnn1] at hR
  simp only [roundPrep_false m _ _ cc ht, scanWords_false, hrz, hnum, hnump,
    Bool.false_eq_true, if_false] at hR
  have hlt1 : val m % 2 ^ (n - 1) < 2 ^ (n - 1) := Nat.mod_lt _ (by positivity)
  have hpos1 : 0 < 2 ^ (n - 1) := by positivity
  have hc : nearestAdd rm
      (decide (val m / 2 ^ (n - 1) % 2 = 1) && !decide (val m % 2 ^ (n - 1) = 0))
      (decide (val m / 2 ^ (n - 1) % 2 = 1) && decide (val m % 2 ^ (n - 1) = 0))
      (val m / 2 ^ n % 2) = roundAway rm pos (val m) n := by
    have hgt : (decide (val m / 2 ^ (n - 1) % 2 = 1) && !decide (val m % 2 ^ (n - 1) = 0)) =
        decide (2 ^ n < 2 * (val m % 2 ^ n)) := by
      rw [← decide_not, ← Bool.decide_and, decide_eq_decide, hmodn, hpow]
      rcases Nat.mod_two_eq_zero_or_one (val m / 2 ^ (n - 1)) with h | h <;> rw [h] <;> omega
    have heq : (decide (val m / 2 ^ (n - 1) % 2 = 1) && decide (val m % 2 ^ (n - 1) = 0)) =
        decide (2 * (val m % 2 ^ n) = 2 ^ n) := by
      rw [← Bool.decide_and, decide_eq_decide, hmodn, hpow]
      rcases Nat.mod_two_eq_zero_or_one (val m / 2 ^ (n - 1)) with h | h <;> rw [h] <;> omega
    rw [hgt, heq]
    rcases hrm with rfl | rfl
    · simp only [roundAway, nearestAdd]
      congr 2
      rw [decide_eq_decide]; omega
    · simp only [roundAway, nearestAdd]
  rw [hc] at hR
  have hix : (ix || !decide (val m % 2 ^ (n - 1) = 0) || decide (val m / 2 ^ (n - 1) % 2 = 1)) =
      (ix || decide (val m % 2 ^ n ≠ 0)) := by
    rw [Bool.or_assoc]
    congr 1
    rw [← decide_not, ← Bool.decide_or, decide_eq_decide, hmodn]
    rcases Nat.mod_two_eq_zero_or_one (val m / 2 ^ (n - 1)) with h | h <;> rw [h] <;> omega
  rw [hix] at hR
  rw [hR]
  refine ⟨rfl, rfl, ?_⟩
  dsimp only
  unfold rndN
  cases hca : roundAway rm pos (val m) n with
  | false =>
    simp only [Bool.false_eq_true, if_false]
    have key := roundTail_ok hm hi (t := t + 1) (by omega) false (by simp)
    rw [show 64 * i + (t + 1) = n by omega] at key
    simpa using key
  | true =>
    simp only [if_true]
    have key := roundTail_ok hm hip (t := n % 64) (by omega) true (by intro; omega)
    rw [hnn2] at key
    have hm1 : (if n / 64 > i then (List.replicate i 0 ++ m.drop i).set i 0
        else List.replicate i 0 ++ m.drop i) = List.replicate (n / 64) 0 ++ m.drop (n / 64) := by
      split
      · have hni : n / 64 = i + 1 := by omega
        rw [hni, List.set_append_right _ _ (by simp)]
        rw [List.length_replicate, Nat.sub_self, List.drop_eq_getElem_cons hi, List.set_cons_zero]
        simp [List.replicate_succ']
      · have hni : n / 64 = i := by omega
        rw [hni]
    rw [hm1]
    simpa using key

/-- `round_mantissa` with `check_roundable = false` and a rounding mode: the words become the
multiple of `2^n` given by `rndN`, renormalised to the top half when it overflows. -/
theorem roundMantissa_spec {m : List Nat} (hm : Wf m) {n : Nat} (hn0 : 0 < n)
    (hn : n < 64 * m.length) {rm : RM} (hrm : rm ≠ .none) (pos : Bool) (s : Nat) (ix : Bool) :
    let R := roundMantissa m n rm pos false s ix
    R.check = false ∧ R.inexact = (ix || decide (val m % 2 ^ n ≠ 0)) ∧
      RoundOk m n (rndN rm pos (val m) n) R.m R.ret := by
  intro R
  have hR : R = roundMantissa m n rm pos false s ix := rfl
  unfold roundMantissa at hR
  simp only [if_neg hrm] at hR
  rw [if_pos ⟨hn0, by omega⟩] at hR
  by_cases h : rm = .toEven ∨ rm = .toOdd
  · rw [if_pos h] at hR
    rw [hR]; exact roundNearest_spec hm hn0 hn h pos _ ix
  · rw [if_neg h] at hR
    rw [hR]
    exact roundDirected_spec hm hn hrm (fun h2 => h (Or.inl h2)) (fun h2 => h (Or.inr h2)) pos _ ix

theorem roundMantissa_none {m : List Nat} (hm : Wf m) {n : Nat} (hn0 : 0 < n)
    (hn : n < 64 * m.length) (pos c : Bool) (s : Nat) (ix : Bool) :
    roundMantissa m n .none pos c s ix =
      { m, ret := false, check := false, inexact := ix || decide (val m % 2 ^ n ≠ 0) } := by
  unfold roundMantissa
  dsimp only
  rw [if_pos rfl]
  congr 1
  cases ix with
  | true => simp
  | false =>
    simp only [Bool.not_false, Bool.true_and, Bool.false_or]
    rw [if_pos (by simp; omega)]
    have := findOneFrom_none hm (m.length * 64 - n)
    rw [show 64 * m.length - (m.length * 64 - n) = n by omega] at this
    by_cases h : val m % 2 ^ n = 0
    · rw [this.2 h]; simp [h]
    · have h2 : findOneFrom m (m.length * 64 - n) ≠ none := fun hc => h (this.1 hc)
      cases hh : findOneFrom m (m.length * 64 - n) with
      | none => exact absurd hh h2
      | some x => simp [h]

end AF
