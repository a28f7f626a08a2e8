import Verif.Model.Div
import Verif.Lemmas.Mul
import Verif.Lemmas.Round
/-!
# Schoolbook division of words (`div_basic`)
-/

namespace AF

/-- A division result: quotient and remainder of the values. -/
def DivOk (a b : List Nat) (r : List Nat × List Nat) : Prop :=
  Wf r.1 ∧ Wf r.2 ∧ val a = val r.1 * val b + val r.2 ∧ val r.2 < val b

theorem DivOk.quot {a b : List Nat} {r : List Nat × List Nat} (h : DivOk a b r) :
    val r.1 = val a / val b := by
  obtain ⟨_, _, h3, h4⟩ := h
  have hb : 0 < val b := by omega
  rw [h3, Nat.mul_comm, Nat.mul_add_div hb, Nat.div_eq_of_lt h4, Nat.add_zero]

theorem DivOk.rem {a b : List Nat} {r : List Nat × List Nat} (h : DivOk a b r) :
    val r.2 = val a % val b := by
  obtain ⟨_, _, h3, h4⟩ := h
  rw [h3, Nat.mul_comm, Nat.mul_add_mod, Nat.mod_eq_of_lt h4]

theorem mulByWord_spec (d : Nat) (hd : d ≤ B) (k : Nat) (m : List Nat) (hm : Wf m) (hk : k / B < B) :
    (mulByWord d k m).length = m.length + 1 ∧ Wf (mulByWord d k m) ∧
      val (mulByWord d k m) = val m * d + k / B := by
  induction m generalizing k with
  | nil =>
    simp only [mulByWord]
    rw [Nat.mod_eq_of_lt hk]
    exact ⟨rfl, Wf.cons hk Wf.nil, by simp⟩
  | cons x xs ih =>
    rw [wf_cons] at hm
    have hx : (x * d + k / B) / B < B := by
      rw [Nat.div_lt_iff_lt_mul B_pos]
      have : (x + 1) * d ≤ B * B := Nat.mul_le_mul hm.1 hd
      have h2 : (x + 1) * d = x * d + d := by ring
      rcases Nat.lt_or_ge (k / B) d with h | h
      · omega
      · have : x * d ≤ (B - 1) * B := Nat.mul_le_mul (by omega) hd
        have h3 : (B - 1) * B + B = B * B := by
          rw [← Nat.succ_mul]; congr 1
        omega
    obtain ⟨i1, i2, i3⟩ := ih (x * d + k / B) hm.2 hx
    simp only [mulByWord, List.length_cons, val_cons]
    refine ⟨by rw [i1], Wf.cons (Nat.mod_lt _ B_pos) i2, ?_⟩
    rw [i3]
    have := Nat.div_add_mod (x * d + k / B) B
    calc (x * d + k / B) % B + B * (val xs * d + (x * d + k / B) / B)
        = B * ((x * d + k / B) / B) + (x * d + k / B) % B + B * val xs * d := by ring
      _ = x * d + k / B + B * val xs * d := by rw [this]
      _ = _ := by ring

theorem divSingle_spec {m : List Nat} (hm : Wf m) {d : Nat} (hd0 : 0 < d) (hd : d ≤ B) :
    (divSingle m d).1.length = m.length ∧ Wf (divSingle m d).1 ∧ (divSingle m d).2 < d ∧
      val m = val (divSingle m d).1 * d + (divSingle m d).2 := by
  obtain ⟨h1, h2, h3, h4⟩ := divWordLoop_spec d hd0 hd 0 hd0 m.reverse (wf_reverse.2 hm)
  unfold divSingle
  dsimp only
  rw [List.length_reverse, h1, List.length_reverse, wf_reverse]
  rw [List.reverse_reverse] at h4
  exact ⟨rfl, h2, h3, by rw [Nat.mul_comm, ← h4]; ring⟩

theorem mulSubLoop_spec (qh : Nat) (k c : Nat) (a b : List Nat) (ha : Wf a) (hb : Wf b)
    (hl : a.length = b.length) (hc : c ≤ 1) :
    (mulSubLoop qh k c a b).1.length = a.length ∧ Wf (mulSubLoop qh k c a b).1 ∧
      (mulSubLoop qh k c a b).2 ≤ 1 ∧
      ∃ ko, B ^ a.length * ko ≤ val a * qh + k / B ∧
        val b + B ^ a.length * ((mulSubLoop qh k c a b).2 + ko) =
          val (mulSubLoop qh k c a b).1 + val a * qh + k / B + c := by
  induction a generalizing k c b with
  | nil =>
    have : b = [] := List.length_eq_zero_iff.1 hl.symm
    subst this
    simp only [mulSubLoop]
    exact ⟨by simp, Wf.nil, hc, k / B, by simp, by simp; omega⟩
  | cons x xs ih =>
    match b, hb, hl with
    | y :: ys, hb, hl =>
      rw [wf_cons] at ha hb
      set k' := x * qh + k / B with hk'
      have hm := Nat.mod_lt k' B_pos
      have hdm := Nat.div_add_mod k' B
      simp only [mulSubLoop]
      rw [← hk']
      by_cases h : y < k' % B + c
      · obtain ⟨i1, i2, i3, ko, i4, i5⟩ := ih k' 1 ys ha.2 hb.2 (by simpa using hl) le_rfl
        rw [if_pos h]
        dsimp only
        refine ⟨by simp [i1], Wf.cons (by omega) i2, i3, ko, ?_, ?_⟩
        · rw [List.length_cons, pow_succ, val_cons]
          calc B ^ xs.length * B * ko = B * (B ^ xs.length * ko) := by ring
            _ ≤ B * (val xs * qh + k' / B) := Nat.mul_le_mul_left _ i4
            _ ≤ B * (val xs * qh) + k' := by rw [Nat.mul_add]; omega
            _ = _ := by rw [hk']; ring
        · rw [List.length_cons, pow_succ, val_cons, val_cons, val_cons]
          have hr : B ^ xs.length * B * ((mulSubLoop qh k' 1 xs ys).2 + ko)
              = B * (B ^ xs.length * ((mulSubLoop qh k' 1 xs ys).2 + ko)) := by ring
          rw [hr]
          have i6 := congrArg (B * ·) i5
          simp only [Nat.mul_add] at i6 ⊢
          have e : (x + B * val xs) * qh = x * qh + B * (val xs * qh) := by ring
          rw [e]
          generalize B * (val xs * qh) = T at *
          generalize x * qh = U at *
          generalize B * val ys = V at *
          generalize B * val (mulSubLoop qh k' 1 xs ys).1 = Z at *
          generalize B * (k' / B) = R at *
          generalize B * (B ^ xs.length * (mulSubLoop qh k' 1 xs ys).2) = S at *
          generalize B * (B ^ xs.length * ko) = Q at *
          omega
      · obtain ⟨i1, i2, i3, ko, i4, i5⟩ := ih k' 0 ys ha.2 hb.2 (by simpa using hl) (Nat.zero_le 1)
        rw [if_neg h]
        dsimp only
        refine ⟨by simp [i1], Wf.cons (by omega) i2, i3, ko, ?_, ?_⟩
        · rw [List.length_cons, pow_succ, val_cons]
          calc B ^ xs.length * B * ko = B * (B ^ xs.length * ko) := by ring
            _ ≤ B * (val xs * qh + k' / B) := Nat.mul_le_mul_left _ i4
            _ ≤ B * (val xs * qh) + k' := by rw [Nat.mul_add]; omega
            _ = _ := by rw [hk']; ring
        · rw [List.length_cons, pow_succ, val_cons, val_cons, val_cons]
          have hr : B ^ xs.length * B * ((mulSubLoop qh k' 0 xs ys).2 + ko)
              = B * (B ^ xs.length * ((mulSubLoop qh k' 0 xs ys).2 + ko)) := by ring
          rw [hr]
          have i6 := congrArg (B * ·) i5
          simp only [Nat.mul_add] at i6 ⊢
          have e : (x + B * val xs) * qh = x * qh + B * (val xs * qh) := by ring
          rw [e]
          generalize B * (val xs * qh) = T at *
          generalize x * qh = U at *
          generalize B * val ys = V at *
          generalize B * val (mulSubLoop qh k' 0 xs ys).1 = Z at *
          generalize B * (k' / B) = R at *
          generalize B * (B ^ xs.length * (mulSubLoop qh k' 0 xs ys).2) = S at *
          generalize B * (B ^ xs.length * ko) = Q at *
          omega

/-- The estimate of the digit never undershoots and its product with the two top words of the
divisor does not exceed the three top words of the window. -/
theorem qhat_spec {v1 v2 b12 b11 b10 q : Nat} (h1 : B ≤ 2 * v1) (hv2 : v2 < B) (h11 : b11 < B)
    (h12 : b12 ≤ v1) (hq : q < B)
    (hle : q * (v1 * B + v2) ≤ (b12 * B + b11) * B + b10) (h10 : b10 < B) :
    q ≤ qhat v1 v2 b12 b11 b10 ∧ qhat v1 v2 b12 b11 b10 ≤ B ∧
      qhat v1 v2 b12 b11 b10 * (v1 * B + v2) ≤ (b12 * B + b11) * B + b10 := by
  have hv0 : 0 < v1 := by have := B_pos; omega
  have hB := B_pos
  set N := b12 * B + b11 with hN
  have hdm := Nat.div_add_mod N v1
  have hml := Nat.mod_lt N hv0
  -- the product test, in terms of the full product
  have key : ∀ t r, t * v1 + r = N → (t * v2 ≤ B * r + b10 ↔ t * (v1 * B + v2) ≤ N * B + b10) := by
    intro t r h
    have e : t * (v1 * B + v2) = t * v1 * B + t * v2 := by ring
    have e2 : N * B = t * v1 * B + r * B := by rw [← h]; ring
    rw [e, e2, Nat.mul_comm B r]
    omega
  have dec : ∀ t, ¬ t * (v1 * B + v2) ≤ N * B + b10 → q ≤ t - 1 ∧ 0 < t := by
    intro t h
    have : q < t := by
      by_contra hh
      exact h ((Nat.mul_le_mul_right _ (not_lt.1 hh)).trans hle)
    omega
  have hq0 : q ≤ N / v1 := by
    rw [Nat.le_div_iff_mul_le hv0]
    by_contra hh
    have h2 : N + 1 ≤ q * v1 := by omega
    have h3 : (N + 1) * B ≤ q * v1 * B := Nat.mul_le_mul_right _ h2
    have h4 : q * (v1 * B + v2) = q * v1 * B + q * v2 := by ring
    rw [h4] at hle
    rw [Nat.add_mul] at h3
    omega
  have hqB1 : N / v1 ≤ B + 1 := by
    rw [← Nat.lt_succ_iff, Nat.div_lt_iff_lt_mul hv0]
    have : b12 * B ≤ v1 * B := Nat.mul_le_mul_right _ h12
    have e : (B + 1).succ * v1 = v1 * B + 2 * v1 := by rw [Nat.succ_eq_add_one]; ring
    rw [e]; omega
  have e0 : N / v1 * v1 + N % v1 = N := by rw [Nat.mul_comm]; exact hdm
  unfold qhat
  dsimp only
  rw [← hN]
  generalize N / v1 = t at *
  generalize N % v1 = r at *
  by_cases c1 : t ≥ B ∨ t * v2 > B * r + b10
  · rw [if_pos c1]
    have ht : q ≤ t - 1 ∧ 0 < t := by
      rcases c1 with c | c
      · omega
      · exact dec t (by rw [← key t r e0]; omega)
    have e1 : (t - 1) * v1 + (r + v1) = N := by
      rw [← e0]
      have : t * v1 = (t - 1) * v1 + v1 := by rw [← Nat.succ_mul]; congr 1; omega
      omega
    by_cases c2 : r + v1 < B ∧ (t - 1 ≥ B ∨ (t - 1) * v2 > B * (r + v1) + b10)
    · rw [if_pos c2]
      have ht2 : q ≤ t - 1 - 1 ∧ 0 < t - 1 := by
        rcases c2.2 with c | c
        · omega
        · exact dec (t - 1) (by rw [← key (t - 1) (r + v1) e1]; omega)
      have e2 : (t - 1 - 1) * v1 + (r + v1 + v1) = N := by
        rw [← e1]
        have : (t - 1) * v1 = (t - 1 - 1) * v1 + v1 := by rw [← Nat.succ_mul]; congr 1; omega
        omega
      refine ⟨ht2.1, by omega, (key _ _ e2).1 ?_⟩
      calc (t - 1 - 1) * v2 ≤ B * v2 := Nat.mul_le_mul_right _ (by omega)
        _ ≤ B * (r + v1 + v1) := Nat.mul_le_mul_left _ (by omega)
        _ ≤ _ := Nat.le_add_right _ _
    · rw [if_neg c2]
      refine ⟨ht.1, by omega, (key _ _ e1).1 ?_⟩
      by_cases c3 : r + v1 < B
      · by_contra h
        exact c2 ⟨c3, Or.inr (not_le.1 h)⟩
      · calc (t - 1) * v2 ≤ B * v2 := Nat.mul_le_mul_right _ (by omega)
          _ ≤ B * (r + v1) := Nat.mul_le_mul_left _ (by omega)
          _ ≤ _ := Nat.le_add_right _ _
  · rw [if_neg c1]
    exact ⟨hq0, by omega, (key _ _ e0).1 (by omega)⟩

theorem drop_wd {m : List Nat} {i : Nat} (hi : i < m.length) : m.drop i = wd m i :: m.drop (i + 1) := by
  rw [List.drop_eq_getElem_cons hi]; simp [wd, hi]

/-- The two top words and the rest. -/
theorem val_top2 {m : List Nat} {n : Nat} (hn : 0 < n) (hl : n + 1 ≤ m.length) :
    val m = val (m.take (n - 1)) + B ^ (n - 1) * (wd m (n - 1) + B * (wd m n + B * val (m.drop (n + 1)))) := by
  rw [val_split (show n - 1 < m.length by omega)]
  congr 2
  congr 1
  have e : n - 1 + 1 = n := by omega
  rw [e, drop_wd (by omega), val_cons]

/-- The estimate of a digit is the digit or one more. -/
theorem qhat_bounds {v1 v2 b12 b11 b10 bl wl P b W : Nat} (h1 : B ≤ 2 * v1) (h22 : v2 < B)
    (h11 : b11 < B) (h10 : b10 < B) (hbl0 : bl < P) (hwl0 : wl < P)
    (eb : b = bl + P * (v1 * B + v2)) (ew : W = wl + P * ((b12 * B + b11) * B + b10))
    (hlt : W < b * B) :
    W / b ≤ qhat v1 v2 b12 b11 b10 ∧ qhat v1 v2 b12 b11 b10 ≤ B ∧
      qhat v1 v2 b12 b11 b10 ≤ W / b + 1 := by
  have hBp := B_pos
  have hPp : 0 < P := by omega
  have hbp : 0 < b := by
    rcases Nat.eq_zero_or_pos b with h | h
    · rw [h] at hlt; omega
    · exact h
  set D := v1 * B + v2 with hD
  set N := (b12 * B + b11) * B + b10 with hN
  have hq : W / b < B := by rw [Nat.div_lt_iff_lt_mul hbp, Nat.mul_comm]; exact hlt
  have hqle : W / b * b ≤ W := Nat.div_mul_le_self _ _
  have hDb : D * P ≤ b := by rw [eb, Nat.mul_comm]; exact Nat.le_add_left _ _
  have hbD : b ≤ (D + 1) * P := by rw [eb, Nat.add_mul, Nat.mul_comm P D]; omega
  have hWN : W < (N + 1) * P := by rw [ew, Nat.add_mul, Nat.mul_comm P N]; omega
  have hNW : N * P ≤ W := by rw [ew, Nat.mul_comm P N]; omega
  have hle : W / b * D ≤ N := by
    have h1 : W / b * D * P ≤ W := by
      refine le_trans ?_ hqle
      rw [Nat.mul_assoc]
      exact Nat.mul_le_mul_left _ hDb
    exact Nat.lt_succ_iff.1 (Nat.lt_of_mul_lt_mul_right (lt_of_le_of_lt h1 hWN))
  have h12' : b12 ≤ v1 := by
    by_contra hh
    have h3 : (D + 1) * B ≤ N := by
      have h4 : (v1 + 1) * B * B ≤ b12 * B * B :=
        Nat.mul_le_mul_right _ (Nat.mul_le_mul_right _ (by omega))
      have h5 : (D + 1) * B ≤ (v1 + 1) * B * B := by
        refine Nat.mul_le_mul_right _ ?_
        rw [hD, Nat.add_mul]; omega
      have h6 : N = b12 * B * B + b11 * B + b10 := by rw [hN]; ring
      omega
    have h7 : (D + 1) * B * P ≤ N * P := Nat.mul_le_mul_right _ h3
    have h8 : b * B ≤ (D + 1) * B * P := by
      calc b * B ≤ (D + 1) * P * B := Nat.mul_le_mul_right _ hbD
        _ = _ := by ring
    exact absurd hlt (not_lt.2 (h8.trans (h7.trans hNW)))
  obtain ⟨q1, q2, q3⟩ := qhat_spec (q := W / b) h1 h22 h11 h12' hq hle h10
  refine ⟨q1, q2, ?_⟩
  generalize qhat v1 v2 b12 b11 b10 = t at *
  by_contra hh
  have h1 : W < (W / b + 1) * b := by
    have := Nat.lt_div_mul_add (a := W) hbp
    rwa [Nat.add_mul, Nat.one_mul]
  have h2 : (W / b + 1) * b ≤ (t - 1) * b := Nat.mul_le_mul_right _ (by omega)
  have h3 : t * D * P ≤ W := (Nat.mul_le_mul_right P q3).trans hNW
  have h4 : t * b ≤ t * D * P + t * P := by
    refine (Nat.mul_le_mul_left t hbD).trans (le_of_eq ?_)
    ring
  have ht0 : t - 1 + 1 = t := Nat.sub_add_cancel (by
    have := not_le.1 hh
    exact Nat.lt_of_le_of_lt (Nat.zero_le _) this)
  have h5 : t * b = (t - 1) * b + b := by
    conv_lhs => rw [← ht0]
    rw [Nat.add_mul, Nat.one_mul]
  have h6 : t * P ≤ B * P := Nat.mul_le_mul_right _ q2
  have h7 : B * P ≤ D * P := Nat.mul_le_mul_right _ (by
    have h8 : 1 * B ≤ v1 * B := Nat.mul_le_mul_right _ (by omega)
    omega)
  clear hle hq hqle q1 q3 hWN hNW eb ew hlt hD hN hbD
  omega

/-- The values after the multiply-and-subtract and the compensation. -/
theorem divStep_arith {t b W L R c : Nat} (hb : 0 < b) (h1 : W / b ≤ t) (h2 : t ≤ W / b + 1)
    (hc : c ≤ 1) (hR : R < L) (h : W + L * c = R + b * t) :
    (c = 0 → t = W / b ∧ R = W % b) ∧ (c = 1 → t = W / b + 1 ∧ R + b = W % b + L) := by
  have hdm := Nat.div_add_mod W b
  have hml := Nat.mod_lt W hb
  have e : b * (W / b + 1) = b * (W / b) + b := by ring
  have ht : t = W / b ∨ t = W / b + 1 := by omega
  rcases ht with ht | ht
  · subst ht
    generalize b * (W / b) = z at *
    generalize W / b = y at *
    refine ⟨fun h0 => ?_, fun h0 => ?_⟩ <;> subst h0 <;> constructor <;> omega
  · rw [ht, e] at h
    generalize b * (W / b) = z at *
    generalize W / b = y at *
    refine ⟨fun h0 => ?_, fun h0 => ?_⟩ <;> subst h0 <;> constructor <;> omega

theorem ko_zero {L b t Bn ko β : Nat} (hβ : 0 < β) (h : L * ko ≤ b * t) (hL : L = Bn * β) (hb : b < Bn)
    (ht : t ≤ β) : ko = 0 := by
  by_contra hk
  subst hL
  have h1 : Bn * β * 1 ≤ Bn * β * ko := Nat.mul_le_mul_left _ (by omega)
  have h2 : b * t ≤ b * β := Nat.mul_le_mul_left _ ht
  have h3 : b * β < Bn * β := Nat.mul_lt_mul_of_pos_right hb hβ
  omega

theorem mulSubLoop_spec0 (t : Nat) {a b : List Nat} (ha : Wf a) (hb : Wf b)
    (hl : a.length = b.length) {n : Nat} (hn : a.length = n + 1) (hat : val a < B ^ n) (ht : t ≤ B) :
    ∃ L R c, L = B ^ a.length ∧ R = val (mulSubLoop t 0 0 a b).1 ∧ c = (mulSubLoop t 0 0 a b).2 ∧
      (mulSubLoop t 0 0 a b).1.length = a.length ∧ Wf (mulSubLoop t 0 0 a b).1 ∧ c ≤ 1 ∧ R < L ∧
        val b + L * c = R + val a * t := by
  obtain ⟨m1, m2, m3, ko, m4, m5⟩ := mulSubLoop_spec t 0 0 a b ha hb hl (Nat.zero_le 1)
  have hvl := val_lt m2
  rw [m1] at hvl
  have eL : B ^ a.length = B ^ n * B := by rw [hn, pow_succ B n]
  have h0 : 0 / B = 0 := Nat.zero_div B
  have hBp := B_pos
  generalize B = β at m4 m5 h0 eL hvl hBp ht hat ⊢
  rw [h0] at m4 m5
  have hko : ko = 0 := ko_zero hBp m4 eL hat ht
  rw [hko] at m5
  exact ⟨_, _, _, rfl, rfl, rfl, m1, m2, m3, hvl, m5⟩

/-- The sum after the compensation, without the carry out. -/
theorem addBack_arith {R b M L S cc : Nat} (h : S + L * cc = b + R) (hcc : cc ≤ 1) (hR : R + b = M + L)
    (hS : S < L) : S = M := by
  have : cc = 0 ∨ cc = 1 := by omega
  rcases this with h0 | h0 <;> subst h0 <;> simp only [Nat.mul_zero, Nat.mul_one] at h <;> omega

/-- One round of the main loop: a quotient digit and the remainder. -/
theorem divStep_spec {n : Nat} (hn : 0 < n) {b2 w : List Nat} (hb : Wf b2) (hw : Wf w)
    (hbl : b2.length = n + 2) (hwl : w.length = n + 2) (hbt : val b2 < B ^ (n + 1))
    (hv1 : B ≤ 2 * wd b2 n) (hlt : val w < val b2 * B) :
    (divStep n b2 w).1 = val w / val b2 ∧ (divStep n b2 w).2.length = n + 2 ∧
      Wf (divStep n b2 w).2 ∧ val (divStep n b2 w).2 = val w % val b2 := by
  have hBp := B_pos
  have eb := val_top2 hn (show n + 1 ≤ b2.length by omega)
  have hbtop : val (b2.drop (n + 1)) = 0 := by
    rw [val_drop hb, Nat.div_eq_of_lt hbt]
  have ew := val_top2 hn (show n + 1 ≤ w.length by omega)
  have hwtop : val (w.drop (n + 1)) = wd w (n + 1) := by
    have h2 : w.drop (n + 2) = [] := List.drop_eq_nil_of_le (by omega)
    rw [drop_wd (by omega), h2]; simp
  rw [hbtop] at eb
  rw [hwtop] at ew
  have hbl0 := val_lt (hb.take (n - 1))
  have hwl0 := val_lt (hw.take (n - 1))
  rw [List.length_take, min_eq_left (by omega)] at hbl0 hwl0
  have h11 := wd_lt hw (show n < w.length by omega)
  have h10 := wd_lt hw (show n - 1 < w.length by omega)
  have h22 := wd_lt hb (show n - 1 < b2.length by omega)
  obtain ⟨q1, q2, q3⟩ := qhat_bounds (b12 := wd w (n + 1)) (b := val b2) (W := val w) hv1 h22 h11 h10
    hbl0 hwl0 (by rw [eb]; ring) (by rw [ew]; ring) hlt
  unfold divStep
  dsimp only
  generalize qhat (wd b2 n) (wd b2 (n - 1)) (wd w (n + 1)) (wd w n) (wd w (n - 1)) = t at *
  have hbp : 0 < val b2 := by
    rcases Nat.eq_zero_or_pos (val b2) with h | h
    · rw [h] at hlt; omega
    · exact h
  obtain ⟨L, R, c, eL, eR, ec, m1, m2, m3, m4, m5⟩ :=
    mulSubLoop_spec0 t hb hw (by omega) hbl hbt q2
  obtain ⟨a1, a2⟩ := divStep_arith hbp q1 q3 m3 m4 m5
  rw [← ec]
  by_cases hc : c > 0
  · rw [if_pos hc]
    obtain ⟨a3, a4⟩ := a2 (by omega)
    obtain ⟨s1, s2, s3, s4⟩ := addLoop_spec hb m2 m1.symm (Nat.zero_le 1)
    dsimp only
    refine ⟨by rw [a3, Nat.add_sub_cancel], by rw [s3, hbl], s4, ?_⟩
    have hvl2 := val_lt s4
    rw [s3, ← eL] at hvl2
    rw [← eL, ← eR, Nat.add_zero] at s1
    exact addBack_arith s1 s2 a4 hvl2
  · rw [if_neg hc]
    obtain ⟨a3, a4⟩ := a1 (by omega)
    exact ⟨a3, by rw [m1, hbl], m2, by rw [← eR]; exact a4⟩

theorem divLoop_spec {n : Nat} (hn : 0 < n) {b2 : List Nat} (hb : Wf b2) (hbl : b2.length = n + 2)
    (hbt : val b2 < B ^ (n + 1)) (hv1 : B ≤ 2 * wd b2 n) (low hi : List Nat) (hlo : Wf low)
    (hhi : Wf hi) (hl : hi.length = n + 1) (hlt : val hi < val b2) :
    (divLoop n b2 low hi).1.length = low.length ∧ Wf (divLoop n b2 low hi).1 ∧
      (divLoop n b2 low hi).2.length = n + 1 ∧ Wf (divLoop n b2 low hi).2 ∧
      val (divLoop n b2 low hi).2 < val b2 ∧
      val hi * B ^ low.length + val low.reverse =
        val (divLoop n b2 low hi).1.reverse * val b2 + val (divLoop n b2 low hi).2 := by
  induction low generalizing hi with
  | nil => simp [divLoop, Wf.nil, hl, hhi, hlt]
  | cons x xs ih =>
    rw [wf_cons] at hlo
    have hbp : 0 < val b2 := by omega
    have hw : val (x :: hi) < val b2 * B := by
      have h1 : (val hi + 1) * B ≤ val b2 * B := Nat.mul_le_mul_right _ hlt
      rw [val_cons]
      have := hlo.1
      rw [Nat.add_mul, Nat.mul_comm (val hi) B] at h1
      omega
    obtain ⟨d1, d2, d3, d4⟩ := divStep_spec hn hb (Wf.cons hlo.1 hhi) hbl (by simp [hl]) hbt hv1 hw
    simp only [divLoop]
    generalize divStep n b2 (x :: hi) = r at *
    have hq : r.1 < B := by
      rw [d1, Nat.div_lt_iff_lt_mul hbp, Nat.mul_comm]; exact hw
    have hml := Nat.mod_lt (val (x :: hi)) hbp
    have ht : val (r.2.take (n + 1)) = val (x :: hi) % val b2 := by
      rw [val_take d3, d4, Nat.mod_eq_of_lt (hml.trans hbt)]
    obtain ⟨i1, i2, i3, i4, i5, i6⟩ := ih (r.2.take (n + 1)) hlo.2 (d3.take _)
      (by rw [List.length_take, d2]; omega) (by rw [ht]; exact hml)
    rw [Nat.mod_eq_of_lt hq]
    refine ⟨by simp [i1], Wf.cons hq i2, i3, i4, i5, ?_⟩
    rw [ht] at i6
    generalize divLoop n b2 xs (r.2.take (n + 1)) = z at *
    rw [List.reverse_cons, List.reverse_cons, val_append, val_append, List.length_reverse,
      List.length_reverse, i1, List.length_cons, val_cons, val_nil, val_cons, val_nil]
    have hdm := Nat.div_add_mod (val (x :: hi)) (val b2)
    rw [d1]
    rw [val_cons] at hdm i6 ⊢
    rw [pow_succ B]
    generalize (x + B * val hi) / val b2 = u at *
    generalize (x + B * val hi) % val b2 = v at *
    generalize val xs.reverse = s at *
    generalize B ^ xs.length = P at *
    generalize val b2 = b at *
    generalize val z.1.reverse = zz at *
    generalize val z.2 = z2 at *
    generalize val hi = h at *
    generalize B = β at *
    calc h * (P * β) + (s + P * (x + β * 0)) = P * (x + β * h) + s := by ring
      _ = P * (b * u + v) + s := by rw [hdm]
      _ = P * b * u + (v * P + s) := by ring
      _ = P * b * u + (zz * b + z2) := by rw [i6]
      _ = _ := by ring

/-- The normalising factor makes the top word at least half of the base. -/
theorem norm_factor {β t : Nat} (hβ : 4 ≤ β) (hev : β % 2 = 0) (ht0 : 0 < t) (ht : t < β) :
    β ≤ 2 * (β / (t + 1) * t) ∧ 0 < β / (t + 1) := by
  have hd := Nat.div_add_mod β (t + 1)
  have hm := Nat.mod_lt β (show 0 < t + 1 by omega)
  have hd0 : 0 < β / (t + 1) := Nat.div_pos (by omega) (by omega)
  refine ⟨?_, hd0⟩
  generalize β / (t + 1) = d at *
  generalize β % (t + 1) = r at *
  have e : (t + 1) * d = d * t + d := by ring
  rw [e] at hd
  rcases Nat.lt_or_ge d 2 with h | h
  · have : d = 1 := by omega
    subst this
    omega
  · rcases Nat.lt_or_ge t 2 with h2 | h2
    · have : t = 1 := by omega
      subst this
      omega
    · rcases Nat.lt_or_ge d 3 with h3 | h3
      · have : d = 2 := by omega
        subst this
        omega
      · obtain ⟨a, rfl⟩ : ∃ a, d = a + 3 := ⟨d - 3, by omega⟩
        obtain ⟨b, rfl⟩ : ∃ b, t = b + 2 := ⟨t - 2, by omega⟩
        have e2 : (a + 3) * (b + 2) = a * b + 2 * a + 3 * b + 6 := by ring
        rw [e2] at hd ⊢
        have := Nat.zero_le (a * b)
        omega

theorem wd_last {m : List Nat} {n : Nat} (hl : m.length = n + 1) :
    val m = val (m.take n) + B ^ n * wd m n := by
  have h2 : m.drop (n + 1) = [] := List.drop_eq_nil_of_le (by omega)
  rw [val_split (show n < m.length by omega), h2, val_nil, Nat.mul_zero, Nat.add_zero]

theorem wd_eq_div {m : List Nat} (hm : Wf m) {n : Nat} (hn : n < m.length) :
    wd m n = val m / B ^ n % B := by
  rw [← val_drop hm, drop_wd hn, val_cons, Nat.add_mul_mod_self_left, Nat.mod_eq_of_lt (wd_lt hm hn)]

/-- `div_basic` computes quotient and remainder. -/
theorem divBasic_spec {m1 m2 : List Nat} (h1 : Wf m1) (h2 : Wf m2) (hl : m2.length ≤ m1.length)
    (h0 : 0 < m2.length) (htop : wd m2 (m2.length - 1) ≠ 0) :
    DivOk m1 m2 (divBasic m1 m2) ∧ (divBasic m1 m2).1.length = m1.length - m2.length + 1 ∧
      (divBasic m1 m2).2.length = m2.length := by
  have hBp := B_pos
  unfold divBasic
  dsimp only
  by_cases hn : m2.length - 1 = 0
  · rw [if_pos hn]
    have hl1 : m2.length = 1 := by omega
    rw [hn] at htop
    have hv : val m2 = wd m2 0 := by
      rw [wd_last (n := 0) (by omega)]; simp
    have hlt := wd_lt h2 (show 0 < m2.length by omega)
    obtain ⟨a1, a2, a3, a4⟩ := divSingle_spec h1 (Nat.pos_of_ne_zero htop) hlt.le
    refine ⟨⟨a2, Wf.cons (a3.trans hlt) Wf.nil, ?_, ?_⟩, by dsimp only; omega, by simp [hl1]⟩
    · dsimp only; rw [hv, a4]; simp
    · dsimp only; rw [hv]; simpa using a3
  · rw [if_neg hn]
    generalize hnn : m2.length - 1 = n at *
    have hm2l : m2.length = n + 1 := by omega
    have htl := wd_lt h2 (show n < m2.length by omega)
    have hv2 := wd_last hm2l
    have hv2l := val_lt (h2.take n)
    rw [List.length_take, min_eq_left (by omega)] at hv2l
    obtain ⟨f1, f2⟩ := norm_factor (β := B) (by unfold B; norm_num) (by unfold B; norm_num)
      (Nat.pos_of_ne_zero htop) htl
    have hdt : B / (wd m2 n + 1) * (wd m2 n + 1) ≤ B := Nat.div_mul_le_self _ _
    set d := B / (wd m2 n + 1) with hd
    have hdB : d ≤ B := Nat.div_le_self _ _
    have hbuf : ∀ m : List Nat, Wf m →
        (if d = 1 then m ++ [0] else mulByWord d 0 m).length = m.length + 1 ∧
        Wf (if d = 1 then m ++ [0] else mulByWord d 0 m) ∧
        val (if d = 1 then m ++ [0] else mulByWord d 0 m) = val m * d := by
      intro m hm
      by_cases hd1 : d = 1
      · rw [if_pos hd1, hd1]
        exact ⟨by simp, wf_append.2 ⟨hm, Wf.cons hBp Wf.nil⟩, by rw [val_append]; simp⟩
      · rw [if_neg hd1]
        have := mulByWord_spec d hdB 0 m hm (by rw [Nat.zero_div]; exact hBp)
        rw [Nat.zero_div] at this
        exact this
    obtain ⟨p1, p2, p3⟩ := hbuf m1 h1
    obtain ⟨r1, r2, r3⟩ := hbuf m2 h2
    generalize (if d = 1 then m1 ++ [0] else mulByWord d 0 m1) = buf1 at *
    generalize (if d = 1 then m2 ++ [0] else mulByWord d 0 m2) = buf2 at *
    have hPp : 0 < B ^ n := B_pow_pos n
    have hbt : val buf2 < B ^ (n + 1) := by
      rw [r3, pow_succ B n]
      have : val m2 < B ^ n * (wd m2 n + 1) := by rw [hv2, Nat.mul_add]; omega
      calc val m2 * d < B ^ n * (wd m2 n + 1) * d := Nat.mul_lt_mul_of_pos_right this f2
        _ = B ^ n * (d * (wd m2 n + 1)) := by ring
        _ ≤ _ := Nat.mul_le_mul_left _ hdt
    have hblo : B ^ n * (d * wd m2 n) ≤ val buf2 := by
      rw [r3, hv2]
      calc B ^ n * (d * wd m2 n) = B ^ n * wd m2 n * d := by ring
        _ ≤ _ := Nat.mul_le_mul_right _ (Nat.le_add_left _ _)
    have hv1 : B ≤ 2 * wd buf2 n := by
      have hlt : val buf2 / B ^ n < B := by
        rw [Nat.div_lt_iff_lt_mul hPp, Nat.mul_comm, ← pow_succ B n]; exact hbt
      rw [wd_eq_div r2 (by omega), Nat.mod_eq_of_lt hlt]
      have : d * wd m2 n ≤ val buf2 / B ^ n := by
        rw [Nat.le_div_iff_mul_le hPp, Nat.mul_comm]; exact hblo
      omega
    have hl1n : m1.length - n ≤ buf1.length := by omega
    have hhi : val (buf1.drop (m1.length - n)) < val buf2 := by
      rw [val_drop p2, Nat.div_lt_iff_lt_mul (B_pow_pos _), p3]
      have h5 : val m1 * d < B ^ m1.length * d := Nat.mul_lt_mul_of_pos_right (val_lt h1) f2
      have h6 : B ^ m1.length = B ^ n * B ^ (m1.length - n) := by
        rw [← pow_add]; congr 1; omega
      have h7 : B ^ n * d ≤ val buf2 := by
        refine le_trans ?_ hblo
        exact Nat.mul_le_mul_left _ (Nat.le_mul_of_pos_right _ (Nat.pos_of_ne_zero htop))
      calc val m1 * d < B ^ m1.length * d := h5
        _ = B ^ n * d * B ^ (m1.length - n) := by rw [h6]; ring
        _ ≤ _ := Nat.mul_le_mul_right _ h7
    obtain ⟨q1, q2, q3, q4, q5, q6⟩ := divLoop_spec (by omega) r2 (by omega) hbt hv1
      (buf1.take (m1.length - n)).reverse (buf1.drop (m1.length - n)) (wf_reverse.2 (p2.take _))
      (p2.drop _) (by rw [List.length_drop]; omega) hhi
    generalize divLoop n buf2 (buf1.take (m1.length - n)).reverse (buf1.drop (m1.length - n)) = R at *
    rw [List.length_reverse, List.length_take, min_eq_left hl1n] at q1 q6
    rw [List.reverse_reverse] at q6
    have e1 : val m1 * d = val R.1.reverse * (val m2 * d) + val R.2 := by
      rw [← r3, ← q6, ← p3, val_take_drop buf1 _ hl1n]
      ring
    rw [r3] at q5
    have hrem : (if d > 1 then (divSingle R.2 d).1 else R.2).length = n + 1 ∧
        Wf (if d > 1 then (divSingle R.2 d).1 else R.2) ∧
        val R.2 = val (if d > 1 then (divSingle R.2 d).1 else R.2) * d := by
      by_cases hd1 : d > 1
      · rw [if_pos hd1]
        obtain ⟨a1, a2, a3, a4⟩ := divSingle_spec q4 f2 hdB
        refine ⟨by omega, a2, ?_⟩
        have hdv : d ∣ val R.2 := by
          have : d ∣ val R.1.reverse * (val m2 * d) + val R.2 := by rw [← e1]; exact Dvd.intro_left _ rfl
          exact (Nat.dvd_add_right (Dvd.intro_left (val R.1.reverse * val m2) (by ring))).1 this
        have h0 : (divSingle R.2 d).2 = 0 := by
          rw [a4] at hdv
          have := (Nat.dvd_add_right (Dvd.intro_left (val (divSingle R.2 d).1) rfl)).1 hdv
          exact Nat.eq_zero_of_dvd_of_lt this a3
        rw [h0, Nat.add_zero] at a4
        exact a4
      · rw [if_neg hd1]
        have : d = 1 := by omega
        exact ⟨q3, q4, by rw [this, Nat.mul_one]⟩
    obtain ⟨w1, w2, w3⟩ := hrem
    generalize (if d > 1 then (divSingle R.2 d).1 else R.2) = rr at *
    refine ⟨⟨wf_reverse.2 q2, w2, ?_, ?_⟩, by rw [List.length_reverse, q1]; omega, by dsimp only; omega⟩
    · dsimp only
      apply Nat.eq_of_mul_eq_mul_right f2
      rw [e1, w3]; ring
    · dsimp only
      rw [w3] at q5
      exact Nat.lt_of_mul_lt_mul_right q5

end AF
