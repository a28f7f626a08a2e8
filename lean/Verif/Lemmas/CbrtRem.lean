import Verif.Lemmas.Root
/-! # Integer cube root -/

namespace AF

/-- `(s, r)` are the integer cube root of `M` and the remainder. -/
def CbrtOk (M : Nat) (sr : List Nat × List Nat) : Prop :=
  TopNz sr.1 ∧ Wf sr.2 ∧ M = val sr.1 ^ 3 + val sr.2 ∧ M < (val sr.1 + 1) ^ 3

theorem newton_cbrt_ge {M s : Nat} (hs : 0 < s) : M < ((M / (s * s) + 2 * s) / 3 + 1) ^ 3 := by
  set t := (M / (s * s) + 2 * s) / 3 with ht
  have h1 : M / (s * s) + 2 * s < 3 * (t + 1) := by omega
  have h2 : M < (M / (s * s) + 1) * (s * s) := by
    have := Nat.lt_div_mul_add (a := M) (Nat.mul_pos hs hs)
    rw [Nat.add_mul]; omega
  have h3 : M / (s * s) + 1 ≤ 3 * (t + 1) - 2 * s := by
    clear ht h2; generalize M / (s * s) = k at *; omega
  have h4 : 2 * s ≤ 3 * (t + 1) := by
    clear ht h2 h3; generalize M / (s * s) = k at *; omega
  refine h2.trans_le ((Nat.mul_le_mul_right _ h3).trans ?_)
  clear h1 h2 h3 ht
  generalize t + 1 = c at *
  zify [h4]
  nlinarith [mul_nonneg (sq_nonneg ((c : ℤ) - s)) (show (0 : ℤ) ≤ (c : ℤ) + 2 * s by positivity)]

theorem newton_cbrt_stop {M s : Nat} (hs : 0 < s) (h : s ≤ (M / (s * s) + 2 * s) / 3) : s ^ 3 ≤ M := by
  have h1 : s ≤ M / (s * s) := by
    generalize M / (s * s) = k at *
    omega
  rw [Nat.le_div_iff_mul_le (Nat.mul_pos hs hs)] at h1
  calc s ^ 3 = s * (s * s) := by ring
    _ ≤ M := h1

theorem rss_double {s : List Nat} (hs : Wf s) {w : Nat} (hw : s.length + 1 ≤ w) :
    (RSS.take w (RSS.new s 63 0 1)).length = w ∧ Wf (RSS.take w (RSS.new s 63 0 1)) ∧
      val (RSS.take w (RSS.new s 63 0 1)) = 2 * val s := by
  obtain ⟨k, rfl⟩ := Nat.exists_eq_add_of_le hw
  have e : RSS.take (s.length + 1 + k) (RSS.new s 63 0 1) =
      shiftRight ([0] ++ s) 63 ++ List.replicate k 0 := by
    have hr : (RSS.new s 63 0 1).words = [0] ++ s := by
      unfold RSS.new RSS.words
      cases s <;> rfl
    have h1 := RSS.take_spec (s.length + 1) k (RSS.new s 63 0 1) (by rw [hr]; simp)
      (by unfold RSS.new; cases s <;> rfl) (by unfold RSS.new; cases s <;> simp)
    rw [h1, hr]
    congr 1
    have hb : (RSS.new s 63 0 1).bits = 63 := by unfold RSS.new; cases s <;> rfl
    rw [hb]
    unfold shiftRight shrOpt
    simp
  have hw : Wf ([0] ++ s) := wf_append.2 ⟨Wf.cons B_pos Wf.nil, hs⟩
  rw [e]
  refine ⟨by simp, wf_append.2 ⟨shiftRight_wf hw _, wf_zeros _⟩, ?_⟩
  rw [val_append_zeros, val_shiftRight hw]
  have h3 : val ([0] ++ s) = 2 * val s * 2 ^ 63 := by
    simp only [List.singleton_append, val_cons, zero_add, B_eq]
    ring
  rw [h3, Nat.mul_div_cancel _ (by positivity)]

/-- The normalisation for the division keeps both operands scaled by the same power of 2. -/
theorem cbrtNormalizeDiv_spec {m1 m2 : List Nat} (h1 : Wf m1) (h2 : Wf m2) (h20 : 0 < val m2)
    {M ms L : Nat} (hM : M < B ^ L) (hl : m1.length = L + 2) (hv : val m1 = M * 2 ^ ms)
    (hlow : B ^ (m2.length - 2) ≤ val m2) :
    Wf (cbrtNormalizeDiv m1 m2 ms).1 ∧ (cbrtNormalizeDiv m1 m2 ms).1.length = L + 2 ∧
      val (cbrtNormalizeDiv m1 m2 ms).1 = M * 2 ^ (cbrtNormalizeDiv m1 m2 ms).2.2 ∧
      TopSet (cbrtNormalizeDiv m1 m2 ms).2.1 ∧
      val (cbrtNormalizeDiv m1 m2 ms).2.1 = val m2 * 2 ^ (cbrtNormalizeDiv m1 m2 ms).2.2 := by
  have hml : 0 < m2.length := by
    by_contra hc
    have : m2 = [] := List.length_eq_zero_iff.1 (by omega)
    rw [this] at h20; simp at h20
  have hlt := val_lt_two_pow h2
  have hf : findOneFrom m2 0 = some (64 * m2.length - Nat.size (val m2)) := by
    rw [findOneFrom_spec h2 (by omega), Nat.sub_zero, Nat.mod_eq_of_lt hlt, if_neg h20.ne']
  have hs1 : Nat.size (val m2) ≤ 64 * m2.length := Nat.size_le.2 hlt
  have hs0 : 0 < Nat.size (val m2) := Nat.size_pos.2 h20
  have hs2 : 64 * (m2.length - 2) < Nat.size (val m2) := Nat.lt_size.2 (by rw [← B_pow]; exact hlow)
  have hsl : 2 ^ (Nat.size (val m2) - 1) ≤ val m2 := Nat.lt_size.1 (by omega)
  have hsu : val m2 < 2 ^ Nat.size (val m2) := Nat.lt_size_self _
  unfold cbrtNormalizeDiv
  rw [hf]
  dsimp only
  obtain ⟨t, ht⟩ : ∃ t, t = 64 * m2.length - Nat.size (val m2) := ⟨_, rfl⟩
  rw [← ht]
  have hp : 2 ^ Nat.size (val m2) * 2 ^ t = B ^ m2.length := by
    rw [B_pow, ← pow_add]; congr 1; omega
  have hd : val (shiftLeft m2 t) = val m2 * 2 ^ t := by
    rw [val_shiftLeft h2, Nat.mod_eq_of_lt]
    rw [← hp]; exact Nat.mul_lt_mul_of_pos_right hsu (by positivity)
  have hMt : M * 2 ^ t < B ^ (L + 2) := by
    calc M * 2 ^ t < B ^ L * 2 ^ t := Nat.mul_lt_mul_of_pos_right hM (by positivity)
      _ ≤ B ^ L * 2 ^ 128 := Nat.mul_le_mul_left _ (Nat.pow_le_pow_right (by norm_num) (by omega))
      _ = B ^ (L + 2) := by rw [pow_add, B_eq]; norm_num
  refine ⟨?_, ?_, ?_, ⟨shiftLeft_wf h2 _, by simpa using hml, ?_⟩, hd⟩
  · split
    · exact shiftRight_wf h1 _
    · split
      · exact shiftLeft_wf h1 _
      · exact h1
  · split
    · simp [hl]
    · split <;> simp [hl]
  · by_cases c1 : ms > t
    · rw [if_pos c1, val_shiftRight h1, hv]
      have e : 2 ^ ms = 2 ^ t * 2 ^ (ms - t) := by rw [← pow_add]; congr 1; omega
      rw [e, ← Nat.mul_assoc, Nat.mul_div_cancel _ (by positivity)]
    · rw [if_neg c1]
      by_cases c2 : ms < t
      · have e : 2 ^ t = 2 ^ ms * 2 ^ (t - ms) := by rw [← pow_add]; congr 1; omega
        rw [if_pos c2, val_shiftLeft h1, hv, hl, Nat.mul_assoc, ← e, Nat.mod_eq_of_lt hMt]
      · rw [if_neg c2, hv]
        congr 2; omega
  · rw [hd, shiftLeft_length, ← hp]
    have e : 2 ^ Nat.size (val m2) = 2 ^ (Nat.size (val m2) - 1) * 2 := by
      rw [← pow_succ]; congr 1; omega
    rw [e]
    have := Nat.mul_le_mul_right (2 * 2 ^ t) hsl
    nlinarith

theorem cbrtLoop_spec {M L : Nat} (hM0 : 0 < M) (hM : M < B ^ L) {w : Nat} (f : Nat) : ∀ m ms s,
    Wf m → m.length = L + 2 → val m = M * 2 ^ ms → TopNz s → s.length + 1 ≤ w → val s ≤ f →
    M < (val s + 1) ^ 3 → CbrtOk M (cbrtLoop w (f + 1) m ms s) := by
  induction f with
  | zero => intro m ms s _ _ _ hs _ hf; have := hs.pos; omega
  | succ f ih =>
    intro m ms s hm hl hv hs hw hf hge
    rw [cbrtLoop]
    obtain ⟨q1, q2, q3⟩ := mulWords_spec hs.1 hs.1 (len := s.length * 2) (by omega)
    have hs0 := hs.2.1
    have hpos := hs.pos
    obtain ⟨n1, n2, n3, n4, n5⟩ := cbrtNormalizeDiv_spec hm q2 (by rw [q3]; exact Nat.mul_pos hpos hpos)
      hM hl hv (by
        rw [q3, q1, show s.length * 2 - 2 = (s.length - 1) + (s.length - 1) by omega, pow_add]
        exact Nat.mul_le_mul hs.2.2 hs.2.2)
    generalize cbrtNormalizeDiv m (mulWords s s (s.length * 2)) ms = n at *
    obtain ⟨a, b, t⟩ := n
    dsimp only at *
    obtain ⟨d1, _, _⟩ := divWords_spec n1 n4
    have hq := d1.quot
    rw [n3, n5, q3, Nat.mul_div_mul_right _ _ (by positivity)] at hq
    have hqw := d1.1
    generalize (divWords a b).1 = q at *
    obtain ⟨w1, w2, w3⟩ := rss_double hs.1 hw
    generalize RSS.take w (RSS.new s 63 0 1) = wb at *
    obtain ⟨e1, e2, e3⟩ := tryExtend2_spec hqw (max q.length wb.length + 1)
    have hsum : val q + val wb < B ^ (max q.length wb.length + 1) := by
      have h1 : val q < B ^ max q.length wb.length :=
        (val_lt hqw).trans_le (Nat.pow_le_pow_right B_pos (le_max_left _ _))
      have h2 : val wb < B ^ max q.length wb.length :=
        (val_lt w2).trans_le (Nat.pow_le_pow_right B_pos (le_max_right _ _))
      have h4 : B ^ max q.length wb.length * 2 ≤ B ^ (max q.length wb.length + 1) := by
        rw [pow_succ]; exact Nat.mul_le_mul_left _ (by unfold B; norm_num)
      omega
    generalize tryExtend2 q ((max q.length wb.length + 1) * 64) = qx at *
    obtain ⟨f1, f2, f3, _⟩ := addAssign_pos e2 w2 (by
      rw [e3]; refine hsum.trans_le (Nat.pow_le_pow_right B_pos ?_); rw [e1]; exact le_max_left _ _)
    obtain ⟨g1, g2, g3⟩ := divByWord_full f2 (d := 3) (by norm_num) (by unfold B; norm_num)
    rw [f3, e3, hq, w3] at g3
    generalize divByWord (SS.addAssign ⟨false, qx⟩ ⟨false, wb⟩).m 3 = t' at *
    by_cases hc : ssAbsCmp t' s ≥ 0
    · rw [if_pos hc]
      rw [cmp_ge g2 hs.1, g3] at hc
      have hle := newton_cbrt_stop hpos hc
      have hrw : Wf ((shiftRight a t).take (a.length - 2)) := (shiftRight_wf n1 _).take _
      have hrv : val ((shiftRight a t).take (a.length - 2)) = M := by
        rw [val_take (shiftRight_wf n1 _), val_shiftRight n1, n3, Nat.mul_div_cancel _ (by positivity),
          n2, Nat.add_sub_cancel, Nat.mod_eq_of_lt hM]
      generalize (shiftRight a t).take (a.length - 2) = r at *
      obtain ⟨c1, c2, c3⟩ := mulWords_spec q2 hs.1 (len := s.length * 3) (by omega)
      have hsc : val (mulWords (mulWords s s (s.length * 2)) s (s.length * 3)) = val s ^ 3 := by
        rw [c3, q3]; ring
      obtain ⟨u1, u2, u3⟩ := subAssign_pos hrw c2 (by rw [hsc, hrv]; exact hle)
      refine ⟨hs, u2, ?_, hge⟩
      dsimp only
      rw [u3, hsc, hrv]; omega
    · rw [if_neg hc]
      rw [cmp_ge g2 hs.1, g3] at hc
      have hge2 := newton_cbrt_ge (M := M) hpos
      have hv' := val_truncLeadingZeroes t'
      have ht0 : 0 < val t' := by
        rw [g3]
        by_contra h0
        rw [Nat.eq_zero_of_not_pos h0] at hge2
        omega
      have ht := truncLZ_topNz g2 ht0
      refine ih a t _ n1 n2 n3 ht ?_ (by rw [hv', g3]; omega) (by rw [hv', g3]; exact hge2)
      have := ht.len (n := s.length) (by rw [hv', g3]; exact lt_trans (by omega) (val_lt hs.1))
      omega

/-- `cbrt_rem` returns the integer cube root and the remainder, for words whose number is not 2
modulo 3. -/
theorem cbrtRem_spec {m : List Nat} (hm : TopNz m) (h3 : m.length % 3 ≠ 2) :
    CbrtOk (val m) (cbrtRem m) := by
  unfold cbrtRem
  dsimp only
  obtain ⟨e1, e2, e3⟩ := rootEstimate_spec hm (n := 3) (by norm_num)
  have h0 := hm.2.1
  have hlt : val m < val (rootEstimate m 3) ^ 3 := by
    refine Nat.lt_of_mul_lt_mul_right (a := B ^ (m.length - 1)) ?_
    refine lt_of_le_of_lt (Nat.mul_le_mul_left _ (Nat.pow_le_pow_right B_pos ?_)) e3
    omega
  have hp : B ^ (rootEstimate m 3).length = (B ^ (rootEstimate m 3).length - 1) + 1 := by
    have := B_pow_pos (rootEstimate m 3).length; omega
  have hv := val_lt e1.1
  obtain ⟨x1, x2, x3⟩ := tryExtend2_spec hm.1 (m.length + 2)
  rw [hp]
  refine cbrtLoop_spec hm.pos (val_lt hm.1) _ _ _ _ x2 (by rw [x1]; omega) (by rw [x3]; simp) e1
    le_rfl (by omega) (hlt.trans_le (Nat.pow_le_pow_left (by omega) 3))

end AF
