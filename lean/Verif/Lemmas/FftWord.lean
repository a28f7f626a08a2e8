import Verif.Model.Fft
import Verif.Lemmas.Int
import Verif.Lemmas.Round
/-!
# Arithmetic modulo `2^n1 + 1` on word slices (fft.rs)
-/

namespace AF

theorem wd_div {m : List Nat} (hm : Wf m) {n : Nat} (hn : n < m.length) : wd m n = val m / B ^ n % B := by
  have h := split_at_wd m hn
  have hd : val (m.drop n) = val m / B ^ n := val_drop hm n
  have e : m.drop n = wd m n :: m.drop (n + 1) := by
    unfold wd
    rw [List.drop_eq_getElem_cons hn, List.getD_eq_getElem?_getD, List.getElem?_eq_getElem hn, Option.getD_some]
  rw [← hd, e, val_cons, Nat.add_mul_mod_self_left, Nat.mod_eq_of_lt (wd_lt hm hn)]

theorem val_set {m : List Nat} {i : Nat} (hi : i < m.length) (x : Nat) :
    val (m.set i x) + B ^ i * wd m i = val m + B ^ i * x := by
  induction m generalizing i with
  | nil => simp at hi
  | cons a m ih =>
    cases i with
    | zero => simp [wd]; omega
    | succ i =>
      have := ih (i := i) (by simpa using hi)
      rw [List.set_cons_succ, val_cons, val_cons, pow_succ]
      have e : wd (a :: m) (i + 1) = wd m i := by simp [wd]
      rw [e]
      have h2 : B * (val (m.set i x) + B ^ i * wd m i) = B * (val m + B ^ i * x) := by rw [this]
      rw [Nat.mul_add, Nat.mul_add] at h2
      have e1 : B ^ i * B * wd m i = B * (B ^ i * wd m i) := by ring
      have e2 : B ^ i * B * x = B * (B ^ i * x) := by ring
      omega

theorem fftModulus_spec (last : Nat) (hl : 1 ≤ last) :
    (fftModulus last).neg = false ∧ Wf (fftModulus last).m ∧ (fftModulus last).m.length = last + 1 ∧
      val (fftModulus last).m = B ^ last + 1 := by
  unfold fftModulus
  have hw : Wf ((List.replicate (last + 1) 0).set 0 1) := (wf_zeros _).set _ one_lt_B
  refine ⟨rfl, hw.set _ one_lt_B, by simp, ?_⟩
  have h1 := val_set (m := List.replicate (last + 1) 0) (i := 0) (by simp) 1
  have h2 := val_set (m := (List.replicate (last + 1) 0).set 0 1) (i := last) (by simp) 1
  have w1 : wd (List.replicate (last + 1) 0) 0 = 0 := by simp [wd]
  have w2 : wd ((List.replicate (last + 1) 0).set 0 1) last = 0 := by
    unfold wd
    rw [List.getD_eq_getElem?_getD, List.getElem?_set_ne (by omega)]
    simp [List.getElem?_replicate]
  rw [w1, val_replicate_zero] at h1
  rw [w2] at h2
  simp only [pow_zero] at h1
  dsimp only
  omega

theorem fftDec_spec {m : List Nat} (hm : Wf m) {last : Nat} (hl : 1 ≤ last) (hlen : last < m.length)
    (h0 : wd m 0 > 0) (h1 : wd m last > 0) :
    (fftDec m last).length = m.length ∧ Wf (fftDec m last) ∧ val (fftDec m last) + (B ^ last + 1) = val m := by
  unfold fftDec
  dsimp only
  have b0 := wd_lt hm (i := 0) (by omega)
  have b1 := wd_lt hm hlen
  have hw : Wf (m.set 0 (wd m 0 - 1)) := hm.set _ (by omega)
  have e : wd (m.set 0 (wd m 0 - 1)) last = wd m last := by
    unfold wd
    rw [List.getD_eq_getElem?_getD, List.getElem?_set_ne (by omega), ← List.getD_eq_getElem?_getD]
  rw [e]
  refine ⟨by simp, hw.set _ (by omega), ?_⟩
  have v0 := val_set (m := m) (i := 0) (by omega) (wd m 0 - 1)
  have v1 := val_set (m := m.set 0 (wd m 0 - 1)) (i := last) (by simpa using hlen) (wd m last - 1)
  rw [e] at v1
  simp only [pow_zero, Nat.one_mul] at v0
  have : B ^ last * wd m last = B ^ last * (wd m last - 1) + B ^ last := by
    rw [← Nat.mul_succ]; congr 1; omega
  omega

theorem SS.neg_of_pos {x : SS} (h : 0 < x.toZ) : x.neg = false := by
  unfold SS.toZ at h
  cases hn : x.neg
  · rfl
  · rw [hn] at h; simp at h; omega

theorem SS.val_of_nonneg {x : SS} (h : 0 ≤ x.toZ) : (val x.m : ℤ) = x.toZ := by
  unfold SS.toZ at *
  cases hn : x.neg
  · simp
  · rw [hn] at h; simp at h ⊢; omega

theorem fft_top_word {m : List Nat} (hm : Wf m) {last : Nat} (hlen : last < m.length) (hb : val m < B ^ (last + 1)) :
    wd m last = val m / B ^ last := by
  rw [wd_div hm hlen, Nat.mod_eq_of_lt]
  rw [Nat.div_lt_iff_lt_mul (B_pow_pos _), Nat.mul_comm, ← pow_succ]
  exact hb

theorem low_word {m : List Nat} (hm : Wf m) (hlen : 0 < m.length) : wd m 0 = val m % B := by
  rw [wd_div hm hlen, pow_zero, Nat.div_one]

theorem B_pow_mod {last : Nat} (hl : 1 ≤ last) : B ^ last % B = 0 := by
  obtain ⟨k, rfl⟩ : ∃ k, last = k + 1 := ⟨last - 1, by omega⟩
  rw [pow_succ, Nat.mul_mod_left]

theorem fftNormPos_spec {last : Nat} (hl : 1 ≤ last) (f : Nat) {x : SS} (hw : Wf x.m) (hlen : last < x.m.length)
    (hb : val x.m < B ^ (last + 1)) (hn : x.neg = false) (hf : val x.m / B ^ last < f) :
    ∃ y, y = fftNormPos last (fftModulus last) f x ∧ y.m.length = x.m.length ∧ Wf y.m ∧
      (∃ c : ℤ, y.toZ = x.toZ + c * (B ^ last + 1 : ℕ)) ∧
      ((y.neg = false ∧ val y.m < B ^ last) ∨ (y.neg = true ∧ val y.m = 1)) := by
  obtain ⟨m1, m2, m3, m4⟩ := fftModulus_spec last hl
  have hBp := B_pow_pos last
  have hB2 : 1 < B ^ last := Nat.one_lt_pow (by omega) one_lt_B
  induction f generalizing x with
  | zero => exact absurd hf (Nat.not_lt_zero _)
  | succ f ih =>
    unfold fftNormPos
    have ht := fft_top_word hw hlen hb
    have h0 := low_word hw (by omega)
    by_cases hq : wd x.m last > 0
    · rw [if_pos hq]
      have hge : B ^ last ≤ val x.m := by
        rw [ht] at hq
        exact (Nat.one_le_div_iff hBp).1 hq
      have hxz : x.toZ = val x.m := by unfold SS.toZ; rw [hn]; simp
      by_cases hz : wd x.m 0 > 0
      · rw [if_pos hz]
        obtain ⟨d1, d2, d3⟩ := fftDec_spec hw hl hlen hz hq
        obtain ⟨y, hy, i1, i2, ⟨c, i3⟩, i4⟩ := ih (x := { x with m := fftDec x.m last }) d2 (by dsimp; omega)
          (by dsimp; omega) hn (by
            dsimp
            have : val (fftDec x.m last) / B ^ last + 1 ≤ val x.m / B ^ last := by
              rw [← Nat.add_div_right _ hBp]
              exact Nat.div_le_div_right (by omega)
            omega)
        refine ⟨y, hy, by rw [i1]; exact d1, i2, ⟨c - 1, ?_⟩, i4⟩
        rw [i3, hxz]
        have e : SS.toZ { neg := x.neg, m := fftDec x.m last } = val (fftDec x.m last) := by
          unfold SS.toZ; dsimp; rw [hn]; simp
        rw [e, ← d3]; push_cast; ring
      · rw [if_neg hz]
        have hz0 : val x.m % B = 0 := by omega
        have hne : val x.m ≠ B ^ last + 1 := by
          intro h
          rw [h, Nat.add_mod, B_pow_mod hl] at hz0
          have := one_lt_B
          rw [Nat.mod_eq_of_lt one_lt_B] at hz0
          simp at hz0
          omega
        have hxlt := val_lt hw
        obtain ⟨s1, s2, s3⟩ := SS.addSubAssign_spec (s1 := x) (s2 := fftModulus last) hw m2 false
          (r := (val x.m : ℤ) - (B ^ last + 1 : ℕ)) (by
            rw [hxz]; unfold SS.toZ; rw [m1, m4]; simp; ring) (by
            rw [abs_lt]
            constructor
            · push_cast
              have : (B : ℤ) ^ last ≤ val x.m := by exact_mod_cast hge
              have h2 : (1 : ℤ) < (B : ℤ) ^ x.m.length := by
                exact_mod_cast Nat.one_lt_pow (by omega) one_lt_B
              linarith
            · have : (val x.m : ℤ) < (B ^ x.m.length : ℕ) := by exact_mod_cast hxlt
              push_cast at this ⊢
              have h3 : (0 : ℤ) < (B : ℤ) ^ last := by exact_mod_cast hBp
              linarith)
        have e : x.subAssign (fftModulus last) = x.addSubAssign (fftModulus last) false := rfl
        rw [e]
        generalize x.addSubAssign (fftModulus last) false = z at *
        by_cases hgt : B ^ last + 1 < val x.m
        · have hzp : 0 < z.toZ := by rw [s3]; have : ((B ^ last + 1 : ℕ) : ℤ) < val x.m := by exact_mod_cast hgt
                                     linarith
          have hzn := SS.neg_of_pos hzp
          have hzv := SS.val_of_nonneg hzp.le
          have hzv' : val z.m + (B ^ last + 1) = val x.m := by
            have : (val z.m : ℤ) + (B ^ last + 1 : ℕ) = val x.m := by rw [hzv, s3]; ring
            exact_mod_cast this
          obtain ⟨y, hy, i1, i2, ⟨c, i3⟩, i4⟩ := ih (x := z) s2 (by omega) (by omega) hzn (by
            have : val z.m / B ^ last + 1 ≤ val x.m / B ^ last := by
              rw [← Nat.add_div_right _ hBp]
              exact Nat.div_le_div_right (by omega)
            omega)
          refine ⟨y, hy, by rw [i1, s1], i2, ⟨c - 1, ?_⟩, i4⟩
          rw [i3, s3, hxz]; push_cast; ring
        · have hv : val x.m = B ^ last := by omega
          have hz1 : z.toZ = -1 := by rw [s3, hv]; push_cast; ring
          have hza := SS.abs_toZ z
          rw [hz1] at hza
          have hzv : val z.m = 1 := by simp at hza; exact_mod_cast hza.symm
          have hzn : z.neg = true := by
            cases h : z.neg
            · unfold SS.toZ at hz1; rw [h, hzv] at hz1; simp at hz1
            · rfl
          have hdone : fftNormPos last (fftModulus last) f z = z := by
            cases f with
            | zero => rfl
            | succ f =>
              unfold fftNormPos
              rw [if_neg]
              rw [fft_top_word s2 (by omega) (by rw [hzv]; exact Nat.one_lt_pow (by omega) one_lt_B), hzv,
                Nat.div_eq_of_lt hB2]
              omega
          refine ⟨z, hdone.symm, s1, s2, ⟨-1, ?_⟩, Or.inr ⟨hzn, hzv⟩⟩
          rw [s3, hxz]; ring
    · rw [if_neg hq]
      refine ⟨x, rfl, rfl, hw, ⟨0, by ring⟩, Or.inl ⟨hn, ?_⟩⟩
      rw [ht] at hq
      have : val x.m / B ^ last = 0 := by omega
      exact (Nat.div_eq_zero_iff_lt hBp).1 this

theorem fftNormalize_spec {last : Nat} (hl : 1 ≤ last) {x : SS} (hw : Wf x.m) (hlen : last < x.m.length)
    (hb : val x.m < B ^ (last + 1)) (hn : x.neg = true → val x.m ≤ B ^ last) :
    ∃ y, y = fftNormalize last (fftModulus last) x ∧ y.m.length = x.m.length ∧ Wf y.m ∧ val y.m ≤ B ^ last ∧
      (∃ c : ℤ, (val y.m : ℤ) = x.toZ + c * (B ^ last + 1 : ℕ)) ∧
      (x.neg = false ∨ val x.m ≠ 0 → y.neg = false) := by
  obtain ⟨m1, m2, m3, m4⟩ := fftModulus_spec last hl
  have hBp := B_pow_pos last
  have hB2 : 1 < B ^ last := Nat.one_lt_pow (by omega) one_lt_B
  have hBl : B ^ last + 1 < B ^ (last + 1) := by
    rw [pow_succ]
    have : B ^ last * 2 ≤ B ^ last * B := Nat.mul_le_mul_left _ one_lt_B
    omega
  have hBx : B ^ last + 1 < B ^ x.m.length := lt_of_lt_of_le hBl (Nat.pow_le_pow_right B_pos (by omega))
  have addm : ∀ z : SS, Wf z.m → z.m.length = x.m.length → z.neg = true → 0 < val z.m → val z.m ≤ B ^ last →
      (z.addAssign (fftModulus last)).m.length = x.m.length ∧ Wf (z.addAssign (fftModulus last)).m ∧
      (z.addAssign (fftModulus last)).neg = false ∧
      val (z.addAssign (fftModulus last)).m + val z.m = B ^ last + 1 := by
    intro z z1 z2 z3 z4 z5
    have hzz : z.toZ = -(val z.m : ℤ) := by unfold SS.toZ; rw [z3]; simp
    obtain ⟨s1, s2, s3⟩ := SS.addSubAssign_spec (s1 := z) (s2 := fftModulus last) z1 m2 true
      (r := ((B ^ last + 1 - val z.m : ℕ) : ℤ)) (by
        rw [hzz]; unfold SS.toZ; rw [m1, m4, Nat.cast_sub (by omega)]; simp; ring) (by
        rw [Nat.abs_cast, z2]; exact_mod_cast lt_of_le_of_lt (Nat.sub_le _ _) hBx)
    have hp : 0 < (z.addSubAssign (fftModulus last) true).toZ := by
      rw [s3]; exact_mod_cast (by omega : 0 < B ^ last + 1 - val z.m)
    have hv := SS.val_of_nonneg hp.le
    rw [s3] at hv
    have hv' : val (z.addSubAssign (fftModulus last) true).m = B ^ last + 1 - val z.m := by exact_mod_cast hv
    refine ⟨by rw [← z2]; exact s1, s2, SS.neg_of_pos hp, ?_⟩
    show val (z.addSubAssign (fftModulus last) true).m + _ = _
    omega
  unfold fftNormalize
  by_cases hc : x.neg ∧ x.m.any (· ≠ 0)
  · rw [if_pos hc]
    have hv0 : val x.m ≠ 0 := (any_ne_zero_iff _).1 hc.2
    have hle := hn hc.1
    obtain ⟨a1, a2, a3, a4⟩ := addm x hw rfl hc.1 (by omega) hle
    have hstep : fftNormNeg last (fftModulus last) (wd x.m last + 3) x = x.addAssign (fftModulus last) := by
      rw [show wd x.m last + 3 = (wd x.m last + 1) + 1 + 1 by omega, fftNormNeg, if_pos hc.1, if_neg, fftNormNeg,
        if_neg (by rw [a3]; simp)]
      rintro ⟨g1, g2⟩
      rw [fft_top_word hw hlen hb] at g1
      have : B ^ last ≤ val x.m := (Nat.one_le_div_iff hBp).1 g1
      have : val x.m = B ^ last := by omega
      rw [low_word hw (by omega), this, B_pow_mod hl] at g2
      omega
    rw [hstep]
    refine ⟨_, rfl, a1, a2, by omega, ⟨1, ?_⟩, fun _ => a3⟩
    unfold SS.toZ
    rw [hc.1]
    have : (val (x.addAssign (fftModulus last)).m : ℤ) + val x.m = (B ^ last + 1 : ℕ) := by exact_mod_cast a4
    simp only [if_true]
    linarith
  · rw [if_neg hc]
    dsimp only
    by_cases hxn : x.neg = true
    · have hv0 : val x.m = 0 := by
        by_contra h
        exact hc ⟨hxn, (any_ne_zero_iff _).2 h⟩
      have hst : fftNormPos last (fftModulus last) (wd x.m last + 2) x = x := by
        rw [show wd x.m last + 2 = (wd x.m last + 1) + 1 by omega, fftNormPos, if_neg]
        rw [fft_top_word hw hlen hb, hv0, Nat.zero_div]; omega
      rw [hst, if_neg hc]
      refine ⟨x, rfl, rfl, hw, by omega, ⟨0, ?_⟩, fun h => ?_⟩
      · unfold SS.toZ; rw [hv0]; simp
      · rcases h with h | h
        · rw [hxn] at h; cases h
        · exact absurd hv0 h
    · have hxn : x.neg = false := by simpa using hxn
      obtain ⟨y, hy, y1, y2, ⟨c, y3⟩, y4⟩ := fftNormPos_spec hl (wd x.m last + 2) hw hlen hb hxn (by
        rw [fft_top_word hw hlen hb]; omega)
      rw [← hy]
      rcases y4 with ⟨y5, y6⟩ | ⟨y5, y6⟩
      · rw [if_neg (by rw [y5]; simp)]
        refine ⟨y, rfl, y1, y2, y6.le, ⟨c, ?_⟩, fun _ => y5⟩
        rw [← y3]; unfold SS.toZ; rw [y5]; simp
      · rw [if_pos ⟨y5, (any_ne_zero_iff _).2 (by omega)⟩]
        obtain ⟨a1, a2, a3, a4⟩ := addm y y2 y1 y5 (by omega) (by omega)
        refine ⟨_, rfl, a1, a2, by omega, ⟨c + 1, ?_⟩, fun _ => a3⟩
        have hyz : y.toZ = -1 := by unfold SS.toZ; rw [y5, y6]; simp
        have : (val (y.addAssign (fftModulus last)).m : ℤ) + val y.m = (B ^ last + 1 : ℕ) := by exact_mod_cast a4
        rw [y6] at this
        rw [hyz] at y3
        push_cast at *
        linarith

end AF
