import Verif.Lemmas.TrigSinSer
import Verif.Lemmas.Rem
/-!
# The length of the remainder in the reduction of the argument
-/

namespace AF

open Num

theorem remFinalize_len {x y v : Num} {m3 : Mantissa} {e : Int} (h : Num.remFinalize x y m3 e = .ok v) : v.m.m.length = m3.m.length := by
  unfold Num.remFinalize at h
  split at h
  · split at h
    · cases h
    · split at h
      · split at h
        · injection h with h; rw [← h]; simp [Mantissa.setZero]
        · cases h
      · injection h with h; rw [← h]
        unfold Mantissa.normilize
        dsimp only
        split
        · exact shiftLeft_length _ _
        · rfl
  · injection h with h; rw [← h]

theorem powModLoop_lt {a n : List Nat} (ha : Wf a) (hn : TopSet n) (bs : List Bool) :
    ∀ x : List Nat, Wf x → val x < val n → val (powModLoop a n x bs) < val n := by
  have hN : 0 < val n := by
    have h1 := hn.2.2
    have h2 : 0 < B ^ n.length := Nat.pow_pos (by decide)
    omega
  induction bs with
  | nil => intro x _ h; exact h
  | cons b bs ih =>
    intro x hx _
    rw [powModLoop]
    obtain ⟨y1, -, y2⟩ := mantMulMod_spec hx hx hn
    cases b with
    | true =>
      obtain ⟨z1, -, z2⟩ := mantMulMod_spec y1 ha hn
      rw [if_pos rfl]
      exact ih _ z1 (by rw [z2]; exact Nat.mod_lt _ hN)
    | false =>
      rw [if_neg Bool.false_ne_true]
      exact ih _ y1 (by rw [y2]; exact Nat.mod_lt _ hN)

theorem remFinalize_nz {x y v : Num} {m3 : Mantissa} {e : Int} (h : Num.remFinalize x y m3 e = .ok v) (hv : v.isZero = false) :
    0 < m3.n := by
  by_contra hc
  unfold Num.remFinalize at h
  rw [if_neg hc] at h
  injection h with h
  rw [← h] at hv
  have : m3.n = 0 := by omega
  simp [Num.isZero, Mantissa.isZero, this] at hv

theorem rem_len {x y : Num} (hx : x.WF) (hy : y.WF) (hxz : x.isZero = false) (hyz : y.isZero = false) (hyf : y.m.n = 64 * y.m.m.length)
    (hxf : x.m.n = 64 * x.m.m.length) (hl : x.m.m.length < y.m.m.length) (he : y.e ≤ x.e)
    {v : Num} (h : x.rem y = .ok v) (hv : v.isZero = false) :
    x.m.m.length ≤ v.m.m.length ∧ v.m.m.length ≤ 2 * y.m.m.length := by
  unfold Num.rem at h
  rw [hyz, if_neg Bool.false_ne_true, hxz, if_neg Bool.false_ne_true] at h
  dsimp only at h
  obtain ⟨e2, m2, hn2, hm2, -, hl2, hb2, he2⟩ := normalize_spec (K := ℚ) hy hyz
  rw [hn2] at h
  dsimp only at h
  rw [hyf, Nat.sub_self, Nat.cast_zero, sub_zero] at he2
  have hmx : x.m.maxBitLen = 64 * x.m.m.length := by unfold Mantissa.maxBitLen; omega
  have hm2l : m2.maxBitLen = 64 * y.m.m.length := by unfold Mantissa.maxBitLen; omega
  rw [hmx, hm2l, he2] at h
  have hgt : x.e - ((64 * x.m.m.length : ℕ) : ℤ) > y.e - ((64 * y.m.m.length : ℕ) : ℤ) := by push_cast; omega
  rw [if_pos hgt] at h
  obtain ⟨i, hi'⟩ : ∃ i, i = (x.e - ((64 * x.m.m.length : ℕ) : ℤ) - (y.e - ((64 * y.m.m.length : ℕ) : ℤ))).toNat := ⟨_, rfl⟩
  rw [← hi'] at h
  have hi0 : 0 < i := by push_cast at hi'; omega
  have hN := hm2.topSet
  have hNge : 2 ^ (64 * y.m.m.length - 1) ≤ val m2.m := by
    have := hN.2.2
    rw [hl2, show B = 2 ^ 64 from rfl, ← pow_mul] at this
    have e : 2 ^ (64 * y.m.m.length) = 2 * 2 ^ (64 * y.m.m.length - 1) := by rw [← pow_succ']; congr 1; omega
    omega
  have hNlt : val m2.m < 2 ^ (64 * y.m.m.length) := by rw [← hl2]; exact val_lt_two_pow hN.1
  have w2 : Wf [2] := by intro a ha; simp at ha; subst ha; decide
  obtain ⟨pw, hpe⟩ : ∃ pw, pw = (if i ≥ 64 * y.m.m.length then powMod [2] i m2.m
        else (({ m := [2], n := 2 } : Mantissa).pow2 (i - 1)).m) := ⟨_, rfl⟩
  have hpw : Wf pw ∧ val pw < 2 ^ (64 * y.m.m.length) := by
    rw [hpe]
    split
    · refine ⟨(powMod_spec w2 hN (by omega)).1, lt_trans (powModLoop_lt w2 hN _ _ w2 ?_) hNlt⟩
      refine lt_of_lt_of_le ?_ hNge
      calc val [2] = 2 ^ 1 := by simp [val]
        _ < 2 ^ (64 * y.m.m.length - 1) := Nat.pow_lt_pow_right (by norm_num) (by omega)
    · obtain ⟨p1, p2⟩ := pow2_spec (x := { m := [2], n := 2 }) w2 (by decide) (i - 1)
      refine ⟨p1, ?_⟩
      rw [p2]
      simp only [val, mul_zero, add_zero]
      rw [← pow_succ']
      exact Nat.pow_lt_pow_right (by norm_num) (by omega)
  rw [← hpe] at h
  obtain ⟨hpw1, hpw2⟩ := hpw
  rw [remFinalize_len h]
  have hnz := remFinalize_nz h hv
  obtain ⟨r1, -, r2⟩ := mantRem_spec hx.wf hN
  have hXlt := val_lt_two_pow hx.wf
  have hx0 := hx.n_pos hxz
  have hXN : val x.m.m < val m2.m := lt_of_lt_of_le hXlt (le_trans (Nat.pow_le_pow_right (by norm_num) (by omega)) hNge)
  rw [Nat.mod_eq_of_lt hXN] at r2
  have hXge : 2 ^ (64 * x.m.m.length - 1) ≤ val x.m.m := by
    have := hx.bits
    rw [hxf] at this
    apply Nat.lt_size.1
    omega
  obtain ⟨-, hm3, hm3v⟩ := mantMulMod_spec r1 hpw1 hN
  have hpos : 0 < val x.m.m * val pw % val m2.m := by
    rw [hm3, Nat.size_pos, hm3v, r2] at hnz
    exact hnz
  have hpw0 : 0 < val pw := by
    rcases Nat.eq_zero_or_pos (val pw) with h0 | h0
    · rw [h0, Nat.mul_zero, Nat.zero_mod] at hpos
      omega
    · exact h0
  unfold mantMulMod
  dsimp only
  obtain ⟨-, w, v'⟩ := mulWords_spec r1 hpw1 (len := (mantRem x.m.m m2.m).m.length + pw.length) le_rfl
  obtain ⟨T, hT⟩ : ∃ T, T = truncLeadingZeroes (mulWords (mantRem x.m.m m2.m).m pw
    ((mantRem x.m.m m2.m).m.length + pw.length)) := ⟨_, rfl⟩
  have wT : Wf T := by rw [hT, truncLeadingZeroes_take]; exact w.take _
  have vT : val T = val x.m.m * val pw := by rw [hT, val_truncLeadingZeroes, v', r2]
  have tlo : x.m.m.length ≤ T.length := by
    have h1 : 2 ^ (64 * x.m.m.length - 1) ≤ val T := by
      rw [vT]
      exact le_trans hXge (Nat.le_mul_of_pos_right _ hpw0)
    have h2 := lt_of_le_of_lt h1 (val_lt_two_pow wT)
    have := (Nat.pow_lt_pow_iff_right (by norm_num : 1 < 2)).1 h2
    omega
  have thi : T.length ≤ 2 * m2.m.length := by
    rcases Nat.eq_zero_or_pos T.length with hTl | hTl
    · omega
    have h1 := truncLeadingZeroes_lower _ (by rw [← hT]; exact hTl)
    rw [← val_truncLeadingZeroes, ← hT, vT, show B = 2 ^ 64 from rfl, ← pow_mul] at h1
    have h2 : val x.m.m * val pw < 2 ^ (64 * x.m.m.length + 64 * y.m.m.length) := by
      rw [pow_add]
      exact Nat.mul_lt_mul_of_lt_of_lt hXlt hpw2
    have := (Nat.pow_lt_pow_iff_right (by norm_num : 1 < 2)).1 (lt_of_le_of_lt h1 h2)
    omega
  rw [← hT]
  unfold divWords
  by_cases hlt : T.length < m2.m.length
  · rw [if_pos hlt]
    dsimp only
    omega
  rw [if_neg hlt]
  dsimp only
  rw [if_pos (by omega)]
  obtain ⟨-, -, c⟩ := divRec_spec wT hN thi
  obtain ⟨-, c1, c2⟩ := c (by omega)
  omega

end AF
