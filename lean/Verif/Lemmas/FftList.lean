import Verif.Lemmas.FftMod
import Verif.Lemmas.FftRing
import Verif.Lemmas.FftRev
/-!
# The transforms on lists of parts (fft.rs)
-/

namespace AF

/-- The residue of the part `i`. -/
def rz (last : Nat) (l : List SS) (i : Nat) : FR last := (l.map (pz last)).getD i 0

theorem rz_zero (last : Nat) (a : SS) (l : List SS) : rz last (a :: l) 0 = pz last a := by simp [rz]
theorem rz_succ (last : Nat) (a : SS) (l : List SS) (i : Nat) : rz last (a :: l) (i + 1) = rz last l i := by
  simp [rz]

theorem evens_odds (last n : Nat) (l : List SS) (hl : l.length = 2 * n) (hp : ∀ x ∈ l, Part last x) :
    (evens l).length = n ∧ (odds l).length = n ∧ (∀ x ∈ evens l, Part last x) ∧ (∀ x ∈ odds l, Part last x) ∧
    (∀ i, rz last (evens l) i = rz last l (2 * i)) ∧ (∀ i, rz last (odds l) i = rz last l (2 * i + 1)) := by
  induction n generalizing l with
  | zero =>
    have : l = [] := List.eq_nil_of_length_eq_zero (by omega)
    subst this
    simp [evens, odds, rz]
  | succ n ih =>
    match l, hl, hp with
    | a :: b :: l, hl, hp =>
      obtain ⟨h1, h2, h3, h4, h5, h6⟩ := ih l (by simp at hl; omega) (fun x hx => hp x (by simp [hx]))
      refine ⟨by simp [evens, h1], by simp [odds, h2], ?_, ?_, ?_, ?_⟩
      · intro x hx
        simp only [evens, List.mem_cons] at hx
        rcases hx with rfl | hx
        · exact hp _ (by simp)
        · exact h3 x hx
      · intro x hx
        simp only [odds, List.mem_cons] at hx
        rcases hx with rfl | hx
        · exact hp _ (by simp)
        · exact h4 x hx
      · intro i
        cases i with
        | zero => rw [evens, rz_zero, Nat.mul_zero, rz_zero]
        | succ i => rw [evens, rz_succ, h5, show 2 * (i + 1) = 2 * i + 1 + 1 by omega, rz_succ, rz_succ]
      · intro i
        cases i with
        | zero => rw [odds, rz_zero, Nat.mul_zero, rz_succ, rz_zero]
        | succ i => rw [odds, rz_succ, h6, show 2 * (i + 1) + 1 = 2 * i + 1 + 1 + 1 by omega, rz_succ, rz_succ]

theorem fftFwdStep_spec {last : Nat} (hl : 1 ≤ last) (w kk : Nat) (n j : Nat) (as bs : List SS) (h1 : as.length = n)
    (h2 : bs.length = n) (ha : ∀ x ∈ as, Part last x) (hb : ∀ x ∈ bs, Part last x) :
    (fftFwdStep last (fftModulus last) w kk j as bs).length = 2 * n ∧
    (∀ x ∈ fftFwdStep last (fftModulus last) w kk j as bs, Part last x) ∧
    ∀ i, i < n →
      rz last (fftFwdStep last (fftModulus last) w kk j as bs) (2 * i) =
        rz last as i + rz last bs i * 2 ^ (fftWShift (j + i) kk * w) ∧
      rz last (fftFwdStep last (fftModulus last) w kk j as bs) (2 * i + 1) =
        rz last as i - rz last bs i * 2 ^ (fftWShift (j + i) kk * w) := by
  induction n generalizing as bs j with
  | zero =>
    have e1 : as = [] := List.eq_nil_of_length_eq_zero h1
    subst e1
    simp [fftFwdStep]
  | succ n ih =>
    match as, bs, h1, h2, ha, hb with
    | a :: as, b :: bs, h1, h2, ha, hb =>
      obtain ⟨i1, i2, i3⟩ := ih (j + 1) as bs (by simpa using h1) (by simpa using h2)
        (fun x hx => ha x (by simp [hx])) (fun x hx => hb x (by simp [hx]))
      obtain ⟨p1, p2⟩ := fftMulMod_spec hl (hb b (by simp)) (fftWShift j kk * w)
      obtain ⟨q1, q2, q3, q4⟩ := fftButterfly_spec hl (ha a (by simp)) p1
      rw [fftFwdStep]
      refine ⟨by simp [i1]; omega, ?_, ?_⟩
      · intro x hx
        simp only [List.mem_cons] at hx
        rcases hx with rfl | rfl | hx
        · exact q1
        · exact q2
        · exact i2 x hx
      · intro i hi
        cases i with
        | zero =>
          rw [Nat.mul_zero, rz_succ, rz_zero, rz_zero, rz_zero, rz_zero, q3, q4, p2, Nat.add_zero j]
          exact ⟨rfl, rfl⟩
        | succ i =>
          have := i3 i (by omega)
          rw [show 2 * (i + 1) = 2 * i + 1 + 1 by omega, rz_succ, rz_succ, rz_succ, rz_succ, rz_succ, rz_succ,
            show j + (i + 1) = j + 1 + i by omega]
          exact this

theorem fwdSum_congr {R : Type*} [CommRing R] (g : R) (k : Nat) {x y : Nat → R} (h : ∀ j < 2 ^ k, x j = y j)
    (i : Nat) : fwdSum g k x i = fwdSum g k y i := by
  unfold fwdSum
  refine Finset.sum_congr rfl fun j hj => ?_
  rw [h j (Finset.mem_range.1 hj)]

theorem revSum_congr {R : Type*} [CommRing R] (g : R) (k : Nat) {x y : Nat → R} (h : ∀ j < 2 ^ k, x j = y j)
    (n : Nat) : revSum g k x n = revSum g k y n := by
  unfold revSum
  refine Finset.sum_congr rfl fun j hj => ?_
  rw [h j (Finset.mem_range.1 hj)]

theorem list_two {l : List SS} (h : l.length = 2) : ∃ a b, l = [a, b] := by
  match l, h with
  | [a, b], _ => exact ⟨a, b, rfl⟩

theorem fftForward_spec {last : Nat} (hl : 1 ≤ last) (k w : Nat) (hk : k ≤ 64)
    (hg : ∀ k', k = k' + 1 → (2 : FR last) ^ (w * 2 ^ k') = -1) (l : List SS) (hlen : l.length = 2 ^ k)
    (hp : ∀ x ∈ l, Part last x) :
    (fftForward last (fftModulus last) k w l).length = 2 ^ k ∧
    (∀ x ∈ fftForward last (fftModulus last) k w l, Part last x) ∧
    ∀ i, i < 2 ^ k → rz last (fftForward last (fftModulus last) k w l) i = fwdSum (2 ^ w) k (rz last l) i := by
  match k with
  | 0 =>
    refine ⟨hlen, hp, ?_⟩
    intro i hi
    have : i = 0 := by simpa using hi
    subst this
    simp [fftForward, fwdSum]
  | 1 =>
    obtain ⟨a, b, rfl⟩ := list_two hlen
    obtain ⟨q1, q2, q3, q4⟩ := fftButterfly_spec hl (hp a (by simp)) (hp b (by simp))
    rw [fftForward]
    refine ⟨by simp, ?_, ?_⟩
    · intro x hx
      simp only [List.mem_cons, List.not_mem_nil, or_false] at hx
      rcases hx with rfl | rfl
      · exact q1
      · exact q2
    · intro i hi
      have hs := fwdSum_step ((2 : FR last) ^ w) 0 (by rw [← pow_mul]; exact hg 0 rfl) (rz last [a, b]) 0
      have e0 : ∀ y : Nat → FR last, fwdSum ((2 ^ w) ^ 2) 0 y 0 = y 0 := by intro y; simp [fwdSum]
      rw [e0, e0] at hs
      simp only [Nat.mul_zero, Nat.zero_add, revBits, pow_zero, mul_one] at hs
      rcases (show i = 0 ∨ i = 1 by omega) with rfl | rfl
      · rw [hs.1, rz_zero, q3, rz_zero, rz_succ, rz_zero]
      · rw [hs.2, rz_succ, rz_zero, q4, rz_zero, rz_succ, rz_zero]
  | k + 2 =>
    obtain ⟨e1, e2, e3, e4, e5, e6⟩ := evens_odds last (2 ^ (k + 1)) l (by rw [hlen]; ring) hp
    have hg' : ∀ k', k + 1 = k' + 1 → (2 : FR last) ^ (w * 2 * 2 ^ k') = -1 := by
      intro k' hk'
      rw [← hg (k + 1) rfl]
      congr 1
      have : k = k' := by omega
      subst this
      ring
    obtain ⟨f1, f2, f3⟩ := fftForward_spec hl (k + 1) (w * 2) (by omega) hg' (evens l) e1 e3
    obtain ⟨g1, g2, g3⟩ := fftForward_spec hl (k + 1) (w * 2) (by omega) hg' (odds l) e2 e4
    obtain ⟨s1, s2, s3⟩ := fftFwdStep_spec hl w (k + 1) (2 ^ (k + 1)) 0 _ _ f1 g1 f2 g2
    rw [fftForward]
    refine ⟨by rw [s1]; ring, s2, ?_⟩
    intro i hi
    have hs := fwdSum_step ((2 : FR last) ^ w) (k + 1) (by rw [← pow_mul]; exact hg (k + 1) rfl) (rz last l) (i / 2)
    have hi2 : i / 2 < 2 ^ (k + 1) := by rw [pow_succ] at hi; omega
    obtain ⟨t1, t2⟩ := s3 (i / 2) hi2
    rw [f3 _ hi2, g3 _ hi2, Nat.zero_add, fftWShift_eq _ _ (by omega) (by omega)] at t1 t2
    have ee : ((2 : FR last) ^ w) ^ 2 = 2 ^ (w * 2) := by rw [← pow_mul]
    have er : ((2 : FR last) ^ w) ^ revBits (k + 1) (i / 2) = 2 ^ (revBits (k + 1) (i / 2) * w) := by
      rw [← pow_mul, Nat.mul_comm]
    rw [ee, er] at hs
    have c1 : fwdSum ((2 : FR last) ^ (w * 2)) (k + 1) (rz last (evens l)) (i / 2) =
        fwdSum (2 ^ (w * 2)) (k + 1) (fun j => rz last l (2 * j)) (i / 2) := fwdSum_congr _ _ (fun j _ => e5 j) _
    have c2 : fwdSum ((2 : FR last) ^ (w * 2)) (k + 1) (rz last (odds l)) (i / 2) =
        fwdSum (2 ^ (w * 2)) (k + 1) (fun j => rz last l (2 * j + 1)) (i / 2) := fwdSum_congr _ _ (fun j _ => e6 j) _
    rw [c1, c2] at t1 t2
    rcases Nat.mod_two_eq_zero_or_one i with h | h
    · have hi3 : 2 * (i / 2) = i := by omega
      rw [hi3] at t1 hs
      rw [t1, hs.1]
    · have hi3 : 2 * (i / 2) + 1 = i := by omega
      rw [hi3] at t2 hs
      rw [t2, hs.2]

theorem fftRevStep_spec {last : Nat} (hl : 1 ≤ last) (w k1 : Nat) (hw : (2 : FR last) ^ (w * k1) = 1) (n j : Nat)
    (hj : j + n ≤ k1) (as bs : List SS) (h1 : as.length = n)
    (h2 : bs.length = n) (ha : ∀ x ∈ as, Part last x) (hb : ∀ x ∈ bs, Part last x) :
    (fftRevStep last (fftModulus last) w k1 j as bs).length = n ∧
    (∀ x ∈ fftRevStep last (fftModulus last) w k1 j as bs, Part last x.1 ∧ Part last x.2) ∧
    ∀ i, i < n →
      rz last ((fftRevStep last (fftModulus last) w k1 j as bs).map (·.1)) i =
        rz last as i + rz last bs i * 2 ^ (w * (k1 - (j + i))) ∧
      rz last ((fftRevStep last (fftModulus last) w k1 j as bs).map (·.2)) i =
        rz last as i - rz last bs i * 2 ^ (w * (k1 - (j + i))) := by
  induction n generalizing as bs j with
  | zero =>
    have e1 : as = [] := List.eq_nil_of_length_eq_zero h1
    subst e1
    simp [fftRevStep]
  | succ n ih =>
    match as, bs, h1, h2, ha, hb with
    | a :: as, b :: bs, h1, h2, ha, hb =>
      obtain ⟨i1, i2, i3⟩ := ih (j + 1) (by omega) as bs (by simpa using h1) (by simpa using h2)
        (fun x hx => ha x (by simp [hx])) (fun x hx => hb x (by simp [hx]))
      obtain ⟨p1, p2⟩ : Part last (if j = 0 then b else fftMulMod last (fftModulus last) b (w * (k1 - (j - 1) - 1))) ∧
          pz last (if j = 0 then b else fftMulMod last (fftModulus last) b (w * (k1 - (j - 1) - 1))) =
            pz last b * 2 ^ (w * (k1 - j)) := by
        by_cases h0 : j = 0
        · rw [if_pos h0, h0, Nat.sub_zero, hw, mul_one]
          exact ⟨hb b (by simp), rfl⟩
        · rw [if_neg h0, show k1 - (j - 1) - 1 = k1 - j by omega]
          exact fftMulMod_spec hl (hb b (by simp)) _
      obtain ⟨q1, q2, q3, q4⟩ := fftButterfly_spec hl (ha a (by simp)) p1
      rw [fftRevStep]
      refine ⟨by simp [i1], ?_, ?_⟩
      · intro x hx
        simp only [List.mem_cons] at hx
        rcases hx with rfl | hx
        · exact ⟨q1, q2⟩
        · exact i2 x hx
      · intro i hi
        rw [List.map_cons, List.map_cons]
        cases i with
        | zero =>
          rw [rz_zero, rz_zero, rz_zero, rz_zero, q3, q4, p2, Nat.add_zero j]
          exact ⟨rfl, rfl⟩
        | succ i =>
          have := i3 i (by omega)
          rw [rz_succ, rz_succ, rz_succ, rz_succ, show j + (i + 1) = j + 1 + i by omega]
          exact this

theorem rz_append (last : Nat) (a b : List SS) (i : Nat) :
    (i < a.length → rz last (a ++ b) i = rz last a i) ∧ rz last (a ++ b) (i + a.length) = rz last b i := by
  unfold rz
  rw [List.map_append]
  constructor
  · intro h
    rw [List.getD_append _ _ _ _ (by simpa using h)]
  · rw [List.getD_append_right _ _ _ _ (by simp)]
    simp

theorem rz_take (last : Nat) (l : List SS) (n i : Nat) (h : i < n) : rz last (l.take n) i = rz last l i := by
  unfold rz
  rw [List.map_take, List.getD_eq_getElem?_getD, List.getD_eq_getElem?_getD, List.getElem?_take_of_lt h]

theorem rz_drop (last : Nat) (l : List SS) (n i : Nat) : rz last (l.drop n) i = rz last l (i + n) := by
  unfold rz
  rw [List.map_drop, List.getD_eq_getElem?_getD, List.getD_eq_getElem?_getD, List.getElem?_drop, Nat.add_comm]

theorem fftReverse_spec {last : Nat} (hl : 1 ≤ last) (k w : Nat)
    (hg : ∀ k', k = k' + 1 → (2 : FR last) ^ (w * 2 ^ k') = -1) (l : List SS) (hlen : l.length = 2 ^ k)
    (hp : ∀ x ∈ l, Part last x) :
    (fftReverse last (fftModulus last) k w l).length = 2 ^ k ∧
    (∀ x ∈ fftReverse last (fftModulus last) k w l, Part last x) ∧
    ∀ i, i < 2 ^ k → rz last (fftReverse last (fftModulus last) k w l) i = revSum (2 ^ w) k (rz last l) i := by
  match k with
  | 0 =>
    refine ⟨hlen, hp, ?_⟩
    intro i hi
    have : i = 0 := by simpa using hi
    subst this
    simp [fftReverse, revSum, revBits]
  | 1 =>
    obtain ⟨a, b, rfl⟩ := list_two hlen
    obtain ⟨q1, q2, q3, q4⟩ := fftButterfly_spec hl (hp a (by simp)) (hp b (by simp))
    rw [fftReverse]
    refine ⟨by simp, ?_, ?_⟩
    · intro x hx
      simp only [List.mem_cons, List.not_mem_nil, or_false] at hx
      rcases hx with rfl | rfl
      · exact q1
      · exact q2
    · intro i hi
      have hs := revSum_step ((2 : FR last) ^ w) 0 (by rw [← pow_mul]; exact hg 0 rfl) (rz last [a, b]) 0 (by simp)
      have e0 : ∀ y : Nat → FR last, revSum ((2 ^ w) ^ 2) 0 y 0 = y 0 := by intro y; simp [revSum, revBits]
      have e1 : ((2 : FR last) ^ w) ^ (2 ^ (0 + 1) - 0) = 1 := by
        have := hg 0 rfl
        rw [pow_zero, Nat.mul_one] at this
        rw [this]; norm_num
      rw [e0, e0, e1] at hs
      simp only [Nat.zero_add, pow_zero, mul_one] at hs
      rcases (show i = 0 ∨ i = 1 by omega) with rfl | rfl
      · rw [hs.1, rz_zero, q3, rz_zero, show rz last [a, b] 1 = pz last b from rfl]
      · rw [hs.2, rz_succ, rz_zero, q4, rz_zero, show rz last [a, b] 1 = pz last b from rfl]
  | k + 2 =>
    have hg' : ∀ k', k + 1 = k' + 1 → (2 : FR last) ^ (w * 2 * 2 ^ k') = -1 := by
      intro k' hk'
      rw [← hg (k + 1) rfl]
      congr 1
      have : k = k' := by omega
      subst this
      ring
    have hl1 : (l.take (2 ^ (k + 1))).length = 2 ^ (k + 1) := by
      rw [List.length_take, hlen, pow_succ 2 (k + 1)]; omega
    have hl2 : (l.drop (2 ^ (k + 1))).length = 2 ^ (k + 1) := by
      rw [List.length_drop, hlen, pow_succ 2 (k + 1)]; omega
    obtain ⟨f1, f2, f3⟩ := fftReverse_spec hl (k + 1) (w * 2) hg' (l.take (2 ^ (k + 1))) hl1
      (fun x hx => hp x (List.mem_of_mem_take hx))
    obtain ⟨g1, g2, g3⟩ := fftReverse_spec hl (k + 1) (w * 2) hg' (l.drop (2 ^ (k + 1))) hl2
      (fun x hx => hp x (List.mem_of_mem_drop hx))
    have h1 : (2 : FR last) ^ (w * 2 ^ (k + 2)) = 1 := by
      rw [pow_succ 2 (k + 1), ← Nat.mul_assoc, pow_mul, hg (k + 1) rfl]; norm_num
    obtain ⟨s1, s2, s3⟩ := fftRevStep_spec hl w (2 ^ (k + 2)) h1 (2 ^ (k + 1)) 0 (by
      rw [pow_succ 2 (k + 1)]; omega) _ _ f1 g1 f2 g2
    rw [fftReverse]
    refine ⟨by simp [s1]; ring, ?_, ?_⟩
    · intro x hx
      rw [List.mem_append, List.mem_map, List.mem_map] at hx
      rcases hx with ⟨y, hy, rfl⟩ | ⟨y, hy, rfl⟩
      · exact (s2 y hy).1
      · exact (s2 y hy).2
    · intro i hi
      have ee : ((2 : FR last) ^ w) ^ 2 = 2 ^ (w * 2) := by rw [← pow_mul]
      have body : ∀ n, n < 2 ^ (k + 1) →
          rz last ((fftRevStep last (fftModulus last) w (2 ^ (k + 2)) 0
            (fftReverse last (fftModulus last) (k + 1) (w * 2) (l.take (2 ^ (k + 1))))
            (fftReverse last (fftModulus last) (k + 1) (w * 2) (l.drop (2 ^ (k + 1))))).map (·.1)) n =
              revSum (2 ^ w) (k + 2) (rz last l) n ∧
          rz last ((fftRevStep last (fftModulus last) w (2 ^ (k + 2)) 0
            (fftReverse last (fftModulus last) (k + 1) (w * 2) (l.take (2 ^ (k + 1))))
            (fftReverse last (fftModulus last) (k + 1) (w * 2) (l.drop (2 ^ (k + 1))))).map (·.2)) n =
              revSum (2 ^ w) (k + 2) (rz last l) (n + 2 ^ (k + 1)) := by
        intro n hn
        have hs := revSum_step ((2 : FR last) ^ w) (k + 1) (by rw [← pow_mul]; exact hg (k + 1) rfl) (rz last l) n hn
        obtain ⟨t1, t2⟩ := s3 n hn
        rw [f3 _ hn, g3 _ hn, Nat.zero_add] at t1 t2
        have c1 : revSum ((2 : FR last) ^ (w * 2)) (k + 1) (rz last (l.take (2 ^ (k + 1)))) n =
            revSum (2 ^ (w * 2)) (k + 1) (rz last l) n := revSum_congr _ _ (fun j hj => rz_take _ _ _ _ hj) _
        have c2 : revSum ((2 : FR last) ^ (w * 2)) (k + 1) (rz last (l.drop (2 ^ (k + 1)))) n =
            revSum (2 ^ (w * 2)) (k + 1) (fun i => rz last l (i + 2 ^ (k + 1))) n :=
          revSum_congr _ _ (fun j _ => rz_drop _ _ _ _) _
        rw [c1, c2] at t1 t2
        rw [ee, ← pow_mul] at hs
        rw [t1, t2, hs.1, hs.2]
        exact ⟨rfl, rfl⟩
      rcases Nat.lt_or_ge i (2 ^ (k + 1)) with h | h
      · rw [(rz_append _ _ _ _).1 (by simp [s1]; exact h)]
        exact (body i h).1
      · have h2 := (body (i - 2 ^ (k + 1)) (by rw [pow_succ] at hi; omega)).2
        have h3 := (rz_append last ((fftRevStep last (fftModulus last) w (2 ^ (k + 2)) 0
            (fftReverse last (fftModulus last) (k + 1) (w * 2) (l.take (2 ^ (k + 1))))
            (fftReverse last (fftModulus last) (k + 1) (w * 2) (l.drop (2 ^ (k + 1))))).map (·.1))
            ((fftRevStep last (fftModulus last) w (2 ^ (k + 2)) 0
            (fftReverse last (fftModulus last) (k + 1) (w * 2) (l.take (2 ^ (k + 1))))
            (fftReverse last (fftModulus last) (k + 1) (w * 2) (l.drop (2 ^ (k + 1))))).map (·.2))
            (i - 2 ^ (k + 1))).2
        rw [List.length_map, s1, Nat.sub_add_cancel h] at h3
        rw [Nat.sub_add_cancel h] at h2
        rw [h3, h2]

end AF
