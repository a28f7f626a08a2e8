import Verif.Lemmas.FftList
/-!
# Cutting a number into parts (fft_decompose in fft.rs)
-/

namespace AF

/-- The value of the part `i`. -/
def nv (l : List SS) (i : Nat) : Nat := (l.map (fun x => val x.m)).getD i 0

theorem nv_zero (a : SS) (l : List SS) : nv (a :: l) 0 = val a.m := by simp [nv]
theorem nv_succ (a : SS) (l : List SS) (i : Nat) : nv (a :: l) (i + 1) = nv l i := by simp [nv]

theorem rz_eq (last : Nat) (l : List SS) (i : Nat) : rz last l i = (nv l i : FR last) := by
  induction l generalizing i with
  | nil => simp [rz, nv]
  | cons a l ih =>
    cases i with
    | zero => rw [rz_zero, nv_zero, pz]
    | succ i => rw [rz_succ, nv_succ, ih]

theorem nv_replicate_zero (n plen i : Nat) : nv (List.replicate n ⟨false, List.replicate plen 0⟩) i = 0 := by
  induction n generalizing i with
  | zero => simp [nv]
  | succ n ih =>
    rw [List.replicate_succ]
    cases i with
    | zero => rw [nv_zero]; simp [val_replicate_zero]
    | succ i => rw [nv_succ, ih]

/-- What is known about the parts `q` of `m` bits of the number `v < 2^L` from the bit `s` on: `I` of them are used;
all but the last one have at most `m` bits, the last one ends at a word boundary. -/
structure Parts (plen m L s f : Nat) (v : Nat) (q : List SS) : Prop where
  len : q.length = f
  wf : ∀ x ∈ q, x.neg = false ∧ Wf x.m ∧ x.m.length = plen
  sum : L ≤ s + f * m → ∑ a ∈ Finset.range f, nv q a * (2 ^ m) ^ a = v / 2 ^ s
  used : ∃ I, (∀ a, I ≤ a → nv q a = 0) ∧ (∀ a, a < I → s + a * m < L) ∧ (∀ a, a + 1 < I → nv q a < 2 ^ m) ∧
    (∀ a, nv q a < 2 ^ (64 * ((m + 63) / 64)))

theorem Parts.nil (plen m L s : Nat) {v : Nat} (hv : v < 2 ^ L) : Parts plen m L s 0 v [] := by
  refine ⟨rfl, by simp, ?_, 0, by simp [nv], by simp, by simp, by simp [nv]⟩
  intro h
  rw [Finset.sum_range_zero]
  exact (Nat.div_eq_of_lt (lt_of_lt_of_le hv (Nat.pow_le_pow_right (by norm_num) (by omega)))).symm

theorem sum_shift (f m : Nat) (x : SS) (q : List SS) :
    ∑ a ∈ Finset.range (f + 1), nv (x :: q) a * (2 ^ m) ^ a =
      val x.m + 2 ^ m * ∑ a ∈ Finset.range f, nv q a * (2 ^ m) ^ a := by
  rw [Finset.sum_range_succ', nv_zero, pow_zero, Nat.mul_one, Nat.add_comm, Finset.mul_sum]
  congr 1
  refine Finset.sum_congr rfl fun a _ => ?_
  rw [nv_succ, pow_succ]; ring

theorem Parts.cons {plen m L s f v : Nat} {q : List SS} {x : SS} (h : Parts plen m L (s + m) f v q)
    (hx : x.neg = false ∧ Wf x.m ∧ x.m.length = plen) (hv : val x.m = v / 2 ^ s % 2 ^ m) (hs : s < L) :
    Parts plen m L s (f + 1) v (x :: q) := by
  obtain ⟨I, h1, h2, h3, h4⟩ := h.used
  have hlt : val x.m < 2 ^ m := by rw [hv]; exact Nat.mod_lt _ (Nat.two_pow_pos _)
  refine ⟨by simp [h.len], ?_, ?_, I + 1, ?_, ?_, ?_, ?_⟩
  · intro y hy
    rcases List.mem_cons.1 hy with rfl | hy
    · exact hx
    · exact h.wf y hy
  · intro hL
    rw [sum_shift, h.sum (by rw [Nat.succ_mul] at hL; omega), hv, pow_add, ← Nat.div_div_eq_div_mul]
    exact Nat.mod_add_div _ _
  · intro a ha
    obtain ⟨b, rfl⟩ : ∃ b, a = b + 1 := ⟨a - 1, by omega⟩
    rw [nv_succ]; exact h1 b (by omega)
  · intro a ha
    cases a with
    | zero => simpa using hs
    | succ a => have := h2 a (by omega); rw [Nat.succ_mul]; omega
  · intro a ha
    cases a with
    | zero => rw [nv_zero]; exact hlt
    | succ a => rw [nv_succ]; exact h3 a (by omega)
  · intro a
    cases a with
    | zero => rw [nv_zero]; exact lt_of_lt_of_le hlt (Nat.pow_le_pow_right (by norm_num) (by omega))
    | succ a => rw [nv_succ]; exact h4 a

theorem Parts.zeros {plen m L s : Nat} (f : Nat) {v : Nat} (hv : v < 2 ^ L) (hs : L ≤ s) :
    Parts plen m L s f v (List.replicate f ⟨false, List.replicate plen 0⟩) := by
  refine ⟨by simp, ?_, ?_, 0, fun a _ => nv_replicate_zero _ _ _, by simp, by simp, ?_⟩
  · intro x hx
    rw [List.eq_of_mem_replicate hx]
    exact ⟨rfl, wf_zeros _, by simp⟩
  · intro _
    rw [Finset.sum_eq_zero (fun a _ => by rw [nv_replicate_zero, Nat.zero_mul])]
    exact (Nat.div_eq_of_lt (lt_of_lt_of_le hv (Nat.pow_le_pow_right (by norm_num) hs))).symm
  · intro a; rw [nv_replicate_zero]; exact Nat.two_pow_pos _

theorem Parts.rest {plen m L s f v : Nat} {x : SS}
    (hx : x.neg = false ∧ Wf x.m ∧ x.m.length = plen) (hv : val x.m = v / 2 ^ s) (hs : s < L)
    (hb : val x.m < 2 ^ (64 * ((m + 63) / 64))) :
    Parts plen m L s (f + 1) v (x :: List.replicate f ⟨false, List.replicate plen 0⟩) := by
  refine ⟨by simp, ?_, ?_, 1, ?_, ?_, by intro a ha; omega, ?_⟩
  · intro y hy
    rcases List.mem_cons.1 hy with rfl | hy
    · exact hx
    · rw [List.eq_of_mem_replicate hy]
      exact ⟨rfl, wf_zeros _, by simp⟩
  · intro _
    rw [sum_shift, Finset.sum_eq_zero (fun a _ => by rw [nv_replicate_zero, Nat.zero_mul]), hv]
    simp
  · intro a ha
    obtain ⟨b, rfl⟩ : ∃ b, a = b + 1 := ⟨a - 1, by omega⟩
    rw [nv_succ, nv_replicate_zero]
  · intro a ha
    have : a = 0 := by omega
    subst this
    simpa using hs
  · intro a
    cases a with
    | zero => rw [nv_zero]; exact hb
    | succ a => rw [nv_succ, nv_replicate_zero]; exact Nat.two_pow_pos _

theorem fftChunkParts_spec {d : List Nat} (hd : Wf d) {mw plen : Nat} (hp : mw ≤ plen) (f i : Nat) :
    Parts plen (64 * mw) (64 * d.length) (64 * (mw * i)) f (val d) (fftChunkParts plen mw f (d.drop (mw * i))) := by
  induction f generalizing i with
  | zero => exact Parts.nil _ _ _ _ (val_lt_two_pow hd)
  | succ f ih =>
    rw [fftChunkParts, List.drop_drop, show mw * i + mw = mw * (i + 1) by ring]
    have hw : Wf ((d.drop (mw * i)).take mw) := (hd.drop _).take _
    have hv : val (fit plen ((d.drop (mw * i)).take mw)) = val d / 2 ^ (64 * (mw * i)) % 2 ^ (64 * mw) := by
      rw [val_fit hw, val_take (hd.drop _), val_drop hd, ← B_pow, ← B_pow]
      exact Nat.mod_eq_of_lt (lt_of_lt_of_le (Nat.mod_lt _ (B_pow_pos _)) (Nat.pow_le_pow_right B_pos hp))
    rcases Nat.lt_or_ge (mw * i) d.length with hlt | hge
    · refine Parts.cons ?_ ⟨rfl, fit_wf hw _, fit_length _ _⟩ hv (by omega)
      rw [show 64 * (mw * i) + 64 * mw = 64 * (mw * (i + 1)) by ring]
      exact ih (i + 1)
    · have hz : ∀ (f j : Nat), i ≤ j → fftChunkParts plen mw f (d.drop (mw * j)) =
          List.replicate f ⟨false, List.replicate plen 0⟩ := by
        intro f
        induction f with
        | zero => intro j _; rfl
        | succ f ih =>
          intro j hj
          have hdr : d.drop (mw * j) = [] := List.drop_eq_nil_of_le (le_trans hge (Nat.mul_le_mul_left _ hj))
          have hdr2 : d.drop (mw * (j + 1)) = [] :=
            List.drop_eq_nil_of_le (le_trans hge (Nat.mul_le_mul_left _ (by omega)))
          have := ih (j + 1) (by omega)
          rw [hdr2] at this
          rw [fftChunkParts, hdr, List.take_nil, List.drop_nil, this, List.replicate_succ]
          simp [fit]
      have h1 := hz f (i + 1) (by omega)
      have hdr : d.drop (mw * i) = [] := List.drop_eq_nil_of_le hge
      have e : (⟨false, fit plen ((d.drop (mw * i)).take mw)⟩ : SS) = ⟨false, List.replicate plen 0⟩ := by
        rw [hdr, List.take_nil]; simp [fit]
      rw [h1, e, ← List.replicate_succ]
      exact Parts.zeros _ (val_lt_two_pow hd) (by omega)

theorem land_mask (x k : Nat) (hk : k ≤ 64) : x &&& (WMAX >>> (64 - k)) = x % 2 ^ k := by
  have : WMAX >>> (64 - k) = 2 ^ k - 1 := by
    rw [Nat.shiftRight_eq_div_pow, WMAX_eq, B_eq]
    have h2 : 2 ^ 64 = 2 ^ k * 2 ^ (64 - k) := by rw [← pow_add]; congr 1; omega
    rw [h2]
    generalize 2 ^ (64 - k) = b at *
    have hb : 0 < b := by
      rcases Nat.eq_zero_or_pos b with h | h
      · rw [h] at h2; simp at h2
      · exact h
    rw [show 2 ^ k * b - 1 = (2 ^ k - 1) * b + (b - 1) by
      have := Nat.two_pow_pos k
      rw [Nat.sub_mul, Nat.one_mul]
      have : b ≤ 2 ^ k * b := Nat.le_mul_of_pos_left _ (by omega)
      omega]
    rw [Nat.add_comm, Nat.add_mul_div_right _ _ hb, Nat.div_eq_of_lt (by omega)]; omega
  rw [this, Nat.and_two_pow_sub_one_eq_mod]

theorem mod_step (v X b r : Nat) (hr : r ∣ b) : v % (X * r) = v % X + X * (v / X % b % r) := by
  rw [Nat.mod_mul, Nat.mod_mod_of_dvd _ hr]

theorem maskTop {p : List Nat} (hp : Wf p) {c r : Nat} (hc : c + 2 ≤ p.length) (hr : r < 64)
    (hb : val p < B ^ (c + 2)) :
    val ((p.set (c + 1) 0).set c (wd (p.set (c + 1) 0) c &&& (WMAX >>> (64 - r)))) = val p % 2 ^ (64 * c + r) ∧
    Wf ((p.set (c + 1) 0).set c (wd (p.set (c + 1) 0) c &&& (WMAX >>> (64 - r)))) := by
  rw [land_mask _ _ (by omega)]
  have e1 : wd (p.set (c + 1) 0) c = wd p c := by
    unfold wd
    rw [List.getD_eq_getElem?_getD, List.getElem?_set_ne (by omega), ← List.getD_eq_getElem?_getD]
  rw [e1]
  have w1 : Wf (p.set (c + 1) 0) := hp.set _ B_pos
  have v1 := val_set (m := p) (i := c + 1) (by omega) 0
  have v2 := val_set (m := p.set (c + 1) 0) (i := c) (by simp; omega) (wd p c % 2 ^ r)
  rw [e1] at v2
  have hwc : wd p c < B := wd_lt hp (by omega)
  refine ⟨?_, w1.set _ (lt_of_le_of_lt (Nat.mod_le _ _) hwc)⟩
  have t1 : wd p (c + 1) = val p / B ^ (c + 1) := fft_top_word hp (by omega) hb
  have t0 : wd p c = val p / B ^ c % B := wd_div hp (by omega)
  have hlow : val p % B ^ (c + 1) = val p % B ^ c + B ^ c * wd p c := by
    rw [pow_succ, Nat.mod_mul, t0]
  have hd : 2 ^ r ∣ B := by rw [B_eq]; exact pow_dvd_pow _ (by omega)
  have hm2 := mod_step (val p) (B ^ c) B (2 ^ r) hd
  rw [← t0] at hm2
  have hm3 : B ^ c * 2 ^ r = 2 ^ (64 * c + r) := by rw [B_pow, ← pow_add]
  rw [hm3] at hm2
  have hdm := Nat.mod_add_div (val p) (B ^ (c + 1))
  rw [hm2]
  rw [t1] at v1
  rw [Nat.mul_zero] at v1
  rw [hlow] at hdm
  clear hm2 hm3 t0 t1 hb hlow hwc e1
  linarith

/-- A part that does not reach the last words. -/
theorem fftBitParts_full {d : List Nat} (hd : Wf d) {m plen : Nat} (hm : m % 64 ≠ 0)
    (hp : (m + 63) / 64 + 1 ≤ plen) (f : Nat) {s : Nat} (h1 : s / 64 + ((m + 63) / 64 + 1) ≤ d.length) :
    ∃ x : SS, fftBitParts plen m d (f + 1) s = x :: fftBitParts plen m d f (s + m) ∧
      (x.neg = false ∧ Wf x.m ∧ x.m.length = plen) ∧ val x.m = val d / 2 ^ s % 2 ^ m := by
  rw [fftBitParts]
  dsimp only
  generalize hc : (m + 63) / 64 + 1 = csz at *
  have hs2 : 2 ^ s = B ^ (s / 64) * 2 ^ (s % 64) := by
    rw [B_pow, ← pow_add]; congr 1; omega
  rw [if_neg (by omega)]
  refine ⟨_, rfl, ?_⟩
  dsimp only
  have hw : Wf ((d.drop (s / 64)).take csz) := (hd.drop _).take _
  have hfit : val (fit plen ((d.drop (s / 64)).take csz)) = val d / B ^ (s / 64) % B ^ csz := by
    rw [val_fit hw, val_take (hd.drop _), val_drop hd]
    exact Nat.mod_eq_of_lt (lt_of_lt_of_le (Nat.mod_lt _ (B_pow_pos _)) (Nat.pow_le_pow_right B_pos hp))
  have hpw := shiftRight_wf (fit_wf hw plen) (s % 64)
  have hpl : (shiftRight (fit plen ((d.drop (s / 64)).take csz)) (s % 64)).length = plen := by
    rw [shiftRight_length, fit_length]
  have hpv : val (shiftRight (fit plen ((d.drop (s / 64)).take csz)) (s % 64)) =
      val d / B ^ (s / 64) % B ^ csz / 2 ^ (s % 64) := by
    rw [val_shiftRight (fit_wf hw _), hfit]
  generalize shiftRight (fit plen ((d.drop (s / 64)).take csz)) (s % 64) = p at *
  have hpb : val p < B ^ csz := by
    rw [hpv]; exact lt_of_le_of_lt (Nat.div_le_self _ _) (Nat.mod_lt _ (B_pow_pos _))
  obtain ⟨k1, k2⟩ := maskTop hpw (c := csz - 2) (r := m % 64) (by omega) (by omega)
    (by rw [show csz - 2 + 2 = csz by omega]; exact hpb)
  rw [show csz - 2 + 1 = csz - 1 by omega] at k1 k2
  rw [show 64 * (csz - 2) + m % 64 = m by omega] at k1
  refine ⟨⟨rfl, k2, by simp [hpl]⟩, ?_⟩
  rw [k1, hpv, hs2, ← Nat.div_div_eq_div_mul]
  have hB : B ^ csz = 2 ^ (s % 64) * 2 ^ (64 * csz - s % 64) := by
    rw [B_pow, ← pow_add]; congr 1; omega
  rw [hB, Nat.mod_mul_right_div_self, Nat.mod_mod_of_dvd]
  exact pow_dvd_pow _ (by omega)

/-- The part with the last words. -/
theorem fftBitParts_last {d : List Nat} (hd : Wf d) {m plen : Nat}
    (hp : (m + 63) / 64 + 1 ≤ plen) (f : Nat) {s : Nat} (h1 : s / 64 + ((m + 63) / 64 + 1) > d.length)
    (h2 : s / 64 < d.length) :
    ∃ x : SS, fftBitParts plen m d (f + 1) s = x :: List.replicate f ⟨false, List.replicate plen 0⟩ ∧
      (x.neg = false ∧ Wf x.m ∧ x.m.length = plen) ∧ val x.m = val d / 2 ^ s ∧
      val x.m < B ^ ((m + 63) / 64) := by
  rw [fftBitParts]
  dsimp only
  generalize hc : (m + 63) / 64 + 1 = csz at *
  have hs2 : 2 ^ s = B ^ (s / 64) * 2 ^ (s % 64) := by
    rw [B_pow, ← pow_add]; congr 1; omega
  rw [if_pos h1, if_pos h2]
  refine ⟨_, rfl, ?_⟩
  dsimp only
  have hw := hd.drop (s / 64)
  have hdl : (d.drop (s / 64)).length ≤ (m + 63) / 64 := by rw [List.length_drop]; omega
  have hlt := val_lt hw
  have hfit : val (fit plen (d.drop (s / 64))) = val (d.drop (s / 64)) := by
    rw [val_fit hw]
    exact Nat.mod_eq_of_lt (lt_of_lt_of_le hlt (Nat.pow_le_pow_right B_pos (by omega)))
  have hv : val (shiftRight (fit plen (d.drop (s / 64))) (s % 64)) = val d / 2 ^ s := by
    rw [val_shiftRight (fit_wf hw _), hfit, val_drop hd, Nat.div_div_eq_div_mul, ← hs2]
  refine ⟨⟨rfl, shiftRight_wf (fit_wf hw _) _, by rw [shiftRight_length, fit_length]⟩, hv, ?_⟩
  rw [val_shiftRight (fit_wf hw _), hfit]
  refine lt_of_le_of_lt (Nat.div_le_self _ _) (lt_of_lt_of_le hlt ?_)
  exact Nat.pow_le_pow_right B_pos hdl

theorem fftBitParts_spec {d : List Nat} (hd : Wf d) {m plen : Nat} (hm : m % 64 ≠ 0)
    (hp : (m + 63) / 64 + 1 ≤ plen) (f s : Nat) :
    Parts plen m (64 * d.length) s f (val d) (fftBitParts plen m d f s) := by
  induction f generalizing s with
  | zero => exact Parts.nil _ _ _ _ (val_lt_two_pow hd)
  | succ f ih =>
    by_cases h1 : s / 64 + ((m + 63) / 64 + 1) > d.length
    · by_cases h2 : s / 64 < d.length
      · obtain ⟨x, e, hx, hv, hb⟩ := fftBitParts_last hd hp f h1 h2
        rw [e]
        refine Parts.rest hx hv (by omega) (lt_of_lt_of_le hb ?_)
        rw [← B_pow]
      · rw [fftBitParts]
        dsimp only
        rw [if_pos h1, if_neg h2]
        exact Parts.zeros _ (val_lt_two_pow hd) (by omega)
    · obtain ⟨x, e, hx, hv⟩ := fftBitParts_full hd hm hp f (by omega : s / 64 + ((m + 63) / 64 + 1) ≤ d.length)
      rw [e]
      exact Parts.cons (ih (s + m)) hx hv (by omega)

/-- The parts of a number. -/
theorem fftDecompose_spec {d : List Nat} (hd : Wf d) {m plen : Nat} (hp : (m + 63) / 64 + 1 ≤ plen)
    (k1 : Nat) : Parts plen m (64 * d.length) 0 k1 (val d) (fftDecompose d m k1 plen) := by
  unfold fftDecompose
  by_cases h : m % 64 = 0
  · rw [if_pos h]
    have := fftChunkParts_spec hd (mw := m / 64) (plen := plen) (by omega) k1 0
    rw [show 64 * (m / 64) = m by omega] at this
    simpa using this
  · rw [if_neg h]
    exact fftBitParts_spec hd h hp k1 0

end AF
