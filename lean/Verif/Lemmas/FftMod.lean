import Verif.Lemmas.FftWord
import Mathlib.Data.ZMod.Basic
import Mathlib.Tactic.Positivity
/-!
# Residues modulo `2^n1 + 1`: multiplication and division by powers of two, the butterfly (fft.rs)
-/

namespace AF

theorem shiftLeftCopy_val {m : List Nat} (hm : Wf m) (len n : Nat) (hl : m.length + n / 64 + 1 ≤ len) :
    (shiftLeftCopy m len n).length = len ∧ Wf (shiftLeftCopy m len n) ∧
    val (shiftLeftCopy m len n) = val m * 2 ^ n := by
  have hn : 2 ^ n = B ^ (n / 64) * 2 ^ (n % 64) := by
    rw [B_pow, ← pow_add]; congr 1; omega
  have hlt : val m * 2 ^ n < B ^ len := by
    have h1 := val_lt hm
    have h2 : 2 ^ (n % 64) < B := by rw [B_eq]; exact Nat.pow_lt_pow_right (by norm_num) (by omega)
    calc val m * 2 ^ n = B ^ (n / 64) * (val m * 2 ^ (n % 64)) := by rw [hn]; ring
      _ < B ^ (n / 64) * (B ^ m.length * B) :=
        Nat.mul_lt_mul_of_pos_left (Nat.mul_lt_mul_of_lt_of_lt h1 h2) (B_pow_pos _)
      _ = B ^ (m.length + n / 64 + 1) := by ring
      _ ≤ B ^ len := Nat.pow_le_pow_right B_pos hl
  unfold shiftLeftCopy
  dsimp only
  rw [if_neg (by omega)]
  have hm0 : Wf (m ++ [0]) := wf_append.2 ⟨hm, Wf.cons B_pos Wf.nil⟩
  by_cases hs : n % 64 > 0
  · rw [if_pos hs]
    have hw := shlBits_wf (s := n % 64) (p := 0) B_pos hm0
    have hv := val_shlBits (s := n % 64) (p := 0) (by omega) B_pos hm0
    have hw2 : Wf (List.replicate (n / 64) 0 ++ shlBits (n % 64) 0 (m ++ [0])) := wf_append.2 ⟨wf_zeros _, hw⟩
    refine ⟨fit_length _ _, fit_wf hw2 _, ?_⟩
    have hv0 : val (m ++ [0]) = val m := by rw [val_append]; simp
    have hb : val m * 2 ^ (n % 64) < B ^ (m ++ [0]).length := by
      have h1 := val_lt hm
      have h2 : 2 ^ (n % 64) < B := by rw [B_eq]; exact Nat.pow_lt_pow_right (by norm_num) (by omega)
      simp only [List.length_append, List.length_cons, List.length_nil, pow_succ, zero_add]
      exact Nat.mul_lt_mul_of_lt_of_lt h1 h2
    rw [val_fit hw2, val_zeros_append, hv, hv0, Nat.zero_shiftRight, Nat.add_zero, Nat.mod_eq_of_lt hb]
    rw [hn] at hlt ⊢
    rw [show B ^ (n / 64) * (val m * 2 ^ (n % 64)) = val m * (B ^ (n / 64) * 2 ^ (n % 64)) by ring]
    exact Nat.mod_eq_of_lt hlt
  · rw [if_neg hs]
    have hw2 : Wf (List.replicate (n / 64) 0 ++ m) := wf_append.2 ⟨wf_zeros _, hm⟩
    refine ⟨fit_length _ _, fit_wf hw2 _, ?_⟩
    have : n % 64 = 0 := by omega
    rw [this, pow_zero, Nat.mul_one] at hn
    rw [val_fit hw2, val_zeros_append, hn, Nat.mul_comm]
    rw [hn] at hlt
    exact Nat.mod_eq_of_lt hlt

/-- Alternating sum of `q` digits in the base `B^last`. -/
def altV (last : Nat) : Nat → Nat → ℤ
  | 0, _ => 0
  | q + 1, v => (v % B ^ last : ℕ) - altV last q (v / B ^ last)

theorem altV_zero (last q : Nat) : altV last q 0 = 0 := by
  induction q with
  | zero => rfl
  | succ q ih => rw [altV, Nat.zero_mod, Nat.zero_div, ih]; simp

theorem altV_congr (last q v : Nat) (h : v < B ^ (last * q)) :
    ∃ c : ℤ, altV last q v = v + c * (B ^ last + 1 : ℕ) := by
  induction q generalizing v with
  | zero => exact ⟨0, by simp at h; subst h; simp [altV]⟩
  | succ q ih =>
    have h2 : v / B ^ last < B ^ (last * q) := by
      rw [Nat.div_lt_iff_lt_mul (B_pow_pos _), ← pow_add]
      exact h
    obtain ⟨c, hc⟩ := ih _ h2
    refine ⟨-c - (v / B ^ last : ℕ), ?_⟩
    rw [altV, hc]
    have := Nat.mod_add_div v (B ^ last)
    have h3 : ((v % B ^ last : ℕ) : ℤ) = v - (B ^ last : ℕ) * (v / B ^ last : ℕ) := by
      have : ((v % B ^ last : ℕ) : ℤ) + (B ^ last : ℕ) * (v / B ^ last : ℕ) = v := by exact_mod_cast this
      linarith
    rw [h3]; push_cast; ring

theorem altV_le (last q v : Nat) (hq : 3 ≤ q) (hl : 1 ≤ last) (h : v ≤ B ^ (2 * last)) :
    |altV last q v| ≤ (B ^ last : ℕ) := by
  obtain ⟨p, rfl⟩ : ∃ p, q = p + 3 := ⟨q - 3, by omega⟩
  have hp := B_pow_pos last
  have h1 := Nat.mod_lt v hp
  have e2 : B ^ (2 * last) = B ^ last * B ^ last := by rw [two_mul, pow_add]
  rcases Nat.lt_or_ge v (B ^ (2 * last)) with hv | hv
  · have h3 : v / B ^ last / B ^ last = 0 := by
      rw [Nat.div_div_eq_div_mul, ← e2]; exact Nat.div_eq_of_lt hv
    have h2 : v / B ^ last < B ^ last := by
      rw [Nat.div_lt_iff_lt_mul hp, ← e2]; exact hv
    rw [altV, altV, h3, altV_zero, Nat.mod_eq_of_lt h2, abs_le]
    have a1 : ((v % B ^ last : ℕ) : ℤ) < (B ^ last : ℕ) := by exact_mod_cast h1
    have a2 : ((v / B ^ last : ℕ) : ℤ) < (B ^ last : ℕ) := by exact_mod_cast h2
    have a3 : (0 : ℤ) ≤ (v % B ^ last : ℕ) := Int.natCast_nonneg _
    have a4 : (0 : ℤ) ≤ (v / B ^ last : ℕ) := Int.natCast_nonneg _
    constructor <;> linarith
  · have hv : v = B ^ last * B ^ last := by omega
    have h2 : 1 < B ^ last := Nat.one_lt_pow (by omega) one_lt_B
    rw [altV, altV, altV, hv, Nat.mul_mod_left, Nat.mul_div_cancel _ hp, Nat.mod_self, Nat.div_self hp,
      Nat.mod_eq_of_lt h2, Nat.div_eq_of_lt h2, altV_zero]
    simp only [Nat.cast_zero, Nat.cast_one, sub_zero, zero_sub, neg_neg, abs_one]
    exact_mod_cast h2.le

theorem fftChunks_spec {last : Nat} (hl : 1 ≤ last) (q : Nat) {m : List Nat} (hm : Wf m) (hq : m.length ≤ q * last)
    {f : Nat} (hf : m.length ≤ f) {acc : SS} (hw : Wf acc.m) (hlen : last + 1 ≤ acc.m.length)
    (hb : |acc.toZ| + q * (B ^ last : ℕ) < (B ^ (last + 1) : ℕ)) (neg : Bool) :
    (fftChunks last f m acc neg).m.length = acc.m.length ∧ Wf (fftChunks last f m acc neg).m ∧
      (fftChunks last f m acc neg).toZ = acc.toZ + (if neg then -1 else 1) * altV last q (val m) := by
  induction f generalizing q m acc neg with
  | zero =>
    have : m = [] := List.eq_nil_of_length_eq_zero (by omega)
    subst this
    simp [fftChunks, altV_zero, hw]
  | succ f ih =>
    unfold fftChunks
    by_cases h0 : m.length = 0
    · rw [if_pos h0]
      have : m = [] := List.eq_nil_of_length_eq_zero h0
      subst this
      simp [altV_zero, hw]
    · rw [if_neg h0]
      obtain ⟨q, rfl⟩ : ∃ q', q = q' + 1 := ⟨q - 1, by
        rcases q with _ | q
        · omega
        · omega⟩
      have hcl : (val (m.take last) : ℤ) < (B ^ last : ℕ) := by
        rw [val_take hm]; exact_mod_cast Nat.mod_lt _ (B_pow_pos _)
      have hz : SS.toZ ⟨neg, m.take last⟩ = (if neg then -1 else 1) * (val (m.take last) : ℤ) := by
        unfold SS.toZ; cases neg <;> simp
      have habs : |acc.toZ + SS.toZ ⟨neg, m.take last⟩| ≤ |acc.toZ| + (B ^ last : ℕ) := by
        refine le_trans (abs_add_le _ _) ?_
        rw [SS.abs_toZ ⟨neg, m.take last⟩]; dsimp only; linarith
      obtain ⟨s1, s2, s3⟩ := SS.addSubAssign_spec (s1 := acc) (s2 := ⟨neg, m.take last⟩) hw (hm.take _) true
        (r := acc.toZ + SS.toZ ⟨neg, m.take last⟩) (by simp) (by
          refine lt_of_le_of_lt habs (lt_of_lt_of_le (lt_of_le_of_lt ?_ hb) ?_)
          · have : (0 : ℤ) ≤ q * (B ^ last : ℕ) := by positivity
            push_cast at this ⊢; linarith
          · exact_mod_cast Nat.pow_le_pow_right B_pos hlen)
      have s3' : (acc.addAssign ⟨neg, m.take last⟩).toZ = acc.toZ + SS.toZ ⟨neg, m.take last⟩ := s3
      obtain ⟨i1, i2, i3⟩ := ih q (m := m.drop last) (hm.drop _) (by
          rw [List.length_drop]
          have : (q + 1) * last = q * last + last := by ring
          omega) (by rw [List.length_drop]; omega) (acc := acc.addAssign ⟨neg, m.take last⟩) s2
        (by rw [show (acc.addAssign ⟨neg, m.take last⟩).m.length = acc.m.length from s1]; exact hlen) (by
          rw [s3']
          push_cast at hb habs ⊢
          linarith) (!neg)
      refine ⟨by rw [i1]; exact s1, i2, ?_⟩
      rw [i3, s3', hz, altV, val_take hm, val_drop hm]
      cases neg <;> simp <;> ring

theorem fftComputeChunks_spec {last : Nat} (hl : 1 ≤ last) {m : List Nat} (hm : Wf m) (hq : m.length ≤ 4 * last)
    {len : Nat} (hlen : last + 1 ≤ len) (neg : Bool) :
    (fftComputeChunks last m len neg).m.length = len ∧ Wf (fftComputeChunks last m len neg).m ∧
      (fftComputeChunks last m len neg).toZ = (if neg then -1 else 1) * altV last 4 (val m) := by
  unfold fftComputeChunks
  by_cases h0 : m.length = 0
  · rw [if_pos h0]
    have : m = [] := List.eq_nil_of_length_eq_zero h0
    subst this
    refine ⟨by simp, wf_zeros _, ?_⟩
    simp [altV_zero, SS.toZ]
  · rw [if_neg h0]
    have ht := Nat.mod_lt (val m) (B_pow_pos last)
    have hv : val (fit len (m.take last)) = val m % B ^ last := by
      rw [val_fit (hm.take _), val_take hm]
      exact Nat.mod_eq_of_lt (lt_of_lt_of_le ht (Nat.pow_le_pow_right B_pos (by omega)))
    have hz : SS.toZ ⟨neg, fit len (m.take last)⟩ = (if neg then -1 else 1) * ((val m % B ^ last : ℕ) : ℤ) := by
      unfold SS.toZ; dsimp only; rw [hv]; cases neg <;> simp
    obtain ⟨i1, i2, i3⟩ := fftChunks_spec hl 3 (m := m.drop last) (hm.drop _) (by rw [List.length_drop]; omega)
      (f := m.length) (by rw [List.length_drop]; omega) (acc := ⟨neg, fit len (m.take last)⟩)
      (fit_wf (hm.take _) _) (by dsimp only; rw [fit_length]; exact hlen) (by
        rw [SS.abs_toZ]; dsimp only; rw [hv]
        have h1 : B ^ last * 4 ≤ B ^ (last + 1) := by
          rw [pow_succ]; exact Nat.mul_le_mul_left _ (by unfold B; norm_num)
        have h2 : val m % B ^ last + 3 * B ^ last < B ^ (last + 1) := by omega
        exact_mod_cast h2) (!neg)
    refine ⟨by rw [i1]; exact fit_length _ _, i2, ?_⟩
    rw [i3, hz, show altV last 4 (val m) = ((val m % B ^ last : ℕ) : ℤ) - altV last 3 (val m / B ^ last) from rfl, val_drop hm]
    cases neg <;> simp <;> ring

/-- The ring the transform works in. -/
abbrev FR (last : Nat) := ZMod (B ^ last + 1)

/-- A part: a residue `0 .. 2^n1` in `last + 1` words. -/
structure Part (last : Nat) (x : SS) : Prop where
  neg : x.neg = false
  wf : Wf x.m
  len : x.m.length = last + 1
  le : val x.m ≤ B ^ last

/-- The residue of a part. -/
def pz (last : Nat) (x : SS) : FR last := (val x.m : FR last)

theorem FR.two_pow (last : Nat) : (2 : FR last) ^ (64 * last) = -1 := by
  have h : ((B ^ last + 1 : ℕ) : FR last) = 0 := ZMod.natCast_self _
  rw [Nat.cast_add, Nat.cast_one, show ((B ^ last : ℕ) : FR last) = 2 ^ (64 * last) by
    have e : ∀ b : ℕ, b = 2 ^ (64 * last) → (b : FR last) = 2 ^ (64 * last) := by
      intro b hb; rw [hb]; push_cast; rfl
    exact e _ (B_pow last)] at h
  exact eq_neg_of_add_eq_zero_left h

theorem FR.of_congr {last : Nat} {a b c : ℤ} (h : a = b + c * (B ^ last + 1 : ℕ)) : (a : FR last) = (b : FR last) := by
  rw [h, Int.cast_add, Int.cast_mul, Int.cast_natCast, ZMod.natCast_self, mul_zero, add_zero]

/-- What `fft_mul_mod` and `fft_div_mod` do with the chunks of a shifted number. -/
theorem fftReduce_spec {last : Nat} (hl : 1 ≤ last) {s : List Nat} (hs : Wf s) (hlen : s.length ≤ 4 * last)
    (hv : val s ≤ B ^ (2 * last)) {len : Nat} (hlen2 : last + 1 ≤ len) (neg : Bool) (acc : SS)
    (ha1 : acc.m.length = len) (ha2 : Wf acc.m) (ha3 : acc.toZ = (if neg then -1 else 1) * altV last 4 (val s)) :
    (fftNormalize last (fftModulus last) acc).m.length = len ∧
    Wf (fftNormalize last (fftModulus last) acc).m ∧
    val (fftNormalize last (fftModulus last) acc).m ≤ B ^ last ∧
    (val (fftNormalize last (fftModulus last) acc).m : FR last) = (if neg then -1 else 1) * (val s : FR last) := by
  have hle : val acc.m ≤ B ^ last := by
    have h1 := SS.abs_toZ acc
    rw [ha3, abs_mul] at h1
    have h2 : |(if neg then -1 else 1 : ℤ)| = 1 := by cases neg <;> simp
    rw [h2, one_mul] at h1
    have h3 := altV_le last 4 (val s) (by omega) hl hv
    rw [h1] at h3
    exact_mod_cast h3
  have hlt : B ^ last < B ^ (last + 1) := Nat.pow_lt_pow_right one_lt_B (by omega)
  obtain ⟨y, hy, y1, y2, y3, ⟨c, y4⟩, _⟩ := fftNormalize_spec hl ha2 (by omega) (by omega) (fun _ => hle)
  rw [← hy]
  refine ⟨by rw [y1, ha1], y2, y3, ?_⟩
  obtain ⟨d, hd⟩ := altV_congr last 4 (val s) (by
    have := val_lt hs
    exact lt_of_lt_of_le this (Nat.pow_le_pow_right B_pos (by omega)))
  have e1 := FR.of_congr y4
  rw [ha3, Int.cast_mul, FR.of_congr hd] at e1
  simp only [Int.cast_natCast] at e1
  rw [e1]
  cases neg <;> simp

theorem fftMulMod_spec {last : Nat} (hl : 1 ≤ last) {x : SS} (hx : Part last x) (j : Nat) :
    Part last (fftMulMod last (fftModulus last) x j) ∧
      pz last (fftMulMod last (fftModulus last) x j) = pz last x * 2 ^ j := by
  unfold fftMulMod
  dsimp only
  by_cases hj : j = 0
  · rw [if_pos hj]
    obtain ⟨c1, c2, c3⟩ := fftComputeChunks_spec hl hx.wf (by rw [hx.len]; omega) (len := x.m.length)
      (by rw [hx.len]) false
    obtain ⟨r1, r2, r3, r4⟩ := fftReduce_spec hl hx.wf (by rw [hx.len]; omega)
      (le_trans hx.le (Nat.pow_le_pow_right B_pos (by omega))) (len := x.m.length) (by rw [hx.len]) false _ c1 c2 c3
    refine ⟨⟨hx.neg, r2, by rw [r1, hx.len], r3⟩, ?_⟩
    unfold pz
    rw [r4, hj]; simp
  · rw [if_neg hj]
    have hn0 : 0 < 64 * last := by omega
    have hjm := Nat.mod_lt j hn0
    obtain ⟨s1, s2, s3⟩ := shiftLeftCopy_val hx.wf (2 * (last + 1)) (j % (64 * last)) (by rw [hx.len]; omega)
    have hv : val (shiftLeftCopy x.m (2 * (last + 1)) (j % (64 * last))) ≤ B ^ (2 * last) := by
      rw [s3, two_mul, pow_add]
      refine Nat.mul_le_mul hx.le ?_
      rw [B_pow]; exact Nat.pow_le_pow_right (by norm_num) hjm.le
    obtain ⟨c1, c2, c3⟩ := fftComputeChunks_spec hl s2 (by rw [s1]; omega) (len := x.m.length)
      (by rw [hx.len]) false
    have hpow : (2 : FR last) ^ j = 2 ^ (j % (64 * last)) * (-1) ^ (j / (64 * last)) := by
      conv_lhs => rw [← Nat.mod_add_div j (64 * last)]
      rw [pow_add, pow_mul, FR.two_pow]
    rw [Nat.and_one_is_mod]
    by_cases ho : j / (64 * last) % 2 ≠ 0
    · rw [if_pos ho]
      obtain ⟨r1, r2, r3, r4⟩ := fftReduce_spec hl s2 (by rw [s1]; omega) hv (len := x.m.length) (by rw [hx.len]) true
        { fftComputeChunks last (shiftLeftCopy x.m (2 * (last + 1)) (j % (64 * last))) x.m.length false with
          neg := !(fftComputeChunks last (shiftLeftCopy x.m (2 * (last + 1)) (j % (64 * last))) x.m.length false).neg }
        c1 c2 (by
          have : ∀ z : SS, SS.toZ { z with neg := !z.neg } = - z.toZ := by
            intro z; unfold SS.toZ; cases z.neg <;> simp
          rw [this, c3]; simp)
      refine ⟨⟨hx.neg, r2, by rw [r1, hx.len], r3⟩, ?_⟩
      unfold pz
      rw [r4, s3, hpow, Odd.neg_one_pow (Nat.odd_iff.2 (by omega))]
      push_cast; simp
    · rw [if_neg ho]
      obtain ⟨r1, r2, r3, r4⟩ := fftReduce_spec hl s2 (by rw [s1]; omega) hv (len := x.m.length) (by rw [hx.len]) false
        _ c1 c2 c3
      refine ⟨⟨hx.neg, r2, by rw [r1, hx.len], r3⟩, ?_⟩
      unfold pz
      rw [r4, s3, hpow, Even.neg_one_pow (Nat.even_iff.2 (by omega))]
      push_cast; simp

theorem fftDivMod_spec {last : Nat} (hl : 1 ≤ last) {x : SS} (hx : Part last x) (j : Nat) :
    Part last (fftDivMod last (fftModulus last) x j) ∧
      pz last (fftDivMod last (fftModulus last) x j) * 2 ^ j = pz last x := by
  unfold fftDivMod
  dsimp only
  generalize hc : (j + 64 * last * 2 - 1) / (64 * last * 2) = c
  have hn0 : 0 < 64 * last * 2 := by omega
  have h1 : j ≤ c * (64 * last * 2) := by
    have := Nat.lt_div_mul_add (a := j + 64 * last * 2 - 1) hn0
    rw [hc] at this
    omega
  have h2 : c * (64 * last * 2) ≤ j + 64 * last * 2 - 1 := by
    rw [← hc]; exact Nat.div_mul_le_self _ _
  generalize hsh : c * (64 * last * 2) - j = sh
  have hpow : (2 : FR last) ^ sh * 2 ^ j = 1 := by
    rw [← pow_add, show sh + j = 64 * last * (2 * c) by rw [← hsh, Nat.sub_add_cancel h1]; ring, pow_mul,
      FR.two_pow, pow_mul]
    simp
  have key : ∀ s : Nat, s < 64 * last → ∀ neg : Bool,
      (2 : FR last) ^ sh = (if neg then -1 else 1) * 2 ^ s →
      Part last { x with m := (fftNormalize last (fftModulus last)
        (fftComputeChunks last (shiftLeftCopy x.m (2 * (last + 1)) s) x.m.length neg)).m } ∧
      pz last { x with m := (fftNormalize last (fftModulus last)
        (fftComputeChunks last (shiftLeftCopy x.m (2 * (last + 1)) s) x.m.length neg)).m } * 2 ^ j = pz last x := by
    intro s hs neg he
    obtain ⟨s1, s2, s3⟩ := shiftLeftCopy_val hx.wf (2 * (last + 1)) s (by rw [hx.len]; omega)
    have hv : val (shiftLeftCopy x.m (2 * (last + 1)) s) ≤ B ^ (2 * last) := by
      rw [s3, two_mul, pow_add]
      refine Nat.mul_le_mul hx.le ?_
      rw [B_pow]; exact Nat.pow_le_pow_right (by norm_num) hs.le
    obtain ⟨c1, c2, c3⟩ := fftComputeChunks_spec hl s2 (by rw [s1]; omega) (len := x.m.length)
      (by rw [hx.len]) neg
    obtain ⟨r1, r2, r3, r4⟩ := fftReduce_spec hl s2 (by rw [s1]; omega) hv (len := x.m.length) (by rw [hx.len]) neg
      _ c1 c2 c3
    refine ⟨⟨hx.neg, r2, by rw [r1, hx.len], r3⟩, ?_⟩
    unfold pz
    rw [r4, s3]
    push_cast
    calc (if neg = true then -1 else 1) * ((val x.m : FR last) * 2 ^ s) * 2 ^ j
        = (val x.m : FR last) * (((if neg = true then -1 else 1) * 2 ^ s) * 2 ^ j) := by ring
      _ = _ := by rw [← he, hpow, mul_one]
  by_cases hg : sh ≥ 64 * last
  · rw [if_pos hg, decide_eq_true hg]
    refine key _ (by omega) true ?_
    conv_lhs => rw [show sh = 64 * last + (sh - 64 * last) by omega, pow_add, FR.two_pow]
    simp
  · rw [if_neg hg, decide_eq_false hg]
    exact key _ (by omega) false (by simp)

/-- The reduction of a product of two parts. -/
theorem fftMulMod_product {last : Nat} (hl : 1 ≤ last) {s : List Nat} (hs : Wf s) (hlen : s.length = 2 * (last + 1))
    (hv : val s ≤ B ^ (2 * last)) :
    Part last ⟨false, (fftMulMod last (fftModulus last) ⟨false, s⟩ 0).m.take (last + 1)⟩ ∧
      pz last ⟨false, (fftMulMod last (fftModulus last) ⟨false, s⟩ 0).m.take (last + 1)⟩ = (val s : FR last) := by
  unfold fftMulMod
  dsimp only
  rw [if_pos rfl]
  obtain ⟨c1, c2, c3⟩ := fftComputeChunks_spec hl hs (by omega) (len := s.length) (by omega) false
  obtain ⟨r1, r2, r3, r4⟩ := fftReduce_spec hl hs (by omega) hv (len := s.length) (by omega) false _ c1 c2 c3
  have ht : val ((fftNormalize last (fftModulus last) (fftComputeChunks last s s.length false)).m.take (last + 1)) =
      val (fftNormalize last (fftModulus last) (fftComputeChunks last s s.length false)).m := by
    rw [val_take r2]
    exact Nat.mod_eq_of_lt (lt_of_le_of_lt r3 (Nat.pow_lt_pow_right one_lt_B (by omega)))
  refine ⟨⟨rfl, r2.take _, ?_, by dsimp only; rw [ht]; exact r3⟩, ?_⟩
  · dsimp only; rw [List.length_take, r1]; omega
  · unfold pz
    dsimp only
    rw [ht, r4]; simp

theorem fftButterfly_spec {last : Nat} (hl : 1 ≤ last) {a b : SS} (ha : Part last a) (hb : Part last b) :
    Part last (fftButterfly last (fftModulus last) a b).1 ∧ Part last (fftButterfly last (fftModulus last) a b).2 ∧
      pz last (fftButterfly last (fftModulus last) a b).1 = pz last a + pz last b ∧
      pz last (fftButterfly last (fftModulus last) a b).2 = pz last a - pz last b := by
  have hlt : 2 * B ^ last < B ^ (last + 1) := by
    rw [pow_succ, Nat.mul_comm]; exact Nat.mul_lt_mul_of_pos_left (by unfold B; norm_num) (B_pow_pos _)
  have la := ha.le
  have lb := hb.le
  unfold fftButterfly
  dsimp only
  obtain ⟨s1, s2⟩ := ssAddAssign_exact ha.wf hb.wf (by rw [ha.len]; omega)
  have s3 : (ssAddAssign 0 a.m b.m).length = last + 1 := by rw [ssAddAssign_length, ha.len]
  obtain ⟨y, hy, y1, y2, y3, ⟨c, y4⟩, y5⟩ := fftNormalize_spec hl (x := { a with m := ssAddAssign 0 a.m b.m }) s1
    (by dsimp only; omega) (by dsimp only; omega) (by dsimp only; rw [ha.neg]; simp)
  have hp : Part last y := ⟨y5 (Or.inl ha.neg), y2, by rw [y1]; exact s3, y3⟩
  have hpz : pz last y = pz last a + pz last b := by
    have e := FR.of_congr y4
    have : SS.toZ { a with m := ssAddAssign 0 a.m b.m } = ((val a.m + val b.m : ℕ) : ℤ) := by
      unfold SS.toZ; dsimp only; rw [ha.neg, s2]; simp
    rw [this] at e
    unfold pz
    push_cast at e
    exact e
  have hcmp := (cmpRev_spec a.m.reverse b.m.reverse (wf_reverse.2 ha.wf) (wf_reverse.2 hb.wf) (by
    simp [ha.len, hb.len])).2
  rw [List.reverse_reverse, List.reverse_reverse] at hcmp
  rw [← hy]
  by_cases hg : cmpRev a.m.reverse b.m.reverse < 0
  · have hab := hcmp.1 hg
    rw [if_pos hg, if_pos hg]
    obtain ⟨d1, d2⟩ := ssSubAssign1_exact hb.wf ha.wf hab.le
    have d3 : (ssSubAssign1 0 b.m a.m).length = last + 1 := by rw [ssSubAssign1_length, hb.len]
    obtain ⟨u, hu, u1, u2, u3, ⟨c', u4⟩, u5⟩ := fftNormalize_spec hl (x := ⟨!b.neg, ssSubAssign1 0 b.m a.m⟩) d1
      (by dsimp only; omega) (by dsimp only; omega) (by dsimp only; intro _; omega)
    rw [← hu]
    refine ⟨hp, ⟨u5 (Or.inr (by dsimp only; omega)), u2, by rw [u1]; exact d3, u3⟩, hpz, ?_⟩
    have e := FR.of_congr u4
    have : SS.toZ ⟨!b.neg, ssSubAssign1 0 b.m a.m⟩ = (val a.m : ℤ) - val b.m := by
      unfold SS.toZ; dsimp only; rw [hb.neg, d2, Nat.cast_sub hab.le]; simp
    rw [this] at e
    unfold pz
    push_cast at e
    exact e
  · have hab : val b.m ≤ val a.m := by
      by_contra h
      exact hg (hcmp.2 (by omega))
    rw [if_neg hg, if_neg hg]
    obtain ⟨d1, d2⟩ := ssSubAssign1_exact ha.wf hb.wf hab
    have d3 : (ssSubAssign1 0 a.m b.m).length = last + 1 := by rw [ssSubAssign1_length, ha.len]
    obtain ⟨u, hu, u1, u2, u3, ⟨c', u4⟩, u5⟩ := fftNormalize_spec hl (x := ⟨b.neg, ssSubAssign1 0 a.m b.m⟩) d1
      (by dsimp only; omega) (by dsimp only; omega) (by dsimp only; rw [hb.neg]; simp)
    rw [← hu]
    refine ⟨hp, ⟨u5 (Or.inl hb.neg), u2, by rw [u1]; exact d3, u3⟩, hpz, ?_⟩
    have e := FR.of_congr u4
    have : SS.toZ ⟨b.neg, ssSubAssign1 0 a.m b.m⟩ = (val a.m : ℤ) - val b.m := by
      unfold SS.toZ; dsimp only; rw [hb.neg, d2, Nat.cast_sub hab]; simp
    rw [this] at e
    unfold pz
    push_cast at e
    exact e

end AF
