import Verif.Model.Root
import Verif.Lemmas.NumDiv
import Mathlib.Tactic.Linarith
import Mathlib.Tactic.Ring
import Mathlib.Tactic.LinearCombination
/-! # Integer square root -/

namespace AF

/-- Words with a non-zero top word. -/
def TopNz (b : List Nat) : Prop := Wf b ∧ 0 < b.length ∧ B ^ (b.length - 1) ≤ val b

theorem TopNz.pos {b : List Nat} (h : TopNz b) : 0 < val b := (B_pow_pos _).trans_le h.2.2

theorem TopNz.top {b : List Nat} (h : TopNz b) : wd b (b.length - 1) ≠ 0 := by
  intro h0
  obtain ⟨h1, h2, h3⟩ := h
  have hl := wd_last (m := b) (n := b.length - 1) (by omega)
  rw [h0, Nat.mul_zero, Nat.add_zero] at hl
  have h4 := val_lt (h1.take (b.length - 1))
  rw [List.length_take, min_eq_left (by omega)] at h4
  omega

theorem TopNz.of_top {b : List Nat} (hw : Wf b) (hl : 0 < b.length) (h : wd b (b.length - 1) ≠ 0) :
    TopNz b := by
  refine ⟨hw, hl, ?_⟩
  rw [wd_last (m := b) (n := b.length - 1) (by omega)]
  have : B ^ (b.length - 1) * 1 ≤ B ^ (b.length - 1) * wd b (b.length - 1) :=
    Nat.mul_le_mul_left _ (by omega)
  omega

theorem TopNz.trunc_eq {b : List Nat} (h : TopNz b) : truncLeadingZeroes b = b := by
  obtain ⟨k, hk⟩ := truncLeadingZeroes_split b
  have hv := val_truncLeadingZeroes b
  have hle := truncLeadingZeroes_len_le b
  have hw : Wf (truncLeadingZeroes b) := by rw [hk] at h; exact (wf_append.1 h.1).1
  have hlt := val_lt hw
  have : b.length - 1 < (truncLeadingZeroes b).length := by
    rw [hv] at hlt
    exact (Nat.pow_lt_pow_iff_right one_lt_B).1 (lt_of_le_of_lt h.2.2 hlt)
  have h2 : (truncLeadingZeroes b).length + k = b.length := by
    conv_rhs => rw [hk]
    simp
  have : k = 0 := by omega
  subst this
  simp only [List.replicate_zero, List.append_nil] at hk
  exact hk.symm

theorem TopNz.len {b : List Nat} (h : TopNz b) {n : Nat} (hn : val b < B ^ n) : b.length ≤ n := by
  have := (Nat.pow_lt_pow_iff_right one_lt_B).1 (lt_of_le_of_lt h.2.2 hn)
  omega

theorem truncLZ_wf {m : List Nat} (h : Wf m) : Wf (truncLeadingZeroes m) := by
  obtain ⟨k, hk⟩ := truncLeadingZeroes_split m
  rw [hk] at h; exact (wf_append.1 h).1

theorem truncLZ_topNz {m : List Nat} (h : Wf m) (h0 : 0 < val m) : TopNz (truncLeadingZeroes m) := by
  have hv := val_truncLeadingZeroes m
  have hl : 0 < (truncLeadingZeroes m).length := by
    by_contra hc
    have : truncLeadingZeroes m = [] := List.length_eq_zero_iff.1 (by omega)
    rw [this] at hv; simp at hv; omega
  exact ⟨truncLZ_wf h, hl, by rw [hv]; exact truncLeadingZeroes_lower m hl⟩

theorem TopNz.drop {b : List Nat} (h : TopNz b) {k : Nat} (hk : k < b.length) : TopNz (b.drop k) := by
  refine ⟨h.1.drop k, by rw [List.length_drop]; omega, ?_⟩
  rw [val_drop h.1, Nat.le_div_iff_mul_le (B_pow_pos _), ← pow_add]
  refine le_trans (Nat.pow_le_pow_right B_pos ?_) h.2.2
  rw [List.length_drop]; omega

theorem addAssign_pos {a b : List Nat} (ha : Wf a) (hb : Wf b) (h : val a + val b < B ^ a.length) :
    (SS.addAssign ⟨false, a⟩ ⟨false, b⟩).m.length = a.length ∧
      Wf (SS.addAssign ⟨false, a⟩ ⟨false, b⟩).m ∧
      val (SS.addAssign ⟨false, a⟩ ⟨false, b⟩).m = val a + val b ∧
      (SS.addAssign ⟨false, a⟩ ⟨false, b⟩).neg = false := by
  have e : SS.addAssign ⟨false, a⟩ ⟨false, b⟩ = ⟨false, ssAddAssign 0 a b⟩ := rfl
  rw [e]
  obtain ⟨h1, h2⟩ := ssAddAssign_exact ha hb h
  exact ⟨by simp, h1, h2, rfl⟩

theorem subAssign_pos {a b : List Nat} (ha : Wf a) (hb : Wf b) (h : val b ≤ val a) :
    (SS.subAssign ⟨false, a⟩ ⟨false, b⟩).m.length = a.length ∧
      Wf (SS.subAssign ⟨false, a⟩ ⟨false, b⟩).m ∧
      val (SS.subAssign ⟨false, a⟩ ⟨false, b⟩).m = val a - val b := by
  have hl := val_lt ha
  have hcast : (B ^ a.length : ℕ) = ((B ^ a.length : ℕ) : ℤ) := rfl
  obtain ⟨h1, h2, h3⟩ := SS.addSubAssign_spec (s1 := ⟨false, a⟩) (s2 := ⟨false, b⟩) ha hb false
    (r := ((val a - val b : ℕ) : ℤ)) (by simp only [SS.toZ]; push_cast [Nat.cast_sub h]; ring) (by
      rw [abs_of_nonneg (by positivity)]
      dsimp only
      exact_mod_cast lt_of_le_of_lt (Nat.sub_le _ _) hl)
  refine ⟨h1, h2, ?_⟩
  have := SS.abs_toZ (SS.addSubAssign ⟨false, a⟩ ⟨false, b⟩ false)
  rw [h3, abs_of_nonneg (by positivity)] at this
  exact_mod_cast this.symm

theorem tryExtend2_spec {m : List Nat} (hm : Wf m) (n : Nat) :
    (tryExtend2 m (n * 64)).length = max n m.length ∧ Wf (tryExtend2 m (n * 64)) ∧
      val (tryExtend2 m (n * 64)) = val m := by
  unfold tryExtend2
  dsimp only
  rw [show (n * 64 + 63) / 64 = n by omega]
  split
  · exact ⟨by simp; omega, wf_append.2 ⟨hm, wf_zeros _⟩, val_append_zeros _ _⟩
  · exact ⟨by omega, hm, rfl⟩

theorem tryExtend_spec {m : List Nat} (hm : Wf m) (l : Nat) :
    (tryExtend m ((m.length + l) * 64)).length = m.length + l ∧
      Wf (tryExtend m ((m.length + l) * 64)) ∧
      val (tryExtend m ((m.length + l) * 64)) = B ^ l * val m := by
  rw [tryExtend_eq (by omega), Nat.add_sub_cancel_left]
  exact ⟨by simp; omega, wf_append.2 ⟨wf_zeros _, hm⟩, val_zeros_append _ _⟩

theorem cmp_ge {a b : List Nat} (ha : Wf a) (hb : Wf b) : ssAbsCmp a b ≥ 0 ↔ val b ≤ val a := by
  have := (ssAbsCmp_spec ha hb).2
  constructor
  · intro h; by_contra hc; have := this.2 (by omega); omega
  · intro h; by_contra hc; have := this.1 (by omega); omega

/-! ## The first approximation -/

theorem rootEstimate_spec {m : List Nat} (hm : TopNz m) {n : Nat} (hn : 1 < n) :
    TopNz (rootEstimate m n) ∧ (rootEstimate m n).length = m.length / n + 1 ∧
      val m * B ^ (n * (m.length / n)) < val (rootEstimate m n) ^ n * B ^ (m.length - 1) := by
  have ht := hm.top
  have hw := wd_lt hm.1 (show m.length - 1 < m.length from by have := hm.2.1; omega)
  set t := wd m (m.length - 1) with htt
  have hlog : Nat.log2 t < 64 := by
    rw [Nat.log2_lt ht, ← B_eq]; exact hw
  have hk : Nat.log2 t / n + 1 < 64 := by
    have : Nat.log2 t / n ≤ Nat.log2 t / 2 := Nat.div_le_div_left hn (by norm_num)
    omega
  have hv : val (rootEstimate m n) = B ^ (m.length / n) * 2 ^ (Nat.log2 t / n + 1) := by
    unfold rootEstimate
    rw [val_zeros_append, ← htt]; simp [val]
  have hl : (rootEstimate m n).length = m.length / n + 1 := by simp [rootEstimate]
  refine ⟨⟨?_, by rw [hl]; exact Nat.succ_pos _, ?_⟩, hl, ?_⟩
  · unfold rootEstimate
    refine wf_append.2 ⟨wf_zeros _, Wf.cons ?_ Wf.nil⟩
    rw [B_eq, ← htt]
    exact Nat.pow_lt_pow_right (by norm_num) hk
  · rw [hv, hl, Nat.add_sub_cancel]
    exact Nat.le_mul_of_pos_right _ (by positivity)
  · rw [hv, mul_pow, ← pow_mul, ← pow_mul, Nat.mul_comm n, Nat.mul_assoc, Nat.mul_comm (val m)]
    refine Nat.mul_lt_mul_of_pos_left ?_ (B_pow_pos _)
    have h1 : val m < (t + 1) * B ^ (m.length - 1) := by
      rw [wd_last (m := m) (n := m.length - 1) (by have := hm.2.1; omega), ← htt]
      have := val_lt (hm.1.take (m.length - 1))
      rw [List.length_take, min_eq_left (by omega)] at this
      linarith [Nat.add_mul t 1 (B ^ (m.length - 1)), Nat.mul_comm (B ^ (m.length - 1)) t]
    refine h1.trans_le (Nat.mul_le_mul_right _ ?_)
    have h2 : t < 2 ^ (Nat.log2 t + 1) := Nat.lt_log2_self
    refine (Nat.succ_le_of_lt h2).trans (Nat.pow_le_pow_right (by norm_num) ?_)
    have := Nat.div_add_mod (Nat.log2 t) n
    have hm' := Nat.mod_lt (Nat.log2 t) (show 0 < n by omega)
    rw [Nat.add_mul, Nat.mul_comm (Nat.log2 t / n)]
    omega

/-! ## Newton's iteration -/

theorem newton_sqrt_ge {m s c : Nat} (hs : 0 < s) (hc : c * c ≤ m) : c ≤ (m / s + s) / 2 := by
  rw [Nat.le_div_iff_mul_le (by norm_num)]
  by_cases h : 2 * c ≤ s
  · exact le_trans (by omega) (Nat.le_add_left s _)
  have : 2 * c - s ≤ m / s := by
    rw [Nat.le_div_iff_mul_le hs]
    refine le_trans ?_ hc
    zify [show s ≤ 2 * c by omega]
    nlinarith [sq_nonneg ((c : ℤ) - s)]
  generalize m / s = k at *
  omega

theorem newton_sqrt_lt {m s : Nat} (hs : m < s * s) : (m / s + s) / 2 < s := by
  have h0 : 0 < s := by by_contra h; have : s = 0 := by omega
                        subst this; omega
  have : m / s < s := (Nat.div_lt_iff_lt_mul h0).2 hs
  omega

/-- `(s, r)` are the integer square root of `M` and the remainder. -/
def SqrtOk (M : Nat) (sr : List Nat × List Nat) : Prop :=
  TopNz sr.1 ∧ Wf sr.2 ∧ M = val sr.1 * val sr.1 + val sr.2 ∧ val sr.2 ≤ 2 * val sr.1 ∧
    sr.1.length ≤ sr.2.length

theorem sqrtStep_spec {m s : List Nat} (hm : Wf m) (hs : TopNz s) (hl : s.length ≤ m.length) :
    Wf (sqrtStep m s) ∧ val (sqrtStep m s) = (val m / val s + val s) / 2 := by
  unfold sqrtStep
  dsimp only
  obtain ⟨d1, d2, d3⟩ := divBasic_spec hm hs.1 hl hs.2.1 hs.top
  obtain ⟨q1, q2, q3⟩ := tryExtend2_spec d1.1 (m.length + 1)
  have hdq := d1.quot
  generalize tryExtend2 (divBasic m s).1 ((m.length + 1) * 64) = q at *
  have hs0 := hs.2.1
  have hsum : val q + val s < B ^ q.length := by
    have h1 : val (divBasic m s).1 < B ^ m.length :=
      (val_lt d1.1).trans_le (Nat.pow_le_pow_right B_pos (by omega))
    have h2 : val s < B ^ m.length := (val_lt hs.1).trans_le (Nat.pow_le_pow_right B_pos hl)
    have h3 : B ^ (m.length + 1) ≤ B ^ q.length := Nat.pow_le_pow_right B_pos (by omega)
    have h4 : B ^ m.length * 2 ≤ B ^ (m.length + 1) := by
      rw [pow_succ]; exact Nat.mul_le_mul_left _ (by unfold B; norm_num)
    omega
  obtain ⟨a1, a2, a3, _⟩ := addAssign_pos q2 hs.1 hsum
  refine ⟨shiftRight_wf a2 _, ?_⟩
  rw [val_shiftRight a2, a3, q3, hdq]; norm_num

theorem sqrtLoop_spec {m : List Nat} (hm : TopNz m) (f : Nat) : ∀ s, TopNz s →
    s.length ≤ m.length → val s ≤ f → Nat.sqrt (val m) ≤ val s →
    SqrtOk (val m) (sqrtLoop m (f + 1) s) := by
  induction f with
  | zero => intro s hs _ hf; have := hs.pos; omega
  | succ f ih =>
    intro s hs hl hf hge
    rw [sqrtLoop]
    dsimp only
    obtain ⟨w, v⟩ := sqrtStep_spec hm.1 hs hl
    by_cases hc : ssAbsCmp (sqrtStep m s) s ≥ 0
    · rw [if_pos hc]
      rw [cmp_ge w hs.1, v] at hc
      have hle : val s * val s ≤ val m := by
        by_contra h
        have := newton_sqrt_lt (Nat.lt_of_not_le h)
        omega
      have heq : val s = Nat.sqrt (val m) := le_antisymm (Nat.le_sqrt.2 hle) hge
      obtain ⟨b1, b2, b3⟩ := mulBasic_spec hs.1 hs.1 (len := s.length * 2) (by omega)
      obtain ⟨c1, c2, c3⟩ := subAssign_pos hm.1 b2 (by rw [b3]; exact hle)
      refine ⟨hs, c2, ?_, ?_, by rw [c1]; exact hl⟩
      · dsimp only; rw [c3, b3]; omega
      · dsimp only; rw [c3, b3, heq]
        have := Nat.sqrt_le_add (val m)
        omega
    · rw [if_neg hc]
      rw [cmp_ge w hs.1, v] at hc
      have hq := newton_sqrt_ge hs.pos (Nat.sqrt_le (val m))
      have hpos : 0 < Nat.sqrt (val m) := Nat.sqrt_pos.2 hm.pos
      have ht := truncLZ_topNz w (by rw [v]; omega)
      have hv := val_truncLeadingZeroes (sqrtStep m s)
      have hl2 : (truncLeadingZeroes (sqrtStep m s)).length ≤ m.length := by
        refine le_trans (ht.len (n := s.length) ?_) hl
        rw [hv, v]; exact lt_trans (by omega) (val_lt hs.1)
      exact ih _ ht hl2 (by rw [hv, v]; omega) (by rw [hv, v]; exact hq)

theorem sqrtRemBasic_spec {m : List Nat} (hm : TopNz m) : SqrtOk (val m) (sqrtRemBasic m) := by
  unfold sqrtRemBasic
  dsimp only
  have h0 := hm.2.1
  rw [hm.trunc_eq, if_neg (by omega)]
  obtain ⟨e1, e2, e3⟩ := rootEstimate_spec hm (n := 2) (by norm_num)
  have hlt : val m < val (rootEstimate m 2) * val (rootEstimate m 2) := by
    refine Nat.lt_of_mul_lt_mul_right (a := B ^ (m.length - 1)) ?_
    rw [← pow_two]
    refine lt_of_le_of_lt (Nat.mul_le_mul_left _ (Nat.pow_le_pow_right B_pos ?_)) e3
    omega
  have hp : B ^ (m.length / 2 + 1) = (B ^ (m.length / 2 + 1) - 1) + 1 := by
    have := B_pow_pos (m.length / 2 + 1); omega
  have hv := val_lt e1.1
  rw [e2] at hv
  rw [hp]
  exact sqrtLoop_spec hm _ _ e1 (by rw [e2]; omega) (by omega)
    (Nat.sqrt_lt.2 hlt).le

end AF
