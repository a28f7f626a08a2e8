import Verif.Lemmas.DecLoop
import Verif.Lemmas.DecInt
/-!
# `conv_from_dec`
-/

namespace AF

set_option linter.unusedSectionVars false

/-- Words without superfluous leading zeros. -/
def Tight (c : List Nat) : Prop := c.length ≤ 1 ∨ B ^ (c.length - 1) ≤ val c

theorem tight_trunc (m : List Nat) : Tight (truncLeadingZeroes m) := by
  by_cases h : 0 < (truncLeadingZeroes m).length
  · right
    rw [val_truncLeadingZeroes]
    exact truncLeadingZeroes_lower m h
  · left; omega

theorem decChunks_tight : ∀ (vs : List Nat) (word i t : Nat) (cs : List (List Nat)),
    decChunks vs word i t = .ok cs → ∀ c ∈ cs, Tight c := by
  intro vs
  induction vs with
  | nil =>
    intro word i t cs h c hc
    unfold decChunks at h
    cases h
    by_cases hi : i > 0
    · rw [if_pos hi] at hc
      simp only [List.mem_singleton] at hc
      subst hc; left; simp
    · rw [if_neg hi] at hc; cases hc
  | cons v vs ih =>
    intro word i t cs h c hc
    unfold decChunks at h
    by_cases h9 : v > 9
    · rw [if_pos h9] at h; cases h
    · rw [if_neg h9] at h
      dsimp only at h
      by_cases hi : i + 1 = 16
      · rw [if_pos hi] at h
        cases hd : decChunks vs 0 0 1 with
        | error e => rw [hd] at h; cases h
        | ok cs' =>
          rw [hd] at h
          cases h
          rcases List.mem_cons.1 hc with rfl | hc
          · left; simp
          · exact ih _ _ _ _ hd c hc
      · rw [if_neg hi] at h
        exact ih _ _ _ _ h c hc

theorem decPairs_tight (t : List Nat) : ∀ (n : Nat) (cs : List (List Nat)), cs.length ≤ n →
    (∀ c ∈ cs, Tight c) → ∀ c ∈ decPairs t cs, Tight c := by
  intro n
  induction n with
  | zero =>
    intro cs hl _ c hc
    have : cs = [] := List.length_eq_zero_iff.1 (by omega)
    subst this
    cases hc
  | succ n ih =>
    intro cs hl h c hc
    match cs, hl, h with
    | [], _, _ => cases hc
    | [a], _, h => exact h c hc
    | a :: b :: cs, hl, h =>
      unfold decPairs at hc
      rcases List.mem_cons.1 hc with rfl | hc
      · exact tight_trunc _
      · exact ih cs (by simp only [List.length_cons] at hl; omega) (fun c hc => h c (by simp [hc])) c hc

theorem decCombine_tight (tp : List TenPow) : ∀ (f p : Nat) (cs : List (List Nat)) (m : List Nat),
    decCombine tp f p cs = .ok m → (∀ c ∈ cs, Tight c) → Tight m := by
  intro f
  induction f with
  | zero =>
    intro p cs m h ht
    match cs, h, ht with
    | [c], h, ht => cases h; exact ht _ (by simp)
  | succ f ih =>
    intro p cs m h ht
    match cs, h, ht with
    | [c], h, ht => cases h; exact ht _ (by simp)
    | a :: b :: cs, h, ht =>
      unfold decCombine at h
      cases hp : tp[p]? with
      | none => rw [hp] at h; cases h
      | some t =>
        rw [hp] at h
        exact ih _ _ _ h (decPairs_tight _ _ _ le_rfl ht)

theorem mantFromDec_tight {tp : List TenPow} {ds : List Nat} {m : Mantissa} (h : mantFromDec ds tp = .ok m) :
    Tight m.m := by
  unfold mantFromDec at h
  cases hc : decChunks ds.reverse 0 0 1 with
  | error e => rw [hc] at h; cases h
  | ok cs =>
    rw [hc] at h
    dsimp only at h
    cases hm : decCombine tp (cs.length + 1) 4 cs with
    | error e => rw [hm] at h; cases h
    | ok m' =>
      rw [hm] at h
      cases h
      exact decCombine_tight tp _ _ _ _ hm (decChunks_tight _ _ _ _ _ hc)

/-- Leading zeros do not change the value. -/
theorem digNat_drop_lead (b : Nat) (ds : List Nat) :
    digNat b (ds.drop (ds.takeWhile (· = 0)).length) = digNat b ds := by
  induction ds with
  | nil => rfl
  | cons d ds ih =>
    by_cases h : d = 0
    · rw [List.takeWhile_cons_of_pos (by simp [h]), List.length_cons, List.drop_succ_cons, ih, digNat_cons, h]
      simp
    · rw [List.takeWhile_cons_of_neg (by simp [h])]
      rfl

theorem lead_lt {ds : List Nat} (h : digNat 10 ds ≠ 0) : (ds.takeWhile (· = 0)).length < ds.length := by
  by_contra hc
  apply h
  rw [← digNat_drop_lead, List.drop_eq_nil_of_le (by omega)]
  rfl

/-- The number made from the digits before scaling. -/
theorem dec_start {m : Mantissa} {D : Nat} (hw : Wf m.m) (hv : val m.m = D) (hn : m.n = Nat.size D) (ht : Tight m.m)
    (hD : D ≠ 0) (hDn : (Nat.size D : Int) ≤ EMAX) (s : Sign) :
    (Num.mk m.n s ⟨(maximize m.m).1, m.maxBitLen⟩ false).WF ∧
    (Num.toK (Num.mk m.n s ⟨(maximize m.m).1, m.maxBitLen⟩ false) : ℚ) = Sign.toK s * D := by
  obtain ⟨h1, h2, h3, h4, h5⟩ := maximize_spec hw (by rw [hv]; exact hD)
  have hE : EMAX = 2147483647 := rfl
  have hE' : EMIN = -2147483648 := rfl
  have hlen : 0 < m.m.length := by
    rcases Nat.eq_zero_or_pos m.m.length with h | h
    · rw [List.length_eq_zero_iff] at h
      rw [h] at hv
      exact absurd hv.symm hD
    · exact h
  have hsize : Nat.size D ≤ 64 * m.m.length := by
    rw [Nat.size_le, ← hv]; exact val_lt_two_pow hw
  have hle : 64 * m.m.length ≤ 2147483647 + 64 := by
    rcases ht with ht | ht
    · omega
    · rw [B_pow, hv] at ht
      have := Nat.lt_size.2 ht
      omega
  constructor
  · have hmb : m.maxBitLen = 64 * m.m.length := by unfold Mantissa.maxBitLen; ring
    have hbig : Nat.size (val (maximize m.m).1) = 64 * m.m.length := by
      apply le_antisymm
      · rw [Nat.size_le]; have := val_lt_two_pow h5; rwa [h4] at this
      · have := Nat.lt_size.2 h3; omega
    refine ⟨h5, ?_, ?_, ?_, ?_, ?_⟩
    · dsimp only; rw [hbig, hmb]
    · dsimp only; omega
    · dsimp only; rw [hn]; exact hDn
    · intro _ h
      dsimp only at h
      rw [h4, hmb] at h; omega
    · dsimp only; rw [h4]; omega
  · unfold Num.toK
    dsimp only
    rw [h1, h4, hv, h2, hv, hn]
    push_cast
    rw [← zpow_natCast (2 : ℚ) (64 * m.m.length - D.size), mul_assoc, mul_assoc, ← zpow_add₀ (by norm_num)]
    rw [show ((64 * m.m.length - D.size : ℕ) : ℤ) + ((D.size : ℤ) - 64 * (m.m.length : ℤ)) = 0 by omega]
    simp

/-- The precision used by `conv_from_dec` when none is given (conv.rs 307-313). -/
def autoPrec (k : Nat) : Nat := roundP (k * 3321928095 / 1000000000 + 1)

/-- `conv_from_dec` on digits of a nonzero number. -/
theorem convFromDec_spec {tp : List TenPow} (htp : TpOk tp) {ds : List Nat} (hd : ∀ d ∈ ds, d ≤ 9)
    (hD : digNat 10 ds ≠ 0) (hl : ds.length ≤ TEN_PWR_MAX_FROM_DEC) (s : Sign) (e : Int) {p pw : Nat}
    (hpp : (if p < USIZE_MAX then p else autoPrec ds.length) = 64 * pw) (hp : 0 < pw) (hpm : 64 * pw < PMAX) (rm : RM)
    (hlo : (2 : ℚ) ^ EMIN ≤ |(radixVal 10 (s, ds, e) : ℚ)|)
    (hhi : |(radixVal 10 (s, ds, e) : ℚ)| < 2 ^ (EMAX - 2)) :
    DecRes rm (64 * pw) (radixVal 10 (s, ds, e))
      ((rm.directed = true ∨ rm = .none) ∧ 64 * pw ≤ 2 ^ 59 ∧ (e - ds.length).natAbs ≤ 2 ^ 33) (Num.convFromDec s ds e p rm tp).1 := by
  have hlead := lead_lt hD
  set lead := (ds.takeWhile (· = 0)).length with hle
  have hdrop : digNat 10 (ds.drop lead) = digNat 10 ds := digNat_drop_lead 10 ds
  obtain ⟨t1, t2⟩ := tenpowers_ok htp (log2Ceil (ds.length - lead))
  obtain ⟨m, m1, m2, m3, m4⟩ := mantFromDec_spec t1 (ds := ds.drop lead)
    (by intro h; have := congrArg List.length h; rw [List.length_drop] at this; simp at this; omega)
    (fun d h => hd d (List.mem_of_mem_drop h))
    (by rw [List.length_drop]; exact (le_pow_log2Ceil _).trans (Nat.pow_le_pow_right (by norm_num) t2))
  rw [hdrop] at m3 m4
  have hT : TEN_PWR_MAX_FROM_DEC = 646456991 := by decide
  have hsize : Nat.size (digNat 10 ds) ≤ 2147483645 := by
    rw [Nat.size_le]
    refine (digNat_lt (by norm_num) (fun d h => by have := hd d h; omega)).trans_le ?_
    refine (Nat.pow_le_pow_right (by norm_num) hl).trans ?_
    have := ten_pow_lt
    generalize TEN_PWR_MAX_FROM_DEC = a at *
    generalize 2147483645 = b at *
    exact this.le
  have hE : EMAX = 2147483647 := rfl
  obtain ⟨x1, x2⟩ := dec_start m2 m3 m4 (mantFromDec_tight m1) hD (by omega) s
  set x := Num.mk m.n s ⟨(maximize m.m).1, m.maxBitLen⟩ false with hx
  have hxs : x.s = s := rfl
  have hxi : x.inexact = false := rfl
  obtain ⟨n, hn⟩ : ∃ n : Int, n = e - ds.length := ⟨_, rfl⟩
  obtain ⟨g, hg⟩ : ∃ g : ℚ, g = if decide (n < 0) then 10⁻¹ else 10 := ⟨_, rfl⟩
  have hgz : g ^ n.natAbs = (10 : ℚ) ^ n := by
    rw [hg]
    by_cases h : n < 0
    · simp only [h, decide_true, if_true]
      rw [inv_pow, ← zpow_natCast, ← zpow_neg]
      congr 1; omega
    · simp only [h, decide_false, Bool.false_eq_true, if_false]
      rw [← zpow_natCast]
      congr 1; omega
  have hX : (radixVal 10 (s, ds, e) : ℚ) = x.toK * g ^ n.natAbs := by
    rw [x2, hgz, hn]; unfold radixVal; push_cast; rfl
  have hDq : |(x.toK : ℚ)| = (digNat 10 ds : ℚ) := by
    rw [x2, abs_mul]
    have : |(Sign.toK s : ℚ)| = 1 := by cases s <;> simp [Sign.toK]
    rw [this, one_mul, Nat.abs_cast]
  have hD1 : 1 ≤ |(x.toK : ℚ)| := by
    rw [hDq]; exact_mod_cast Nat.one_le_iff_ne_zero.2 hD
  have hD2 : |(x.toK : ℚ)| < 2 ^ EMAX := by
    have h1 := x1.abs_lt_zpow (K := ℚ)
    exact lt_of_lt_of_le h1 (zpow_le_zpow_right₀ (by norm_num) x1.emax)
  rw [hX] at hlo hhi ⊢
  unfold Num.convFromDec
  dsimp only
  rw [← hle, if_neg (by omega), m1]
  dsimp only
  rw [if_neg (by omega), ← hx, ← hn]
  have hpp' : (if p < USIZE_MAX then p else roundP (ds.length * 3321928095 / 1000000000 + 1)) = 64 * pw := hpp
  rw [if_neg (by
    rintro ⟨h1, h2⟩
    rw [if_neg h1] at hpp'
    omega), hpp']
  dsimp only
  obtain ⟨k, hk⟩ : ∃ k, k = n.natAbs / TEN_PWR_MAX_FROM_DEC := ⟨_, rfl⟩
  obtain ⟨r, hr⟩ : ∃ r, r = n.natAbs % TEN_PWR_MAX_FROM_DEC := ⟨_, rfl⟩
  have hkr : n.natAbs = k * TEN_PWR_MAX_FROM_DEC + r := by
    rw [hk, hr, Nat.mul_comm]; exact (Nat.div_add_mod _ _).symm
  have hrT : r < TEN_PWR_MAX_FROM_DEC := by rw [hr]; exact Nat.mod_lt _ (by rw [hT]; norm_num)
  rw [← hk, ← hr]
  obtain ⟨N, hN⟩ : ∃ N, N = k + (if r ≠ 0 then 1 else 0) := ⟨_, rfl⟩
  have herr : (if k ≠ 0 then 3 * k else 0) + (if r ≠ 0 then 3 else 0) = 3 * N := by
    rw [hN]
    by_cases h1 : k = 0 <;> by_cases h2 : r = 0 <;> simp [h1, h2] <;> ring
  rw [herr]
  rcases Nat.eq_zero_or_pos N with h0 | h0
  · have hk0 : k = 0 := by omega
    have hr0 : r = 0 := by
      by_contra hc; rw [h0, if_pos hc] at hN; omega
    rw [h0, hk0, hr0]
    have hz : n.natAbs = 0 := by rw [hkr, hk0, hr0]; simp
    rw [hz, pow_zero, mul_one] at hlo hhi ⊢
    exact fromDecLoop_zero x1 hxi n hlo hhi hp hpm rm 399 64 _
  · have hxD : (x.toK : ℚ) = ((s.toInt * digNat 10 ds : ℤ) : ℚ) := by
      rw [x2]; push_cast; congr 1
      cases s <;> simp [Sign.toK, Sign.toInt]
    refine fromDecLoop_spec x1 hxi hkr hrT hg hD1 hD2 hlo hhi hN h0 hp hpm rm hxD (fun h => ⟨h.1, h.2.2⟩)
      (fun h => h.2.1) 398 (64 * pw + 64) 64 (by omega) (by omega) le_rfl (by omega) ?_ (fun h => by omega)
    have h1 : 5 ^ 398 * PMAX ≤ 6 ^ 398 * 192 := by decide +kernel
    exact h1.trans (Nat.mul_le_mul_left _ (by omega))

end AF
