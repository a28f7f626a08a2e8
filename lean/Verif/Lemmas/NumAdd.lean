import Verif.Lemmas.SetPrec
import Verif.Lemmas.AddSub
/-!
# Addition and subtraction of numbers
-/

set_option linter.unusedSectionVars false

namespace AF

variable {K : Type*} [Field K] [LinearOrder K] [IsStrictOrderedRing K]

theorem roundP_eq {p : Nat} (h : roundP p < PMAX) : roundP p = 64 * wordLen p := by
  unfold roundP PMAX USIZE_MAX at h
  unfold roundP wordLen USIZE_MAX
  omega

theorem Sign.toK_invert (s : Sign) : (s.invert.toK : K) = -s.toK := by
  cases s <;> simp [Sign.invert, Sign.toK]

theorem Sign.toK_of_ne {s t : Sign} (h : s ≠ t) : (t.toK : K) = -s.toK := by
  cases s <;> cases t <;> simp_all [Sign.toK]

theorem Num.toK_neg (x : Num) : (x.neg.toK : K) = -x.toK := by
  unfold Num.toK Num.neg
  dsimp only
  rw [Sign.toK_invert]; ring

theorem Num.WF.neg {x : Num} (h : x.WF) : x.neg.WF := ⟨h.1, h.2, h.3, h.4, h.5, h.6⟩

theorem finish_of_mant {rm : RM} {s : Sign} {p : Nat} (hp : 0 < p) {X : K} {ix : Bool}
    {r : Int × Mantissa × Bool} (h : MantOk rm s.isPos p X ix r)
    (hsz : 64 * p ≤ 2 ^ 62 - 2 ^ 31) (e1 : ℤ) :
    Delivers rm (64 * p) ((s.toK : K) * (X * 2 ^ e1)) ix
      (Num.finish r.2.1 s (e1 - r.1) rm r.2.2) := by
  obtain ⟨h1, h2, h3, h4, h5⟩ := h
  have h6 := h4.scale e1
  rw [show -r.1 + e1 = e1 - r.1 by ring] at h6
  refine finish_spec hp h1 h2 h3 h6 ?_ hsz
  rw [h5]
  apply or_congr_right
  have : (2 : K) ^ (e1 - r.1 - (64 * p : ℕ)) = 2 ^ (-r.1 - (64 * p : ℕ)) * 2 ^ e1 := by
    rw [two_zpow_mul]; congr 1; ring
  rw [this, ← mul_assoc, ne_eq, ne_eq, mul_left_inj' (two_zpow_pos e1).ne']

theorem zero_WF {p : Nat} (hp : 64 * wordLen p ≤ 2 ^ 62 - 2 ^ 31) (s : Sign) (ix : Bool) :
    (Num.zero p s ix).WF := by
  refine ⟨?_, ?_, ?_, ?_, ?_, ?_⟩
  · intro a ha
    rw [Num.zero, Mantissa.new] at ha
    dsimp only at ha
    rw [List.eq_of_mem_replicate ha]; unfold B; norm_num
  · simp [Num.zero, Mantissa.new, val_replicate_zero]
  · show EMIN ≤ 0; unfold EMIN; norm_num
  · show 0 ≤ EMAX; unfold EMAX; norm_num
  · intro h; simp [Num.zero, Mantissa.new] at h
  · simpa [Num.zero, Mantissa.new] using hp

theorem zero_toK (p : Nat) (s : Sign) (ix : Bool) : ((Num.zero p s ix).toK : K) = 0 := by
  apply Num.toK_of_zero; simp [Num.zero, Mantissa.new, val_replicate_zero]

/-- The inexact mark that `add_sub` takes over from the operands. -/
def addIx (x y : Num) : Bool :=
  if x.isZero then y.inexact else if y.isZero then x.inexact else x.inexact || y.inexact

theorem addSub_spec {x y : Num} (hx : x.WF) (hy : y.WF) {p : Nat} (hp : 0 < p)
    (hpm : roundP p < PMAX) (op : Bool) (rm : RM) :
    Delivers rm (roundP p) ((x.toK : K) + (if op then y.toK else -y.toK)) (addIx x y)
      (x.addSub y p op rm false) := by
  have hpw : 0 < wordLen p := by unfold wordLen; omega
  unfold Num.addSub
  dsimp only
  rw [if_neg (show ¬ roundP p ≥ PMAX by omega)]
  unfold addIx
  have hp64 := roundP_eq hpm
  generalize wordLen p = pw at *
  generalize roundP p = q at *
  subst hp64
  have hsz : 64 * pw ≤ 2 ^ 62 - 2 ^ 31 := by unfold PMAX at hpm; omega
  by_cases hxz : x.isZero = true
  · rw [if_pos hxz, if_pos hxz, hx.toK_eq_zero.2 hxz, zero_add]
    cases op
    · have := setPrecision_delivers (K := K) hy.neg hpw hpm rm
      rw [Num.toK_neg] at this
      exact this
    · exact setPrecision_delivers (K := K) hy hpw hpm rm
  rw [if_neg hxz, if_neg hxz]
  by_cases hyz : y.isZero = true
  · rw [if_pos hyz, if_pos hyz, hy.toK_eq_zero.2 hyz]
    simpa using setPrecision_delivers (K := K) hx hpw hpm rm
  rw [if_neg hyz, if_neg hyz]
  rw [Bool.not_eq_true] at hxz hyz
  obtain ⟨e1, m1, hn1, hm1, hv1, hl1, hb1, he1⟩ := normalize_spec (K := K) hx hxz
  obtain ⟨e2, m2, hn2, hm2, hv2, hl2, hb2, he2⟩ := normalize_spec (K := K) hy hyz
  rw [hn1, hn2]
  dsimp only
  obtain ⟨hc1, hc2⟩ := absCmp_spec (K := K) hx hy hxz hyz
  -- the sign the second operand enters with
  obtain ⟨t, ht⟩ : ∃ t, t = if op then y.s else y.s.invert := ⟨_, rfl⟩
  have hY : (if op then (y.toK : K) else -y.toK) = t.toK * |(y.toK : K)| := by
    rw [ht]
    cases op
    · simp only [Bool.false_eq_true, if_false]
      rw [Sign.toK_invert, neg_mul, ← Num.toK_eq]
    · simp only [if_true]
      exact Num.toK_eq y
  have hcond : ((decide (x.s ≠ y.s) && op) || (!op && decide (x.s = y.s))) = decide (x.s ≠ t) := by
    rw [ht]; cases op <;> cases x.s <;> cases y.s <;> rfl
  rw [hcond, hY, ← ht]
  have hf : ∀ m : List Nat, ∀ a b : ℤ, b ≤ a → (frac m : K) / 2 ^ (a - b).toNat * 2 ^ a = frac m * 2 ^ b := by
    intro m a b hab
    rw [div_mul_eq_mul_div, mul_div_assoc, ← zpow_natCast, Int.toNat_of_nonneg (by omega),
      ← two_zpow_sub]
    congr 2; ring
  have hord : ∀ (m m' : List Nat) (a b : ℤ), Normd m → Normd m' →
      (frac m' : K) * 2 ^ b < frac m * 2 ^ a → b ≤ a := by
    intro m m' a b h h' hlt
    by_contra hc
    push Not at hc
    have h3 := half_le_frac (K := K) h'
    have h4 := frac_lt_one (K := K) h.1
    have h5 : (2 : K) ^ a ≤ 2 ^ (b - 1) := zpow_le_zpow_right₀ (by norm_num) (by omega)
    have h6 : (2 : K) ^ b = 2 ^ (b - 1) * 2 := by
      rw [← zpow_add_one₀ (by norm_num)]; congr 1; ring
    have hpa := two_zpow_pos (K := K) a
    have hpb := two_zpow_pos (K := K) b
    have h7 : frac m * 2 ^ a < 1 * (2 : K) ^ a := mul_lt_mul_of_pos_right h4 hpa
    have h8 : 1 / 2 * (2 : K) ^ b ≤ frac m' * 2 ^ b := mul_le_mul_of_nonneg_right h3 hpb.le
    rw [h6] at h8 hlt
    linarith
  by_cases hs : x.s = t
  · -- addition of magnitudes
    rw [if_neg (by simpa using hs)]
    by_cases hee : e1 ≥ e2
    · rw [if_pos hee]
      have h := finish_of_mant hpw (absAdd_spec (K := K) hm1 hm2 hpw (e1 - e2).toNat rm x.s.isPos
        (x.inexact || y.inexact)) hsz e1
      convert h using 1
      rw [Num.toK_eq, hv1, hv2, ← hs, add_mul, hf _ _ _ hee]; ring
    · rw [if_neg hee]
      have h := finish_of_mant hpw (absAdd_spec (K := K) hm2 hm1 hpw (e2 - e1).toNat rm x.s.isPos
        (x.inexact || y.inexact)) hsz e2
      convert h using 1
      rw [Num.toK_eq, hv1, hv2, ← hs, add_mul, hf _ _ _ (by omega)]; ring
  · rw [if_pos (by simpa using hs)]
    have hst := Sign.toK_of_ne (K := K) hs
    by_cases c1 : x.absCmp y > 0
    · rw [if_pos c1]
      have hlt := hc1.1 c1
      rw [hv1, hv2] at hlt
      have hle := hord _ _ _ _ hm1 hm2 hlt
      have h := finish_of_mant hpw (absSub_spec (K := K) hm1 hm2 hpw (e1 - e2).toNat rm x.s.isPos
        (x.inexact || y.inexact) (by
          rw [← hf _ _ _ hle] at hlt
          exact lt_of_mul_lt_mul_right hlt (two_zpow_pos _).le)) hsz e1
      convert h using 1
      rw [Num.toK_eq, hv1, hv2, hst, sub_mul, hf _ _ _ hle]; ring
    · rw [if_neg c1]
      by_cases c2 : x.absCmp y < 0
      · rw [if_pos c2]
        have hlt := hc2.1 c2
        rw [hv1, hv2] at hlt
        have hle := hord _ _ _ _ hm2 hm1 hlt
        have h := finish_of_mant hpw (absSub_spec (K := K) hm2 hm1 hpw (e2 - e1).toNat rm t.isPos
          (x.inexact || y.inexact) (by
            rw [← hf _ _ _ hle] at hlt
            exact lt_of_mul_lt_mul_right hlt (two_zpow_pos _).le)) hsz e2
        convert h using 1
        rw [Num.toK_eq, hv1, hv2, hst, sub_mul, hf _ _ _ hle]; ring
      · rw [if_neg c2]
        have heq : |(x.toK : K)| = |(y.toK : K)| :=
          le_antisymm (not_lt.1 (fun h => c1 (hc1.2 h))) (not_lt.1 (fun h => c2 (hc2.2 h)))
        have h0 : (x.toK : K) + t.toK * |(y.toK : K)| = 0 := by
          rw [Num.toK_eq, heq, hst]; ring
        rw [h0]
        refine ⟨zero_WF (by rw [wordLen_mul]; exact hsz) _ _, ?_, fun h => absurd h (lt_irrefl _),
          fun h => absurd h (lt_irrefl _), ?_, Or.inl (Or.inl ⟨rfl, zero_toK _ _ _⟩)⟩
        · simp [Num.zero, Mantissa.new, wordLen_mul]
        · rw [zero_toK]; simp [Num.zero]

end AF
