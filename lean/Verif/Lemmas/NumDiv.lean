import Verif.Lemmas.Sticky
import Verif.Lemmas.Mul
/-!
# Division of numbers: `Mantissa::div`, `BigFloatNumber::div`
-/

namespace AF

variable {K : Type*} [Field K] [LinearOrder K] [IsStrictOrderedRing K]

theorem MantOk.scale {rm : RM} {pos : Bool} {p : Nat} {X : K} {ix : Bool} {e : ℤ} {m : Mantissa} {f : Bool}
    (h : MantOk rm pos p X ix (e, m, f)) (t : ℤ) : MantOk rm pos p (X * 2 ^ t) ix (e - t, m, f) := by
  obtain ⟨h1, h2, h3, h4, h5⟩ := h
  refine ⟨h1, h2, h3, ?_, ?_⟩
  · have := h4.scale t
    dsimp only at this ⊢
    rw [show -(e - t) = -e + t by ring]
    exact this
  · dsimp only at h5 ⊢
    rw [h5, show -(e - t) - ((64 * p : ℕ) : ℤ) = (-e - ((64 * p : ℕ) : ℤ)) + t by ring, two_zpow_add,
      ← mul_assoc, ne_eq, ne_eq, mul_left_inj' (two_zpow_pos t).ne']

theorem mantDiv_spec {m1 m2 : List Nat} (h1 : Normd m1) (h2 : Normd m2) {p : Nat}
    (hp : 0 < wordLen p) (rm : RM) (pos ix : Bool) :
    MantOk rm pos (wordLen p) (frac m1 / frac m2 : K) ix
      (-(mantDiv m1 m2 p rm pos ix).1, (mantDiv m1 m2 p rm pos ix).2.1,
        (mantDiv m1 m2 p rm pos ix).2.2) := by
  unfold mantDiv
  dsimp only
  generalize wordLen p = pw at *
  generalize hk : max (pw + m2.length) m1.length + 1 = k at *
  have hk1 : m1.length < k := by omega
  have hk2 : pw + m2.length + 1 ≤ k := by omega
  have hw : Wf (List.replicate (k - m1.length) 0 ++ m1) := ext_wf h1.1 _
  have hl : (List.replicate (k - m1.length) 0 ++ m1).length = k := by simp; omega
  have hv : val (List.replicate (k - m1.length) 0 ++ m1) = B ^ (k - m1.length) * val m1 :=
    val_zeros_append _ _
  obtain ⟨⟨q1, q2, q3, q4⟩, _, q6⟩ := divWords_spec hw h2.topSet
  rw [hl] at q6
  have q7 := (q6 (by omega)).1
  rw [hv] at q3
  generalize divWords (List.replicate (k - m1.length) 0 ++ m1) m2 = qr at *
  have hA : 2 ^ (64 * k - 1) ≤ B ^ (k - m1.length) * val m1 := by
    rw [B_pow]
    calc 2 ^ (64 * k - 1) = 2 ^ (64 * (k - m1.length)) * 2 ^ (64 * m1.length - 1) := by
          have := h1.2.1
          rw [← pow_add]; congr 1; omega
      _ ≤ _ := Nat.mul_le_mul_left _ h1.2.2
  have h2lt := h2.val_lt
  have h2pos := h2.pos
  have hbig : 2 ^ (64 * pw + 1) ≤ val qr.1 := by
    have e1 : 2 ^ (64 * k - 1) = 2 ^ (64 * (k - m2.length) - 1) * 2 ^ (64 * m2.length) := by
      rw [← pow_add]; congr 1; omega
    have h5 : 2 ^ (64 * (k - m2.length) - 1) * val m2 < (val qr.1 + 1) * val m2 := by
      calc 2 ^ (64 * (k - m2.length) - 1) * val m2
          ≤ 2 ^ (64 * (k - m2.length) - 1) * 2 ^ (64 * m2.length) := Nat.mul_le_mul_left _ h2lt.le
        _ ≤ val qr.1 * val m2 + val qr.2 := by rw [← e1, ← q3]; exact hA
        _ < (val qr.1 + 1) * val m2 := by rw [Nat.add_mul, Nat.one_mul]; omega
    have h6 := Nat.lt_of_mul_lt_mul_right h5
    have h7 : 2 ^ (64 * pw + 1) ≤ 2 ^ (64 * (k - m2.length) - 1) :=
      Nat.pow_le_pow_right (by norm_num) (by omega)
    omega
  have h2K : (0 : K) < val m2 := by exact_mod_cast h2pos
  have q3K : (B ^ (k - m1.length) : K) * val m1 = val qr.1 * val m2 + val qr.2 := by
    have : ((B ^ (k - m1.length) * val m1 : ℕ) : K) = ((val qr.1 * val m2 + val qr.2 : ℕ) : K) := by rw [q3]
    push_cast at this
    exact this
  have q4K : (val qr.2 : K) < val m2 := by exact_mod_cast q4
  have hr0 : (0 : K) ≤ val qr.2 := Nat.cast_nonneg _
  have hS := stickyRound_spec (K := K) (r := qr.2) q1 hp hbig rm pos ix
    (Y := (B ^ (k - m1.length) : K) * val m1 / val m2)
    (by rw [le_div_iff₀ h2K, q3K]; linarith)
    (by rw [div_lt_iff₀ h2K, q3K]; linarith)
    (by
      rw [div_eq_iff h2K.ne', q3K, add_eq_left]
      exact ⟨fun h => by rw [h]; simp, fun h => by exact_mod_cast h⟩)
  have hS2 := hS.scale 64
  have hX : (B ^ (k - m1.length) : K) * val m1 / val m2 / 2 ^ (64 * qr.1.length) * 2 ^ (64 : ℤ) =
      frac m1 / frac m2 := by
    unfold frac
    have hB : ((B : ℕ) : K) ^ (k - m1.length) = 2 ^ (64 * (k - m1.length)) := by
      have := B_pow (k - m1.length)
      exact_mod_cast this
    rw [hB, q7, show (2 : K) ^ (64 : ℤ) = 2 ^ 64 by norm_cast]
    have e1 : (2 : K) ^ (64 * (k - m2.length + 1)) * 2 ^ (64 * m1.length) =
        2 ^ 64 * 2 ^ (64 * (k - m1.length)) * 2 ^ (64 * m1.length) * 2 ^ (64 * m1.length) / 2 ^ (64 * m2.length) := by
      rw [eq_div_iff (by positivity), ← pow_add, ← pow_add, ← pow_add, ← pow_add, ← pow_add]
      congr 1; omega
    have e2 : (2 : K) ^ (64 * (k - m2.length + 1)) =
        2 ^ 64 * 2 ^ (64 * (k - m1.length)) * 2 ^ (64 * m1.length) / 2 ^ (64 * m2.length) := by
      rw [eq_div_iff (by positivity), ← pow_add, ← pow_add, ← pow_add]
      congr 1; omega
    rw [e2]
    field_simp
  rw [hX] at hS2
  convert hS2 using 2
  rw [q7]
  have : ((k - m2.length + 1 : ℕ) : ℤ) = k - m2.length + 1 := by omega
  rw [this]
  ring

/-- The inexact mark that `div` takes over from the operands: a zero dividend gives an exact zero. -/
def divIx (x y : Num) : Bool := if x.isZero then false else x.inexact || y.inexact

theorem div_spec {x y : Num} (hx : x.WF) (hy : y.WF) (hy0 : y.isZero = false) {p : Nat} (hp : 0 < p)
    (hpm : roundP p < PMAX) (rm : RM) :
    Delivers rm (roundP p) ((x.toK : K) / y.toK) (divIx x y) (x.div y p rm) := by
  have hpw : 0 < wordLen p := by unfold wordLen; omega
  have hp64 := roundP_eq hpm
  unfold Num.div divIx
  rw [if_neg (show ¬ y.isZero = true by rw [hy0]; simp)]
  dsimp only
  rw [if_neg (show ¬ roundP p ≥ PMAX by omega)]
  generalize wordLen p = pw at *
  generalize roundP p = q at *
  subst hp64
  have hsz : 64 * pw ≤ 2 ^ 62 - 2 ^ 31 := by unfold PMAX at hpm; omega
  by_cases hz : x.isZero = true
  · rw [if_pos hz, if_pos hz, hx.toK_eq_zero.2 hz, zero_div]
    have e : ∀ s, (Num.zero (64 * pw) .pos false).setSign s = Num.zero (64 * pw) s false := fun s => rfl
    rw [e]
    refine ⟨zero_WF (by rw [wordLen_mul]; exact hsz) _ _, ?_, fun h => absurd h (lt_irrefl _),
      fun h => absurd h (lt_irrefl _), ?_, Or.inl (Or.inl ⟨rfl, zero_toK _ _ _⟩)⟩
    · simp [Num.zero, Mantissa.new, wordLen_mul]
    · rw [zero_toK]; simp [Num.zero]
  · rw [if_neg hz, if_neg hz]
    rw [Bool.not_eq_true] at hz
    obtain ⟨e1, m1, hn1, hm1, hv1, hl1, hb1, he1⟩ := normalize_spec (K := K) hx hz
    obtain ⟨e2, m2, hn2, hm2, hv2, hl2, hb2, he2⟩ := normalize_spec (K := K) hy hy0
    rw [hn1, hn2]
    dsimp only
    have h := finish_of_mant (s := if x.s = y.s then .pos else .neg) hpw (by
      have := mantDiv_spec (K := K) hm1 hm2 (p := 64 * pw) (by rw [wordLen_mul]; exact hpw) rm
        (Sign.isPos (if x.s = y.s then .pos else .neg)) (x.inexact || y.inexact)
      rw [wordLen_mul] at this
      exact this) hsz (e1 - e2)
    dsimp only at h
    rw [sub_neg_eq_add] at h
    convert h using 1
    rw [Num.toK_eq x, Num.toK_eq y, hv1, hv2, zpow_sub₀ (by norm_num)]
    have hs : (Sign.toK (if x.s = y.s then .pos else .neg) : K) = x.s.toK / y.s.toK := by
      cases x.s <;> cases y.s <;> simp [Sign.toK]
    rw [hs]
    have := (frac_pos (K := K) hm2).ne'
    have := toK_ne_zero (K := K) y.s
    field_simp

end AF
