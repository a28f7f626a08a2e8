import Verif.Lemmas.AddSub
import Verif.Lemmas.Div
/-!
# Rounding a truncated result with its remainder (`stickyRound`)
-/

namespace AF

variable {K : Type*} [Field K] [LinearOrder K] [IsStrictOrderedRing K]

/-- The value delivered by `adjustPrec`, whatever the rounding does. -/
theorem adjust_value {m : List Nat} (hm : Normd m) {p : Nat} (hp : 0 < p) (rm : RM) (pos ix : Bool) :
    (val (adjustPrec m p rm pos false ix).1 : K) *
        2 ^ ((if (adjustPrec m p rm pos false ix).2.1 then (1:ℤ) else 0) - (64 * p : ℕ)) =
      adjK rm pos (val m) m.length p * 2 ^ (-(64 * p : ℕ) : ℤ) := by
  obtain ⟨h1, h2, h3, h4, h5⟩ := adjustPrec_spec hm hp rm pos ix
  have hbd := adjK_bounds rm pos hp hm.2.1 hm.2.2 hm.val_lt
  by_cases hlt : adjK rm pos (val m) m.length p < 2 ^ (64 * p)
  · obtain ⟨g1, g2⟩ := h3 hlt
    rw [g2, g1]; simp
  · obtain ⟨g1, g2⟩ := h4 (by omega)
    have hkP : adjK rm pos (val m) m.length p = 2 ^ (64 * p) := by omega
    rw [g2, g1, hkP, if_pos rfl]
    push_cast
    rw [← zpow_natCast, ← zpow_natCast, two_zpow_mul, two_zpow_mul]; congr 1; omega

/-- The rounded integer of `adjustPrec` is that of `X`: then so is the delivered number. -/
theorem NR_of_mag {m : List Nat} (hm : Normd m) {p : Nat} (hp : 0 < p) (rm : RM) (pos ix : Bool)
    {X : K} (hlo : 1 / 2 ≤ X) (hhi : X < 1)
    (hmag : RMag rm pos (X * 2 ^ (64 * p)) (adjK rm pos (val m) m.length p)) :
    NR rm pos (64 * p) X (val (adjustPrec m p rm pos false ix).1)
      (if (adjustPrec m p rm pos false ix).2.1 then 1 else 0) := by
  obtain ⟨h1, h2, h3, h4, h5⟩ := adjustPrec_spec hm hp rm pos ix
  refine ⟨0, adjK rm pos (val m) m.length p, ?_, by simpa using hhi, ?_, ?_, ?_⟩
  · rw [show (2 : K) ^ ((0:ℤ) - 1) = 1 / 2 by norm_num]; exact hlo
  · rw [sub_zero, zpow_natCast]; exact hmag
  · intro hlt
    obtain ⟨g1, g2⟩ := h3 hlt
    exact ⟨g2, by rw [g1]; simp⟩
  · intro hge
    obtain ⟨g1, g2⟩ := h4 hge
    exact ⟨g2, by rw [g1]; simp⟩

/-- From the delivered words to `MantOk`, with the exponent shifted by `c`. -/
theorem MantOk_of_NR {m : List Nat} (hm : Normd m) {p : Nat} (hp : 0 < p)
    (rm : RM) (pos ix : Bool) {X : K} {c : ℤ}
    (hN : NR rm pos (64 * p) (X * 2 ^ (-c)) (val (adjustPrec m p rm pos false true).1)
      (if (adjustPrec m p rm pos false true).2.1 then 1 else 0))
    (hne : (adjK rm pos (val m) m.length p : K) ≠ X * 2 ^ (-c) * 2 ^ (64 * p)) :
    MantOk rm pos p X ix
      (-c - (if (adjustPrec m p rm pos false true).2.1 then 1 else 0),
        { m := (adjustPrec m p rm pos false true).1,
          n := (adjustPrec m p rm pos false true).1.length * 64 },
        (adjustPrec m p rm pos false true).2.2) := by
  have hcc : (2 : K) ^ (-c) * 2 ^ c = 1 := by rw [two_zpow_mul]; simp
  obtain ⟨h1, h2, h3, h4, h5⟩ := adjustPrec_spec hm hp rm pos true
  have hv := adjust_value (K := K) hm hp rm pos true
  have h6 := hN.scale c
  rw [mul_assoc, hcc, mul_one] at h6
  refine ⟨h1, h2, by dsimp only; rw [h1]; ring, ?_, ?_⟩
  · convert h6 using 1; dsimp only; ring
  · dsimp only
    have h5' : (adjustPrec m p rm pos false true).2.2 = true := by rw [h5]; simp
    rw [h5']
    refine ⟨fun _ => Or.inr ?_, fun _ => rfl⟩
    have e1 : -(-c - (if (adjustPrec m p rm pos false true).2.1 = true then (1:ℤ) else 0)) -
        ((64 * p : ℕ) : ℤ) =
        ((if (adjustPrec m p rm pos false true).2.1 = true then (1:ℤ) else 0) - ((64 * p : ℕ) : ℤ)) + c := by
      ring
    rw [e1, two_zpow_add, ← mul_assoc, hv]
    intro hX
    apply hne
    have e2 : (2 : K) ^ (-(64 * p : ℕ) : ℤ) * 2 ^ (64 * p) = 1 := by
      rw [← zpow_natCast, two_zpow_mul]; simp
    calc (adjK rm pos (val m) m.length p : K)
        = adjK rm pos (val m) m.length p * ((2 : K) ^ (-c) * 2 ^ c) *
          ((2 : K) ^ (-(64 * p : ℕ) : ℤ) * 2 ^ (64 * p)) := by rw [hcc, e2]; ring
      _ = (adjK rm pos (val m) m.length p * 2 ^ (-(64 * p : ℕ) : ℤ) * 2 ^ c) * 2 ^ (-c) * 2 ^ (64 * p) := by
          ring
      _ = _ := by rw [hX]

theorem RMag_floor {rm : RM} {pos : Bool} (h1 : rm.nearest = false) (h2 : Num.directedUp rm pos = false)
    (x : K) (k : Nat) : RMag rm pos x k ↔ (k : K) ≤ x ∧ x < k + 1 := by
  cases rm <;> cases pos <;> simp_all [RMag, RM.nearest, Num.directedUp]

theorem RMag_ceil {rm : RM} {pos : Bool} (h2 : Num.directedUp rm pos = true)
    (x : K) (k : Nat) : RMag rm pos x k ↔ x ≤ (k : K) ∧ (k : K) < x + 1 := by
  cases rm <;> cases pos <;> simp_all [RMag, RM.nearest, Num.directedUp]

/-- Truncation: the exact value is above the words, by less than one unit of the discarded part. -/
theorem MantOk_trunc {m : List Nat} (hm : Normd m) {p : Nat} (hp : 0 < p) (hpL : p < m.length)
    {rm : RM} {pos : Bool} (hr1 : rm.nearest = false) (hr2 : Num.directedUp rm pos = false) (ix : Bool)
    {X : K} {c : ℤ} {u : Nat}
    (hXa : (val m : K) < X * 2 ^ (-c) * 2 ^ (64 * m.length))
    (hXb : X * 2 ^ (-c) * 2 ^ (64 * m.length) < (val m + u : ℕ))
    (hu : val m + u ≤ (val m / 2 ^ (64 * (m.length - p)) + 1) * 2 ^ (64 * (m.length - p))) :
    MantOk rm pos p X ix
      (-c - (if (adjustPrec m p rm pos false true).2.1 then 1 else 0),
        { m := (adjustPrec m p rm pos false true).1,
          n := (adjustPrec m p rm pos false true).1.length * 64 },
        (adjustPrec m p rm pos false true).2.2) := by
  generalize hY : X * 2 ^ (-c) = Y at *
  have hn : (2 : K) ^ (64 * m.length) = 2 ^ (64 * p) * 2 ^ (64 * (m.length - p)) := pow_split (by omega)
  have hnN : 2 ^ (64 * m.length - 1) = 2 ^ (64 * p - 1) * 2 ^ (64 * (m.length - p)) := by
    rw [← pow_add]; congr 1; omega
  have hnN' : 2 ^ (64 * m.length) = 2 ^ (64 * p) * 2 ^ (64 * (m.length - p)) := by
    rw [← pow_add]; congr 1; omega
  have hk : adjK rm pos (val m) m.length p = val m / 2 ^ (64 * (m.length - p)) := by
    rw [adjK, if_neg (by omega)]
    have := rndN_RMag (K := K) rm pos (val m) (64 * (m.length - p))
    rw [RMag_floor hr1 hr2] at this
    generalize rndN rm pos (val m) (64 * (m.length - p)) = k at *
    rw [le_div_iff₀ (by positivity), div_lt_iff₀ (by positivity)] at this
    obtain ⟨a, b⟩ := this
    have a' : k * 2 ^ (64 * (m.length - p)) ≤ val m := by exact_mod_cast a
    have b' : val m < (k + 1) * 2 ^ (64 * (m.length - p)) := by exact_mod_cast b
    symm
    rw [Nat.div_eq_iff (by positivity)]
    have : (k + 1) * 2 ^ (64 * (m.length - p)) = k * 2 ^ (64 * (m.length - p)) + 2 ^ (64 * (m.length - p)) := by ring
    have h2 : 2 ^ (64 * (m.length - p)) > 0 := by positivity
    constructor
    · exact a'
    · omega
  have hlo := hm.2.2
  have hhi := hm.val_lt
  rw [hnN] at hlo
  rw [hnN'] at hhi
  rw [hn] at hXa hXb
  generalize hV : val m = V at *
  generalize hD : 2 ^ (64 * (m.length - p)) = D at *
  have hDK : (2 : K) ^ (64 * (m.length - p)) = (D : K) := by rw [← hD]; push_cast; rfl
  rw [hDK] at hXa hXb
  have hD0 : 0 < D := by rw [← hD]; positivity
  have hD0K : (0 : K) < D := by exact_mod_cast hD0
  have hq1 : V / D * D ≤ V := Nat.div_mul_le_self _ _
  have f1 : ((V / D : ℕ) : K) < Y * 2 ^ (64 * p) := by
    have : ((V / D : ℕ) : K) * D ≤ V := by exact_mod_cast hq1
    refine lt_of_mul_lt_mul_right ?_ hD0K.le
    rw [mul_assoc]
    exact lt_of_le_of_lt this hXa
  have f2 : Y * 2 ^ (64 * p) < ((V / D : ℕ) : K) + 1 := by
    have : ((V + u : ℕ) : K) ≤ (((V / D : ℕ) : K) + 1) * D := by exact_mod_cast hu
    refine lt_of_mul_lt_mul_right ?_ hD0K.le
    rw [mul_assoc]
    exact lt_of_lt_of_le hXb this
  have hpp : (0 : K) < 2 ^ (64 * p) := by positivity
  have g1 : 2 ^ (64 * p - 1) ≤ V / D := (Nat.le_div_iff_mul_le hD0).2 hlo
  have g2 : V / D < 2 ^ (64 * p) := (Nat.div_lt_iff_lt_mul hD0).2 hhi
  have hs := two_pow_split (64 * p) (by omega)
  have hYlo : 1 / 2 ≤ Y := by
    have g1' : 2 ^ (64 * p) ≤ 2 * (V / D) := by omega
    have : (2 : K) ^ (64 * p) ≤ 2 * ((V / D : ℕ) : K) := by exact_mod_cast g1'
    by_contra hc
    rw [not_le] at hc
    have h6 : Y * 2 ^ (64 * p) < 1 / 2 * 2 ^ (64 * p) := mul_lt_mul_of_pos_right hc hpp
    linarith
  have hYhi : Y < 1 := by
    have : ((V / D : ℕ) : K) + 1 ≤ (2 : K) ^ (64 * p) := by exact_mod_cast g2
    by_contra hc
    rw [not_lt] at hc
    have h6 : 1 * 2 ^ (64 * p) ≤ Y * 2 ^ (64 * p) := mul_le_mul_of_nonneg_right hc hpp.le
    linarith
  refine MantOk_of_NR hm hp rm pos ix ?_ ?_
  · rw [hY]
    refine NR_of_mag hm hp rm pos true hYlo hYhi ?_
    rw [hV, hk, RMag_floor hr1 hr2]
    exact ⟨f1.le, f2⟩
  · rw [hY, hV, hk]; exact f1.ne

/-- Rounding away: the exact value is below the words, by less than one unit of the discarded part
and by at most half of one when the words are a power of two. -/
theorem MantOk_away {m : List Nat} (hm : Normd m) {p : Nat} (hp : 0 < p) (hpL : p < m.length)
    {rm : RM} {pos : Bool} (hr2 : Num.directedUp rm pos = true) (ix : Bool)
    {X : K} {c : ℤ} {a : Nat} (haV : a < val m)
    (hXa : (a : K) < X * 2 ^ (-c) * 2 ^ (64 * m.length))
    (hXb : X * 2 ^ (-c) * 2 ^ (64 * m.length) < val m)
    (hu : (val m - 1) / 2 ^ (64 * (m.length - p)) * 2 ^ (64 * (m.length - p)) ≤ a)
    (hu2 : val m ≤ a + 2 ^ (64 * (m.length - p) - 1)) :
    MantOk rm pos p X ix
      (-c - (if (adjustPrec m p rm pos false true).2.1 then 1 else 0),
        { m := (adjustPrec m p rm pos false true).1,
          n := (adjustPrec m p rm pos false true).1.length * 64 },
        (adjustPrec m p rm pos false true).2.2) := by
  generalize hY : X * 2 ^ (-c) = Y at *
  have hn : (2 : K) ^ (64 * m.length) = 2 ^ (64 * p) * 2 ^ (64 * (m.length - p)) := pow_split (by omega)
  have hnN : 2 ^ (64 * m.length - 1) = 2 ^ (64 * p - 1) * 2 ^ (64 * (m.length - p)) := by
    rw [← pow_add]; congr 1; omega
  have hnN' : 2 ^ (64 * m.length) = 2 ^ (64 * p) * 2 ^ (64 * (m.length - p)) := by
    rw [← pow_add]; congr 1; omega
  have hsD := two_pow_split (64 * (m.length - p)) (by omega)
  have hk : adjK rm pos (val m) m.length p = (val m - 1) / 2 ^ (64 * (m.length - p)) + 1 := by
    rw [adjK, if_neg (by omega)]
    have := rndN_RMag (K := K) rm pos (val m) (64 * (m.length - p))
    rw [RMag_ceil hr2] at this
    have hv0 := hm.pos
    generalize rndN rm pos (val m) (64 * (m.length - p)) = k at *
    rw [div_le_iff₀ (by positivity), ← sub_lt_iff_lt_add, lt_div_iff₀ (by positivity)] at this
    obtain ⟨a, b⟩ := this
    have a' : val m ≤ k * 2 ^ (64 * (m.length - p)) := by exact_mod_cast a
    have hk0 : k ≠ 0 := by rintro rfl; rw [Nat.zero_mul] at a'; omega
    obtain ⟨j, rfl⟩ := Nat.exists_eq_succ_of_ne_zero hk0
    have b' : j * 2 ^ (64 * (m.length - p)) < val m := by
      push_cast at b
      rw [add_sub_cancel_right] at b
      exact_mod_cast b
    have h2 : 2 ^ (64 * (m.length - p)) > 0 := by positivity
    have h3 : (j + 1) * 2 ^ (64 * (m.length - p)) = j * 2 ^ (64 * (m.length - p)) + 2 ^ (64 * (m.length - p)) := by ring
    have : (val m - 1) / 2 ^ (64 * (m.length - p)) = j := by
      rw [Nat.div_eq_iff h2]
      rw [Nat.succ_eq_add_one] at a'
      constructor <;> omega
    rw [this]
  have hlo := hm.2.2
  have hhi := hm.val_lt
  rw [hnN] at hlo
  rw [hnN'] at hhi
  rw [hn] at hXa hXb
  obtain ⟨h1, h2, h3, h4, h5⟩ := adjustPrec_spec hm hp rm pos true
  generalize hV : val m = V at *
  generalize hD : 2 ^ (64 * (m.length - p)) = D at *
  generalize hE : 2 ^ (64 * (m.length - p) - 1) = E at *
  have hDK : (2 : K) ^ (64 * (m.length - p)) = (D : K) := by rw [← hD]; push_cast; rfl
  rw [hDK] at hXa hXb
  have hD0 : 0 < D := by rw [← hD]; positivity
  have hD0K : (0 : K) < D := by exact_mod_cast hD0
  have hpp : (0 : K) < 2 ^ (64 * p) := by positivity
  have hs := two_pow_split (64 * p) (by omega)
  have hsK : (2 : K) ^ (64 * p) = 2 * 2 ^ (64 * p - 1) := by exact_mod_cast hs
  have f1 : (((V - 1) / D : ℕ) : K) < Y * 2 ^ (64 * p) := by
    have : (((V - 1) / D : ℕ) : K) * D ≤ a := by exact_mod_cast hu
    refine lt_of_mul_lt_mul_right ?_ hD0K.le
    rw [mul_assoc]
    exact lt_of_le_of_lt this hXa
  have hVle : V ≤ ((V - 1) / D + 1) * D := by
    have h6 := Nat.div_add_mod (V - 1) D
    have h7 := Nat.mod_lt (V - 1) hD0
    have h8 : ((V - 1) / D + 1) * D = D * ((V - 1) / D) + D := by ring
    omega
  have f2 : Y * 2 ^ (64 * p) < (((V - 1) / D : ℕ) : K) + 1 := by
    have : (V : K) ≤ ((((V - 1) / D : ℕ) : K) + 1) * D := by exact_mod_cast hVle
    refine lt_of_mul_lt_mul_right ?_ hD0K.le
    rw [mul_assoc]
    exact lt_of_lt_of_le hXb this
  have hne : ((adjK rm pos V m.length p : ℕ) : K) ≠ Y * 2 ^ (64 * p) := by
    rw [hk]; push_cast; exact f2.ne'
  have hYhi : Y < 1 := by
    have : (V : K) < 2 ^ (64 * p) * D := by exact_mod_cast hhi
    have h6 : Y * (2 ^ (64 * p) * D) < 1 * (2 ^ (64 * p) * D) := by linarith
    exact lt_of_mul_lt_mul_right h6 (by positivity)
  by_cases hpow : V = 2 ^ (64 * p - 1) * D
  · -- the words are a power of two, the exact value is just below it
    have hkp : adjK rm pos V m.length p = 2 ^ (64 * p - 1) := by
      rw [hk]
      have hh : 0 < 2 ^ (64 * p - 1) := by positivity
      generalize 2 ^ (64 * p - 1) = H at *
      obtain ⟨j, rfl⟩ := Nat.exists_eq_succ_of_ne_zero hh.ne'
      rw [Nat.succ_eq_add_one] at *
      have : (V - 1) / D = j := by
        rw [Nat.div_eq_iff hD0]
        have : (j + 1) * D = j * D + D := by ring
        constructor <;> omega
      rw [this]
    have hkl : adjK rm pos V m.length p < 2 ^ (64 * p) := by
      rw [hkp]
      have hh : 0 < 2 ^ (64 * p - 1) := by positivity
      omega
    obtain ⟨g1, g2⟩ := h3 hkl
    refine MantOk_of_NR hm hp rm pos ix ?_ (by rw [hY, hV]; exact hne)
    rw [hY, g2, g1, hkp]
    have hY2 : (V : K) = 2 ^ (64 * p - 1) * D := by exact_mod_cast hpow
    have hc1 : Y * 2 ^ (64 * p) < 2 ^ (64 * p - 1) := by
      rw [hY2, ← mul_assoc] at hXb
      exact lt_of_mul_lt_mul_right hXb hD0K.le
    have hc2 : (2 : K) ^ (64 * p) < Y * 2 ^ (64 * p) * 2 + 1 := by
      have h6 : 2 * V ≤ 2 * a + D := by omega
      have h7 : 2 * (V : K) ≤ 2 * a + D := by exact_mod_cast h6
      rw [hY2] at h7
      refine lt_of_mul_lt_mul_right ?_ hD0K.le
      rw [hsK]
      rw [hsK] at hXa
      linarith
    have hone : (2 : K) ≤ 2 ^ (64 * p - 1) := by
      calc (2 : K) = 2 ^ 1 := by norm_num
        _ ≤ 2 ^ (64 * p - 1) := pow_le_pow_right₀ (by norm_num) (by omega)
    refine ⟨-1, 2 ^ (64 * p), ?_, ?_, ?_, fun h => absurd h (lt_irrefl _), fun _ => ⟨rfl, by simp⟩⟩
    · rw [show (2 : K) ^ ((-1:ℤ) - 1) = 1 / 4 by norm_num]
      by_contra hc
      rw [not_le] at hc
      have h6 : Y * 2 ^ (64 * p) < 1 / 4 * 2 ^ (64 * p) := mul_lt_mul_of_pos_right hc hpp
      linarith
    · rw [show (2 : K) ^ (-1:ℤ) = 1 / 2 by norm_num]
      by_contra hc
      rw [not_lt] at hc
      have h6 : 1 / 2 * 2 ^ (64 * p) ≤ Y * 2 ^ (64 * p) := mul_le_mul_of_nonneg_right hc hpp.le
      linarith
    · rw [RMag_ceil hr2, sub_neg_eq_add, two_zpow_add, zpow_natCast, zpow_one, ← mul_assoc]
      push_cast
      constructor
      · linarith
      · exact hc2
  · refine MantOk_of_NR hm hp rm pos ix ?_ (by rw [hY, hV]; exact hne)
    rw [hY]
    have hgt : 2 ^ (64 * p - 1) ≤ (V - 1) / D := (Nat.le_div_iff_mul_le hD0).2 (by omega)
    refine NR_of_mag hm hp rm pos true ?_ hYhi ?_
    · have g1' : 2 ^ (64 * p) ≤ 2 * ((V - 1) / D) := by omega
      have : (2 : K) ^ (64 * p) ≤ 2 * (((V - 1) / D : ℕ) : K) := by exact_mod_cast g1'
      by_contra hc
      rw [not_le] at hc
      have h6 : Y * 2 ^ (64 * p) < 1 / 2 * 2 ^ (64 * p) := mul_lt_mul_of_pos_right hc hpp
      linarith
    · rw [hV, hk, RMag_ceil hr2]
      push_cast
      exact ⟨f2.le, by linarith⟩

/-- Truncated part of the product of a number and a power of two. -/
theorem pow_block_le (q s n : Nat) (h : s ≤ n) :
    q * 2 ^ s + 2 ^ s ≤ (q * 2 ^ s / 2 ^ n + 1) * 2 ^ n := by
  have e : 2 ^ n = 2 ^ s * 2 ^ (n - s) := by rw [← pow_add]; congr 1; omega
  have hs : 0 < 2 ^ s := by positivity
  have ht : 0 < 2 ^ (n - s) := by positivity
  rw [e, Nat.mul_comm q, Nat.mul_div_mul_left _ _ hs]
  generalize 2 ^ s = S at *
  generalize 2 ^ (n - s) = T at *
  have h1 := Nat.div_add_mod q T
  have h2 := Nat.mod_lt q ht
  calc S * q + S = S * (q + 1) := by ring
    _ ≤ S * (T * (q / T) + T) := Nat.mul_le_mul_left _ (by omega)
    _ = _ := by ring

theorem pow_block_ge (q s n : Nat) (h : s ≤ n) :
    ((q + 1) * 2 ^ s - 1) / 2 ^ n * 2 ^ n ≤ q * 2 ^ s := by
  have e : 2 ^ n = 2 ^ s * 2 ^ (n - s) := by rw [← pow_add]; congr 1; omega
  have hs : 0 < 2 ^ s := by positivity
  have h1 : ((q + 1) * 2 ^ s - 1) / 2 ^ s = q := by
    rw [Nat.div_eq_iff hs, Nat.add_mul, Nat.one_mul]
    constructor <;> omega
  rw [e, ← Nat.div_div_eq_div_mul, h1]
  calc q / 2 ^ (n - s) * (2 ^ s * 2 ^ (n - s)) = q / 2 ^ (n - s) * 2 ^ (n - s) * 2 ^ s := by ring
    _ ≤ q * 2 ^ s := Nat.mul_le_mul_right _ (Nat.div_mul_le_self _ _)

theorem any_ne_zero {r : List Nat} : r.any (· ≠ 0) = true ↔ val r ≠ 0 := by
  rw [List.any_eq_true]
  constructor
  · rintro ⟨x, hx, hn⟩ h0
    have := val_eq_zero_iff.1 h0 x hx
    simp [this] at hn
  · intro h
    by_contra hc
    apply h
    rw [val_eq_zero_iff]
    intro x hx
    by_contra h0
    exact hc ⟨x, hx, by simpa using h0⟩

/-- `maximize` of words holding at least `64 * p + 2` significant bits. -/
theorem maximize_big {m : List Nat} (hm : Wf m) {p : Nat} (hbig : 2 ^ (64 * p + 1) ≤ val m) :
    Normd (maximize m).1 ∧ val (maximize m).1 = val m * 2 ^ (maximize m).2 ∧
      (maximize m).1.length = m.length ∧ p < m.length ∧
      (maximize m).2 + 2 ≤ 64 * (m.length - p) := by
  have hv : val m ≠ 0 := by
    have : 0 < 2 ^ (64 * p + 1) := by positivity
    omega
  have hlt := val_lt_two_pow hm
  have hp : 64 * p + 1 < 64 * m.length :=
    (Nat.pow_lt_pow_iff_right (by norm_num)).1 (lt_of_le_of_lt hbig hlt)
  obtain ⟨b1, b2, b3, b4, b5⟩ := maximize_spec hm hv
  have hsz : 64 * p + 1 < Nat.size (val m) := Nat.lt_size.2 hbig
  exact ⟨⟨b5, by omega, by rw [b4]; exact b3⟩, b1, b4, by omega, by omega⟩

/-- `stickyRound` rounds the exact value `Y`, of which `q` is the integer part and whose fraction
is zero exactly when `r` is. -/
theorem stickyRound_spec {q r : List Nat} (hq : Wf q) {p : Nat} (hp : 0 < p)
    (hbig : 2 ^ (64 * p + 1) ≤ val q) (rm : RM) (pos ix : Bool) {Y : K}
    (h1 : (val q : K) ≤ Y) (h2 : Y < val q + 1) (h3 : val r = 0 ↔ Y = val q) :
    MantOk rm pos p (Y / 2 ^ (64 * q.length)) ix
      (-((stickyRound q r p rm pos ix).1 - ((stickyRound q r p rm pos ix).2.1 : ℤ) +
        (stickyRound q r p rm pos ix).2.2.1), (stickyRound q r p rm pos ix).2.2.2.1,
        (stickyRound q r p rm pos ix).2.2.2.2) := by
  have hLp : (0 : K) < 2 ^ (64 * q.length) := by positivity
  have hLX : Y / 2 ^ (64 * q.length) * 2 ^ (64 * q.length) = Y := by field_simp
  have key : ∀ (c0 : ℤ) (t : List Nat) (s : Bool), Wf t → t.length = q.length →
      2 ^ (64 * p + 1) ≤ val t →
      (let m := (maximize t).1
       let c : ℤ := c0 - ((maximize t).2 : ℤ)
       MantOk rm pos p (Y / 2 ^ (64 * q.length)) ix
        (-c - (if (adjustPrec m p rm pos false (ix || s)).2.1 then 1 else 0),
        { m := (adjustPrec m p rm pos false (ix || s)).1,
          n := (adjustPrec m p rm pos false (ix || s)).1.length * 64 },
        (adjustPrec m p rm pos false (ix || s)).2.2)) →
      (let mx := maximize t
       let rd := roundMantissa mx.1 ((mx.1.length - p) * 64) rm pos false (mx.1.length * 64) (ix || s)
       let m3 := truncTo rd.m (p * 64)
       MantOk rm pos p (Y / 2 ^ (64 * q.length)) ix
        (-(c0 - (mx.2 : ℤ) + (if rd.ret then 1 else 0)), { m := m3, n := m3.length * 64 }, rd.inexact)) := by
    intro c0 t s ht htl htb h
    obtain ⟨a1, a2, a3, a4, a5⟩ := maximize_big ht htb
    dsimp only at h ⊢
    unfold adjustPrec at h
    simp only [Bool.false_eq_true, if_false] at h
    rw [if_neg (show ¬ (maximize t).1.length < p by omega), if_pos (show (maximize t).1.length > p by omega)] at h
    rw [show ∀ a b c : ℤ, -(a - b + c) = -(a - b) - c from fun a b c => by ring]
    exact h
  unfold stickyRound
  dsimp only
  by_cases hs : r.any (· ≠ 0) = true
  · rw [hs]
    simp only [if_true]
    have hne : Y ≠ val q := fun h => any_ne_zero.1 hs (h3.2 h)
    have hlt : (val q : K) < Y := lt_of_le_of_ne h1 (Ne.symm hne)
    have hql : 0 < q.length := by
      have := (maximize_big hq hbig).2.2.2.1
      omega
    by_cases hn : (rm == .toEven || rm == .toOdd) = true
    · rw [if_pos hn]
      obtain ⟨l1, l2⟩ := set_low hq hql
      have hb2 : 2 ^ (64 * p + 1) ≤ val (q.set 0 (wd q 0 ||| 1)) := by
        rw [l1]
        have : 2 ^ (64 * p + 1) = 2 * 2 ^ (64 * p) := by rw [pow_succ]; ring
        omega
      refine key 0 _ true l2 (by simp) hb2 ?_
      obtain ⟨a1, a2, a3, a4, a5⟩ := maximize_big l2 hb2
      dsimp only
      rw [Bool.or_true]
      rw [List.length_set] at a3 a4 a5
      generalize maximize (q.set 0 (wd q 0 ||| 1)) = mx at *
      have hps : (2 : K) ^ (0 - (mx.2 : ℤ)) * 2 ^ mx.2 = 1 := by
        rw [← zpow_natCast, two_zpow_mul]; simp
      have hpc : 0 < 2 ^ mx.2 := by positivity
      refine MantOk_sticky a1 hp (by omega) rm pos ix (c := 0 - (mx.2 : ℤ))
        (a := val q / 2 * 2 * 2 ^ mx.2) (b := (val q / 2 * 2 + 2) * 2 ^ mx.2) ?_ ?_ ?_ ?_ ?_
      · rw [a2, l1]; exact Nat.mul_lt_mul_of_pos_right (by omega) hpc
      · rw [a2, l1]; exact Nat.mul_lt_mul_of_pos_right (by omega) hpc
      · rw [a3, hLX, Nat.cast_mul, Nat.cast_pow, Nat.cast_ofNat, mul_assoc, mul_comm ((2:K) ^ mx.2), hps, mul_one]
        refine lt_of_le_of_lt ?_ hlt
        exact_mod_cast (show val q / 2 * 2 ≤ val q by omega)
      · rw [a3, hLX, Nat.cast_mul, Nat.cast_pow, Nat.cast_ofNat, mul_assoc, mul_comm ((2:K) ^ mx.2), hps, mul_one]
        refine lt_of_lt_of_le h2 ?_
        exact_mod_cast (show val q + 1 ≤ val q / 2 * 2 + 2 by omega)
      · have := pow_block_le (val q / 2) (mx.2 + 1) (64 * (mx.1.length - p) - 1) (by omega)
        have e : ∀ x, x * 2 ^ (mx.2 + 1) = x * 2 * 2 ^ mx.2 := fun x => by rw [pow_succ]; ring
        rw [e] at this
        refine le_trans (le_of_eq ?_) this
        rw [pow_succ]; ring
    rw [if_neg hn]
    have hn' : rm.nearest = false := by cases rm <;> simp_all [RM.nearest]
    by_cases hd : Num.directedUp rm pos = true
    · rw [if_pos hd]
      obtain ⟨i1, i2, i3, i4⟩ := incWords_spec hq
      unfold addUlp
      by_cases hcar : (incWords q).2 = true
      · rw [if_pos hcar]
        obtain ⟨j1, j2⟩ := i4 hcar
        have hvt : val ((incWords q).1.set ((incWords q).1.length - 1) MSB) = 2 ^ (64 * q.length - 1) := by
          have hz := set_top (wf_zeros q.length) (by rw [List.length_replicate]; exact hql)
            (by rw [val_replicate_zero]; positivity)
          have hw0 : wd (List.replicate q.length 0) (q.length - 1) = 0 := by
            unfold wd; simp
          rw [List.length_replicate, hw0, Nat.zero_or, val_replicate_zero, Nat.zero_add] at hz
          rw [i1, j2]
          exact hz.1
        have hwt : Wf ((incWords q).1.set ((incWords q).1.length - 1) MSB) := by
          intro x hx
          rcases List.mem_or_eq_of_mem_set hx with h | h
          · exact i2 x h
          · rw [h]; unfold MSB B; norm_num
        generalize ht : (incWords q).1.set ((incWords q).1.length - 1) MSB = t at *
        have htl : t.length = q.length := by rw [← ht, List.length_set, i1]
        have hpq := (maximize_big hq hbig).2.2.2.1
        have hb2 : 2 ^ (64 * p + 1) ≤ val t := by
          rw [hvt]; exact Nat.pow_le_pow_right (by norm_num) (by omega)
        refine key 1 t true hwt htl hb2 ?_
        obtain ⟨a1, a2, a3, a4, a5⟩ := maximize_big hwt hb2
        have hsz : (maximize t).2 = 0 := by
          rw [(maximize_spec hwt (by rw [hvt]; positivity)).2.1, hvt, htl, size_two_pow_sub (by omega)]
          omega
        dsimp only
        rw [Bool.or_true]
        rw [hsz] at a2 a5
        rw [hsz]
        rw [pow_zero, Nat.mul_one] at a2
        generalize (maximize t).1 = mx at *
        have hpw := B_pow q.length
        have hsp := two_pow_split (64 * q.length) (by omega)
        have hqv : val q + 1 = 2 * val mx := by rw [a2, hvt, ← hsp, ← hpw, j1]
        have hpos := a1.pos
        have hc : (2 : K) ^ (-(1 - ((0:ℕ) : ℤ))) = 1 / 2 := by norm_num
        have hqK : (val q : K) + 1 = 2 * val mx := by exact_mod_cast hqv
        have e5 : Y / 2 ^ (64 * q.length) * (1 / 2) * 2 ^ (64 * q.length) = Y / 2 := by
          field_simp
        refine MantOk_away a1 hp (by omega) hd ix (c := 1 - ((0:ℕ) : ℤ)) (a := val mx - 1) (by omega)
          ?_ ?_ ?_ ?_
        · rw [hc, a3, htl, e5]
          have : ((val mx - 1 : ℕ) : K) = val mx - 1 := by
            rw [Nat.cast_sub (by omega)]; simp
          rw [this]; linarith
        · rw [hc, a3, htl, e5]
          linarith
        · exact Nat.div_mul_le_self _ _
        · have : 0 < 2 ^ (64 * (mx.length - p) - 1) := by positivity
          omega
      · rw [if_neg hcar]
        have i3' := i3 (by simpa using hcar)
        have hb2 : 2 ^ (64 * p + 1) ≤ val (incWords q).1 := by omega
        refine key 0 _ true i2 i1 hb2 ?_
        obtain ⟨a1, a2, a3, a4, a5⟩ := maximize_big i2 hb2
        dsimp only
        rw [Bool.or_true]
        rw [i1] at a3 a4 a5
        generalize maximize (incWords q).1 = mx at *
        have hpc : 0 < 2 ^ mx.2 := by positivity
        have hpcK : (0 : K) < 2 ^ mx.2 := by positivity
        have e5 : Y / 2 ^ (64 * q.length) * 2 ^ (-(0 - (mx.2 : ℤ))) * 2 ^ (64 * q.length) = Y * 2 ^ mx.2 := by
          rw [zero_sub, neg_neg, zpow_natCast]; field_simp
        refine MantOk_away a1 hp (by omega) hd ix (c := 0 - (mx.2 : ℤ)) (a := val q * 2 ^ mx.2) ?_ ?_ ?_ ?_ ?_
        · rw [a2, i3']; exact Nat.mul_lt_mul_of_pos_right (by omega) hpc
        · rw [a3, e5]; push_cast
          exact mul_lt_mul_of_pos_right hlt hpcK
        · rw [a3, e5, a2, i3']; push_cast
          exact mul_lt_mul_of_pos_right h2 hpcK
        · rw [a2, i3']
          exact pow_block_ge _ _ _ (by omega)
        · rw [a2, i3', Nat.add_mul, Nat.one_mul]
          exact Nat.add_le_add_left (Nat.pow_le_pow_right (by norm_num) (by omega)) _
    · rw [if_neg hd]
      refine key 0 q true hq rfl hbig ?_
      obtain ⟨a1, a2, a3, a4, a5⟩ := maximize_big hq hbig
      dsimp only
      rw [Bool.or_true]
      generalize maximize q = mx at *
      have hpcK : (0 : K) < 2 ^ mx.2 := by positivity
      have e5 : Y / 2 ^ (64 * q.length) * 2 ^ (-(0 - (mx.2 : ℤ))) * 2 ^ (64 * q.length) = Y * 2 ^ mx.2 := by
        rw [zero_sub, neg_neg, zpow_natCast]; field_simp
      refine MantOk_trunc a1 hp (by omega) hn' (by simpa using hd) ix (c := 0 - (mx.2 : ℤ)) (u := 2 ^ mx.2)
        ?_ ?_ ?_
      · rw [a3, e5, a2]; push_cast
        exact mul_lt_mul_of_pos_right hlt hpcK
      · rw [a3, e5, a2]; push_cast
        have : (val q : K) * 2 ^ mx.2 + 2 ^ mx.2 = (val q + 1) * 2 ^ mx.2 := by ring
        rw [this]
        exact mul_lt_mul_of_pos_right h2 hpcK
      · rw [a2]
        exact pow_block_le _ _ _ (by omega)
  · rw [Bool.not_eq_true] at hs
    rw [hs]
    simp only [Bool.false_eq_true, if_false]
    have hY : Y = val q := by
      apply h3.1
      by_contra hc
      rw [any_ne_zero.2 hc] at hs
      exact Bool.noConfusion hs
    refine key 0 q false hq rfl hbig ?_
    obtain ⟨a1, a2, a3, a4, a5⟩ := maximize_big hq hbig
    dsimp only
    rw [Bool.or_false]
    refine MantOk_exact a1 hp rm pos ix (c := 0 - ((maximize q).2 : ℤ)) ?_
    rw [a3, hLX, hY, a2, zero_sub, Nat.cast_mul, Nat.cast_pow, Nat.cast_ofNat, mul_assoc,
      ← zpow_natCast, two_zpow_mul]
    simp

end AF
