import Verif.Lemmas.RoundSpec
import Verif.Model.AddSub
/-!
# The closing block of the mantissa operations: from an exact value to a rounded mantissa
-/

namespace AF

variable {K : Type*} [Field K] [LinearOrder K] [IsStrictOrderedRing K]

/-- The words are normalised: the top bit is set. -/
def Normd (m : List Nat) : Prop := Wf m ∧ 0 < m.length ∧ 2 ^ (64 * m.length - 1) ≤ val m

theorem Normd.val_lt {m : List Nat} (h : Normd m) : val m < 2 ^ (64 * m.length) :=
  val_lt_two_pow h.1

theorem Normd.pos {m : List Nat} (h : Normd m) : 0 < val m :=
  lt_of_lt_of_le (by positivity) h.2.2

theorem two_pow_split (a : Nat) (h : 0 < a) : 2 ^ a = 2 * 2 ^ (a - 1) := by
  rw [← pow_succ']; congr 1; omega

theorem rndN_none (pos : Bool) (V n : Nat) : rndN .none pos V n = V / 2 ^ n := by
  simp [rndN, roundAway]

theorem rndN_ge (rm : RM) (pos : Bool) (V n : Nat) : V / 2 ^ n ≤ rndN rm pos V n := by
  unfold rndN; omega

theorem rndN_le (rm : RM) (pos : Bool) (V n : Nat) : rndN rm pos V n ≤ V / 2 ^ n + 1 := by
  unfold rndN; split <;> omega

/-- Rounded integer of `adjustPrec`. -/
def adjK (rm : RM) (pos : Bool) (V L p : Nat) : Nat :=
  if L ≤ p then V * 2 ^ (64 * (p - L)) else rndN rm pos V (64 * (L - p))

theorem adjK_bounds {V L p : Nat} (rm : RM) (pos : Bool) (hp : 0 < p) (hL : 0 < L)
    (h1 : 2 ^ (64 * L - 1) ≤ V) (h2 : V < 2 ^ (64 * L)) :
    2 ^ (64 * p - 1) ≤ adjK rm pos V L p ∧ adjK rm pos V L p ≤ 2 ^ (64 * p) := by
  unfold adjK
  split
  · rename_i h
    constructor
    · calc 2 ^ (64 * p - 1) = 2 ^ (64 * L - 1) * 2 ^ (64 * (p - L)) := by
            rw [← pow_add]; congr 1; omega
        _ ≤ _ := Nat.mul_le_mul_right _ h1
    · calc V * 2 ^ (64 * (p - L)) ≤ 2 ^ (64 * L) * 2 ^ (64 * (p - L)) :=
            Nat.mul_le_mul_right _ h2.le
        _ = 2 ^ (64 * p) := by rw [← pow_add]; congr 1; omega
  · rename_i h
    have hd : V / 2 ^ (64 * (L - p)) < 2 ^ (64 * p) := by
      apply Nat.div_lt_of_lt_mul
      rw [← pow_add]
      exact lt_of_lt_of_eq h2 (by congr 1; omega)
    have hd2 : 2 ^ (64 * p - 1) ≤ V / 2 ^ (64 * (L - p)) := by
      rw [Nat.le_div_iff_mul_le (by positivity), ← pow_add]
      exact le_trans (le_of_eq (by congr 1; omega)) h1
    have := rndN_ge rm pos V (64 * (L - p))
    have := rndN_le rm pos V (64 * (L - p))
    omega

/-- `adjustPrec` on normalised words, in terms of integers. -/
theorem adjustPrec_spec {m : List Nat} (hm : Normd m) {p : Nat} (hp : 0 < p) (rm : RM)
    (pos ix : Bool) :
    let a := adjustPrec m p rm pos false ix
    let k := adjK rm pos (val m) m.length p
    a.1.length = p ∧ Wf a.1 ∧
      (k < 2 ^ (64 * p) → a.2.1 = false ∧ val a.1 = k) ∧
      (2 ^ (64 * p) ≤ k → a.2.1 = true ∧ val a.1 = 2 ^ (64 * p - 1)) ∧
      a.2.2 = (ix || decide (p < m.length ∧ val m % 2 ^ (64 * (m.length - p)) ≠ 0)) := by
  obtain ⟨hwf, hL, hlo⟩ := hm
  have hlt := val_lt_two_pow hwf
  have hb := adjK_bounds rm pos hp hL hlo hlt
  intro a k
  have ha : a = adjustPrec m p rm pos false ix := rfl
  have hk : k = adjK rm pos (val m) m.length p := rfl
  unfold adjustPrec at ha
  simp only [Bool.false_eq_true, if_false] at ha
  rcases lt_trichotomy m.length p with h | h | h
  · rw [if_pos h, tryExtend_eq h.le, List.drop_left' (by simp)] at ha
    have hv : val a.1 = k := by
      rw [ha, hk]; dsimp only
      rw [val_zeros_append, B_pow, adjK, if_pos h.le, mul_comm]
    have hklt : k < 2 ^ (64 * p) := by
      rw [hk, adjK, if_pos h.le]
      calc val m * 2 ^ (64 * (p - m.length)) < 2 ^ (64 * m.length) * 2 ^ (64 * (p - m.length)) :=
            Nat.mul_lt_mul_of_pos_right hlt (by positivity)
        _ = 2 ^ (64 * p) := by rw [← pow_add]; congr 1; omega
    refine ⟨?_, ?_, fun _ => ⟨by rw [ha], hv⟩, fun hc => absurd hklt (by omega), ?_⟩
    · rw [ha]; simp; omega
    · rw [ha]; exact wf_append.2 ⟨wf_zeros _, hwf⟩
    · rw [ha]; simp; omega
  · rw [if_neg (by omega), if_neg (by omega)] at ha
    have hv : val a.1 = k := by rw [ha, hk, adjK, if_pos h.le, h]; simp
    refine ⟨by rw [ha]; exact h, by rw [ha]; exact hwf, fun _ => ⟨by rw [ha], hv⟩, fun hc => ?_, ?_⟩
    · rw [hk, adjK, if_pos h.le, h] at hc; simp at hc; rw [h] at hlt; omega
    · rw [ha]; simp; omega
  · rw [if_neg (by omega), if_pos h] at ha
    have hn0 : 0 < (m.length - p) * 64 := by omega
    have hn : (m.length - p) * 64 < 64 * m.length := by omega
    have hk' : k = rndN rm pos (val m) ((m.length - p) * 64) := by
      rw [hk, adjK, if_neg (by omega), mul_comm]
    have hix : decide (p < m.length ∧ val m % 2 ^ (64 * (m.length - p)) ≠ 0) =
        decide (val m % 2 ^ ((m.length - p) * 64) ≠ 0) := by
      rw [mul_comm (m.length - p)]; simp [h]
    by_cases hrm : rm = .none
    · subst hrm
      rw [roundMantissa_none hwf hn0 hn] at ha
      rw [rndN_none] at hk'
      have hkl : k < 2 ^ (64 * p) := by
        rw [hk']
        apply Nat.div_lt_of_lt_mul
        rw [← pow_add]
        exact lt_of_lt_of_eq hlt (by congr 1; omega)
      refine ⟨?_, ?_, fun _ => ⟨by rw [ha], ?_⟩, fun hc => absurd hkl (by omega), ?_⟩
      · rw [ha]; dsimp only; rw [truncTo_eq_drop h.le]; simp; omega
      · rw [ha]; dsimp only; rw [truncTo_eq_drop h.le]; exact hwf.drop _
      · rw [ha]; dsimp only; rw [truncTo_eq_drop h.le, val_drop hwf, hk', B_pow, mul_comm]
      · rw [hix, ha]
    · obtain ⟨hc, hi, hlen, hwf2, hlt2, hge2⟩ :=
        roundMantissa_spec hwf hn0 hn hrm pos (m.length * 64) ix
      rw [← hk'] at hlt2 hge2
      have hpw : (2:Nat) ^ (64 * p) * 2 ^ ((m.length - p) * 64) = 2 ^ (64 * m.length) := by
        rw [← pow_add]; congr 1; omega
      refine ⟨?_, ?_, ?_, ?_, ?_⟩
      · rw [ha]; dsimp only; rw [truncTo_eq_drop (by omega), List.length_drop, hlen]; omega
      · rw [ha]; dsimp only; rw [truncTo_eq_drop (by omega)]; exact hwf2.drop _
      · intro hkl
        have : k * 2 ^ ((m.length - p) * 64) < 2 ^ (64 * m.length) := by
          rw [← hpw]; exact Nat.mul_lt_mul_of_pos_right hkl (by positivity)
        obtain ⟨e1, e2⟩ := hlt2 this
        refine ⟨by rw [ha]; exact e1, ?_⟩
        rw [ha]; dsimp only
        rw [truncTo_eq_drop (by omega), val_drop hwf2, e2, hlen, B_pow, mul_comm 64,
          Nat.mul_div_cancel _ (by positivity)]
      · intro hkl
        have : 2 ^ (64 * m.length) ≤ k * 2 ^ ((m.length - p) * 64) := by
          rw [← hpw]; exact Nat.mul_le_mul_right _ hkl
        obtain ⟨e1, e2⟩ := hge2 this
        refine ⟨by rw [ha]; exact e1, ?_⟩
        rw [ha]; dsimp only
        rw [truncTo_eq_drop (by omega), val_drop hwf2, e2, hlen, B_pow,
          Nat.pow_div (by omega) (by norm_num)]
        congr 1; omega
      · rw [hix, ha]; exact hi

/-- `RMag` of an integer is that integer. -/
theorem RMag.exact (rm : RM) (pos : Bool) (k : Nat) : RMag rm pos (k : K) k := by
  have h1 : (k : K) < k + 1 := by linarith
  cases rm <;> cases pos <;> simp [RMag]

/-- If `X` is an integer, then its rounding is `X` itself. -/
theorem RMag.of_int {rm : RM} {pos : Bool} {j k : Nat} (h : RMag rm pos (j : K) k) : k = j := by
  have near : |(j : K) - k| ≤ 1 / 2 → k = j := by
    intro h
    have h2 : |(2 * (j : K)) - 2 * k| ≤ 1 := by
      have : (2 * (j : K)) - 2 * k = 2 * (j - k) := by ring
      rw [this, abs_mul, abs_of_pos (by norm_num : (0:K) < 2)]; linarith
    rw [abs_le] at h2
    have a : (2 * (j:K)) ≤ 2 * k + 1 := by linarith
    have b : (2 * (k:K)) ≤ 2 * j + 1 := by linarith
    have a' : 2 * j ≤ 2 * k + 1 := by exact_mod_cast a
    have b' : 2 * k ≤ 2 * j + 1 := by exact_mod_cast b
    omega
  have fl : ((k : K) ≤ j ∧ (j : K) < k + 1) → k = j := by
    rintro ⟨a, b⟩
    have a' : k ≤ j := by exact_mod_cast a
    have b' : j < k + 1 := by exact_mod_cast b
    omega
  have ce : ((j : K) ≤ k ∧ (k : K) < j + 1) → k = j := by
    rintro ⟨a, b⟩
    have a' : j ≤ k := by exact_mod_cast a
    have b' : k < j + 1 := by exact_mod_cast b
    omega
  cases rm <;> cases pos <;> simp only [RMag] at h <;>
    first | exact fl h | exact ce h | exact near h.1

theorem RMag.dist_lt {rm : RM} {pos : Bool} {x : K} {k : Nat} (h : RMag rm pos x k) :
    |x - k| < 1 := by
  cases rm <;> cases pos <;> simp only [RMag] at h <;>
    first
    | (rw [abs_lt]; constructor <;> linarith [h.1, h.2])
    | (exact lt_of_le_of_lt h.1 (by norm_num))

/-- Rounding never leaves an interval with integer ends. -/
theorem RMag.le_of_le {rm : RM} {pos : Bool} {x : K} {k j : Nat} (h : RMag rm pos x k)
    (hx : x ≤ j) : k ≤ j := by
  have h1 := h.dist_lt
  by_contra hc
  have : (j : K) + 1 ≤ k := by exact_mod_cast (show j + 1 ≤ k by omega)
  rw [_root_.abs_lt] at h1
  linarith

theorem RMag.ge_of_ge {rm : RM} {pos : Bool} {x : K} {k j : Nat} (h : RMag rm pos x k)
    (hx : (j : K) ≤ x) : j ≤ k := by
  have h1 := h.dist_lt
  by_contra hc
  have : (k : K) + 1 ≤ j := by exact_mod_cast (show k + 1 ≤ j by omega)
  rw [_root_.abs_lt] at h1
  linarith

/-- `w · 2^(e-P)`, with `w` a `P`-bit normalised integer, is the magnitude `X > 0` (of a number of
sign `pos`) rounded to `P` bits. -/
def NR (rm : RM) (pos : Bool) (P : Nat) (X : K) (w : Nat) (e : ℤ) : Prop :=
  ∃ (q : ℤ) (k : Nat), (2 : K) ^ (q - 1) ≤ X ∧ X < (2 : K) ^ q ∧
    RMag rm pos (X * (2 : K) ^ ((P : ℤ) - q)) k ∧
    (k < 2 ^ P → w = k ∧ e = q) ∧ (2 ^ P ≤ k → w = 2 ^ (P - 1) ∧ e = q + 1)

theorem two_zpow_pos (n : ℤ) : (0 : K) < (2 : K) ^ n := zpow_pos (by norm_num) n

theorem two_zpow_add (a b : ℤ) : (2 : K) ^ (a + b) = 2 ^ a * 2 ^ b := zpow_add₀ (by norm_num) a b

theorem two_zpow_sub (a b : ℤ) : (2 : K) ^ (a - b) = 2 ^ a / 2 ^ b :=
  zpow_sub₀ (by norm_num) a b

theorem two_zpow_mul (a b : ℤ) : (2 : K) ^ a * 2 ^ b = 2 ^ (a + b) := (two_zpow_add a b).symm

theorem NR.scale {rm : RM} {pos : Bool} {P : Nat} {X : K} {w : Nat} {e : ℤ}
    (h : NR rm pos P X w e) (t : ℤ) : NR rm pos P (X * 2 ^ t) w (e + t) := by
  obtain ⟨q, k, h1, h2, h3, h4, h5⟩ := h
  have ht := two_zpow_pos (K := K) t
  refine ⟨q + t, k, ?_, ?_, ?_, ?_, ?_⟩
  · rw [show q + t - 1 = (q - 1) + t by ring, two_zpow_add]
    exact mul_le_mul_of_nonneg_right h1 ht.le
  · rw [two_zpow_add]; exact mul_lt_mul_of_pos_right h2 ht
  · have : X * 2 ^ t * (2 : K) ^ ((P : ℤ) - (q + t)) = X * (2 : K) ^ ((P : ℤ) - q) := by
      rw [mul_assoc, two_zpow_mul]; congr 2; ring
    rw [this]; exact h3
  · intro h; obtain ⟨a, b⟩ := h4 h; exact ⟨a, by omega⟩
  · intro h; obtain ⟨a, b⟩ := h5 h; exact ⟨a, by omega⟩

/-- Basic facts following from `NR`. -/
theorem NR.facts {rm : RM} {pos : Bool} {P : Nat} (hP : 0 < P) {X : K} {w : Nat} {e : ℤ}
    (h : NR rm pos P X w e) :
    2 ^ (P - 1) ≤ w ∧ w < 2 ^ P ∧
    ∃ (q : ℤ) (k : Nat), (2 : K) ^ (q - 1) ≤ X ∧ X < (2 : K) ^ q ∧
      RMag rm pos (X * (2 : K) ^ ((P : ℤ) - q)) k ∧
      (w : K) * 2 ^ (e - P) = k * 2 ^ (q - P) ∧ q ≤ e ∧ e ≤ q + 1 ∧
      (e = q + 1 → w = 2 ^ (P - 1) ∧ k = 2 ^ P) ∧ (e = q → w = k) := by
  obtain ⟨q, k, h1, h2, h3, h4, h5⟩ := h
  have hlo : 2 ^ (P - 1) ≤ k := by
    apply h3.ge_of_ge
    push_cast
    have e1 : ((2:K) ^ (P - 1)) = 2 ^ (q - 1) * 2 ^ ((P : ℤ) - q) := by
      rw [two_zpow_mul, ← zpow_natCast]; congr 1; omega
    rw [e1]
    exact mul_le_mul_of_nonneg_right h1 (two_zpow_pos _).le
  have hhi : k ≤ 2 ^ P := by
    apply h3.le_of_le
    push_cast
    have e1 : ((2:K) ^ P) = 2 ^ q * 2 ^ ((P : ℤ) - q) := by
      rw [two_zpow_mul, ← zpow_natCast]; congr 1; omega
    rw [e1]
    exact mul_le_mul_of_nonneg_right h2.le (two_zpow_pos _).le
  have hs := two_pow_split P hP
  have hpp : 0 < 2 ^ (P - 1) := by positivity
  by_cases hk : k < 2 ^ P
  · obtain ⟨rfl, rfl⟩ := h4 hk
    exact ⟨hlo, hk, e, w, h1, h2, h3, rfl, le_refl _, by omega, fun hc => by omega, fun _ => rfl⟩
  · obtain ⟨rfl, rfl⟩ := h5 (by omega)
    have hkP : k = 2 ^ P := by omega
    refine ⟨le_refl _, by omega, q, k, h1, h2, h3, ?_, by omega, le_refl _,
      fun _ => ⟨rfl, hkP⟩, fun hc => by omega⟩
    rw [hkP]; push_cast
    rw [← zpow_natCast, ← zpow_natCast, two_zpow_mul, two_zpow_mul]
    congr 1; omega

theorem zpow_div_nat (V : K) (a b : Nat) (h : b ≤ a) :
    V / 2 ^ a * 2 ^ ((b : ℤ)) = V / 2 ^ (a - b) := by
  have e1 : (2 : K) ^ a = 2 ^ (a - b) * 2 ^ b := by rw [← pow_add]; congr 1; omega
  rw [zpow_natCast, e1]
  field_simp

/-- Exact case: the words hold the exact fraction `X`. -/
theorem NR_of_adjust {m : List Nat} (hm : Normd m) {p : Nat} (hp : 0 < p) (rm : RM)
    (pos ix : Bool) :
    let a := adjustPrec m p rm pos false ix
    let X : K := val m / 2 ^ (64 * m.length)
    let e : ℤ := if a.2.1 then 1 else 0
    a.1.length = p ∧ Wf a.1 ∧ NR rm pos (64 * p) X (val a.1) e ∧
      (a.2.2 = true ↔ ix = true ∨ (val a.1 : K) * 2 ^ (e - (64 * p : ℕ)) ≠ X) := by
  intro a X e
  obtain ⟨h1, h2, h3, h4, h5⟩ := adjustPrec_spec hm hp rm pos ix
  have hb := adjK_bounds rm pos hp hm.2.1 hm.2.2 hm.val_lt
  set k := adjK rm pos (val m) m.length p with hk
  have hLp : (0:K) < 2 ^ (64 * m.length) := by positivity
  have hlo : (2 : K) ^ (-1 : ℤ) ≤ X := by
    have : ((2 ^ (64 * m.length - 1) : ℕ) : K) ≤ val m := by exact_mod_cast hm.2.2
    rw [le_div_iff₀ hLp]
    have e1 : (2 : K) ^ (-1 : ℤ) * 2 ^ (64 * m.length) = ((2 ^ (64 * m.length - 1) : ℕ) : K) := by
      push_cast
      have h0 := hm.2.1
      rw [← zpow_natCast, ← zpow_natCast, two_zpow_mul]; congr 1; omega
    rw [e1]; exact this
  have hhi : X < (2 : K) ^ (0 : ℤ) := by
    rw [zpow_zero, div_lt_one hLp]
    exact_mod_cast hm.val_lt
  have hmag : RMag rm pos (X * (2 : K) ^ (((64 * p : ℕ) : ℤ) - 0)) k := by
    rw [hk, adjK, sub_zero]
    split
    · rename_i h
      have : X * (2 : K) ^ ((64 * p : ℕ) : ℤ) = ((val m * 2 ^ (64 * (p - m.length)) : ℕ) : K) := by
        rw [zpow_natCast]
        push_cast
        have e1 : (2 : K) ^ (64 * p) = 2 ^ (64 * (p - m.length)) * 2 ^ (64 * m.length) := by
          rw [← pow_add]; congr 1; omega
        rw [e1, ← mul_assoc]
        show (val m : K) / _ * _ * _ = _
        field_simp
      rw [this]; exact RMag.exact rm pos _
    · rename_i h
      have : X * (2 : K) ^ ((64 * p : ℕ) : ℤ) = (val m : K) / 2 ^ (64 * (m.length - p)) := by
        rw [zpow_div_nat _ _ _ (by omega)]; congr 2; omega
      rw [this]; exact rndN_RMag rm pos _ _
  have hNR : NR rm pos (64 * p) X (val a.1) e := by
    refine ⟨0, k, hlo, hhi, hmag, ?_, ?_⟩
    · intro hlt
      obtain ⟨g1, g2⟩ := h3 hlt
      exact ⟨g2, by simp only [e]; rw [if_neg (by rw [g1]; simp)]⟩
    · intro hge
      obtain ⟨g1, g2⟩ := h4 hge
      exact ⟨g2, by simp only [e]; rw [if_pos g1]; simp⟩
  refine ⟨h1, h2, hNR, ?_⟩
  have hval : (val a.1 : K) * 2 ^ (e - (64 * p : ℕ)) = k * 2 ^ (-(64 * p : ℕ) : ℤ) := by
    by_cases hlt : k < 2 ^ (64 * p)
    · obtain ⟨g1, g2⟩ := h3 hlt
      have he : e = 0 := by simp only [e]; rw [if_neg (by rw [g1]; simp)]
      rw [g2, he, zero_sub]
    · obtain ⟨g1, g2⟩ := h4 (by omega)
      have he : e = 1 := by simp only [e]; rw [if_pos g1]
      have hkP : k = 2 ^ (64 * p) := by omega
      rw [g2, he, hkP]
      push_cast
      rw [← zpow_natCast, ← zpow_natCast, two_zpow_mul, two_zpow_mul]; congr 1; omega
  have hiff : (p < m.length ∧ val m % 2 ^ (64 * (m.length - p)) ≠ 0) ↔
      (val a.1 : K) * 2 ^ (e - (64 * p : ℕ)) ≠ X := by
    rw [hval]
    have hX : X = X * (2 : K) ^ (((64 * p : ℕ) : ℤ) - 0) * 2 ^ (-(64 * p : ℕ) : ℤ) := by
      rw [mul_assoc, two_zpow_mul]; simp
    rw [hX]
    have hne : (2 : K) ^ (-(64 * p : ℕ) : ℤ) ≠ 0 := (two_zpow_pos _).ne'
    rw [ne_eq ((k : K) * _), mul_left_inj' hne, sub_zero]
    by_cases hpl : p < m.length
    · have hXd : X * (2 : K) ^ ((64 * p : ℕ) : ℤ) = (val m : K) / 2 ^ (64 * (m.length - p)) := by
        rw [zpow_div_nat _ _ _ (by omega)]; congr 2; omega
      rw [hXd]
      simp only [hpl, true_and]
      rw [eq_div_iff (by positivity)]
      constructor
      · intro h heq
        have : k * 2 ^ (64 * (m.length - p)) = val m := by exact_mod_cast heq
        rw [← this, Nat.mul_mod_left] at h; exact h rfl
      · intro h hc
        obtain ⟨c, hc⟩ := Nat.dvd_of_mod_eq_zero hc
        apply h
        have hkc : k = c := by
          rw [sub_zero, hXd] at hmag
          have : (val m : K) / 2 ^ (64 * (m.length - p)) = (c : K) := by
            rw [hc]; push_cast; field_simp
          rw [this] at hmag
          exact hmag.of_int
        rw [hkc, hc]; push_cast; ring
    · simp only [hpl, false_and, false_iff, not_not]
      have : X * (2 : K) ^ ((64 * p : ℕ) : ℤ) = ((val m * 2 ^ (64 * (p - m.length)) : ℕ) : K) := by
        rw [zpow_natCast]
        push_cast
        have e1 : (2 : K) ^ (64 * p) = 2 ^ (64 * (p - m.length)) * 2 ^ (64 * m.length) := by
          rw [← pow_add]; congr 1; omega
        rw [e1, ← mul_assoc]
        show (val m : K) / _ * _ * _ = _
        field_simp
      rw [this, hk, adjK, if_pos (by omega)]
  rw [h5]
  simp only [Bool.or_eq_true, decide_eq_true_eq]
  rw [hiff]

/-- Sticky case: the words `m` and the exact fraction `X` lie strictly inside an interval that
contains no rounding boundary. -/
theorem NR_of_adjust_sticky {m : List Nat} (hm : Normd m) {p : Nat} (hp : 0 < p) (hpL : p < m.length)
    (rm : RM) (pos : Bool) {X : K} {a b : Nat} (ha : a < val m) (hb : val m < b)
    (hXa : (a : K) < X * 2 ^ (64 * m.length)) (hXb : X * 2 ^ (64 * m.length) < b)
    (hab : b ≤ (a / 2 ^ (64 * (m.length - p) - 1) + 1) * 2 ^ (64 * (m.length - p) - 1)) :
    let r := adjustPrec m p rm pos false true
    let e : ℤ := if r.2.1 then 1 else 0
    r.1.length = p ∧ Wf r.1 ∧ NR rm pos (64 * p) X (val r.1) e ∧ r.2.2 = true ∧
      (val r.1 : K) * 2 ^ (e - (64 * p : ℕ)) ≠ X := by
  intro r e
  obtain ⟨h1, h2, h3, h4, h5⟩ := adjustPrec_spec hm hp rm pos true
  have hbd := adjK_bounds rm pos hp hm.2.1 hm.2.2 hm.val_lt
  set k := adjK rm pos (val m) m.length p with hk
  set n := 64 * (m.length - p) with hn
  have hn0 : 0 < n := by omega
  set c := 2 ^ (n - 1) with hc
  have hcpos : 0 < c := by positivity
  have h2c : 2 ^ n = 2 * c := two_pow_split n hn0
  set j := a / c with hj
  have hja : j * c ≤ a := Nat.div_mul_le_self _ _
  -- everything in the scale of the rounding unit
  have hsc : ∀ y : K, ((j * c : ℕ) : K) < y → y < (((j + 1) * c : ℕ) : K) →
      (j : K) / 2 < y / 2 ^ n ∧ y / 2 ^ n < ((j : K) + 1) / 2 := by
    intro y hy1 hy2
    have e1 : (2 : K) ^ n = 2 * c := by exact_mod_cast h2c
    have hcK : (0:K) < c := by exact_mod_cast hcpos
    rw [e1]
    push_cast at hy1 hy2
    constructor
    · rw [div_lt_div_iff₀ (by norm_num) (by linarith)]; nlinarith
    · rw [div_lt_div_iff₀ (by linarith) (by norm_num)]; nlinarith
  have hV := hsc (val m : K) (by exact_mod_cast lt_of_le_of_lt hja ha)
    (by exact_mod_cast lt_of_lt_of_le hb hab)
  have hY := hsc (X * 2 ^ (64 * m.length))
    (lt_of_le_of_lt (by exact_mod_cast hja) hXa) (lt_of_lt_of_le hXb (by exact_mod_cast hab))
  have hYeq : X * (2 : K) ^ (64 * m.length) / 2 ^ n = X * (2 : K) ^ (((64 * p : ℕ) : ℤ) - 0) := by
    have e1 : (2 : K) ^ (64 * m.length) = 2 ^ (64 * p) * 2 ^ n := by
      rw [← pow_add]; congr 1; omega
    rw [e1, sub_zero, zpow_natCast]; field_simp
  rw [hYeq] at hY
  have hmag : RMag rm pos (X * (2 : K) ^ (((64 * p : ℕ) : ℤ) - 0)) k := by
    have h0 : RMag rm pos ((val m : K) / 2 ^ n) k := by
      rw [hk, adjK, if_neg (by omega)]; exact rndN_RMag rm pos _ _
    exact h0.sticky hV.1 hV.2 hY.1 hY.2
  -- position of X
  have hVlo : (2 : K) ^ (64 * p) ≤ j + 1 - 1 := by
    have : ((2 ^ (64 * p - 1) : ℕ) : K) ≤ (val m : K) / 2 ^ n := by
      rw [le_div_iff₀ (by positivity)]
      have := hm.2.2
      have e1 : 2 ^ (64 * p - 1) * 2 ^ n = 2 ^ (64 * m.length - 1) := by
        rw [← pow_add]; congr 1; omega
      exact_mod_cast (e1 ▸ this)
    have h6 : ((2 ^ (64 * p - 1) : ℕ) : K) < ((j : K) + 1) / 2 := lt_of_le_of_lt this hV.2
    have h7 : ((2 * 2 ^ (64 * p - 1) : ℕ) : K) < ((j + 1 : ℕ) : K) := by push_cast at h6 ⊢; linarith
    have h8 : 2 * 2 ^ (64 * p - 1) < j + 1 := by exact_mod_cast h7
    rw [← two_pow_split _ (by omega)] at h8
    have : 2 ^ (64 * p) ≤ j := by omega
    have : ((2 ^ (64 * p) : ℕ) : K) ≤ j := by exact_mod_cast this
    push_cast at this
    linarith
  have hVhi : (j : K) + 1 ≤ 2 * (2 : K) ^ (64 * p) := by
    have : (val m : K) / 2 ^ n < ((2 ^ (64 * p) : ℕ) : K) := by
      rw [div_lt_iff₀ (by positivity)]
      have := hm.val_lt
      have e1 : 2 ^ (64 * p) * 2 ^ n = 2 ^ (64 * m.length) := by
        rw [← pow_add]; congr 1; omega
      exact_mod_cast (e1 ▸ this)
    have h6 : (j : K) / 2 < ((2 ^ (64 * p) : ℕ) : K) := lt_trans hV.1 this
    have h7 : (j : K) < ((2 * 2 ^ (64 * p) : ℕ) : K) := by push_cast at h6 ⊢; linarith
    have h8 : j < 2 * 2 ^ (64 * p) := by exact_mod_cast h7
    exact_mod_cast (show j + 1 ≤ 2 * 2 ^ (64 * p) by omega)
  rw [sub_zero, zpow_natCast] at hY
  have hpp : (0:K) < 2 ^ (64 * p) := by positivity
  have hlo : (2 : K) ^ ((0:ℤ) - 1) ≤ X := by
    have : (2 : K) ^ ((0:ℤ) - 1) = 1 / 2 := by norm_num
    rw [this]
    by_contra hc
    rw [not_le] at hc
    have : X * 2 ^ (64 * p) < 1 / 2 * 2 ^ (64 * p) := mul_lt_mul_of_pos_right hc hpp
    linarith [hY.1]
  have hhi : X < (2 : K) ^ (0 : ℤ) := by
    rw [zpow_zero]
    by_contra hc
    rw [not_lt] at hc
    have : 1 * 2 ^ (64 * p) ≤ X * 2 ^ (64 * p) := mul_le_mul_of_nonneg_right hc hpp.le
    linarith [hY.2]
  have hNR : NR rm pos (64 * p) X (val r.1) e := by
    refine ⟨0, k, hlo, hhi, hmag, ?_, ?_⟩
    · intro hlt
      obtain ⟨g1, g2⟩ := h3 hlt
      exact ⟨g2, by simp only [e]; rw [if_neg (by rw [g1]; simp)]⟩
    · intro hge
      obtain ⟨g1, g2⟩ := h4 hge
      exact ⟨g2, by simp only [e]; rw [if_pos g1]; simp⟩
  refine ⟨h1, h2, hNR, by rw [h5]; simp, ?_⟩
  intro hX
  have hval : (val r.1 : K) * 2 ^ (e - (64 * p : ℕ)) = k * 2 ^ (-(64 * p : ℕ) : ℤ) := by
    by_cases hlt : k < 2 ^ (64 * p)
    · obtain ⟨g1, g2⟩ := h3 hlt
      have he : e = 0 := by simp only [e]; rw [if_neg (by rw [g1]; simp)]
      rw [g2, he, zero_sub]
    · obtain ⟨g1, g2⟩ := h4 (by omega)
      have he : e = 1 := by simp only [e]; rw [if_pos g1]
      have hkP : k = 2 ^ (64 * p) := by omega
      rw [g2, he, hkP]
      push_cast
      rw [← zpow_natCast, ← zpow_natCast, two_zpow_mul, two_zpow_mul]; congr 1; omega
  rw [hval] at hX
  have : X * 2 ^ (64 * p) = (k : K) := by
    rw [← hX, ← zpow_natCast, mul_assoc, two_zpow_mul]; simp
  rw [this] at hY
  have a1 : (j : K) < ((2 * k : ℕ) : K) := by push_cast; linarith [hY.1]
  have a2 : ((2 * k : ℕ) : K) < ((j + 1 : ℕ) : K) := by push_cast; linarith [hY.2]
  have b1 : j < 2 * k := by exact_mod_cast a1
  have b2 : 2 * k < j + 1 := by exact_mod_cast a2
  omega

end AF
