import Verif.Lemmas.PowTen
import Verif.Lemmas.DecRound
import Verif.Lemmas.RadixDel
import Verif.SpecDec
import Verif.Props.C33
/-!
# One round of the conversion to decimal digits

The scaled integer, its digits and the rounding attempt of `conv_to_dec`.
-/

namespace AF

set_option exponentiation.threshold 100000 in
theorem ten_pow_ge (n : Nat) :
    (2 : ℚ) ^ n * (1 + 1 / 2 ^ 16) ≤ 10 ^ (n * 301029996 / 1000000000 + 1) := by
  set q := n * 301029996 / 1000000000 + 1 with hq
  have h1 : n * 12655 + 1 ≤ q * 42039 := by omega
  have h2 : (2 : ℕ) ^ 42039 ≤ 10 ^ 12655 := by decide +kernel
  have h2q : (2 : ℚ) ^ 42039 ≤ 10 ^ 12655 := by exact_mod_cast h2
  by_contra hc
  push Not at hc
  have h3 : ((10 : ℚ) ^ q) ^ 42039 ≤ (2 ^ n * (1 + 1 / 2 ^ 16)) ^ 42039 := pow_le_pow_left₀ (by positivity) hc.le _
  have h4 : ((2 : ℚ) ^ n) ^ 42039 ≤ 10 ^ (n * 12655) := by
    rw [← pow_mul, Nat.mul_comm n 42039, pow_mul, Nat.mul_comm n 12655, pow_mul]
    exact pow_le_pow_left₀ (by positivity) h2q _
  have h5 : (10 : ℚ) ^ (n * 12655 + 1) ≤ 10 ^ (q * 42039) := pow_le_pow_right₀ (by norm_num) h1
  rw [pow_mul 10 q, pow_succ] at h5
  rw [mul_pow] at h3
  have h6 : (1 + 1 / 2 ^ 16 : ℚ) ^ 42039 ≤ 4 := by
    have b := one_add_mul_le_pow (show (-2 : ℚ) ≤ -(1 / 2 ^ 16) by norm_num) 42039
    have hp : (1 + 1 / 2 ^ 16 : ℚ) ^ 42039 * (1 + -(1 / 2 ^ 16)) ^ 42039 ≤ 1 := by
      rw [← mul_pow]
      exact pow_le_one₀ (by norm_num) (by norm_num)
    have hb : (1 / 4 : ℚ) ≤ (1 + -(1 / 2 ^ 16)) ^ 42039 := le_trans (by norm_num) b
    have h0 : (0 : ℚ) ≤ (1 + 1 / 2 ^ 16 : ℚ) ^ 42039 := by positivity
    generalize (1 + 1 / 2 ^ 16 : ℚ) ^ 42039 = a at *
    generalize (1 + -(1 / 2 ^ 16) : ℚ) ^ 42039 = b at *
    nlinarith
  have h7 : (0 : ℚ) < 10 ^ (n * 12655) := by positivity
  have h8 : (0 : ℚ) ≤ ((2 : ℚ) ^ n) ^ 42039 := by positivity
  have h9 : (0 : ℚ) ≤ (1 + 1 / 2 ^ 16 : ℚ) ^ 42039 := by positivity
  generalize (1 + 1 / 2 ^ 16 : ℚ) ^ 42039 = a at *
  generalize ((2 : ℚ) ^ n) ^ 42039 = b at *
  generalize (10 : ℚ) ^ (n * 12655) = c at *
  generalize ((10 : ℚ) ^ q) ^ 42039 = d at *
  nlinarith

set_option exponentiation.threshold 100000 in
theorem ten_pow_le {n : Nat} (hn : n ≤ 1700000000) : 10 ^ (n * 301029996 / 1000000000) ≤ 2 ^ (n + 5) := by
  set q := n * 301029996 / 1000000000 with hq
  have h1 : q * 28738 ≤ (n + 5) * 8651 := by omega
  have h2 : (10 : ℕ) ^ 8651 ≤ 2 ^ 28738 := by decide +kernel
  by_contra hc
  have h3 : (2 ^ (n + 5)) ^ 8651 < (10 ^ q) ^ 8651 := Nat.pow_lt_pow_left (by omega) (by norm_num)
  have h4 : ((10 : ℕ) ^ q) ^ 8651 ≤ 2 ^ (q * 28738) := by
    rw [← pow_mul, Nat.mul_comm q 8651, pow_mul, Nat.mul_comm q 28738, pow_mul]
    exact Nat.pow_le_pow_left h2 _
  have h5 : (2 : ℕ) ^ (q * 28738) ≤ 2 ^ ((n + 5) * 8651) := Nat.pow_le_pow_right (by norm_num) h1
  rw [pow_mul 2 (n + 5)] at h5
  omega

set_option exponentiation.threshold 100000 in
theorem ten_pow_start {n : Nat} (hn : n ≤ 600000000) : 10 ^ n ≤ 2 ^ (n * 3321928095 / 1000000000 + 5) := by
  set q := n * 3321928095 / 1000000000 with hq
  have h1 : n * 28738 ≤ (q + 5) * 8651 := by omega
  have h2 : (10 : ℕ) ^ 8651 ≤ 2 ^ 28738 := by decide +kernel
  by_contra hc
  have h3 : (2 ^ (q + 5)) ^ 8651 < (10 ^ n) ^ 8651 := Nat.pow_lt_pow_left (by omega) (by norm_num)
  have h4 : ((10 : ℕ) ^ n) ^ 8651 ≤ 2 ^ (n * 28738) := by
    rw [← pow_mul, Nat.mul_comm n 8651, pow_mul, Nat.mul_comm n 28738, pow_mul]
    exact Nat.pow_le_pow_left h2 _
  have h5 : (2 : ℕ) ^ (n * 28738) ≤ 2 ^ ((q + 5) * 8651) := Nat.pow_le_pow_right (by norm_num) h1
  rw [pow_mul 2 (q + 5)] at h5
  omega

/-- A positive power of ten within the limit takes one multiplication. -/
theorem toDecScale_one {x : Num} (hx : x.WF) (hx0 : (x.toK : ℚ) ≠ 0) {k w : Nat} (hk : 1 ≤ k)
    (hk2 : k ≤ TEN_PWR_MAX_TO_DEC) (hw1 : 1 ≤ w) (hw : 64 * w ≤ 2 ^ 30) (hlo : (2 : ℚ) ^ EMIN ≤ |x.toK * 10 ^ k|)
    (hhi : |(x.toK : ℚ) * 10 ^ k| < 2 ^ (EMAX - 1)) :
    ∃ y, x.toDecScale (k : ℤ) (64 * w) = .ok (y, 3) ∧ ScApx (x.toK * 10 ^ k) (2 ^ (1 - ((64 * w : ℕ) : ℤ))) 2 y ∧
      64 * y.m.m.length = 64 * w ∧
      (x.inexact = false → 2 ≤ k → 128 ≤ 64 * w → 3 * k ≤ 64 * w → Rep (64 * w) (x.toK * 10 ^ k) → y.inexact = false) := by
  have hrp : roundP (64 * w) = 64 * w := by unfold roundP USIZE_MAX; omega
  have hpm : 64 * w < PMAX := lt_of_le_of_lt hw (by decide)
  have hT1 : TEN_PWR_MAX_TO_DEC = 536870911 := by decide
  have hT2 : TEN_PWR_MAX_FROM_DEC = 646456991 := by decide
  have hδ : (2 : ℚ) ^ (1 - ((64 * w : ℕ) : ℤ)) ≤ 2 ^ (-63 : ℤ) := zpow_le_zpow_right₀ (by norm_num) (by omega)
  have hδ' : (2 : ℚ) ^ (1 - ((64 * w : ℕ) : ℤ)) ≤ 1 / 100 := hδ.trans (by norm_num)
  have hδ0 : (0 : ℚ) < (2 : ℚ) ^ (1 - ((64 * w : ℕ) : ℤ)) := by positivity
  rcases powi_ten (n := k) (px := 64 * w) hk (by omega) (by omega) with ⟨t, d, t1, t2, t3, t4, t5, t6, _⟩ | ⟨t1, t2⟩
  swap
  · rw [hrp] at t2
    exact absurd t2 (by omega)
  rw [hrp] at t5
  have hx1 : ScApx x.toK (2 ^ (1 - ((64 * w : ℕ) : ℤ))) 0 x := ⟨hx, ⟨1, by ring, by simp, by simp⟩, fun _ => rfl⟩
  obtain ⟨v, v1, v2, v3, v4⟩ := scaleLoop_spec (T := 10 ^ k) (P := 64 * w) (px := 64 * w) (by positivity) hδ0 (by linarith) le_rfl
    t3 t4 t5 t6 (by omega) (by rw [hrp]; exact hpm) hrp false 1 0 x.toK x hx0 hx1
    (by generalize (2 : ℚ) ^ (1 - ((64 * w : ℕ) : ℤ)) = δ at *; norm_num; nlinarith)
    (by generalize (2 : ℚ) ^ (1 - ((64 * w : ℕ) : ℤ)) = δ at *; norm_num; nlinarith) (by
      intro j h1 h2
      obtain rfl : j = 1 := by omega
      simp only [Bool.false_eq_true, if_false, pow_one]
      exact ⟨hlo, hhi⟩)
  simp only [Bool.false_eq_true, if_false, pow_one, mul_one, zero_add] at v2
  refine ⟨v, ?_, v2, v3 (by norm_num), fun i1 i2 i3 i4 i5 => v4 i1
    (powi_ten_exact i2 (by omega) (by omega) t2 (by rw [hrp]; exact i3) (by rw [hrp]; exact i4) t1) ?_⟩
  swap
  · intro j h1 h2
    obtain rfl : j = 1 := by omega
    simpa using i5
  unfold Num.toDecScale
  simp only [Int.natAbs_natCast]
  rw [if_neg (by omega), if_neg (by omega)]
  dsimp only
  rw [if_pos (by omega), Nat.zero_mul, Nat.sub_zero, t1]
  dsimp only
  rw [show decide ((k : ℤ) < 0) = false from by simp, v1]

theorem rounds_scale {rm : RM} {x u r c : ℚ} (h : Rounds rm x u r) (hc : 0 < c) : Rounds rm (x * c) (u * c) (r * c) := by
  obtain ⟨k, h1, h2⟩ := h
  refine ⟨k, by rw [h1]; ring, ?_⟩
  have e1 : |x * c - r * c| = |x - r| * c := by rw [← sub_mul, abs_mul, abs_of_pos hc]
  have e2 : ∀ z : ℚ, |z * c| = |z| * c := fun z => by rw [abs_mul, abs_of_pos hc]
  have e3 : x * c * (r * c) = x * r * (c * c) := by ring
  have e4 : |x - r| * c = u * c / 2 ↔ |x - r| = u / 2 := by
    constructor
    · intro h; nlinarith
    · intro h; rw [h]; ring
  cases rm <;> simp only [e1, e2, e3, e4] at h2 ⊢
  case toEven => exact ⟨by nlinarith [h2.1], h2.2⟩
  case toOdd => exact ⟨by nlinarith [h2.1], h2.2⟩
  case up => exact ⟨by nlinarith [h2.1], by nlinarith [h2.2]⟩
  case down => exact ⟨by nlinarith [h2.1], by nlinarith [h2.2]⟩
  all_goals exact ⟨by nlinarith [h2.1], by nlinarith [h2.2.1], mul_nonneg h2.2.2 (by positivity)⟩

/-- Dropping trailing zeros keeps the value. -/
theorem trim_value (s : Sign) (ds : List Nat) (e : ℤ) :
    (radixVal 10 (s, ds.take (ds.length - (ds.reverse.takeWhile (· = 0)).length), e) : ℚ) =
      s.toK * digNat 10 ds * 10 ^ (e - ds.length) := by
  set t := (ds.reverse.takeWhile (· = 0)).length with ht
  have htl : t ≤ ds.length := by
    rw [ht, ← List.length_reverse (as := ds)]
    exact (List.takeWhile_prefix _).length_le
  have hsplit : ds = ds.take (ds.length - t) ++ List.replicate t 0 := by
    have h1 : ds.drop (ds.length - t) = List.replicate t 0 := by
      rw [List.eq_replicate_iff]
      refine ⟨by rw [List.length_drop]; omega, fun b hb => ?_⟩
      have h2 : ds.drop (ds.length - t) = (ds.reverse.take t).reverse := by
        rw [List.take_reverse]; simp
      rw [h2, List.mem_reverse] at hb
      have h3 : ds.reverse.take t = ds.reverse.takeWhile (· = 0) := by
        rw [ht]
        exact (List.prefix_iff_eq_take.1 (List.takeWhile_prefix _)).symm
      rw [h3] at hb
      have h4 := List.all_takeWhile (p := fun x : Nat => decide (x = 0)) (l := ds.reverse)
      simpa using List.all_eq_true.1 h4 b hb
    conv_lhs => rw [← List.take_append_drop (ds.length - t) ds, h1]
  have hlen : (ds.take (ds.length - t)).length = ds.length - t := by rw [List.length_take]; omega
  unfold radixVal
  dsimp only
  conv_rhs => rw [show digNat 10 ds = digNat 10 (ds.take (ds.length - t)) * 10 ^ t from by
    conv_lhs => rw [hsplit]
    rw [digNat_append, digNat_zeros, List.length_replicate]; simp]
  rw [hlen]
  push_cast
  rw [mul_assoc, mul_assoc, mul_assoc, ← zpow_natCast (10 : ℚ) t, ← zpow_add₀ (by norm_num)]
  congr 3
  push_cast [htl]
  ring

/-- The rounding attempt of a round. `N` is the scaled integer, `X` the scaled number, `k` the power of ten. -/
theorem toDecTail_spec {s : Sign} {rm : RM} {n k shift : Nat} {ix : Bool} {ds : List Nat} {X : ℚ} (hrm : rm ≠ .none)
    (hd : ∀ d ∈ ds, d ≤ 9) (hh : ds.head? ≠ some 0) (hn : 0 < n) (hk : k ≤ 536870911) (hlen : ds.length ≤ 2 ^ 30 + 20)
    (hsh : shift ≤ 10) (hln : n + 17 ≤ ds.length) (hX : |X - digNat 10 ds| ≤ 2 ^ (shift + 3))
    (hex : ix = false → X = digNat 10 ds ∧ ∃ c, 10 ^ 4 < c ∧ c ∣ 10 ^ 14 ∧ c ∣ digNat 10 ds) :
    (Num.toDecTail s rm n k shift 3 ix ds = .more ∧ ix = true ∧ ∃ z : ℕ, |X - z * 10 ^ (ds.length - n - 1)| < 20000) ∨
    ∃ d : Digits, Num.toDecTail s rm n k shift 3 ix ds = .done (.ok d) ∧ (d.1 = s ∧ EMIN ≤ d.2.2 ∧ d.2.2 ≤ EMAX) ∧ d.2.1.length ≤ n ∧
      (∀ v ∈ d.2.1, v ≤ 9) ∧ RoundsDec rm n (s.toK * X / 10 ^ k) (radixVal 10 d) := by
  set D := (shift + 3) * 301029996 / 1000000000 + 1 with hD
  have hD4 : D ≤ 4 := by omega
  have hEM : EMIN = -2147483648 := rfl
  have hEX : EMAX = 2147483647 := rfl
  unfold Num.toDecTail
  dsimp only
  rw [show (ds.length : ℤ) - (((shift + 3) * 301029996 / 1000000000 : ℕ) : ℤ) - 1 = (ds.length : ℤ) - D by rw [hD]; push_cast; ring]
  have hesub : (EMIN - ((ds.length : ℤ) - (k : ℤ))).toNat = 0 := by omega
  rw [hesub, show max ((ds.length : ℤ) - (k : ℤ)) EMIN = (ds.length : ℤ) - k by omega]
  by_cases hc : ds.length > n ∧ (ds.length : ℤ) - D > n
  swap
  · exact absurd ⟨by omega, by omega⟩ hc
  rw [if_pos hc]
  obtain ⟨L, hL⟩ : ∃ L, ds.length = L + D := ⟨ds.length - D, by omega⟩
  rw [show ((ds.length : ℤ) - D).toNat = L by omega]
  have hdt : ∀ d ∈ ds.take L, d ≤ 9 := fun d h => hd d (List.mem_of_mem_take h)
  have hlt : (ds.take L).length = L := by rw [List.length_take]; omega
  have hnL : n < L := by omega
  -- the number and the digits
  have hsplit : digNat 10 ds = digNat 10 (ds.take L) * 10 ^ D + digNat 10 (ds.drop L) := by
    conv_lhs => rw [← List.take_append_drop L ds]
    rw [digNat_append, List.length_drop, show ds.length - L = D by omega]
  have htail : digNat 10 (ds.drop L) < 10 ^ D := by
    have := digNat_lt (b := 10) (ds := ds.drop L) (by norm_num)
      (fun d h => by have := hd d (List.mem_of_mem_drop h); omega)
    rwa [List.length_drop, show ds.length - L = D by omega] at this
  have hsplitq : (digNat 10 ds : ℚ) = digNat 10 (ds.take L) * 10 ^ D + digNat 10 (ds.drop L) := by exact_mod_cast hsplit
  have htailq : (digNat 10 (ds.drop L) : ℚ) + 1 ≤ 10 ^ D := by exact_mod_cast htail
  have h10 : (0 : ℚ) < 10 ^ D := by positivity
  have hnear : DecNear (ds.take L) n ix (X / 10 ^ D) := by
    unfold DecNear
    have h0 : (0 : ℚ) ≤ digNat 10 (ds.drop L) := by positivity
    cases ix with
    | true =>
      have h1 : (2 : ℚ) ^ (shift + 3) < 10 ^ D := by exact_mod_cast two_pow_lt_ten_pow (shift + 3)
      obtain ⟨h2, h3⟩ := abs_le.1 hX
      simp only [if_true]
      rw [lt_div_iff₀ h10, div_lt_iff₀ h10]
      constructor <;> nlinarith
    | false =>
      obtain ⟨h1, c, hc1, hc2, h2⟩ := hex rfl
      simp only [Bool.false_eq_true, if_false]
      rw [le_div_iff₀ h10, div_lt_iff₀ h10, div_eq_iff h10.ne', h1, hsplitq]
      refine ⟨by nlinarith, by nlinarith, fun hz => ?_⟩
      have hz2 : digNat 10 (ds.drop L) = 0 := by
        by_contra hne
        have e1 : ds = ds.take (n + 1) ++ ((ds.take L).drop (n + 1) ++ ds.drop L) := by
          conv_lhs => rw [← List.take_append_drop L ds]
          rw [← List.append_assoc]
          congr 1
          conv_lhs => rw [← List.take_append_drop (n + 1) (ds.take L), List.take_take, Nat.min_eq_left (by omega)]
        have e2 : digNat 10 ds = digNat 10 (ds.take (n + 1)) * 10 ^ (ds.length - (n + 1)) + digNat 10 (ds.drop L) := by
          conv_lhs => rw [e1]
          rw [digNat_append, digNat_append, hz]
          simp only [List.length_append, List.length_drop, List.length_take, zero_mul, zero_add]
          congr 3; omega
        have e3 : c ∣ digNat 10 (ds.take (n + 1)) * 10 ^ (ds.length - (n + 1)) :=
          Dvd.dvd.mul_left (hc2.trans (pow_dvd_pow 10 (by omega))) _
        have e4 : c ∣ digNat 10 (ds.drop L) := by
          rw [e2] at h2
          exact (Nat.dvd_add_right e3).1 h2
        have e5 := Nat.le_of_dvd (by omega) e4
        have e6 : (10 : ℕ) ^ D ≤ 10 ^ 4 := Nat.pow_le_pow_right (by norm_num) hD4
        omega
      rw [hz2]; simp
  -- the attempt
  unfold tryRoundDec
  rw [if_pos hn]
  dsimp only
  generalize hr : roundDec (ds.take L) n rm s.isPos ix = r
  rcases r with ⟨ds', fl, chk⟩
  dsimp only
  cases chk with
  | true =>
    left
    obtain ⟨i1, i2⟩ := roundDec_refused hdt hn (by omega) hrm hr
    subst i1
    refine ⟨by simp, rfl, ?_⟩
    simp only [DecNear, if_true] at hnear
    have e0 : digNat 10 (ds.take L) = digNat 10 ((ds.take L).take (n + 1)) * 10 ^ (L - (n + 1)) +
        digNat 10 ((ds.take L).drop (n + 1)) := by
      conv_lhs => rw [← List.take_append_drop (n + 1) (ds.take L)]
      rw [digNat_append, List.length_drop, hlt]
    have e1 : (10 : ℚ) ^ (ds.length - n - 1) = 10 ^ (L - (n + 1)) * 10 ^ D := by
      rw [← pow_add]; congr 1; omega
    have e2 : (10 : ℚ) ^ D ≤ 10 ^ 4 := pow_le_pow_right₀ (by norm_num) hD4
    rw [lt_div_iff₀ h10, div_lt_iff₀ h10] at hnear
    rcases i2 with i2 | i2
    · refine ⟨digNat 10 ((ds.take L).take (n + 1)), ?_⟩
      rw [i2, add_zero] at e0
      have e0' : (digNat 10 (ds.take L) : ℚ) = digNat 10 ((ds.take L).take (n + 1)) * 10 ^ (L - (n + 1)) := by exact_mod_cast e0
      rw [e1, ← mul_assoc, ← e0', abs_lt]
      constructor <;> nlinarith
    · refine ⟨digNat 10 ((ds.take L).take (n + 1)) + 1, ?_⟩
      rw [List.length_drop, hlt] at i2
      have e0' : (digNat 10 (ds.take L) : ℚ) + 1 = (digNat 10 ((ds.take L).take (n + 1)) + 1) * 10 ^ (L - (n + 1)) := by
        have : digNat 10 (ds.take L) + 1 = (digNat 10 ((ds.take L).take (n + 1)) + 1) * 10 ^ (L - (n + 1)) := by
          rw [e0, Nat.add_mul, one_mul]; omega
        exact_mod_cast this
      push_cast
      rw [e1, ← mul_assoc, ← e0', abs_lt]
      constructor <;> nlinarith
  | false =>
    right
    obtain ⟨c, c1, c2, c3, c4⟩ := roundDec_digits hdt hn (by omega) hrm hr
    obtain ⟨r1, r2, r3⟩ := roundDecC_spec hdt hn (by omega) hrm c1 hnear
    have hres : ∀ e' : ℤ, e' = (ds.length : ℤ) - k + (if fl then 1 else 0) →
        ((Num.toDecFinish s ds' n e' 0).1 = s ∧ EMIN ≤ (Num.toDecFinish s ds' n e' 0).2.2 ∧
          (Num.toDecFinish s ds' n e' 0).2.2 ≤ EMAX) ∧ (Num.toDecFinish s ds' n e' 0).2.1.length ≤ n ∧
        (∀ v ∈ (Num.toDecFinish s ds' n e' 0).2.1, v ≤ 9) ∧
        RoundsDec rm n (s.toK * X / 10 ^ k) (radixVal 10 (Num.toDecFinish s ds' n e' 0)) := by
      intro e' he'
      unfold Num.toDecFinish
      simp only [gt_iff_lt, lt_irrefl, false_and, if_false]
      refine ⟨⟨trivial, by split at he' <;> omega, by split at he' <;> omega⟩, ?_, fun v hv => c3 v (List.mem_of_mem_take hv), ?_⟩
      · rw [List.length_take]; omega
      · rw [trim_value, c2]
        have hKlo : 10 ^ (n - 1) ≤ digNat 10 ((ds.take L).take n) := by
          rw [List.take_take, Nat.min_eq_left (by omega)]
          cases ds with
          | nil => simp at hln
          | cons a l =>
            have ha : a ≠ 0 := by
              intro h; exact hh (by simp [h])
            obtain ⟨n', rfl⟩ : ∃ n', n = n' + 1 := ⟨n - 1, by omega⟩
            rw [List.take_succ_cons]
            have := digNat_ge (b := 10) (ds := l.take n') ha
            rw [List.length_take] at this
            rw [List.length_cons] at hL
            rwa [show min n' l.length = n' by omega] at this
        have hKhi : digNat 10 ((ds.take L).take n) + 1 ≤ 10 ^ n := by
          have := digNat_lt (b := 10) (ds := (ds.take L).take n) (by norm_num)
            (fun d h => by have := hdt d (List.mem_of_mem_take h); omega)
          rwa [List.length_take, hlt, show min n L = n by omega] at this
        rw [hlt] at r1 r2 r3
        have hM : (0 : ℚ) < 10 ^ ((D : ℤ) - k) := by positivity
        have hz : ∀ a b : ℤ, (10 : ℚ) ^ a * 10 ^ b = 10 ^ (a + b) := fun a b => (zpow_add₀ (by norm_num) a b).symm
        have ex : s.toK * X / 10 ^ k = s.toK * (X / 10 ^ D) * (10 : ℚ) ^ ((D : ℤ) - k) := by
          rw [zpow_sub₀ (by norm_num), zpow_natCast, zpow_natCast]
          field_simp
        have er : (s.toK : ℚ) * digNat 10 (ds'.take n) * 10 ^ (e' - (n : ℤ)) =
            s.toK * (((digNat 10 ((ds.take L).take n) + (if c then 1 else 0) : ℕ) : ℚ) * 10 ^ (L - n)) *
              (10 : ℚ) ^ ((D : ℤ) - k) := by
          rw [← c4, he', hL]
          push_cast
          rw [← zpow_natCast (10 : ℚ) (L - n), mul_assoc, mul_assoc, mul_assoc (_ * _ : ℚ), hz]
          rw [mul_assoc]
          congr 2
          cases fl
          · simp only [Bool.false_eq_true, if_false, one_mul]
            congr 1; push_cast [hnL.le]; ring
          · simp only [if_true]
            rw [show (10 : ℚ) * 10 ^ (((L - n : ℕ) : ℤ) + ((D : ℤ) - k)) = 10 ^ (1 + (((L - n : ℕ) : ℤ) + ((D : ℤ) - k))) from by
              rw [zpow_one_add₀ (by norm_num)]]
            congr 1; push_cast [hnL.le]; ring
        have hY0 : 0 ≤ X / 10 ^ D := le_trans (by positivity) r2
        refine ⟨(L : ℤ) + D - k, ?_, ?_, ?_⟩
        · rw [ex, abs_mul, abs_of_pos hM, abs_toK, abs_of_nonneg hY0, show (10 : ℚ) ^ ((L : ℤ) + D - k - 1) =
            10 ^ (n - 1) * 10 ^ (L - n) * 10 ^ ((D : ℤ) - k) from by
            rw [← pow_add, ← zpow_natCast, hz]
            congr 1; omega]
          refine mul_le_mul_of_nonneg_right (le_trans ?_ r2) hM.le
          exact mul_le_mul_of_nonneg_right (by exact_mod_cast hKlo) (by positivity)
        · rw [ex, abs_mul, abs_of_pos hM, abs_toK, abs_of_nonneg hY0, show (10 : ℚ) ^ ((L : ℤ) + D - k) =
            10 ^ n * 10 ^ (L - n) * 10 ^ ((D : ℤ) - k) from by
            rw [← pow_add, ← zpow_natCast, hz]
            congr 1; omega]
          refine mul_lt_mul_of_pos_right (lt_of_lt_of_le r3 ?_) hM
          exact mul_le_mul_of_nonneg_right (by exact_mod_cast hKhi) (by positivity)
        · rw [ex, er, show (10 : ℚ) ^ ((L : ℤ) + D - k - n) = 10 ^ (L - n) * 10 ^ ((D : ℤ) - k) from by
            rw [← zpow_natCast (10 : ℚ) (L - n), hz]
            congr 1; push_cast [hnL.le]; ring]
          exact rounds_scale r1 hM
    cases fl with
    | true =>
      simp only [Bool.false_eq_true, if_false, if_true]
      rw [if_neg (by omega)]
      exact ⟨_, rfl, hres _ (by simp)⟩
    | false =>
      simp only [Bool.false_eq_true, if_false]
      exact ⟨_, rfl, hres _ (by simp)⟩

/-- The integer a number with a large exponent stands for, as the conversion builds it. -/
theorem toDec_int {y : Num} (hy : y.WF) {w : Nat} (hlen : 64 * y.m.m.length = 64 * w) (hw : 1 ≤ w) (he : ((64 * w : ℕ) : ℤ) ≤ y.e)
    (hy0 : (y.toK : ℚ) ≠ 0) :
    let shift := (y.e - ((64 * w : ℕ) : ℤ)).toNat
    let m := if shift > 0 then y.m.shiftLeftResize shift else y.m
    Wf m.m ∧ m.n = Nat.size (val m.m) ∧ m.n = 64 * w + shift ∧ (val m.m : ℚ) = |y.toK| := by
  intro shift m
  have hEM : EMIN = -2147483648 := rfl
  have hv0 : val y.m.m ≠ 0 := by
    intro h; apply hy0; unfold Num.toK; rw [h]; simp
  have hn0 : 0 < y.m.n := by rw [hy.bits]; exact Nat.size_pos.2 (by omega)
  have hn : y.m.n = 64 * w := by
    have h1 : ¬ y.m.n < 64 * y.m.m.length := fun h => by have := hy.norm hn0 h; omega
    have h2 : y.m.n ≤ 64 * y.m.m.length := by
      rw [hy.bits]
      refine Nat.size_le.2 ?_
      rw [← B_pow]
      exact val_lt hy.wf
    omega
  have habs : |(y.toK : ℚ)| = val y.m.m * 2 ^ shift := by
    rw [Num.abs_val, ← zpow_natCast]
    congr 2
    simp only [shift]
    omega
  obtain ⟨s1, s2⟩ := shiftLeftResize_val (x := y.m) ⟨hy.wf, hy.bits⟩ shift
  have hsz : Nat.size (val y.m.m * 2 ^ shift) = Nat.size (val y.m.m) + shift := by
    rw [← Nat.shiftLeft_eq, Nat.size_shiftLeft hv0]
  by_cases hs : shift > 0
  · have hm : m = y.m.shiftLeftResize shift := if_pos hs
    rw [hm]
    refine ⟨s1, ?_, ?_, ?_⟩
    · rw [s2, hsz, ← hy.bits]; rfl
    · rw [← hn]; rfl
    · rw [s2, habs]; push_cast; ring
  · have hm : m = y.m := if_neg hs
    have hs0 : shift = 0 := by omega
    rw [hm]
    refine ⟨hy.wf, hy.bits, by omega, ?_⟩
    rw [habs, hs0]; simp

/-- A number above the subnormal range has its top bit set. -/
theorem normal_of_e {x : Num} (hx : x.WF) (hx0 : (x.toK : ℚ) ≠ 0) (he : EMIN < x.e) :
    x.m.n = 64 * x.m.m.length ∧ (2 : ℚ) ^ (x.e - 1) ≤ |x.toK| := by
  have hv0 : val x.m.m ≠ 0 := by
    intro h; apply hx0; unfold Num.toK; rw [h]; simp
  have hn0 : 0 < x.m.n := by rw [hx.bits]; exact Nat.size_pos.2 (by omega)
  have hn : x.m.n = 64 * x.m.m.length := by
    have h1 : ¬ x.m.n < 64 * x.m.m.length := fun h => by have := hx.norm hn0 h; omega
    have h2 : x.m.n ≤ 64 * x.m.m.length := by
      rw [hx.bits]
      refine Nat.size_le.2 ?_
      rw [← B_pow]
      exact val_lt hx.wf
    omega
  refine ⟨hn, ?_⟩
  have h3 : 2 ^ (x.m.n - 1) ≤ val x.m.m := by
    by_contra hc
    have := Nat.size_le.2 (not_le.1 hc)
    rw [← hx.bits] at this
    omega
  have h3q : (2 : ℚ) ^ (x.m.n - 1) ≤ val x.m.m := by exact_mod_cast h3
  rw [Num.abs_val, show x.e - 1 = ((x.m.n - 1 : ℕ) : ℤ) + (x.e - (64 * x.m.m.length : ℕ)) by omega,
    zpow_add₀ (by norm_num), zpow_natCast]
  exact mul_le_mul_of_nonneg_right h3q (by positivity)

/-- A power of ten times a number that is an integer has the factor five. -/
theorem dec_five_dvd {v N k : Nat} {a : ℤ} (hk : 6 ≤ k) (h : (N : ℚ) = v * 2 ^ a * 10 ^ k) : 5 ^ 6 ∣ N := by
  have h5 : 5 ^ 6 ∣ 10 ^ k := by
    rw [show (10 : ℕ) = 2 * 5 from rfl, mul_pow]
    exact Dvd.dvd.mul_left (pow_dvd_pow 5 hk) _
  rcases le_total 0 a with ha | ha
  · obtain ⟨b, rfl⟩ := Int.eq_ofNat_of_zero_le ha
    have : N = v * 2 ^ b * 10 ^ k := by
      rw [zpow_natCast] at h
      exact_mod_cast h
    rw [this]
    exact Dvd.dvd.mul_left h5 _
  · obtain ⟨b, hb⟩ := Int.eq_ofNat_of_zero_le (neg_nonneg.2 ha)
    have ha' : a = -(b : ℤ) := by omega
    have : N * 2 ^ b = v * 10 ^ k := by
      rw [ha', zpow_neg, zpow_natCast] at h
      have h2 : (N : ℚ) * 2 ^ b = v * 10 ^ k := by rw [h]; field_simp
      exact_mod_cast h2
    have h6 : 5 ^ 6 ∣ N * 2 ^ b := by rw [this]; exact Dvd.dvd.mul_left h5 _
    exact (Nat.Coprime.pow 6 b (by decide : Nat.Coprime 5 2)).dvd_of_dvd_mul_right h6

theorem scale_err {X c δ t u : ℚ} (hX0 : 0 < X) (hδ0 : 0 < δ) (hδ1 : δ ≤ 1 / 2 ^ 20) (hcl : 1 - 2 * δ ≤ c) (hch : c ≤ 1 + 3 * δ)
    (h1 : X * c < t * u) (h3 : δ * t = 2) (hu : 0 < u) : |X - X * c| ≤ u * 2 ^ 3 := by
  have h2 : X ≤ 101 / 100 * (X * c) := by nlinarith
  have h4 : |X - X * c| ≤ X * (3 * δ) := by
    rw [abs_le]; constructor <;> nlinarith
  refine h4.trans ?_
  have h6 : X * δ ≤ 101 / 100 * (t * u) * δ := mul_le_mul_of_nonneg_right (by linarith) hδ0.le
  have h7 : t * u * δ = 2 * u := by linear_combination u * h3
  nlinarith

/-- The scaled integer of a round. -/
theorem toDec_scaled {x : Num} (hx : x.WF) (hx0 : (x.toK : ℚ) ≠ 0) {w j k : Nat} (hw1 : 1 ≤ w) (hw : 64 * w ≤ 2 ^ 30)
    (hj : ((64 * w : ℕ) : ℤ) - x.e = j) (hj1 : 64 ≤ j) (hj2 : j ≤ 1700000000) (hk : k = j * 301029996 / 1000000000 + 1) :
    ∃ (y : Num) (shift : Nat) (m : Mantissa), ({ x with inexact := false } : Num).toDecScale (k : ℤ) (64 * w) = .ok (y, 3) ∧
      ((64 * w : ℕ) : ℤ) ≤ y.e ∧ shift = (y.e - ((64 * w : ℕ) : ℤ)).toNat ∧
      m = (if shift > 0 then y.m.shiftLeftResize shift else y.m) ∧ shift ≤ 10 ∧
      Wf m.m ∧ m.n = Nat.size (val m.m) ∧ m.n = 64 * w + shift ∧ |(|x.toK| * 10 ^ k : ℚ) - val m.m| ≤ 2 ^ (shift + 3) ∧
      2 ^ (64 * w - 1) ≤ val m.m ∧ (y.inexact = false → (|x.toK| * 10 ^ k : ℚ) = val m.m ∧ 5 ^ 6 ∣ val m.m) ∧
      (128 ≤ 64 * w → 3 * k ≤ 64 * w → Rep (64 * w) (x.toK * 10 ^ k) → y.inexact = false) := by
  have hEM : EMIN = -2147483648 := rfl
  have hEX : EMAX = 2147483647 := rfl
  have hT1 : TEN_PWR_MAX_TO_DEC = 536870911 := by decide
  have hz : ∀ a b : ℤ, (2 : ℚ) ^ a * 2 ^ b = 2 ^ (a + b) := fun a b => (zpow_add₀ (by norm_num) a b).symm
  -- the size of the number
  have hxlt : |(x.toK : ℚ)| < 2 ^ x.e := hx.abs_lt_zpow
  have hxge : (2 : ℚ) ^ (x.e - 1) ≤ |x.toK| := (normal_of_e hx hx0 (by omega)).2
  have hk10 : (2 : ℚ) ^ j * (1 + 1 / 2 ^ 16) ≤ 10 ^ k := by rw [hk]; exact ten_pow_ge j
  have hk10' : (10 : ℚ) ^ k ≤ 2 ^ (j + 9) := by
    have h1 := ten_pow_le hj2
    have h2 : (10 : ℚ) ^ (j * 301029996 / 1000000000) ≤ 2 ^ (j + 5) := by exact_mod_cast h1
    rw [hk, pow_succ, show j + 9 = j + 5 + 4 by ring, pow_add 2 (j + 5)]
    nlinarith [show (0 : ℚ) < 10 ^ (j * 301029996 / 1000000000) by positivity]
  have hXlo : (2 : ℚ) ^ (((64 * w : ℕ) : ℤ) - 1) * (1 + 1 / 2 ^ 16) ≤ |x.toK| * 10 ^ k := by
    calc (2 : ℚ) ^ (((64 * w : ℕ) : ℤ) - 1) * (1 + 1 / 2 ^ 16) = 2 ^ (x.e - 1) * (2 ^ j * (1 + 1 / 2 ^ 16)) := by
          rw [← mul_assoc, ← zpow_natCast (2 : ℚ) j, hz]; congr 2; omega
      _ ≤ _ := mul_le_mul hxge hk10 (by positivity) (abs_nonneg _)
  have hXhi : |(x.toK : ℚ)| * 10 ^ k < 2 ^ (((64 * w : ℕ) : ℤ) + 9) := by
    calc |(x.toK : ℚ)| * 10 ^ k < 2 ^ x.e * 10 ^ k := mul_lt_mul_of_pos_right hxlt (by positivity)
      _ ≤ 2 ^ x.e * 2 ^ (j + 9) := mul_le_mul_of_nonneg_left hk10' (by positivity)
      _ = _ := by rw [← zpow_natCast (2 : ℚ) (j + 9), hz]; congr 1; push_cast; omega
  have habs : |(x.toK : ℚ) * 10 ^ k| = |x.toK| * 10 ^ k := by rw [abs_mul, abs_of_pos (by positivity : (0 : ℚ) < 10 ^ k)]
  have hx' : ({ x with inexact := false } : Num).WF := ⟨hx.wf, hx.bits, hx.emin, hx.emax, hx.norm, hx.sized⟩
  obtain ⟨y, y1, y2, y3, y4⟩ := toDecScale_one (x := { x with inexact := false }) hx' hx0 (k := k) (w := w) (by omega) (by omega)
    hw1 hw (by
      change (2 : ℚ) ^ EMIN ≤ |x.toK * 10 ^ k|
      rw [habs]
      refine le_trans ?_ hXlo
      have h1 : (2 : ℚ) ^ EMIN ≤ 2 ^ (((64 * w : ℕ) : ℤ) - 1) := zpow_le_zpow_right₀ (by norm_num) (by omega)
      have h2 : (0 : ℚ) < 2 ^ (((64 * w : ℕ) : ℤ) - 1) := by positivity
      generalize (2 : ℚ) ^ (((64 * w : ℕ) : ℤ) - 1) = t at *
      generalize (2 : ℚ) ^ EMIN = t' at *
      nlinarith) (by
      change |(x.toK : ℚ) * 10 ^ k| < 2 ^ (EMAX - 1)
      rw [habs]
      exact lt_of_lt_of_le hXhi (zpow_le_zpow_right₀ (by norm_num) (by omega)))
  change ScApx ((x.toK : ℚ) * 10 ^ k) _ 2 y at y2
  obtain ⟨c, c1, c2, c3⟩ := y2.ex
  have hδ0 : (0 : ℚ) < 2 ^ (1 - ((64 * w : ℕ) : ℤ)) := by positivity
  have hδ1 : (2 : ℚ) ^ (1 - ((64 * w : ℕ) : ℤ)) ≤ 1 / 2 ^ 20 :=
    le_trans (zpow_le_zpow_right₀ (by norm_num) (show 1 - ((64 * w : ℕ) : ℤ) ≤ -20 by omega)) (by norm_num)
  have hδe : (2 : ℚ) ^ (1 - ((64 * w : ℕ) : ℤ)) = 2 * (2 ^ ((64 * w : ℕ) : ℤ))⁻¹ := by
    rw [zpow_sub₀ (by norm_num), zpow_one]; rfl
  set δ : ℚ := 2 ^ (1 - ((64 * w : ℕ) : ℤ)) with hδ
  set X : ℚ := |x.toK| * 10 ^ k with hX
  have hcl : 1 - 2 * δ ≤ c := by nlinarith
  have hch : c ≤ 1 + 3 * δ := by nlinarith
  have hc0 : 0 < c := by linarith
  have hya : |(y.toK : ℚ)| = X * c := by rw [c1, abs_mul, habs, abs_of_pos hc0]
  have hp1 : (2 : ℚ) ^ (((64 * w : ℕ) : ℤ) - 1) = 2 ^ (64 * w - 1) := by
    rw [← zpow_natCast]; congr 1; omega
  have hp63 : (2 : ℚ) ^ 63 ≤ 2 ^ (64 * w - 1) := pow_le_pow_right₀ (by norm_num) (by omega)
  rw [hp1] at hXlo
  have hX0 : 0 < X := by
    have : (0 : ℚ) < 2 ^ (64 * w - 1) := by positivity
    nlinarith
  have hylo : (2 : ℚ) ^ (64 * w - 1) ≤ |y.toK| := by
    rw [hya]
    have h0 : (0 : ℚ) < 2 ^ (64 * w - 1) := by positivity
    generalize (2 : ℚ) ^ (64 * w - 1) = t at *
    have : t * (1 + 1 / 2 ^ 16) * (1 - 2 * δ) ≤ X * c := mul_le_mul hXlo hcl (by linarith) hX0.le
    have h2 : 1 ≤ (1 + 1 / 2 ^ 16) * (1 - 2 * δ) := by nlinarith
    nlinarith
  have hy0 : (y.toK : ℚ) ≠ 0 := by
    intro h; rw [h, abs_zero] at hylo
    have : (0 : ℚ) < 2 ^ (64 * w - 1) := by positivity
    linarith
  have hye : ((64 * w : ℕ) : ℤ) ≤ y.e := by
    have h1 : (2 : ℚ) ^ (((64 * w : ℕ) : ℤ) - 1) < 2 ^ y.e := by
      rw [hp1]; exact lt_of_le_of_lt hylo y2.wf.abs_lt_zpow
    have := (zpow_lt_zpow_iff_right₀ (by norm_num : (1 : ℚ) < 2)).1 h1
    omega
  have hye2 : y.e ≤ ((64 * w : ℕ) : ℤ) + 10 := by
    have h1 : (2 : ℚ) ^ (y.e - 1) < 2 ^ (((64 * w : ℕ) : ℤ) + 10) := by
      refine lt_of_le_of_lt (normal_of_e y2.wf hy0 (by omega)).2 ?_
      rw [hya, show ((64 * w : ℕ) : ℤ) + 10 = ((64 * w : ℕ) : ℤ) + 9 + 1 by ring, zpow_add_one₀ (by norm_num)]
      have : c < 2 := by linarith
      nlinarith
    have := (zpow_lt_zpow_iff_right₀ (by norm_num : (1 : ℚ) < 2)).1 h1
    omega
  obtain ⟨m1, m2, m3, m4⟩ := toDec_int y2.wf y3 hw1 hye hy0
  set shift := (y.e - ((64 * w : ℕ) : ℤ)).toNat with hshift
  set m := if shift > 0 then y.m.shiftLeftResize shift else y.m with hm
  have herr : |X - val m.m| ≤ 2 ^ (shift + 3) := by
    rw [m4, hya]
    rw [pow_add]
    refine scale_err hX0 hδ0 hδ1 hcl hch (t := 2 ^ (64 * w : ℕ)) ?_ ?_ (by positivity)
    · rw [← hya, ← pow_add, ← zpow_natCast]
      refine lt_of_lt_of_le y2.wf.abs_lt_zpow (zpow_le_zpow_right₀ (by norm_num) ?_)
      push_cast at hye ⊢
      omega
    · rw [hδe, zpow_natCast]; field_simp
  have hsh : shift ≤ 10 := by omega
  have hNlo : 2 ^ (64 * w - 1) ≤ val m.m := by
    rw [← m4] at hylo; exact_mod_cast hylo
  refine ⟨y, shift, m, y1, hye, hshift, hm, hsh, m1, m2, m3, herr, hNlo, fun hi => ?_, fun i1 i2 i3 => y4 rfl (by omega) i1 i2 i3⟩
  have h1 : (val m.m : ℚ) = X := by rw [m4, y2.exact hi, habs]
  refine ⟨h1.symm, dec_five_dvd (v := val x.m.m) (k := k) (a := x.e - (64 * x.m.m.length : ℕ)) (by omega) ?_⟩
  rw [h1, hX, Num.abs_val]

theorem toDecConv_eq {s : Sign} {rm : RM} {n K shift acc : Nat} {nw : ℤ} {ix : Bool} {m : Mantissa} {tp : List TenPow} {ds : List Nat}
    (d1 : mantToDec (tenpowers tp K) (K - 1) m (1 <<< K) true = .ok ds) :
    Num.toDecConv s rm n nw shift acc ix m K tp = (Num.toDecTail s rm n nw shift acc ix ds, tenpowers tp K) := by
  unfold Num.toDecConv
  simp only [d1]

theorem nwrk_eq {e : ℤ} {j k p : Nat} (hj : (p : ℤ) - e = j) (hk : k = j * 301029996 / 1000000000 + 1) :
    Int.tdiv (((p : ℤ) - e + (0 : ℕ)) * 301029996) 1000000000 + 1 = (k : ℤ) := by
  have h1 : ((p : ℤ) - e + (0 : ℕ)) = (j : ℤ) := by
    rw [hj]; push_cast; ring
  rw [h1, hk]
  have h3 : (0 : ℤ) ≤ (j : ℤ) * 301029996 := by positivity
  rw [Int.tdiv_eq_ediv_of_nonneg h3]
  omega

theorem toDecBody_eq {x y : Num} {rm : RM} {n p j k shift : Nat} {m : Mantissa} {tp : List TenPow}
    (hj : (p : ℤ) - x.e = j) (hk : k = j * 301029996 / 1000000000 + 1)
    (y1 : ({ x with inexact := false } : Num).toDecScale (k : ℤ) p = .ok (y, 3)) (hye : (p : ℤ) ≤ y.e)
    (hshift : shift = (y.e - (p : ℤ)).toNat) (hm : m = (if shift > 0 then y.m.shiftLeftResize shift else y.m)) :
    x.toDecBody rm n 0 64 p tp = Num.toDecConv x.s rm n k shift 3 y.inexact m (Num.decDepth m.n) tp := by
  have hb : x.toDecBody rm n 0 64 p tp = Num.toDecDigits x.s rm n 64 p k y 3 tp := by
    unfold Num.toDecBody
    simp only [nwrk_eq hj hk, y1]
  rw [hb]
  unfold Num.toDecDigits
  rw [if_neg (show ¬ 3 > 64 by omega), if_neg (not_lt.2 hye)]
  rw [hm, hshift]

/-- One round on a number of full length whose exponent is not above the precision. -/
theorem toDecBody_spec {x : Num} (hx : x.WF) (hx0 : (x.toK : ℚ) ≠ 0) {rm : RM} (hrm : rm ≠ .none)
    {n w j : Nat} (hn : 0 < n) (hw : 64 * w ≤ 2 ^ 30) (hj : ((64 * w : ℕ) : ℤ) - x.e = j) (hj1 : 64 ≤ j) (hj2 : j ≤ 1700000000)
    (hnw : 10 ^ (n + 17) ≤ 2 ^ (64 * w - 1)) {tp : List TenPow} (htp : TenHist tp)
    (hgap : ∀ v : ℕ, v < 2 ^ (64 * w + 10) → |(|x.toK| * 10 ^ (j * 301029996 / 1000000000 + 1) : ℚ) - v| ≤ 2 ^ 13 → GapFree v) :
    ((∃ tp', TenHist tp' ∧ x.toDecBody rm n 0 64 (64 * w) tp = (.more, tp')) ∧ ∃ (z : ℕ) (q : ℤ), 10 ^ (q - 1) ≤ 2 * |(x.toK : ℚ)| ∧
        |(x.toK : ℚ)| < 2 * 10 ^ q ∧ |(|x.toK| : ℚ) - z * 10 ^ (q - n - 1)| < 40000 * 10 ^ q / 2 ^ (64 * w) ∧
        ¬ (128 ≤ 64 * w ∧ 3 * (j * 301029996 / 1000000000 + 1) ≤ 64 * w ∧
          Rep (64 * w) (x.toK * 10 ^ (j * 301029996 / 1000000000 + 1)))) ∨
    ∃ d : Digits, (x.toDecBody rm n 0 64 (64 * w) tp).1 = .done (.ok d) ∧ (d.1 = x.s ∧ EMIN ≤ d.2.2 ∧ d.2.2 ≤ EMAX) ∧ d.2.1.length ≤ n ∧
      (∀ v ∈ d.2.1, v ≤ 9) ∧ RoundsDec rm n x.toK (radixVal 10 d) := by
  set k := j * 301029996 / 1000000000 + 1 with hk
  have hw1 : 1 ≤ w := by
    rcases Nat.eq_zero_or_pos w with h | h
    · subst h
      have : 10 ^ 1 ≤ 10 ^ (n + 17) := Nat.pow_le_pow_right (by norm_num) (by omega)
      simp at hnw this
    · exact h
  obtain ⟨y, shift, m, y1, hye, hshift, hm, hsh, m1, m2, m3, herr, hNlo, hexact, hshort⟩ := toDec_scaled hx hx0 hw1 hw hj hj1 hj2 hk
  set X : ℚ := |x.toK| * 10 ^ k with hX
  have herr13 : |X - val m.m| ≤ 2 ^ 13 := herr.trans (pow_le_pow_right₀ (by norm_num) (by omega))
  have hNhi : val m.m < 2 ^ (64 * w + shift) := by
    rw [← m3, m2]; exact Nat.lt_size_self _
  have hNhi10 : val m.m < 2 ^ (64 * w + 10) := lt_of_lt_of_le hNhi (Nat.pow_le_pow_right (by norm_num) (by omega))
  obtain ⟨ds, d1, d2, d3, d4⟩ := C33_to_dec_partial tp htp m m1 m2 (by omega) (hgap _ hNhi10 herr13)
  -- the number of digits
  have hdlt := digNat_lt (b := 10) (ds := ds) (by norm_num) (fun d h => by have := d3 d h; omega)
  rw [d2] at hdlt
  have hlen1 : n + 17 < ds.length := by
    by_contra hc
    have : 10 ^ ds.length ≤ 10 ^ (n + 17) := Nat.pow_le_pow_right (by norm_num) (by omega)
    omega
  have hdge : 10 ^ (ds.length - 1) ≤ val m.m := by
    rw [← d2]
    cases ds with
    | nil => simp at hlen1
    | cons a l =>
      have ha : a ≠ 0 := by
        intro h; exact d4 (by simp [h])
      simpa using digNat_ge (b := 10) (ds := l) ha
  have hlen2 : ds.length ≤ 2 ^ 30 + 20 := by
    by_contra hc
    have h1 : 2 ^ (ds.length - 1) ≤ 10 ^ (ds.length - 1) := Nat.pow_le_pow_left (by norm_num) _
    have h2 : 2 ^ (64 * w + shift) ≤ 2 ^ (ds.length - 1) := Nat.pow_le_pow_right (by norm_num) (by omega)
    omega
  have hsx : (x.s.toK : ℚ) * X / 10 ^ k = x.toK := by
    rw [hX, ← mul_assoc, mul_div_cancel_right₀ _ (by positivity)]
    rw [Num.abs_val]; unfold Num.toK; ring
  have hbody : x.toDecBody rm n 0 64 (64 * w) tp =
      (Num.toDecTail x.s rm n k shift 3 y.inexact ds, tenpowers tp (Num.decDepth m.n)) :=
    (toDecBody_eq hj hk y1 hye hshift hm).trans (toDecConv_eq d1)
  rw [← d2] at herr
  rcases toDecTail_spec (s := x.s) (k := k) (ix := y.inexact) hrm d3 d4 hn (by omega) hlen2 hsh (by omega) herr
      (fun hi => ⟨by rw [d2]; exact (hexact hi).1, 5 ^ 6, by norm_num, by norm_num, by rw [d2]; exact (hexact hi).2⟩) with
    ⟨t1, t0, z, t2⟩ | ⟨d, t1, t2, t3, t4, t5⟩
  · left
    have hNq : (2 : ℚ) ^ (64 * w - 1) ≤ val m.m := by exact_mod_cast hNlo
    have hp63 : (2 : ℚ) ^ 63 ≤ 2 ^ (64 * w - 1) := pow_le_pow_right₀ (by norm_num) (by omega)
    obtain ⟨e1, e2⟩ := abs_le.1 herr13
    norm_num at e1 e2 hp63
    refine ⟨⟨_, TenHist.request _ htp, by rw [hbody, t1]⟩, z, (ds.length : ℤ) - k, ?_, ?_, ?_, ?_⟩
    · have hq : (10 : ℚ) ^ ((ds.length : ℤ) - k - 1) = 10 ^ (ds.length - 1) / 10 ^ k := by
        rw [← zpow_natCast, ← zpow_natCast, ← zpow_sub₀ (by norm_num)]; congr 1; omega
      rw [hq, div_le_iff₀ (by positivity), mul_assoc, ← hX]
      have h1 : (10 : ℚ) ^ (ds.length - 1) ≤ val m.m := by exact_mod_cast hdge
      linarith
    · have hq : (10 : ℚ) ^ ((ds.length : ℤ) - k) = 10 ^ ds.length / 10 ^ k := by
        rw [← zpow_natCast, ← zpow_natCast, ← zpow_sub₀ (by norm_num)]
      rw [hq, mul_div_assoc', lt_div_iff₀ (by positivity), ← hX]
      have h1 : (val m.m : ℚ) < 10 ^ ds.length := by exact_mod_cast hdlt
      linarith
    · have hq : (10 : ℚ) ^ ((ds.length : ℤ) - k - n - 1) = 10 ^ (ds.length - n - 1) / 10 ^ k := by
        rw [← zpow_natCast, ← zpow_natCast, ← zpow_sub₀ (by norm_num)]; congr 1; omega
      have hq2 : (10 : ℚ) ^ ((ds.length : ℤ) - k) = 10 ^ ds.length / 10 ^ k := by
        rw [← zpow_natCast, ← zpow_natCast, ← zpow_sub₀ (by norm_num)]
      have h2 : |(|x.toK| : ℚ) - z * 10 ^ ((ds.length : ℤ) - k - n - 1)| = |X - z * 10 ^ (ds.length - n - 1)| / 10 ^ k := by
        rw [hq, hX, ← abs_of_pos (show (0 : ℚ) < 10 ^ k by positivity), ← abs_div, abs_of_pos (show (0 : ℚ) < 10 ^ k by positivity)]
        congr 1
        field_simp
      rw [h2, hq2, mul_div_assoc', div_right_comm]
      refine div_lt_div_of_pos_right (lt_of_lt_of_le t2 ?_) (by positivity)
      rw [le_div_iff₀ (by positivity)]
      have h1 : (val m.m : ℚ) < 10 ^ ds.length := by exact_mod_cast hdlt
      have h3 : (2 : ℚ) ^ (64 * w) = 2 * 2 ^ (64 * w - 1) := by rw [← pow_succ']; congr 1; omega
      linarith
    · rintro ⟨i1, i2, i3⟩
      rw [hshort i1 i2 i3] at t0
      cases t0
  · right
    rw [hsx] at t5
    exact ⟨d, by rw [hbody, t1], t2, t3, t4, t5⟩

theorem roundP_dec {p : Nat} (h : p ≤ 2 ^ 31) : roundP p = 64 * ((p + 63) / 64) := by
  unfold roundP USIZE_MAX; omega

/-- The loop: it stops at the latest when the working precision shows that the number is not close to a short
decimal, or when the scaled number is exact. -/
theorem toDecLoop_spec {x : Num} (hx : x.WF) (hx0 : (x.toK : ℚ) ≠ 0) (he : -600000000 ≤ x.e) {rm : RM} (hrm : rm ≠ .none)
    {n Q W : Nat} (hn : 0 < n) (hQ : Q ≤ 2 ^ 30)
    (hgap : ∀ k v : ℕ, v < 2 ^ (Q + 10) → |(|x.toK| * 10 ^ k : ℚ) - v| ≤ 2 ^ 13 → GapFree v)
    (hstop : (∀ (z : ℕ) (q : ℤ), 10 ^ (q - 1) ≤ 2 * |(x.toK : ℚ)| → |(x.toK : ℚ)| < 2 * 10 ^ q →
        40000 * 10 ^ q / 2 ^ W ≤ |(|x.toK| : ℚ) - z * 10 ^ (q - n - 1)|) ∨
      ∀ w j : ℕ, W ≤ 64 * w → ((64 * w : ℕ) : ℤ) - x.e = j → 3 * (j * 301029996 / 1000000000 + 1) ≤ 64 * w ∧
        Rep (64 * w) (x.toK * 10 ^ (j * 301029996 / 1000000000 + 1))) (g : Nat) :
    ∀ (f w c : Nat) (tp : List TenPow), TenHist tp → 3 ≤ w → 1 ≤ c → 2 * c ≤ w → 64 * w * 3 ^ f ≤ Q * 2 ^ f →
      x.e + 64 ≤ (64 * w : ℕ) → 10 ^ (n + 17) ≤ 2 ^ (64 * w - 1) → W ≤ 64 * w + 64 * f →
      ∃ d : Digits, (x.toDecLoop rm n 0 (f + 1 + g) 64 (64 * w) (64 * c) tp).1 = .ok d ∧ (d.1 = x.s ∧ EMIN ≤ d.2.2 ∧ d.2.2 ≤ EMAX) ∧ d.2.1.length ≤ n ∧
        (∀ v ∈ d.2.1, v ≤ 9) ∧ RoundsDec rm n x.toK (radixVal 10 d) := by
  intro f
  induction f with
  | zero =>
    intro w c tp htp hw hc1 hc2 hwQ hex hnw hW
    simp only [pow_zero, mul_one] at hwQ
    obtain ⟨j, hj⟩ : ∃ j : ℕ, ((64 * w : ℕ) : ℤ) - x.e = j := ⟨(((64 * w : ℕ) : ℤ) - x.e).toNat, by omega⟩
    rcases toDecBody_spec hx hx0 hrm hn (by omega) hj (by omega) (by omega) hnw htp
      (fun v hv h => hgap _ v (lt_of_lt_of_le hv (Nat.pow_le_pow_right (by norm_num) (by omega))) h) with
      ⟨_, z, q, z1, z2, z3, z4⟩ | ⟨d, d1, d2⟩
    · exfalso
      rcases hstop with hfar | hsh
      swap
      · exact z4 ⟨by omega, hsh w j (by omega) hj⟩
      have h1 := hfar z q z1 z2
      have h2 : (40000 * 10 ^ q / 2 ^ (64 * w) : ℚ) ≤ 40000 * 10 ^ q / 2 ^ W :=
        div_le_div_of_nonneg_left (by positivity) (by positivity) (pow_le_pow_right₀ (by norm_num) (by omega))
      linarith
    · refine ⟨d, ?_, d2⟩
      rw [show 0 + 1 + g = g + 1 by ring]
      unfold Num.toDecLoop
      generalize x.toDecBody rm n 0 64 (64 * w) tp = b at d1
      rcases b with ⟨b1, b2⟩
      dsimp only at d1
      subst d1
      rfl
  | succ f ih =>
    intro w c tp htp hw hc1 hc2 hwQ hex hnw hW
    have h23 : 2 ^ (f + 1) ≤ 3 ^ (f + 1) := Nat.pow_le_pow_left (by norm_num) _
    have hwQ' : 64 * w ≤ Q := by
      by_contra hc
      have h1 : (Q + 1) * 3 ^ (f + 1) ≤ 64 * w * 3 ^ (f + 1) := Nat.mul_le_mul_right _ (by omega)
      have h2 : (Q + 1) * 2 ^ (f + 1) ≤ (Q + 1) * 3 ^ (f + 1) := Nat.mul_le_mul_left _ h23
      have h3 : 0 < 2 ^ (f + 1) := by positivity
      nlinarith
    obtain ⟨j, hj⟩ : ∃ j : ℕ, ((64 * w : ℕ) : ℤ) - x.e = j := ⟨(((64 * w : ℕ) : ℤ) - x.e).toNat, by omega⟩
    rcases toDecBody_spec hx hx0 hrm hn (by omega) hj (by omega) (by omega) hnw htp
      (fun v hv h => hgap _ v (lt_of_lt_of_le hv (Nat.pow_le_pow_right (by norm_num) (by omega))) h) with
      ⟨⟨tp', htp', hb⟩, _⟩ | ⟨d, d1, d2⟩
    · have hrp : roundP ((64 * w + 64 * c) / 5) = 64 * (((64 * w + 64 * c) / 5 + 63) / 64) := roundP_dec (by omega)
      obtain ⟨d, d1, d2⟩ := ih (w + c) (((64 * w + 64 * c) / 5 + 63) / 64) tp' htp' (by omega) (by omega) (by omega)
        (by
          have h3 : 0 < 3 ^ f := by positivity
          rw [pow_succ, pow_succ] at hwQ
          have : (w + c) * 2 ≤ w * 3 := by omega
          have h4 : (w + c) * 2 * 3 ^ f ≤ w * 3 * 3 ^ f := Nat.mul_le_mul_right _ this
          nlinarith) (by push_cast at hex ⊢; omega)
        (hnw.trans (Nat.pow_le_pow_right (by norm_num) (by omega))) (by omega)
      refine ⟨d, ?_, d2⟩
      rw [show f + 1 + 1 + g = (f + 1 + g) + 1 by ring]
      unfold Num.toDecLoop
      rw [hb]
      dsimp only
      rw [hrp, ← Nat.mul_add]
      rw [← Nat.mul_add] at d1
      exact d1
    · refine ⟨d, ?_, d2⟩
      rw [show f + 1 + 1 + g = (f + 1 + g) + 1 by ring]
      unfold Num.toDecLoop
      generalize x.toDecBody rm n 0 64 (64 * w) tp = b at d1
      rcases b with ⟨b1, b2⟩
      dsimp only at d1
      subst d1
      rfl

/-- The whole conversion. -/
theorem convToDec_stop {x : Num} (hx : x.WF) (hx0 : (x.toK : ℚ) ≠ 0) (he1 : -600000000 ≤ x.e)
    (hl : 64 * x.m.m.length ≤ 2 ^ 28) {rm : RM} (hrm : rm ≠ .none)
    {tp : List TenPow} (htp : TenHist tp) {n p f : Nat} (hn : n = decDigits (64 * x.m.m.length)) (hp : p = decStart n)
    (he2 : x.e + 64 ≤ p)
    (hf : f < 400) (hfp : p * 3 ^ f < 2 ^ 30 * 2 ^ f)
    (hgap : ∀ k v : ℕ, v < 2 ^ (p * 3 ^ f / 2 ^ f + 11) → |(|x.toK| * 10 ^ k : ℚ) - v| ≤ 2 ^ 13 → GapFree v)
    (hstop : (∀ (z : ℕ) (q : ℤ), 10 ^ (q - 1) ≤ 2 * |(x.toK : ℚ)| → |(x.toK : ℚ)| < 2 * 10 ^ q →
        40000 * 10 ^ q / 2 ^ (p + 64 * f) ≤ |(|x.toK| : ℚ) - z * 10 ^ (q - n - 1)|) ∨
      ∀ w j : ℕ, p + 64 * f ≤ 64 * w → ((64 * w : ℕ) : ℤ) - x.e = j → 3 * (j * 301029996 / 1000000000 + 1) ≤ 64 * w ∧
        Rep (64 * w) (x.toK * 10 ^ (j * 301029996 / 1000000000 + 1))) :
    ∃ d : Digits, (x.convToDec rm tp).1 = .ok d ∧ (d.1 = x.s ∧ EMIN ≤ d.2.2 ∧ d.2.2 ≤ EMAX) ∧ d.2.1.length ≤ n ∧
      (∀ v ∈ d.2.1, v ≤ 9) ∧ RoundsDec rm n x.toK (radixVal 10 d) := by
  have hEM : EMIN = -2147483648 := rfl
  obtain ⟨hxn, _⟩ := normal_of_e hx hx0 (by omega)
  have hlen0 : 0 < x.m.m.length := by
    rcases Nat.eq_zero_or_pos x.m.m.length with h | h
    · exfalso
      apply hx0
      unfold Num.toK
      rw [List.length_eq_zero_iff.1 h]; simp [val]
    · exact h
  have hnb : n ≤ 600000000 := by rw [hn]; unfold decDigits; omega
  have h3 := ten_pow_start hnb
  have hw : p = 64 * ((n * 3321928095 / 1000000000 + 65 + 63) / 64) := by rw [hp]; rfl
  set w := (n * 3321928095 / 1000000000 + 65 + 63) / 64 with hwd
  have hn1 : n = 64 * x.m.m.length * 301029996 / 1000000000 + 1 := by rw [hn]; rfl
  have hconv : x.convToDec rm tp = x.toDecLoop rm n 0 400 64 (64 * w) 64 tp := by
    unfold Num.convToDec
    rw [if_neg (by omega)]
    have h4 : x.m.maxBitLen = 64 * x.m.m.length := by unfold Mantissa.maxBitLen; omega
    dsimp only
    rw [h4, hxn, Nat.sub_self, ← hn1, roundP_dec (by omega), hwd]
  rw [hconv, show 400 = f + 1 + (399 - f) by omega, show (64 : ℕ) = 64 * 1 by rfl]
  refine toDecLoop_spec hx hx0 he1 hrm (Q := p * 3 ^ f / 2 ^ f + 1) (W := p + 64 * f) (by omega) ?_
    (fun k v hv => hgap k v (by rwa [show p * 3 ^ f / 2 ^ f + 1 + 10 = p * 3 ^ f / 2 ^ f + 11 by ring] at hv)) hstop (399 - f) f w 1 tp htp (by omega)
    (by omega) (by omega) ?_ (by omega) ?_ (by omega)
  · have : p * 3 ^ f / 2 ^ f < 2 ^ 30 := Nat.div_lt_of_lt_mul (by rw [Nat.mul_comm (2 ^ f)]; exact hfp)
    omega
  · rw [← hw]
    have h5 := Nat.lt_div_mul_add (a := p * 3 ^ f) (b := 2 ^ f) (by positivity)
    rw [Nat.add_mul, one_mul]
    omega
  · have h5 : (10 : ℕ) ^ 17 ≤ 2 ^ 57 := by norm_num
    calc 10 ^ (n + 17) = 10 ^ n * 10 ^ 17 := by rw [pow_add]
      _ ≤ 2 ^ (n * 3321928095 / 1000000000 + 5) * 2 ^ 57 := Nat.mul_le_mul h3 h5
      _ = 2 ^ (n * 3321928095 / 1000000000 + 62) := by rw [← pow_add]
      _ ≤ _ := Nat.pow_le_pow_right (by norm_num) (by omega)

theorem decStart_ge {x : Num} (he : x.e ≤ (64 * x.m.m.length : ℕ)) :
    x.e + 64 ≤ (decStart (decDigits (64 * x.m.m.length)) : ℤ) := by
  unfold decStart decDigits
  omega

/-- A number that is not a short decimal is not close to one either. -/
theorem far_of_not_short {x : Num} (hx : x.WF) (he2 : x.e ≤ (64 * x.m.m.length : ℕ)) (hl : 64 * x.m.m.length ≤ 2 ^ 28)
    {n p f : Nat} (hn : n = decDigits (64 * x.m.m.length)) (hp : p = decStart n)
    (hef : ((64 * x.m.m.length : ℕ) : ℤ) - x.e ≤ 40 + 64 * f) {z : ℕ} {q : ℤ} (h1 : 10 ^ (q - 1) ≤ 2 * |(x.toK : ℚ)|)
    (hne : |(x.toK : ℚ)| ≠ z * 10 ^ (q - n - 1)) :
    40000 * 10 ^ q / 2 ^ (p + 64 * f) ≤ |(|x.toK| : ℚ) - z * 10 ^ (q - n - 1)| := by
  obtain ⟨t, ht⟩ : ∃ t : ℕ, ((64 * x.m.m.length : ℕ) : ℤ) - x.e = t := ⟨(((64 * x.m.m.length : ℕ) : ℤ) - x.e).toNat, by omega⟩
  have hnb : n ≤ 600000000 := by rw [hn]; unfold decDigits; omega
  have h3 := ten_pow_start hnb
  have hW : (10 : ℚ) ^ n * 2 ^ 20 * 2 ^ t ≤ 2 ^ (p + 64 * f) := by
    have h4 : 10 ^ n * 2 ^ 20 * 2 ^ t ≤ 2 ^ (p + 64 * f) := by
      calc 10 ^ n * 2 ^ 20 * 2 ^ t ≤ 2 ^ (n * 3321928095 / 1000000000 + 5) * 2 ^ 20 * 2 ^ t :=
            Nat.mul_le_mul_right _ (Nat.mul_le_mul_right _ h3)
        _ = 2 ^ (n * 3321928095 / 1000000000 + 5 + 20 + t) := by rw [← pow_add, ← pow_add]
        _ ≤ _ := Nat.pow_le_pow_right (by norm_num) (by rw [hp]; unfold decStart; omega)
    exact_mod_cast h4
  have habs : |(x.toK : ℚ)| = val x.m.m / 2 ^ t := by
    rw [Num.abs_val, show x.e - (64 * x.m.m.length : ℕ) = -(t : ℤ) by omega, zpow_neg, zpow_natCast]; rfl
  have h2t : (0 : ℚ) < 2 ^ t := by positivity
  have h2W : (0 : ℚ) < 2 ^ (p + 64 * f) := by positivity
  have h10n : (0 : ℚ) < 10 ^ n := by positivity
  have hint : ∀ a b : ℤ, a ≠ b → (1 : ℚ) ≤ |(a : ℚ) - b| := by
    intro a b hab
    have : 1 ≤ |a - b| := Int.one_le_abs (sub_ne_zero.2 hab)
    exact_mod_cast this
  rcases le_total 0 (q - n - 1) with hj | hj
  · obtain ⟨j, hj'⟩ := Int.eq_ofNat_of_zero_le hj
    rw [hj', zpow_natCast] at hne ⊢
    have hd : |(|x.toK| : ℚ) - z * 10 ^ j| = |((val x.m.m : ℤ) : ℚ) - ((z * 10 ^ j * 2 ^ t : ℤ) : ℚ)| / 2 ^ t := by
      rw [habs, ← abs_of_pos h2t, ← abs_div, abs_of_pos h2t]
      congr 1
      push_cast
      field_simp
    have h5 : (1 : ℚ) ≤ |((val x.m.m : ℤ) : ℚ) - ((z * 10 ^ j * 2 ^ t : ℤ) : ℚ)| := by
      refine hint _ _ fun h => hne ?_
      have h' : (val x.m.m : ℚ) = z * 10 ^ j * 2 ^ t := by exact_mod_cast h
      rw [habs, h']
      field_simp
    rw [hd]
    have hq : (10 : ℚ) ^ q < 20 * 10 ^ n := by
      have h6 : |(x.toK : ℚ)| < 2 ^ (64 * x.m.m.length) := by
        refine lt_of_lt_of_le hx.abs_lt_zpow ?_
        rw [← zpow_natCast]
        exact zpow_le_zpow_right₀ (by norm_num) (by exact_mod_cast he2)
      have h7 : (2 : ℚ) ^ (64 * x.m.m.length) < 10 ^ n := by
        rw [hn]; exact_mod_cast two_pow_lt_ten_pow (64 * x.m.m.length)
      have h8 : (10 : ℚ) ^ q = 10 * 10 ^ (q - 1) := by
        rw [← zpow_one_add₀ (by norm_num)]; congr 1; ring
      linarith
    rw [div_le_div_iff₀ h2W h2t]
    have h9 : 40000 * (10 : ℚ) ^ q * 2 ^ t ≤ 40000 * (20 * 10 ^ n) * 2 ^ t := by
      have := mul_le_mul_of_nonneg_right hq.le h2t.le
      linarith
    have h10 : (0 : ℚ) < 10 ^ n * 2 ^ t := by positivity
    have h11 : (2 : ℚ) ^ (p + 64 * f) ≤ |((val x.m.m : ℤ) : ℚ) - ((z * 10 ^ j * 2 ^ t : ℤ) : ℚ)| * 2 ^ (p + 64 * f) :=
      le_mul_of_one_le_left h2W.le h5
    linarith
  · obtain ⟨j, hj'⟩ := Int.eq_ofNat_of_zero_le (neg_nonneg.2 hj)
    have hj2 : q - n - 1 = -(j : ℤ) := by omega
    have h10j : (0 : ℚ) < 10 ^ j := by positivity
    rw [hj2, zpow_neg, zpow_natCast] at hne ⊢
    have hd : |(|x.toK| : ℚ) - z * (10 ^ j)⁻¹| = |((val x.m.m * 10 ^ j : ℤ) : ℚ) - ((z * 2 ^ t : ℤ) : ℚ)| / (2 ^ t * 10 ^ j) := by
      rw [habs, ← abs_of_pos (show (0 : ℚ) < 2 ^ t * 10 ^ j by positivity), ← abs_div]
      congr 1
      push_cast
      field_simp
    have h5 : (1 : ℚ) ≤ |((val x.m.m * 10 ^ j : ℤ) : ℚ) - ((z * 2 ^ t : ℤ) : ℚ)| := by
      refine hint _ _ fun h => hne ?_
      have h' : (val x.m.m : ℚ) * 10 ^ j = z * 2 ^ t := by exact_mod_cast h
      rw [habs, div_eq_iff h2t.ne']
      field_simp
      linarith
    rw [hd, div_le_div_iff₀ h2W (by positivity)]
    have hq : (10 : ℚ) ^ q * 10 ^ j = 10 * 10 ^ n := by
      rw [← zpow_natCast, ← zpow_natCast, ← zpow_add₀ (by norm_num), ← zpow_one_add₀ (by norm_num)]
      congr 1; omega
    have h11 : (2 : ℚ) ^ (p + 64 * f) ≤ |((val x.m.m * 10 ^ j : ℤ) : ℚ) - ((z * 2 ^ t : ℤ) : ℚ)| * 2 ^ (p + 64 * f) :=
      le_mul_of_one_le_left h2W.le h5
    have h12 : 40000 * (10 : ℚ) ^ q * (2 ^ t * 10 ^ j) = 400000 * (10 ^ n * 2 ^ t) := by linear_combination 40000 * 2 ^ t * hq
    have h10 : (0 : ℚ) < 10 ^ n * 2 ^ t := by positivity
    rw [h12]
    linarith

theorem five_pow_lt (k : Nat) : (5 : ℤ) ^ k ≤ 2 ^ (7 * ((k + 2) / 3)) := by
  calc (5 : ℤ) ^ k ≤ 5 ^ (3 * ((k + 2) / 3)) := pow_le_pow_right₀ (by norm_num) (by omega)
    _ = (5 ^ 3) ^ ((k + 2) / 3) := by rw [pow_mul]
    _ ≤ (2 ^ 7) ^ ((k + 2) / 3) := pow_le_pow_left₀ (by norm_num) (by norm_num) _
    _ = _ := by rw [← pow_mul]

/-- A number with few significant bits is scaled without error. -/
theorem short_exact {x : Num} {b W : Nat} {m a : ℤ} (hm : (x.toK : ℚ) = m * 2 ^ a) (hb : |m| < 2 ^ b)
    (he : 40 ≤ (W : ℤ) + 10 * x.e) (hbW : 1000 * (b : ℤ) + 7000 ≤ 297 * W + 702 * x.e) :
    ∀ w j : ℕ, W ≤ 64 * w → ((64 * w : ℕ) : ℤ) - x.e = j → 3 * (j * 301029996 / 1000000000 + 1) ≤ 64 * w ∧
      Rep (64 * w) (x.toK * 10 ^ (j * 301029996 / 1000000000 + 1)) := by
  intro w j hW hj
  refine ⟨by omega, ?_⟩
  set k := j * 301029996 / 1000000000 + 1 with hk
  refine ⟨m * 5 ^ k, a + k, ?_, ?_⟩
  · rw [hm, show (10 : ℚ) = 5 * 2 by norm_num, mul_pow, zpow_add₀ (by norm_num), zpow_natCast]
    push_cast
    ring
  · rw [abs_mul, abs_of_pos (show (0 : ℤ) < 5 ^ k by positivity)]
    calc |m| * 5 ^ k < 2 ^ b * 5 ^ k := mul_lt_mul_of_pos_right hb (by positivity)
      _ ≤ 2 ^ b * 2 ^ (7 * ((k + 2) / 3)) := mul_le_mul_of_nonneg_left (five_pow_lt k) (by positivity)
      _ = 2 ^ (b + 7 * ((k + 2) / 3)) := by rw [pow_add]
      _ ≤ _ := pow_le_pow_right₀ (by norm_num) (by omega)

end AF
