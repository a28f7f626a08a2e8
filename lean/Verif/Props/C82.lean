import Verif.Model.Convert
import Verif.Props.C22
import Verif.Props.C07
import Verif.Lemmas.Cmp
/-!
# C82: `From` and `from_ext` round the primitive value to the requested precision

`BigFloat::from(v)` is exact and `from_ext(v, p, rm)` is the value of `v` rounded to `p` bits, for every primitive number
type. False in the code for the subnormal values of `f64`, which are halved (`C82_subnormal_refuted`, as in C22), and for
`BigFloat` arguments whose rounding overflows: they give NaN and not the infinity (`C82_overflow_refuted`).
-/

namespace AF

/-- The value of a finite binary32 bit pattern (IEEE 754). -/
def f32Val (u : Nat) : ℚ :=
  (if u / 2 ^ 31 = 1 then -1 else 1) *
    (if u / 2 ^ 23 % 2 ^ 8 = 0 then (u % 2 ^ 23 : ℕ) * (2 : ℚ) ^ (-149 : ℤ)
     else (2 ^ 23 + u % 2 ^ 23 : ℕ) * (2 : ℚ) ^ ((u / 2 ^ 23 % 2 ^ 8 : ℕ) - 150 : ℤ))

/-- `a` is a value of its type and stands for the rational number `X`. -/
inductive Prim.Is : Prim → ℚ → Prop
  | f32 (u : Nat) (h : u < 2 ^ 32) (hf : u / 2 ^ 23 % 2 ^ 8 ≠ 255) : Prim.Is (.f32 u) (f32Val u)
  | f64 (u : Nat) (h : u < 2 ^ 64) (hf : u / 2 ^ 52 % 2 ^ 11 ≠ 2047) : Prim.Is (.f64 u) (f64Val u)
  | uint (sz u : Nat) (hsz : sz ∈ [8, 16, 32, 64]) (h : u < 2 ^ sz) : Prim.Is (.uint sz u) u
  | int (sz : Nat) (i : ℤ) (hsz : sz ∈ [8, 16, 32, 64]) (h1 : -2 ^ (sz - 1) ≤ i) (h2 : i < 2 ^ (sz - 1)) :
      Prim.Is (.int sz i) i
  | u128 (u : Nat) (h : u < 2 ^ 128) : Prim.Is (.u128 u) u
  | i128 (i : ℤ) (h1 : -2 ^ 127 ≤ i) (h2 : i < 2 ^ 127) : Prim.Is (.i128 i) i

/-- A subnormal `f64`. -/
def Prim.Sub64 (a : Prim) : Prop := ∃ u, a = .f64 u ∧ u / 2 ^ 52 % 2 ^ 11 = 0 ∧ u % 2 ^ 52 ≠ 0

theorem f64_fields {s E G : Nat} (hs : s < 2) (hE : E < 2 ^ 11) (hG : G < 2 ^ 52) :
    s * 2 ^ 63 + E * 2 ^ 52 + G < 2 ^ 64 ∧ (s * 2 ^ 63 + E * 2 ^ 52 + G) / 2 ^ 63 = s ∧
    (s * 2 ^ 63 + E * 2 ^ 52 + G) / 2 ^ 52 % 2 ^ 11 = E ∧ (s * 2 ^ 63 + E * 2 ^ 52 + G) % 2 ^ 52 = G := by
  refine ⟨by omega, by omega, by omega, by omega⟩

/-- The conversion of the language is exact, and its result is zero or normal. -/
theorem f32ToF64_spec {u : Nat} (h : u < 2 ^ 32) (hf : u / 2 ^ 23 % 2 ^ 8 ≠ 255) :
    f32ToF64 u < 2 ^ 64 ∧ f32ToF64 u / 2 ^ 52 % 2 ^ 11 ≠ 2047 ∧
      (f32ToF64 u / 2 ^ 52 % 2 ^ 11 ≠ 0 ∨ f32ToF64 u % 2 ^ 63 = 0) ∧ f64Val (f32ToF64 u) = f32Val u := by
  obtain ⟨s, hs⟩ : ∃ s, s = u / 2 ^ 31 := ⟨_, rfl⟩
  obtain ⟨E, hE⟩ : ∃ E, E = u / 2 ^ 23 % 2 ^ 8 := ⟨_, rfl⟩
  obtain ⟨F, hF⟩ : ∃ F, F = u % 2 ^ 23 := ⟨_, rfl⟩
  have hs2 : s < 2 := by omega
  have hE2 : E < 2 ^ 8 := by omega
  have hF2 : F < 2 ^ 23 := by omega
  unfold f32ToF64 f32Val
  rw [← hs, ← hE, ← hF]
  rw [← hE] at hf
  dsimp only
  rw [if_neg hf]
  clear hs hE hF
  by_cases hE0 : E = 0
  · subst hE0
    rw [if_neg (by simp)]
    by_cases hF0 : F = 0
    · subst hF0
      rw [if_pos rfl]
      obtain ⟨f1, f2, f3, f4⟩ := f64_fields hs2 (E := 0) (by norm_num) (G := 0) (by norm_num)
      simp only [zero_mul, add_zero] at f1 f2 f3 f4
      refine ⟨f1, by rw [f3]; norm_num, Or.inr (by omega), ?_⟩
      unfold f64Val
      rw [f2, f3, f4]
      simp
    · rw [if_neg hF0]
      obtain ⟨k, hk⟩ : ∃ k, k = F.log2 := ⟨_, rfl⟩
      have k1 : 2 ^ k ≤ F := by rw [hk]; exact Nat.log2_self_le hF0
      have k2 : F < 2 ^ (k + 1) := by rw [hk]; exact Nat.lt_log2_self
      rw [← hk]
      have k3 : k < 23 := (Nat.pow_lt_pow_iff_right (by norm_num : 1 < 2)).1 (lt_of_le_of_lt k1 hF2)
      have hG : (F - 2 ^ k) * 2 ^ (52 - k) < 2 ^ 52 := by
        have e1 : 2 ^ 52 = 2 ^ k * 2 ^ (52 - k) := by rw [← pow_add]; congr 1; omega
        rw [e1]
        exact Nat.mul_lt_mul_of_pos_right (by rw [pow_succ] at k2; omega) (by positivity)
      obtain ⟨f1, f2, f3, f4⟩ := f64_fields hs2 (E := k + 874) (by omega) hG
      refine ⟨f1, by rw [f3]; omega, Or.inl (by rw [f3]; omega), ?_⟩
      unfold f64Val
      rw [f2, f3, f4, if_neg (show ¬ k + 874 = 0 by omega), if_pos (rfl : 0 = 0)]
      congr 1
      have e2 : 2 ^ 52 + (F - 2 ^ k) * 2 ^ (52 - k) = F * 2 ^ (52 - k) := by
        have e1 : 2 ^ 52 = 2 ^ k * 2 ^ (52 - k) := by rw [← pow_add]; congr 1; omega
        rw [e1, ← add_mul]
        congr 1
        omega
      rw [e2, Nat.cast_mul, Nat.cast_pow, Nat.cast_ofNat, mul_assoc, ← zpow_natCast, ← zpow_add₀ (by norm_num)]
      rw [show (((52 - k : ℕ) : ℤ) + (((k + 874 : ℕ) : ℤ) - 1075)) = -149 by omega]
  · rw [if_pos hE0, if_neg hE0]
    obtain ⟨f1, f2, f3, f4⟩ := f64_fields hs2 (E := E + 896) (by omega) (G := F * 2 ^ 29) (by omega)
    refine ⟨f1, by rw [f3]; omega, Or.inl (by rw [f3]; omega), ?_⟩
    unfold f64Val
    rw [f2, f3, f4, if_neg (show ¬ E + 896 = 0 by omega)]
    congr 1
    have e2 : 2 ^ 52 + F * 2 ^ 29 = (2 ^ 23 + F) * 2 ^ 29 := by omega
    rw [e2, Nat.cast_mul, Nat.cast_pow, Nat.cast_ofNat, mul_assoc, ← zpow_natCast, ← zpow_add₀ (by norm_num)]
    rw [show (((29 : ℕ) : ℤ) + (((E + 896 : ℕ) : ℤ) - 1075)) = (E : ℤ) - 150 by push_cast; ring]

theorem scaled_bounds {n : Nat} (h0 : n ≠ 0) (h1 : n ≤ 2 ^ 53) {k : ℤ} (hk : -1074 ≤ k) (hk' : k ≤ 971) :
    (2 : ℚ) ^ (-1074 : ℤ) ≤ n * 2 ^ k ∧ (n : ℚ) * 2 ^ k ≤ 2 ^ (1024 : ℤ) := by
  have p2 : (0 : ℚ) < 2 ^ k := by positivity
  constructor
  · refine le_trans (zpow_le_zpow_right₀ (by norm_num) hk) ?_
    have : (1 : ℚ) ≤ n := by exact_mod_cast Nat.one_le_iff_ne_zero.2 h0
    nlinarith
  · refine le_trans (mul_le_mul_of_nonneg_right (show (n : ℚ) ≤ 2 ^ (53 : ℤ) by exact_mod_cast h1) p2.le) ?_
    rw [← zpow_add₀ (by norm_num)]
    exact zpow_le_zpow_right₀ (by norm_num) (by omega)

theorem f64Val_bounds {u : Nat} (hf : u / 2 ^ 52 % 2 ^ 11 ≠ 2047) :
    f64Val u = 0 ∨ (2 : ℚ) ^ (-1074 : ℤ) ≤ |f64Val u| ∧ |f64Val u| ≤ 2 ^ (1024 : ℤ) := by
  have habs : ∀ x : ℚ, |(if u / 2 ^ 63 = 1 then (-1 : ℚ) else 1) * x| = |x| := by
    intro x; split <;> simp
  unfold f64Val
  rw [habs]
  have hG : u % 2 ^ 52 < 2 ^ 52 := Nat.mod_lt _ (by positivity)
  have hE : u / 2 ^ 52 % 2 ^ 11 < 2 ^ 11 := Nat.mod_lt _ (by positivity)
  generalize u % 2 ^ 52 = G at *
  generalize u / 2 ^ 52 % 2 ^ 11 = E at *
  by_cases hE0 : E = 0
  · rw [if_pos hE0]
    by_cases hG0 : G = 0
    · left; rw [hG0]; simp
    · right
      rw [abs_of_nonneg (by positivity)]
      exact scaled_bounds hG0 (by omega) le_rfl (by norm_num)
  · rw [if_neg hE0]
    right
    rw [abs_of_nonneg (by positivity)]
    exact scaled_bounds (by omega) (by omega) (by omega) (by omega)

theorem int_bounds {i : ℤ} (h1 : |i| ≤ 2 ^ 128) :
    (i : ℚ) = 0 ∨ (2 : ℚ) ^ (-1074 : ℤ) ≤ |(i : ℚ)| ∧ |(i : ℚ)| ≤ 2 ^ (1024 : ℤ) := by
  by_cases h : i = 0
  · left; exact_mod_cast h
  · right
    have h2 : (1 : ℚ) ≤ |(i : ℚ)| := by exact_mod_cast Int.one_le_abs h
    have h3 : |(i : ℚ)| ≤ 2 ^ (128 : ℤ) := by exact_mod_cast h1
    constructor
    · refine le_trans ?_ h2
      rw [← zpow_zero (2 : ℚ)]
      exact zpow_le_zpow_right₀ (by norm_num) (by norm_num)
    · exact le_trans h3 (zpow_le_zpow_right₀ (by norm_num) (by norm_num))

theorem Prim.Is.bounds {a : Prim} {X : ℚ} (h : a.Is X) :
    X = 0 ∨ (2 : ℚ) ^ (-1074 : ℤ) ≤ |X| ∧ |X| ≤ 2 ^ (1024 : ℤ) := by
  have hpow : ∀ sz ∈ [8, 16, 32, 64], sz ≤ 64 := by decide
  cases h with
  | f32 u h hf =>
    obtain ⟨_, h2, _, h4⟩ := f32ToF64_spec h hf
    rw [← h4]
    exact f64Val_bounds h2
  | f64 u h hf => exact f64Val_bounds hf
  | uint sz u hsz h =>
    have h1 : 2 ^ sz ≤ 2 ^ 64 := Nat.pow_le_pow_right (by norm_num) (hpow _ hsz)
    have := int_bounds (i := (u : ℤ)) (by rw [abs_of_nonneg (by positivity)]; omega)
    rwa [Int.cast_natCast] at this
  | int sz i hsz h1 h2 =>
    have h3 : (2 : ℤ) ^ (sz - 1) ≤ 2 ^ 64 := pow_le_pow_right₀ (by norm_num) (by have := hpow _ hsz; omega)
    exact int_bounds (abs_le.2 ⟨by omega, by omega⟩)
  | u128 u h =>
    have := int_bounds (i := (u : ℤ)) (by rw [abs_of_nonneg (by positivity)]; omega)
    rwa [Int.cast_natCast] at this
  | i128 i h1 h2 => exact int_bounds (abs_le.2 ⟨by omega, by omega⟩)

theorem fromF64_finite (u : Nat) (hu : u < 2 ^ 64) (hf : u / 2 ^ 52 % 2 ^ 11 ≠ 2047)
    (hn : u / 2 ^ 52 % 2 ^ 11 ≠ 0 ∨ u % 2 ^ 63 = 0) (p : Nat) (hp : 0 < p) (hpm : p < 2 ^ 62 - 2 ^ 31 - 1) :
    ∃ v, Num.fromF64 p u = .ok v ∧ v.WF ∧ (v.toK : ℚ) = f64Val u ∧ v.inexact = false := by
  by_cases h0 : u / 2 ^ 52 % 2 ^ 11 = 0
  · have hm : u % 2 ^ 63 = 0 := by
      rcases hn with hn | hn
      · exact absurd h0 hn
      · exact hn
    refine ⟨Num.zero 0 .pos false, ?_, Num.WF_of_check (by decide), ?_, rfl⟩
    · rw [← PMAX_eq] at hpm
      unfold Num.fromF64
      rw [if_neg (by omega)]
      dsimp only
      rw [if_pos hm]
      rfl
    · rw [zero_toK]
      unfold f64Val
      rw [if_pos h0, show u % 2 ^ 52 = 0 by omega]
      simp
  · obtain ⟨v, h1, h2, _, h4, h5⟩ := C22_from_f64_partial u hu h0 hf p hp hpm
    refine ⟨v, ?_, h2, h4, h5⟩
    unfold BF.fromF64 BF.resultToExt at h1
    split at h1 <;> first | (injection h1 with h1; subst h1; assumption) | (repeat' split at h1) <;> cases h1

/-- `BigFloat::from` is exact. Missing from the full claim: the subnormal values of `f64` (false). -/
theorem C82_from_partial (a : Prim) (X : ℚ) (h : a.Is X) (hs : ¬ a.Sub64) :
    ∃ v, BF.fromPrim a = .num v ∧ v.WF ∧ (v.toK : ℚ) = X ∧ v.inexact = false := by
  have conv : ∀ {r : BF} {Y : ℚ}, ConvertsTo 128 Y r → ∃ v, r = .num v ∧ v.WF ∧ (v.toK : ℚ) = Y ∧ v.inexact = false :=
    fun ⟨v, h1, h2, _, h4, h5⟩ => ⟨v, h1, h2, h4, h5⟩
  have hpow : ∀ sz ∈ [8, 16, 32, 64], sz ≤ 128 := by decide
  cases h with
  | f32 u h hf =>
    obtain ⟨h1, h2, h3, h4⟩ := f32ToF64_spec h hf
    obtain ⟨v, g1, g2, g3, g4⟩ := fromF64_finite _ h1 h2 h3 128 (by norm_num) (by norm_num)
    refine ⟨v, ?_, g2, by rw [g3, h4], g4⟩
    simp only [BF.fromPrim, BF.fromF32, DEFAULT_P, g1, BF.resultToExt]
  | f64 u h hf =>
    have hn : u / 2 ^ 52 % 2 ^ 11 ≠ 0 ∨ u % 2 ^ 63 = 0 := by
      by_contra hc
      rw [not_or, not_not] at hc
      exact hs ⟨u, rfl, hc.1, by omega⟩
    obtain ⟨v, g1, g2, g3, g4⟩ := fromF64_finite _ h hf hn 128 (by norm_num) (by norm_num)
    refine ⟨v, ?_, g2, g3, g4⟩
    simp only [BF.fromPrim, BF.fromF64, DEFAULT_P, g1, BF.resultToExt]
  | uint sz u hsz h => exact conv (C21_from_unsigned sz hsz u h 128 (hpow _ hsz) (by norm_num))
  | int sz i hsz h1 h2 => exact conv (C21_from_signed sz hsz i h1 h2 128 (hpow _ hsz) (by norm_num))
  | u128 u h => exact conv (C21_from_u128 u h 128 le_rfl (by norm_num))
  | i128 i h1 h2 => exact conv (C21_from_i128 i h1 h2 128 le_rfl (by norm_num))

theorem RoundsFmt.zero_right {rm : RM} {P : Nat} {r : ℚ} (h : RoundsFmt rm P (0 : ℚ) r) : r = 0 := by
  rcases h with ⟨_, h⟩ | ⟨q, h, _⟩
  · exact h
  · rw [abs_zero] at h
    have : (0 : ℚ) < 2 ^ (q - 1) := by positivity
    linarith

/-- `from_ext` rounds the value to `p` bits (to whole words in mode `None`), and marks the result inexact exactly when it
had to be rounded. Missing from the full claim: the subnormal values of `f64` (false). -/
theorem C82_from_ext_partial (a : Prim) (X : ℚ) (h : a.Is X) (hs : ¬ a.Sub64) (p : Nat) (hp : 0 < p)
    (hpm : p < 2 ^ 62 - 2 ^ 31 - 1) (rm : RM) :
    ∃ v, BF.fromExt (BF.fromPrim a) p rm = .num v ∧ v.WF ∧ 64 * v.m.m.length = precBits p ∧
      RoundsPrec rm (setPrecBits rm p) X v.toK ∧
      ((rm ≠ .none ∨ 64 ∣ p) → (v.inexact = true ↔ (v.toK : ℚ) ≠ X)) := by
  obtain ⟨x, h1, h2, h3, h4⟩ := C82_from_partial a X h hs
  have hk : 0 < setPrecBits rm p := by unfold setPrecBits precBits; split <;> omega
  have hS := setPrecision_spec (K := ℚ) h2 hp (by rw [PMAX_eq]; exact hpm) rm
  rw [setPrecBits_eq, h3] at hS
  have hN : X ≠ 0 → NormalRange rm (setPrecBits rm p) X := by
    intro hX
    obtain ⟨b1, b2⟩ := h.bounds.resolve_left hX
    exact NormalRange.of_bounds hk b1 b2 (by unfold EMIN; norm_num) (by unfold EMAX; norm_num)
  cases hr : x.setPrecision p rm with
  | error er =>
    rw [hr] at hS
    obtain ⟨_, h5, t, h6, h7⟩ := hS
    have hX : X ≠ 0 := by
      intro hX
      have := Num.abs_pos_of (K := ℚ) h2 h5
      rw [h3, hX, abs_zero] at this
      exact lt_irrefl _ this
    exact absurd ((hN hX).2 t h6) (not_lt.2 h7)
  | ok v =>
    rw [hr] at hS
    obtain ⟨⟨g1, g2, g3, g4, g5⟩, _⟩ := hS
    refine ⟨v, ?_, g1, ?_, ?_, ?_⟩
    · rw [h1]; simp only [BF.fromExt, BF.setPrecision, hr]
    · rw [g2]; rfl
    · by_cases hX : X = 0
      · subst hX
        exact Or.inl ⟨rfl, g5.zero_right⟩
      · exact g5.toPrec (hN hX).1
    · intro hm
      rw [g4 hm, h4]
      simp

/-- Infinities and NaN of the floating-point types, at any precision. -/
theorem C82_inf_nan (u : Nat) (hu : u < 2 ^ 64) (h : u / 2 ^ 52 % 2 ^ 11 = 2047) (p : Nat) (rm : RM) :
    (u % 2 ^ 52 = 0 → BF.fromExt (BF.fromPrim (.f64 u)) p rm = .inf (if u / 2 ^ 63 = 1 then .neg else .pos)) ∧
    (u % 2 ^ 52 ≠ 0 → (BF.fromExt (BF.fromPrim (.f64 u)) p rm).isNan = true) := by
  obtain ⟨h1, h2⟩ := C22_from_f64_inf_nan u hu h 128 (by norm_num)
  constructor
  · intro h3
    simp only [BF.fromPrim, DEFAULT_P, h1 h3, BF.fromExt, BF.setPrecision]
  · intro h3
    have := h2 h3
    simp only [BF.fromPrim, DEFAULT_P]
    cases hx : BF.fromF64 u 128 <;> rw [hx] at this <;> first | rfl | cases this

/-- A `BigFloat` argument whose rounding overflows gives NaN, and not the infinity: the largest number of 128 bits
rounded up to 64 bits. -/
theorem C82_overflow_refuted : ∃ x : Num, x.WF ∧ ∃ r, BF.fromExt (.num x) 64 .up = r ∧ r.isNan = true ∧
    ¬ DeliversBF .up 64 (x.toK : ℚ) x.inexact r := by
  refine ⟨⟨EMAX, .pos, ⟨[WMAX, WMAX], 128⟩, false⟩, Num.WF_of_check (by decide),
    .nan (some (.exponentOverflow .pos)), by decide +kernel, rfl, ?_⟩
  exact fun h => h

/-- The smallest positive `f64` is halved. -/
theorem C82_subnormal_refuted : ∃ (a : Prim) (X : ℚ) (v : Num), a.Is X ∧ BF.fromPrim a = .num v ∧ (v.toK : ℚ) ≠ X := by
  obtain ⟨v, h1, _, _, h4, _⟩ := C22_subnormal_half 1 (by norm_num) (by norm_num) (by norm_num) 128 (by norm_num)
    (by norm_num)
  refine ⟨.f64 1, f64Val 1, v, .f64 1 (by norm_num) (by norm_num), h1, ?_⟩
  rw [h4]
  have : f64Val 1 ≠ 0 := by
    unfold f64Val
    simp
  intro h5
  apply this
  linarith

/-- The `f32` nearest to 0.1 rounded up to 5 bits: `13/128`. -/
example : (Prim.f32 0x3DCCCCCD).Is (13421773 / 134217728) ∧ ¬ (Prim.f32 0x3DCCCCCD).Sub64 ∧
    ∃ v, BF.fromExt (BF.fromPrim (.f32 0x3DCCCCCD)) 5 .up = .num v ∧ (v.toK : ℚ) = 13 / 128 := by
  refine ⟨?_, (fun ⟨_, h, _⟩ => by cases h), ⟨-3, .pos, ⟨[13 * 2 ^ 60], 64⟩, true⟩, by decide +kernel, ?_⟩
  · have : f32Val 0x3DCCCCCD = 13421773 / 134217728 := by
      unfold f32Val; norm_num
    rw [← this]
    exact .f32 _ (by norm_num) (by norm_num)
  · norm_num [Num.toK, Sign.toK, val]

/-- A subnormal `f32`, and `i8::MIN`. -/
example : (Prim.f32 5).Is (5 * (2 : ℚ) ^ (-149 : ℤ)) ∧ (Prim.int 8 (-128)).Is ((-128 : ℤ) : ℚ) := by
  constructor
  · have : f32Val 5 = 5 * (2 : ℚ) ^ (-149 : ℤ) := by
      unfold f32Val; norm_num
    rw [← this]
    exact .f32 _ (by norm_num) (by norm_num)
  · exact .int 8 (-128) (by simp) (by norm_num) (by norm_num)

end AF
