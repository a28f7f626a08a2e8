import Verif.Props.C05
import Verif.Props.C19
import Verif.Props.C22
import Verif.Props.C23
import Verif.Props.C24
import Verif.Lemmas.RoundN
/-!
# C25: results are well formed

`Reach x` says that `x` was produced by some sequence of calls of the public interface. The invariant is
proved for every reachable value by induction on that sequence.
-/

namespace AF

/-- Values obtained through the public interface, with nonzero precisions. The exponents passed are
values of `i32`, the words values of `u64`. -/
inductive Reach : BF → Prop
  | new (p) : Reach (BF.new p)
  | inf (s) : Reach (.inf s)
  | nan (e) : Reach (.nan e)
  | fromU (sz u p) (hsz : sz ∈ [8, 16, 32, 64]) (hu : u < 2 ^ sz) : Reach (BF.fromU sz u p)
  | fromI (sz i p) (hsz : sz ∈ [8, 16, 32, 64]) (h1 : -2 ^ (sz - 1) ≤ i) (h2 : i < 2 ^ (sz - 1)) :
      Reach (BF.fromI sz i p)
  | fromU128 (u p) (hu : u < 2 ^ 128) : Reach (BF.fromU128 u p)
  | fromI128 (i p) (h1 : -2 ^ 127 ≤ i) (h2 : i < 2 ^ 127) : Reach (BF.fromI128 i p)
  | fromWord (d p) (hd : d < 2 ^ 64) : Reach (BF.fromWord d p)
  | fromF64 (u p) (hu : u < 2 ^ 64) (hp : 0 < p) : Reach (BF.fromF64 u p)
  | fromWords (m s e) (hm : Wf m) (h1 : EMIN ≤ e) (h2 : e ≤ EMAX) : Reach (BF.fromWords m s e)
  | fromRawParts (m n s e ix) (hm : Wf m) (h1 : EMIN ≤ e) (h2 : e ≤ EMAX) :
      Reach (BF.fromRawParts m n s e ix)
  | maxValue (p) : Reach (BF.maxValue p)
  | minValue (p) : Reach (BF.minValue p)
  | minPositive (p) : Reach (BF.minPositive p)
  | minPositiveNormal (p) : Reach (BF.minPositiveNormal p)
  | op (o : Op) (x y p rm) (hx : Reach x) (hy : Reach y) (hp : 0 < p) : Reach (o.apply x y p rm)
  | reciprocal (x p rm) (hx : Reach x) (hp : 0 < p) : Reach (x.reciprocal p rm)
  | sqrt (x p rm) (hx : Reach x) (hp : 0 < p) : Reach (x.sqrt p rm)
  | cbrt (x p rm) (hx : Reach x) (hp : 0 < p) : Reach (x.cbrt p rm)
  | setPrecision (x p rm y) (hx : Reach x) (hp : 0 < p) (h : x.setPrecision p rm = .ok y) : Reach y
  | setExponent (x e) (hx : Reach x) (h1 : EMIN ≤ e) (h2 : e ≤ EMAX) : Reach (x.setExponent e)
  | setSign (x s) (hx : Reach x) : Reach (x.setSign s)
  | setInexact (x b) (hx : Reach x) : Reach (x.setInexact b)
  | neg (x) (hx : Reach x) : Reach x.neg
  | abs (x) (hx : Reach x) : Reach x.abs
  | signum (x) (hx : Reach x) : Reach x.signum
  | max (x y) (hx : Reach x) (hy : Reach y) : Reach (x.max y)
  | min (x y) (hx : Reach x) (hy : Reach y) : Reach (x.min y)
  | clamp (x y z) (hx : Reach x) (hy : Reach y) (hz : Reach z) : Reach (x.clamp y z)
  | int (x) (hx : Reach x) : Reach x.int
  | fract (x) (hx : Reach x) (hl : ∀ v, x = .num v → 64 * v.m.m.length < 2 ^ 31) : Reach x.fract
  | floor (x) (hx : Reach x) : Reach x.floor
  | ceil (x) (hx : Reach x) : Reach x.ceil
  | round (x n rm) (hx : Reach x) : Reach (x.round n rm)

theorem resultToExt_WF {r : Except Err Num} (h : ∀ v, r = .ok v → v.WF) (a b : Bool) :
    (BF.resultToExt r a b).WF := by
  cases r with
  | ok v => exact h v rfl
  | error e =>
    cases e with
    | exponentOverflow s => cases s <;> trivial
    | divisionByZero => cases a <;> cases b <;> trivial
    | _ => trivial

theorem wrap_WF {x : BF} (hx : x.WF) {f : Num → Except Err Num} {a b : BF}
    (h : ∀ v w : Num, v.WF → f v = .ok w → w.WF) (ha : a.WF) (hb : b.WF) : (x.wrap f a b).WF := by
  cases x with
  | num v => exact resultToExt_WF (fun w hw => h v w hx hw) _ _
  | inf s => cases s <;> assumption
  | nan e => trivial

theorem Delivers.wf {rm : RM} {P : Nat} {X : ℝ} {ix : Bool} {r : Except Err Num}
    (h : Delivers rm P X ix r) : ∀ v, r = .ok v → v.WF := by
  rintro v rfl; exact h.1

theorem ExactNum.wf {P : Nat} {X : ℝ} {r : Except Err Num} (h : ExactNum P X r) :
    ∀ v, r = .ok v → v.WF := by
  obtain ⟨w, h1, h2, _⟩ := h
  rintro v hv
  rw [h1] at hv; injection hv with hv; exact hv ▸ h2

theorem new_WF (p : Nat) : ∀ v, Num.new p = .ok v → v.WF := by
  by_cases hp : p < PMAX
  · exact (new_spec hp).wf
  · intro v h; unfold Num.new at h; rw [if_pos (by omega)] at h; exact absurd h (by simp)

theorem BF.new_WF (p : Nat) : (BF.new p).WF := resultToExt_WF (AF.new_WF p) _ _

theorem fromWord_WF {d : Nat} (hd : d < B) (p : Nat) : ∀ v, Num.fromWord d p = .ok v → v.WF := by
  by_cases hp : p < PMAX
  · rcases Nat.eq_zero_or_pos p with h0 | h0
    · subst h0
      by_cases hd0 : d = 0
      · intro v h
        unfold Num.fromWord at h
        rw [if_neg (by omega), if_pos hd0] at h
        exact AF.new_WF 0 v h
      · intro v h
        unfold Num.fromWord Mantissa.fromWord at h
        rw [if_neg (by omega), if_neg hd0] at h
        simp [wordLen] at h
    · exact (fromWord_spec hd h0 hp).wf
  · intro v h; unfold Num.fromWord at h; rw [if_pos (by omega)] at h; exact absurd h (by simp)

theorem fromU_WF {sz u : Nat} (hsz : sz ≤ 64) (hu : u < 2 ^ sz) (p : Nat) :
    ∀ v, Num.fromU sz u p = .ok v → v.WF := by
  unfold Num.fromU
  split
  · simp
  · refine fromWord_WF ?_ p
    rw [B_eq]
    exact lt_of_lt_of_le hu (Nat.pow_le_pow_right (by norm_num) hsz)

theorem setSign_WF {x : Num} (hx : x.WF) (s : Sign) : (x.setSign s).WF :=
  ⟨hx.wf, hx.bits, hx.emin, hx.emax, hx.norm, hx.sized⟩

theorem invSign_WF {x : Num} (hx : x.WF) : x.invSign.WF := by
  unfold Num.invSign; split <;> exact setSign_WF hx _

theorem BF.setSign_WF {x : BF} (hx : x.WF) (s : Sign) : (x.setSign s).WF := by
  cases x <;> first | exact AF.setSign_WF hx s | trivial

theorem BF.invSign_WF {x : BF} (hx : x.WF) : x.invSign.WF := by
  cases x <;> first | exact AF.invSign_WF hx | trivial

theorem big_p {p : Nat} (h : ¬ ValidP p) (h0 : 0 < p) : roundP p ≥ PMAX := by
  by_contra hc
  apply h
  refine ⟨h0, ?_⟩
  rw [PMAX_eq] at hc
  unfold roundP USIZE_MAX at hc
  unfold precBits
  omega

theorem addSub_WF {x y : Num} (hx : x.WF) (hy : y.WF) {p : Nat} (hp : 0 < p) (o : Bool) (rm : RM) :
    ∀ v, x.addSub y p o rm false = .ok v → v.WF := by
  by_cases h : ValidP p
  · exact (addSub_spec (K := ℝ) hx hy hp h.lt_PMAX o rm).wf
  · intro v hv
    unfold Num.addSub at hv
    dsimp only at hv
    rw [if_pos (big_p h hp)] at hv
    exact absurd hv (by simp)

theorem mul_WF {x y : Num} (hx : x.WF) (hy : y.WF) {p : Nat} (hp : 0 < p) (rm : RM) :
    ∀ v, x.mulGeneral y p rm false = .ok v → v.WF := by
  by_cases h : ValidP p
  · exact (mulGeneral_spec (K := ℝ) hx hy hp h.lt_PMAX rm).wf
  · intro v hv
    unfold Num.mulGeneral at hv
    dsimp only at hv
    rw [if_pos (big_p h hp)] at hv
    exact absurd hv (by simp)

theorem div_WF {x y : Num} (hx : x.WF) (hy : y.WF) {p : Nat} (hp : 0 < p) (rm : RM) :
    ∀ v, x.div y p rm = .ok v → v.WF := by
  by_cases hz : y.isZero = true
  · intro v hv
    unfold Num.div at hv
    rw [if_pos hz] at hv
    split at hv <;> exact absurd hv (by simp)
  by_cases h : ValidP p
  · exact (div_spec (K := ℝ) hx hy (by simpa using hz) hp h.lt_PMAX rm).wf
  · intro v hv
    unfold Num.div at hv
    dsimp only at hv
    rw [if_neg hz, if_pos (big_p h hp)] at hv
    exact absurd hv (by simp)

theorem sqrt_WF {x : Num} (hx : x.WF) {p : Nat} (hp : 0 < p) (rm : RM) :
    ∀ v, x.sqrt p rm = .ok v → v.WF := by
  by_cases h : ValidP p
  · by_cases hs : x.s = .pos ∨ x.isZero = true
    · have h0 : (0 : ℝ) ≤ x.toK := by
        rcases hs with hs | hs
        · rw [Num.toK_eq, hs]; simp [Sign.toK]
        · rw [hx.toK_eq_zero.2 hs]
      exact (sqrt_spec (K := ℝ) hx hs hp h.lt_PMAX rm (Real.sqrt_nonneg _) (Real.mul_self_sqrt h0)).wf
    · push Not at hs
      intro v hv
      have hn : x.s = .neg := by
        cases h : x.s with
        | pos => exact absurd h hs.1
        | neg => rfl
      unfold Num.sqrt at hv
      dsimp only at hv
      rw [if_neg (by have := h.lt_PMAX; omega), if_neg hs.2, if_pos hn] at hv
      exact absurd hv (by simp)
  · intro v hv
    unfold Num.sqrt at hv
    dsimp only at hv
    rw [if_pos (big_p h hp)] at hv
    exact absurd hv (by simp)

theorem cbrt_WF {x : Num} (hx : x.WF) {p : Nat} (hp : 0 < p) (rm : RM) :
    ∀ v, x.cbrt p rm = .ok v → v.WF := by
  by_cases h : ValidP p
  · obtain ⟨y, hy, _⟩ := exists_real_cbrt x.toK
    exact (cbrt_spec (K := ℝ) hx hp h.lt_PMAX rm hy).wf
  · intro v hv
    unfold Num.cbrt at hv
    dsimp only at hv
    rw [if_pos (big_p h hp)] at hv
    exact absurd hv (by simp)

theorem Op.apply_WF (o : Op) {x y : BF} (hx : x.WF) (hy : y.WF) {p : Nat} (hp : 0 < p) (rm : RM) :
    (o.apply x y p rm).WF := by
  cases x with
  | nan e => cases o <;> trivial
  | inf s =>
    cases y with
    | nan e => cases o <;> trivial
    | inf t =>
      cases o <;> cases s <;> cases t <;> trivial
    | num w =>
      cases o with
      | mul =>
        show (if w.isZero then BF.NAN else .inf _).WF
        split <;> trivial
      | div =>
        show (if s = w.s then BF.INF_POS else BF.INF_NEG).WF
        split <;> trivial
      | _ => trivial
  | num v =>
    cases y with
    | nan e => cases o <;> trivial
    | inf t =>
      cases o with
      | mul =>
        show (if v.isZero then BF.NAN else .inf _).WF
        split <;> trivial
      | div => exact BF.new_WF _
      | sub => cases t <;> trivial
      | add => trivial
    | num w =>
      cases o with
      | add => exact resultToExt_WF (addSub_WF hx hy hp true rm) _ _
      | sub => exact resultToExt_WF (addSub_WF hx hy hp false rm) _ _
      | mul => exact resultToExt_WF (mul_WF hx hy hp rm) _ _
      | div => exact resultToExt_WF (div_WF hx hy hp rm) _ _

theorem fract_empty {x : Num} (hx : x.WF) (h : x.m.m = []) : x.fract.isZero = true := by
  have h0 : x.m.n = 0 := by rw [hx.bits, h]; rfl
  unfold Num.fract Mantissa.maxBitLen
  rw [h]
  split
  · rw [if_neg (by simp)]; rfl
  · simp [Num.isZero, Mantissa.isZero, h0]

theorem step_WF {x : Num} (hx : x.WF) (hf : x.fract.isZero = false) (o : Bool) :
    ∀ w, x.int.addSub Num.ONE x.int.m.maxBitLen o .toZero false = .ok w → w.WF := by
  obtain ⟨i1, _, _, i4, _⟩ := int_WF_val hx
  refine addSub_WF i1 ONE_WF ?_ _ _
  unfold Mantissa.maxBitLen
  rw [i4]
  by_contra hc
  have : x.m.m = [] := List.length_eq_zero_iff.1 (by omega)
  rw [fract_empty hx this] at hf
  exact absurd hf (by simp)

theorem oned_WF {p : Nat} (hp : p < PMAX) (s : Sign) : (Num.mk EMAX s (Mantissa.oned p) false).WF := by
  have hv : ∀ l, val (List.replicate l WMAX) = B ^ l - 1 := by
    intro l
    induction l with
    | zero => rfl
    | succ l ih =>
      rw [List.replicate_succ, val, ih, pow_succ]
      have := Nat.pow_pos (n := l) B_pos
      have hw : WMAX + 1 = B := by decide
      have h2 : B * (B ^ l - 1) = B * B ^ l - B := by rw [Nat.mul_sub, mul_one]
      have h3 : B ≤ B * B ^ l := Nat.le_mul_of_pos_right _ this
      rw [h2, mul_comm (B ^ l)]
      omega
  refine ⟨?_, ?_, (by decide : EMIN ≤ EMAX), le_rfl, ?_, ?_⟩
  · intro a ha
    rw [show (Num.mk EMAX s (Mantissa.oned p) false).m.m = List.replicate (wordLen p) WMAX from rfl,
      List.mem_replicate] at ha
    rw [ha.2]; decide
  · show 64 * wordLen p = Nat.size (val (List.replicate (wordLen p) WMAX))
    rw [hv, B_eq, ← pow_mul]
    refine (le_antisymm ?_ ?_).symm
    · rw [Nat.size_le]; have : 0 < 2 ^ (64 * wordLen p) := by positivity
      omega
    · rcases Nat.eq_zero_or_pos (wordLen p) with h | h
      · omega
      · obtain ⟨k, hk⟩ : ∃ k, 64 * wordLen p = k + 1 := ⟨64 * wordLen p - 1, by omega⟩
        rw [hk]
        apply Nat.lt_size.2
        rw [pow_succ]
        have : 1 ≤ 2 ^ k := Nat.one_le_two_pow
        omega
  · intro _ h
    exfalso
    simp [Mantissa.oned] at h
  · simpa [Mantissa.oned] using PMAX_words hp

theorem minM_WF {p : Nat} (hp : p < PMAX) {m : Mantissa} (h : Mantissa.minM p = .ok m) :
    (Num.mk EMIN .pos m false).WF := by
  unfold Mantissa.minM at h
  split at h
  · simp at h
  · rename_i h0
    injection h with h
    subst h
    obtain ⟨k, hk⟩ : ∃ k, wordLen p = k + 1 := ⟨wordLen p - 1, by omega⟩
    have hm : (List.replicate (wordLen p) 0).set 0 1 = 1 :: List.replicate k 0 := by
      rw [hk, List.replicate_succ]; rfl
    have hsz := PMAX_words hp
    rw [hm]
    refine ⟨?_, ?_, le_rfl, (by decide : EMIN ≤ EMAX), fun _ _ => rfl, ?_⟩
    · intro a ha
      simp only [List.mem_cons, List.mem_replicate] at ha
      rcases ha with rfl | ⟨_, rfl⟩ <;> decide
    · show 1 = Nat.size (1 + B * val (List.replicate k 0))
      rw [val_replicate_zero]; decide
    · simp only [List.length_cons, List.length_replicate]; omega

theorem fromF64_WF (u : Nat) (hu : u < 2 ^ 64) (p : Nat) (hp : 0 < p) : (BF.fromF64 u p).WF := by
  by_cases hpm : p < 2 ^ 62 - 2 ^ 31 - 1
  · by_cases h1 : u / 2 ^ 52 % 2 ^ 11 = 2047
    · have h := C22_from_f64_inf_nan u hu h1 p hpm
      by_cases h2 : u % 2 ^ 52 = 0
      · rw [h.1 h2]; trivial
      · have := h.2 h2
        cases hb : BF.fromF64 u p with
        | num v => rw [hb] at this; simp [BF.isNan] at this
        | _ => trivial
    · by_cases h0 : u / 2 ^ 52 % 2 ^ 11 = 0
      · by_cases h2 : u % 2 ^ 52 = 0
        · unfold BF.fromF64 Num.fromF64
          rw [PMAX_eq, if_neg (by omega)]
          dsimp only
          rw [if_pos (by omega)]
          exact BF.new_WF 0
        · obtain ⟨v, h3, h4, _⟩ := C22_subnormal_half u hu h0 h2 p hp hpm
          rw [h3]; exact h4
      · obtain ⟨v, h3, h4, _⟩ := C22_from_f64_partial u hu h0 h1 p hp hpm
        rw [h3]; exact h4
  · unfold BF.fromF64 Num.fromF64
    rw [PMAX_eq, if_pos (by omega)]; trivial

theorem C25_reachable_well_formed (x : BF) (h : Reach x) : x.WF := by
  induction h with
  | new p => exact BF.new_WF p
  | inf s => trivial
  | nan e => trivial
  | fromU sz u p hsz hu =>
    exact resultToExt_WF (fromU_WF (by
      simp only [List.mem_cons, List.not_mem_nil, or_false] at hsz; omega) hu p) _ _
  | fromI sz i p hsz h1 h2 =>
    have hs : 0 < sz ∧ sz ≤ 64 := by simp only [List.mem_cons, List.not_mem_nil, or_false] at hsz; omega
    refine resultToExt_WF (fun v hv => ?_) _ _
    have hu : i.natAbs < 2 ^ sz := by
      have h3 : (i.natAbs : ℤ) ≤ 2 ^ (sz - 1) := by rw [Int.natCast_natAbs]; exact abs_le.2 ⟨h1, h2.le⟩
      have h4 : i.natAbs ≤ 2 ^ (sz - 1) := by exact_mod_cast h3
      exact lt_of_le_of_lt h4 (Nat.pow_lt_pow_right (by norm_num) (by omega))
    unfold Num.fromI at hv
    cases hr : Num.fromU sz i.natAbs p with
    | error e => rw [hr] at hv; simp at hv
    | ok w =>
      rw [hr] at hv
      injection hv with hv
      rw [← hv]; exact setSign_WF (fromU_WF hs.2 hu p w hr) _
  | fromU128 u p hu =>
    refine resultToExt_WF ?_ _ _
    by_cases hp : 128 ≤ p
    · by_cases hpm : p < PMAX
      · exact (fromU128_spec hu hp hpm).wf
      · intro v hv; unfold Num.fromU128 at hv
        rw [if_neg (by omega), if_pos (by omega)] at hv; simp at hv
    · intro v hv; unfold Num.fromU128 at hv
      rw [if_pos (by omega)] at hv; simp at hv
  | fromI128 i p h1 h2 =>
    refine resultToExt_WF ?_ _ _
    have hv : p < 128 ∨ PMAX ≤ p → ∀ v, Num.fromI128 i p = .ok v → v.WF := by
      intro h v hv
      unfold Num.fromI128 Num.fromU128 at hv
      rcases h with h | h
      · rw [if_pos h] at hv; simp at hv
      · by_cases h' : p < 128
        · rw [if_pos h'] at hv; simp at hv
        · rw [if_neg h', if_pos h] at hv; simp at hv
    by_cases hp : 128 ≤ p
    · by_cases hpm : p < PMAX
      · exact (fromI128_spec (abs_le.2 ⟨h1, h2.le⟩) hp hpm).wf
      · exact hv (Or.inr (by omega))
    · exact hv (Or.inl (by omega))
  | fromWord d p hd => exact resultToExt_WF (fromWord_WF (by rw [B_eq]; exact hd) p) _ _
  | fromF64 u p hu hp => exact fromF64_WF u hu p hp
  | fromWords m s e hm h1 h2 =>
    by_cases hl : 64 * m.length < 2 ^ 62 - 2 ^ 31 - 1
    · obtain ⟨v, h3, h4, _⟩ := C23_from_words m hm s e h1 h2 hl
      rw [h3]; exact h4
    · unfold BF.fromWords Num.fromWords
      dsimp only
      rw [PMAX_eq, if_pos (by omega)]; trivial
  | fromRawParts m n s e ix hm h1 h2 =>
    have h := C23_from_raw_parts_accepts m hm n s e ix h1 h2
    split at h
    · obtain ⟨v, h3, h4, _⟩ := h
      rw [h3]; exact h4
    · rw [h]; trivial
  | maxValue p =>
    refine resultToExt_WF (fun v hv => ?_) _ _
    unfold Num.maxValue at hv
    split at hv
    · simp at hv
    · injection hv with hv; rw [← hv]; exact oned_WF (by omega) _
  | minValue p =>
    refine resultToExt_WF (fun v hv => ?_) _ _
    unfold Num.minValue at hv
    split at hv
    · simp at hv
    · injection hv with hv; rw [← hv]; exact oned_WF (by omega) _
  | minPositive p =>
    refine resultToExt_WF (fun v hv => ?_) _ _
    unfold Num.minPositive at hv
    split at hv
    · simp at hv
    · cases hr : Mantissa.minM p with
      | error e => rw [hr] at hv; simp at hv
      | ok m =>
        rw [hr] at hv
        injection hv with hv; rw [← hv]; exact minM_WF (by omega) hr
  | minPositiveNormal p =>
    refine resultToExt_WF (fun v hv => ?_) _ _
    unfold Num.minPositiveNormal at hv
    split at hv
    · simp at hv
    · rename_i hp
      rcases Nat.eq_zero_or_pos p with h0 | h0
      · subst h0; simp [Mantissa.fromWord, wordLen] at hv
      · have hl : 0 < wordLen p := by unfold wordLen; omega
        have hnt := normd_top (l := wordLen p - 1) (d := MSB) (by decide) (by decide)
        rw [mantFromWord_spec h0 (by decide) (by decide)] at hv
        injection hv with hv
        rw [← hv]
        have hlen : (List.replicate (wordLen p - 1) 0 ++ [MSB]).length = wordLen p := by
          rw [hnt.2.2]; omega
        exact WF_of_normd hnt.1 (by rw [hlen]) le_rfl (by decide) (by rw [hlen]; exact PMAX_words (by omega)) _ _
  | op o x y p rm _ _ hp hx hy => exact o.apply_WF hx hy hp rm
  | reciprocal x p rm _ hp hx =>
    cases x with
    | num v => exact resultToExt_WF (div_WF ONE_WF hx hp rm) _ _
    | inf s => exact BF.setSign_WF (BF.new_WF p) s
    | nan e => trivial
  | sqrt x p rm _ hp hx => exact wrap_WF hx (fun v w hv hw => sqrt_WF hv hp rm w hw) trivial trivial
  | cbrt x p rm _ hp hx => exact wrap_WF hx (fun v w hv hw => cbrt_WF hv hp rm w hw) trivial trivial
  | setPrecision x p rm y _ hp h hx =>
    cases x with
    | num v =>
      simp only [BF.setPrecision] at h
      cases hr : v.setPrecision p rm with
      | error e => rw [hr] at h; simp at h
      | ok w =>
        rw [hr] at h
        injection h with h
        rw [← h]
        by_cases hpm : p < PMAX
        · have hs := setPrecision_spec (K := ℝ) hx hp hpm rm
          rw [hr] at hs
          exact hs.1.1
        · unfold Num.setPrecision Num.setPrecisionInternal at hr
          rw [if_pos (by omega)] at hr; simp at hr
    | inf s => simp only [BF.setPrecision] at h; injection h with h; rw [← h]; trivial
    | nan e => simp only [BF.setPrecision] at h; injection h with h; rw [← h]; trivial
  | setExponent x e _ h1 h2 hx =>
    cases x with
    | num v =>
      by_cases h0 : (v.toK : ℚ) = 0
      · rw [C24_set_exponent_zero v hx h0]; exact hx
      · obtain ⟨w, h3, h4, _⟩ := C24_set_exponent v hx h0 e h1 h2
        rw [h3]; exact h4
    | _ => trivial
  | setSign x s _ hx => exact BF.setSign_WF hx s
  | setInexact x b _ hx =>
    cases x with
    | num v => exact ⟨hx.wf, hx.bits, hx.emin, hx.emax, hx.norm, hx.sized⟩
    | _ => trivial
  | neg x _ hx => exact BF.invSign_WF hx
  | abs x _ hx =>
    refine wrap_WF hx (fun v w hv hw => ?_) trivial trivial
    injection hw with hw; rw [← hw]; exact setSign_WF hv .pos
  | signum x _ hx =>
    have h1 : (BF.fromU 8 1 DEFAULT_P).WF := resultToExt_WF (fromU_WF (by norm_num) (by norm_num) _) _ _
    unfold BF.signum
    split
    · trivial
    · split
      · exact BF.invSign_WF h1
      · exact h1
  | max x y _ _ hx hy =>
    unfold BF.max; split
    · trivial
    · split <;> assumption
  | min x y _ _ hx hy =>
    unfold BF.min; split
    · trivial
    · split <;> assumption
  | clamp x y z _ _ _ hx hy hz =>
    unfold BF.clamp; split
    · trivial
    · split
      · assumption
      · split <;> assumption
  | int x _ hx =>
    refine wrap_WF hx (fun v w hv hw => ?_) trivial trivial
    injection hw with hw; rw [← hw]; exact (int_WF_val hv).1
  | fract x _ hl hx =>
    cases x with
    | num v => exact (fract_WF_val hx (hl v rfl)).1
    | inf s => cases s <;> trivial
    | nan e => trivial
  | round x n rm _ hx => exact wrap_WF hx (fun v w hv hw => (round_WF hv n rm hw).1) trivial trivial
  | floor x _ hx =>
    refine wrap_WF hx (fun v w hv hw => ?_) trivial trivial
    unfold Num.floor at hw
    split at hw
    · rename_i hc
      simp only [Bool.and_eq_true, Bool.not_eq_true'] at hc
      exact step_WF hv hc.2 false w hw
    · injection hw with hw; rw [← hw]; exact (int_WF_val hv).1
  | ceil x _ hx =>
    refine wrap_WF hx (fun v w hv hw => ?_) trivial trivial
    unfold Num.ceil at hw
    split at hw
    · rename_i hc
      simp only [Bool.and_eq_true, Bool.not_eq_true'] at hc
      exact step_WF hv hc.2 true w hw
    · injection hw with hw; rw [← hw]; exact (int_WF_val hv).1

/-- A history of four calls: `sqrt(5 / -3)` after a change of precision. -/
example (p : Nat) (rm : RM) :
    Reach ((Op.div.apply (BF.fromU 8 5 64) (BF.fromI 8 (-3) 64) (p + 1) rm).abs.sqrt 100 .up) :=
  .sqrt _ _ _ (.abs _ (.op .div _ _ _ _ (.fromU _ _ _ (by decide) (by decide))
    (.fromI _ _ _ (by decide) (by decide) (by decide)) (by omega))) (by decide)

end AF
