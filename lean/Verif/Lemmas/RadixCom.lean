import Verif.Lemmas.RadixFrom
import Verif.Lemmas.Conv
import Verif.Lemmas.Sticky
/-!
# From digits in radix 8 and 16: rounding and underflow
-/

namespace AF

set_option linter.unusedSectionVars false

variable {K : Type*} [Field K] [LinearOrder K] [IsStrictOrderedRing K]

/-- What `conv_from_commensurable` does with the filled mantissa. -/
def comFinish (m : Mantissa) (s : Sign) (e1 : Int) (p : Nat) (rm : RM) : Except Err Num :=
  if e1 > EMAX then .error (.exponentOverflow s)
  else
    match (if e1 < EMIN then
        if p < USIZE_MAX then Num.comSubnormal m s e1 p else Num.comSubnormalAuto m s e1
      else .ok (Num.mk e1 s m false)) with
    | .error er => .error er
    | .ok r => if p < USIZE_MAX then r.setPrecision p rm else .ok r

theorem roundP_mono_lt {a b : Nat} (h : a ≤ b) (hb : roundP b < PMAX) : roundP a < PMAX := by
  unfold roundP PMAX USIZE_MAX at *; omega

theorem convFromCom_num {s : Sign} {digits : List Nat} {e : Int} {k p : Nat} {rm : RM}
    (hk : k = 3 ∨ k = 4) (hd : ∀ v ∈ digits, v < 2 ^ k) (hnz : ∃ v ∈ digits, v ≠ 0)
    (hlen : roundP (digits.length * k + 64) < PMAX) :
    ∃ (m : Mantissa) (e1 : Int), Normd m.m ∧ m.n = 64 * m.m.length ∧ 64 * m.m.length < PMAX ∧
      (val m.m : K) * 2 ^ (e1 - (64 * m.m.length : ℕ)) =
        (digNat (2 ^ k) digits : K) * ((2 ^ k : ℕ) : K) ^ (e - digits.length) ∧
      Num.convFromCommensurable s digits e k p rm = comFinish m s e1 p rm := by
  have hk0 : 0 < k := by omega
  rcases comScan_spec hk digits with ⟨z, f, h1, h2, h3, h4⟩ | ⟨_, v, hv, hv2⟩
  swap
  · exact absurd (hd v hv) hv2
  have hz : z ≠ digits.length := by
    intro hz
    obtain ⟨v, hv, hv0⟩ := hnz
    rw [hz, List.take_length] at h3
    exact hv0 (h3 v hv)
  rcases h4 with h4 | ⟨v, vs, h5, h6, h7, h8, h9, h10⟩
  · exact absurd h4 hz
  have hdl : (digits.drop z).length = digits.length - z := List.length_drop ..
  have hvl : vs.length + 1 = digits.length - z := by rw [← hdl, h5]; rfl
  have hmsz : roundP ((digits.length - z) * k + 64) < PMAX :=
    roundP_mono_lt (by have := Nat.mul_le_mul_right k (Nat.sub_le digits.length z); omega) hlen
  set msz := roundP ((digits.length - z) * k + 64) with hmszd
  set L := wordLen msz with hLd
  have hmL : msz = 64 * L := by
    rw [hLd, hmszd, roundP_eq hmsz, wordLen_mul]
  have hL1 : (digits.length - z) * k + 64 ≤ 64 * L := by
    rw [← hmL, hmszd, roundP_eq hmsz]; unfold wordLen; omega
  have hkv : k * vs.length + k = (digits.length - z) * k := by rw [← hvl]; ring
  have hdd : ∀ w ∈ digits.drop z, w < 2 ^ k := fun w hw => hd w (List.mem_of_mem_drop hw)
  obtain ⟨ws, w1, w2, w3, w4⟩ := comFill_spec hk0 (by omega) (digits.drop z) L (k - f) 0 hdd (by omega)
    (by omega) (Or.inr ⟨rfl, by rw [h5]; intro w hw; simp only [List.head?_cons, Option.some.injEq] at hw; rw [← hw]; exact h9⟩) B_pos (by simp)
    (by omega) (by rw [h5]; simp only [List.length_cons, Nat.mul_add, Nat.mul_one]; omega)
  rw [hdl] at w4
  set m : Mantissa := ⟨(ws ++ List.replicate (L - ws.length) 0).reverse, 64 * L⟩ with hm
  have hml : m.m.length = L := by rw [hm]; simp; omega
  set T := k * (digits.length - z) - f with hT
  have hTk : k * (digits.length - z) = k * vs.length + k := by rw [← hvl]; ring
  have hTL : T + 64 ≤ 64 * L := by rw [hT, Nat.mul_comm]; omega
  have hval : val m.m = digNat (2 ^ k) (digits.drop z) * 2 ^ (64 * L - T) := by
    have : val m.m = bufVal ws L := rfl
    rw [this, w4]
    rw [Nat.zero_mul, Nat.zero_add]
    congr 2
    omega
  have hdig : digNat (2 ^ k) digits = digNat (2 ^ k) (digits.drop z) := by
    conv_lhs => rw [← List.take_append_drop z digits]
    rw [digNat_append, (digNat_eq_zero (by positivity)).2 h3]; simp
  have hNlo : 2 ^ (T - 1) ≤ digNat (2 ^ k) (digits.drop z) := by
    rw [h5, digNat_cons, ← pow_mul]
    calc 2 ^ (T - 1) = 2 ^ (k - f - 1) * 2 ^ (k * vs.length) := by
          rw [← pow_add]; congr 1; omega
      _ ≤ v * 2 ^ (k * vs.length) := Nat.mul_le_mul_right _ h10
      _ ≤ _ := Nat.le_add_right _ _
  have hNormd : Normd m.m := by
    refine ⟨?_, by omega, ?_⟩
    · exact wf_reverse.2 (wf_append.2 ⟨w2, wf_zeros _⟩)
    · rw [hval, hml]
      calc 2 ^ (64 * L - 1) = 2 ^ (T - 1) * 2 ^ (64 * L - T) := by rw [← pow_add]; congr 1; omega
        _ ≤ _ := Nat.mul_le_mul_right _ hNlo
  refine ⟨m, e * k - ((k * z + f : ℕ) : Int), hNormd, by rw [hml], by rw [hml]; omega, ?_, ?_⟩
  · rw [hval, hml, hdig, zpow_pow_two, Nat.cast_mul, Nat.cast_pow, Nat.cast_ofNat, mul_assoc, ← zpow_natCast,
      ← two_zpow_add]
    congr 2
    have hT2 : (T : Int) = k * ((digits.length : Int) - z) - f := by
      have : (T : Int) + f = ((k * (digits.length - z) : ℕ) : Int) := by
        rw [hT]; push_cast [show f ≤ k * (digits.length - z) by omega]; ring
      push_cast [h2] at this; linarith
    push_cast [show T ≤ 64 * L by omega]
    rw [hT2]; ring
  · unfold Num.convFromCommensurable comFinish
    rw [h1]
    simp only [if_neg hz, ← hmszd, ← hLd, w1]
    rw [if_neg (show ¬ msz ≥ PMAX by omega)]
    split
    · rfl
    · rfl

theorem comSub_y {m : Mantissa} (hm : Normd m.m) (hn : m.n = 64 * m.m.length) (s : Sign) {pw : Nat}
    (hp : 64 * (pw + 1) < PMAX) {sh : Nat} (hsh : 0 < sh) :
    let L' := max m.m.length (pw + 1)
    let M' := val m.m * 2 ^ (64 * (L' - m.m.length))
    ∃ y, Num.comSubnormal m s (EMIN - (sh : ℤ)) (64 * pw) = .ok y ∧ y.s = s ∧ y.m.m.length = L' ∧ Wf y.m.m ∧
      2 ^ (64 * L' - 1) ≤ M' ∧ M' < 2 ^ (64 * L') ∧
      ((sh < 64 * L' ∧ y.e = EMIN ∧ y.m.n = Nat.size (val y.m.m) ∧
        y.inexact = decide (M' % 2 ^ sh ≠ 0) ∧
        val y.m.m = M' / 2 ^ sh + (if M' % 2 ^ sh ≠ 0 then 1 - (M' / 2 ^ sh) % 2 else 0)) ∨
      (64 * L' ≤ sh ∧ y.e = 0 ∧ y.m.n = 0 ∧ y.inexact = true ∧ val y.m.m = 1)) := by
  intro L' M'
  have hmL : 0 < m.m.length := hm.2.1
  -- the mantissa after the extension
  obtain ⟨m1, hm1, hl1, hn1, hv1, heq⟩ : ∃ m1 : Mantissa, Normd m1.m ∧ m1.m.length = L' ∧
      m1.n = 64 * L' ∧ val m1.m = M' ∧
      (if 64 * pw + 64 > m.maxBitLen then (Num.mk EMIN s m false).setPrecision (64 * pw + 64) .none
        else .ok (Num.mk EMIN s m false) : Except Err Num) = .ok (Num.mk EMIN s m1 false) := by
    have hmb : m.maxBitLen = 64 * m.m.length := by unfold Mantissa.maxBitLen; ring
    by_cases hc : 64 * pw + 64 > m.maxBitLen
    · have hL' : L' = pw + 1 := by simp only [L']; omega
      have hwl : wordLen (64 * pw + 64) = pw + 1 := by unfold wordLen; omega
      obtain ⟨a1, a2, a3, a4⟩ := setLength_up (x := m) hm.1 (by rw [hn, hm.size]) (p := 64 * pw + 64)
        (by rw [hwl]; omega)
      rw [hwl] at a1 a3
      have hNd : Normd (m.setLength (64 * pw + 64)).m := by
        refine ⟨a2, by omega, ?_⟩
        rw [a1, a3]
        calc 2 ^ (64 * (pw + 1) - 1) = 2 ^ (64 * m.m.length - 1) * 2 ^ (64 * (pw + 1 - m.m.length)) := by
              rw [← pow_add]; congr 1; omega
          _ ≤ _ := Nat.mul_le_mul_right _ hm.2.2
      refine ⟨m.setLength (64 * pw + 64), hNd, by rw [a1, hL'], ?_, ?_, ?_⟩
      · rw [a4, hNd.size, a1, hL']
      · rw [a3]; simp only [M', hL']
      · rw [if_pos hc]
        unfold Num.setPrecision Num.setPrecisionInternal
        rw [if_neg (by omega), if_neg (by simp only; omega), if_neg (by omega)]
    · have hL' : L' = m.m.length := by simp only [L']; omega
      refine ⟨m, hm, hL'.symm, by rw [hn, hL'], ?_, by rw [if_neg hc]⟩
      simp only [M', hL']; simp
  have hlo : 2 ^ (64 * L' - 1) ≤ M' := by rw [← hv1, ← hl1]; exact hm1.2.2
  have hhi : M' < 2 ^ (64 * L') := by rw [← hv1, ← hl1]; exact hm1.val_lt
  have hLpos : 0 < L' := by rw [← hl1]; exact hm1.2.1
  unfold Num.comSubnormal
  simp only [heq]
  rcases Nat.lt_or_ge sh (64 * L') with hc | hc
  · obtain ⟨r1, r2, r3, r4, r5, r6, r7⟩ := subn_core hl1 hm1 hn1 .none s false hsh hc
    rw [rndN_none, hv1] at r4
    rw [hv1, Bool.false_or] at r7
    generalize Num.subnormalize (Num.mk EMIN s m1 false) (EMIN - (sh : ℤ)) .none = R at *
    have hV1 : 1 ≤ M' / 2 ^ sh := by
      rw [Nat.le_div_iff_mul_le (by positivity), Nat.one_mul]
      exact le_trans (Nat.pow_le_pow_right (by norm_num) (by omega)) hlo
    by_cases hx : M' % 2 ^ sh ≠ 0
    · have hix : R.inexact = true := by rw [r7]; simpa using hx
      rw [hix, if_pos rfl]
      obtain ⟨w, ws, hRm⟩ : ∃ w ws, R.m.m = w :: ws := by
        cases h : R.m.m with
        | nil => rw [h] at r1; simp at r1; omega
        | cons w ws => exact ⟨w, ws, rfl⟩
      have hw1 : w ||| 1 = w + (1 - w % 2) := by
        rcases Nat.mod_two_eq_zero_or_one w with h | h
        · rw [h, or_eq_add (s := 1) (by simpa using h) (by norm_num)]
        · have e : w = (w - 1) ||| 1 := by
            rw [or_eq_add (s := 1) (by simp; omega) (by norm_num)]; omega
          have e2 : w ||| 1 = w := by
            conv_lhs => rw [e, Nat.or_assoc, Nat.or_self]
            exact e.symm
          rw [e2, h]; omega
      rw [hRm] at r2 r4 r1 r3
      have hwB := (wf_cons.1 r2).1
      have hpar : w % 2 = M' / 2 ^ sh % 2 := by
        rw [← r4, val_cons]
        have : B % 2 = 0 := by unfold B; norm_num
        rw [Nat.add_mod, Nat.mul_mod, this]; simp
      have hset : R.m.m.set 0 (wd R.m.m 0 ||| 1) = (w ||| 1) :: ws := by
        rw [hRm]; simp [wd]
      have hval : val ((w ||| 1) :: ws) = M' / 2 ^ sh + (1 - M' / 2 ^ sh % 2) := by
        rw [val_cons, hw1, ← r4, val_cons] 
        rw [r4.symm, val_cons] at hpar
        rw [← hpar]; omega
      refine ⟨_, rfl, r6, ?_, ?_, hlo, hhi, Or.inl ⟨hc, r5, ?_, ?_, ?_⟩⟩
      · simp only [hset]; simpa using r1
      · simp only [hset]; exact Wf.cons (or_lt_B hwB (by unfold B; norm_num)) (wf_cons.1 r2).2
      · simp only [hset]
        rw [r3, r4, hval]
        -- setting the lowest bit of a positive number does not change its length
        rcases Nat.mod_two_eq_zero_or_one (M' / 2 ^ sh) with h | h
        · rw [h]
          have hq : M' / 2 ^ sh = M' / 2 ^ sh / 2 * 2 ^ 1 := by omega
          have h2 : M' / 2 ^ sh / 2 ≠ 0 := by omega
          have e1 := size_mul_two_pow h2 1
          have e2 := size_add_mul (a := 1) (k := 1) (by norm_num) h2
          rw [← hq] at e1
          rw [e1]
          have : M' / 2 ^ sh + (1 - 0) = 1 + 2 ^ 1 * (M' / 2 ^ sh / 2) := by omega
          rw [this]
          omega
        · rw [h]; simp
      · simp only [hix]; symm; simpa using hx
      · simp only [hset]; rw [if_pos hx]; exact hval
    · have hix : R.inexact = false := by rw [r7]; simpa using hx
      rw [hix, if_neg (by simp)]
      refine ⟨R, rfl, r6, r1, r2, hlo, hhi, Or.inl ⟨hc, r5, r3, ?_, ?_⟩⟩
      · rw [hix]; symm; simpa using hx
      · rw [if_neg hx, r4]; rfl
  · have hR : Num.subnormalize (Num.mk EMIN s m1 false) (EMIN - (sh : ℤ)) .none =
        Num.mk 0 s m1.setZero true := by
      unfold Num.subnormalize
      rw [if_neg (by simp only [Num.isZero, Mantissa.isZero, hn1, beq_iff_eq]; omega)]
      rw [if_neg (by simp only [Mantissa.maxBitLen, hl1]; push_cast; omega)]
      rw [if_neg (by simp [Num.directedUp])]
    rw [hR]
    simp only [if_true]
    obtain ⟨n, hn⟩ : ∃ n, L' = n + 1 := ⟨L' - 1, by omega⟩
    have hset : (Mantissa.setZero m1).m.set 0 (wd (Mantissa.setZero m1).m 0 ||| 1) = 1 :: List.replicate n 0 := by
      unfold Mantissa.setZero
      simp only [hl1, hn, List.replicate_succ]
      simp [wd]
    refine ⟨_, rfl, rfl, ?_, ?_, hlo, hhi, Or.inr ⟨hc, rfl, rfl, rfl, ?_⟩⟩
    · simp only [hset]; simp [hn]
    · simp only [hset]; exact Wf.cons (by unfold B; norm_num) (wf_zeros _)
    · simp only [hset]; simp

/-- A value between two consecutive half units is not a multiple of the unit. -/
theorem between_half {x : K} {j : Nat} (h1 : (j : K) / 2 < x) (h2 : x < ((j : K) + 1) / 2) (k : Nat) :
    x ≠ k := by
  intro h
  rw [h] at h1 h2
  have a : (j : K) < ((2 * k : ℕ) : K) := by push_cast; linarith
  have b : ((2 * k : ℕ) : K) < ((j + 1 : ℕ) : K) := by push_cast; linarith
  have a' : j < 2 * k := by exact_mod_cast a
  have b' : 2 * k < j + 1 := by exact_mod_cast b
  omega

theorem exists_prec {m : List Nat} (hm : Normd m) {p : Nat} (hp : 0 < p) (rm : RM) (s : Sign) (e : Int) :
    ∃ t : K, RoundsPrec rm (64 * p) ((s.toK : K) * (val m * 2 ^ (e - (64 * m.length : ℕ)))) t ∧
      (2 : K) ^ (e - 1) ≤ |t| := by
  obtain ⟨_, _, h3, _⟩ := NR_of_adjust (K := K) hm hp rm s.isPos false
  have h4 := h3.scale e
  have e1 : (val m : K) / 2 ^ (64 * m.length) * 2 ^ e = val m * 2 ^ (e - (64 * m.length : ℕ)) := by
    rw [two_zpow_sub, zpow_natCast]; field_simp
  rw [e1] at h4
  refine ⟨_, h4.roundsPrec (by omega), ?_⟩
  have hb := h4.bounds (by omega)
  rw [abs_toK, abs_of_nonneg (le_trans (two_zpow_pos _).le hb.1)]
  refine le_trans (zpow_mono_two ?_) hb.1
  split <;> omega

/-- Rounding a far too small value in a mode that does not round it away from zero. -/
theorem rounds_tiny {rm : RM} {s : Sign} {x u : K} (hx : 0 < x) (hxu : x < u / 2)
    (h : Num.directedUp rm s.isPos = false) : Rounds rm ((s.toK : K) * x) u 0 := by
  refine ⟨0, by simp, ?_⟩
  have h0 : |(s.toK : K) * x| = x := by rw [abs_toK, abs_of_pos hx]
  cases rm <;> simp only [sub_zero, abs_zero, h0, mul_zero, zero_add]
  · exact ⟨hx.le, by linarith, le_refl _⟩
  · cases s
    · simp only [Sign.toK]; constructor <;> linarith
    · simp [Num.directedUp, Sign.isPos] at h
  · cases s
    · simp [Num.directedUp, Sign.isPos] at h
    · simp only [Sign.toK]; constructor <;> linarith
  · exact ⟨hx.le, by linarith, le_refl _⟩
  · simp [Num.directedUp] at h
  · exact ⟨hxu.le, fun h => absurd h (ne_of_lt hxu)⟩
  · exact ⟨hxu.le, fun h => absurd h (ne_of_lt hxu)⟩

theorem rndN_one {rm : RM} {pos : Bool} {k : Nat} (hk : 2 ≤ k) (h : Num.directedUp rm pos = false) :
    rndN rm pos 1 k = 0 := by
  have h4 : 4 ≤ 2 ^ k := by
    calc 4 = 2 ^ 2 := rfl
      _ ≤ 2 ^ k := Nat.pow_le_pow_right (by norm_num) hk
  have h1 : 1 % 2 ^ k = 1 := Nat.mod_eq_of_lt (by omega)
  have h2 : 1 / 2 ^ k = 0 := Nat.div_eq_of_lt (by omega)
  unfold rndN
  rw [h2, if_neg]
  rw [Bool.not_eq_true]
  unfold roundAway
  rw [h1, h2]
  generalize 2 ^ k = z at *
  cases rm <;> cases pos <;> simp [Num.directedUp] at h ⊢ <;> omega

/-- The zero left by a far too small number, after `set_precision`. -/
theorem setPrecision_lost {y : Num} (hw : Wf y.m.m) (hv : val y.m.m = 1) (hn : y.m.n = 0) (he : y.e = 0)
    (hx : y.inexact = true) {pw : Nat} (hp : 0 < pw) (hpl : pw < y.m.m.length) (hpm : 64 * pw < PMAX) {rm : RM}
    (h : Num.directedUp rm y.s.isPos = false) :
    ∃ v, y.setPrecision (64 * pw) rm = .ok v ∧ Wf v.m.m ∧ val v.m.m = 0 ∧ v.m.n = 0 ∧ v.e = 0 ∧ v.s = y.s ∧
      v.inexact = true ∧ v.m.m.length = pw := by
  have hmb : y.m.maxBitLen = 64 * y.m.m.length := by unfold Mantissa.maxBitLen; ring
  have hpos : y.isPositive = y.s.isPos := by unfold Num.isPositive; cases y.s <;> rfl
  set k := 64 * y.m.m.length - 64 * pw with hk
  unfold Num.setPrecision Num.setPrecisionInternal
  rw [if_neg (by omega), if_pos (by omega), if_neg (by rw [hmb]; omega), hmb, ← hk, hpos]
  simp only [Bool.or_true, hx, Bool.true_or]
  have hzl : ∀ r : List Nat, Wf r → r.length = y.m.m.length → val r / 2 ^ (64 * (y.m.m.length - pw)) = 0 →
      ∀ n, n = Nat.size (val r) → Wf ((⟨r, n⟩ : Mantissa).setLength (64 * pw)).m ∧
        val ((⟨r, n⟩ : Mantissa).setLength (64 * pw)).m = 0 ∧ ((⟨r, n⟩ : Mantissa).setLength (64 * pw)).n = 0 ∧
        ((⟨r, n⟩ : Mantissa).setLength (64 * pw)).m.length = pw := by
    intro r hr hrl hrv n hn
    obtain ⟨a1, a2, a3, a4⟩ := setLength_down (x := ⟨r, n⟩) hr hn (p := 64 * pw)
      (by rw [wordLen_mul]; simp only; omega)
    rw [wordLen_mul] at a1 a3
    simp only [hrl, hrv] at a3
    exact ⟨a2, a3, by rw [a4, a3]; simp, a1⟩
  have hdiv0 : ∀ v, v < 2 ^ (64 * (y.m.m.length - pw)) → v / 2 ^ (64 * (y.m.m.length - pw)) = 0 :=
    fun v hv => Nat.div_eq_of_lt hv
  by_cases hrm : rm = .none
  · subst hrm
    rw [roundMantissa_none hw (by omega) (by omega)]
    simp only [Bool.false_and, Bool.false_eq_true, if_false, Bool.true_or]
    have hnz : (⟨y.m.m, y.m.n⟩ : Mantissa).isAllZero = false := by
      rw [Bool.eq_false_iff]; intro hc; rw [isAllZero_iff] at hc; simp only [hv] at hc; omega
    rw [hnz]
    have hsub : (⟨y.m.m, y.m.n⟩ : Mantissa).isSubnormal = true := by
      simp only [Mantissa.isSubnormal, Mantissa.maxBitLen, hn, decide_eq_true_eq]
      first | omega | (have : 0 < y.m.m.length := by omega; omega)
    simp only [Bool.false_eq_true, if_false, hsub, if_true]
    obtain ⟨b1, b2, b3, b4⟩ := hzl y.m.m hw rfl (by rw [hv]; exact hdiv0 _ (Nat.one_lt_two_pow (by omega)))
      (findBitLen y.m.m) (findBitLen_eq hw)
    exact ⟨_, rfl, b1, b2, b3, he, rfl, rfl, b4⟩
  · obtain ⟨c1, c2, c3⟩ := roundMantissa_spec hw (n := k) (by omega) (by omega) hrm y.s.isPos (64 * y.m.m.length) true
    rw [hv, rndN_one (by omega) h] at c3
    obtain ⟨d1, d2, d3, _⟩ := c3
    obtain ⟨d4, d5⟩ := d3 (by simp)
    rw [Nat.zero_mul] at d5
    generalize roundMantissa y.m.m k rm y.s.isPos false (64 * y.m.m.length) true = R at *
    rw [c1, d4]
    simp only [Bool.false_and, Bool.false_eq_true, if_false]
    have hz : (⟨R.m, y.m.n⟩ : Mantissa).isAllZero = true := by rw [isAllZero_iff]; exact d5
    rw [hz]
    simp only [if_true]
    obtain ⟨b1, b2, b3, b4⟩ := hzl R.m d2 d1 (by rw [d5]; simp) 0 (by rw [d5]; simp)
    exact ⟨_, rfl, b1, b2, b3, rfl, rfl, rfl, b4⟩

set_option maxHeartbeats 1000000 in
theorem comFinish_delivers {m : Mantissa} (hm : Normd m.m) (hn : m.n = 64 * m.m.length)
    (hsz : 64 * m.m.length < PMAX) (s : Sign) (e1 : Int) {pw : Nat} (hp0 : 0 < pw)
    (hp : 64 * (pw + 1) < PMAX) (rm : RM)
    (hup : Num.directedUp rm s.isPos = false ∨ EMIN - (64 * (pw + 1) : ℕ) < e1) :
    Delivers rm (64 * pw) ((s.toK : K) * (val m.m * 2 ^ (e1 - (64 * m.m.length : ℕ)))) false
      (comFinish m s e1 (64 * pw) rm) := by
  have hM : (0 : K) < val m.m := by exact_mod_cast hm.pos
  have hX0 : (0 : K) < val m.m * 2 ^ (e1 - (64 * m.m.length : ℕ)) := mul_pos hM (two_zpow_pos _)
  have hpU : 64 * pw < USIZE_MAX := by unfold PMAX at hp; unfold USIZE_MAX; omega
  unfold comFinish
  by_cases h1 : e1 > EMAX
  · rw [if_pos h1]
    refine ⟨?_, ?_⟩
    · cases s
      · right; simp only [Sign.toK]; exact ⟨by linarith, trivial⟩
      · left; simp only [Sign.toK]; exact ⟨by linarith, trivial⟩
    · obtain ⟨t, h2, h3⟩ := exists_prec (K := K) hm hp0 rm s e1
      exact ⟨t, h2, le_trans (zpow_mono_two (by omega)) h3⟩
  rw [if_neg h1]
  by_cases h2 : e1 < EMIN
  swap
  · rw [if_neg h2]
    simp only [if_pos hpU]
    have hwf : (Num.mk e1 s m false).WF :=
      WF_of_normd hm hn (by omega) (by omega) (by rw [PMAX_eq] at hsz; omega) s false
    have := setPrecision_delivers (K := K) hwf hp0 (by omega) rm
    have e : ((Num.mk e1 s m false).toK : K) = (s.toK : K) * (val m.m * 2 ^ (e1 - (64 * m.m.length : ℕ))) := by
      unfold Num.toK; ring
    rw [e] at this
    exact this
  rw [if_pos h2, if_pos hpU]
  obtain ⟨sh, hsh⟩ : ∃ sh : ℕ, e1 = EMIN - (sh : ℤ) := ⟨(EMIN - e1).toNat, by omega⟩
  have hsh0 : 0 < sh := by omega
  obtain ⟨y, y1, y2, y3, y4, y5, y6, y7⟩ := comSub_y hm hn s hp hsh0
  rw [← hsh] at y1
  rw [y1]
  simp only [if_pos hpU]
  have hLm : m.m.length ≤ max m.m.length (pw + 1) := le_max_left _ _
  have hLp : pw + 1 ≤ max m.m.length (pw + 1) := le_max_right _ _
  have hLP : 64 * max m.m.length (pw + 1) < PMAX := by
    rcases max_cases m.m.length (pw + 1) with ⟨h, _⟩ | ⟨h, _⟩ <;> rw [h] <;> omega
  set L' := max m.m.length (pw + 1) with hL'
  set M' := val m.m * 2 ^ (64 * (L' - m.m.length)) with hM'
  set u : K := (2 : K) ^ (EMIN - ((64 * pw : ℕ) : ℤ)) with hu
  have hu0 : 0 < u := two_zpow_pos _
  set k := 64 * (L' - pw) with hk
  have hk64 : 64 ≤ k := by omega
  -- the exact magnitude in units of the grid
  have hXM : (val m.m : K) * 2 ^ (e1 - (64 * m.m.length : ℕ)) = ((M' : K) / 2 ^ sh / 2 ^ k) * u := by
    have e2 : (M' : K) = val m.m * 2 ^ (64 * (L' - m.m.length)) := by rw [hM']; push_cast; ring
    rw [e2, hu, hsh, ← zpow_natCast, ← zpow_natCast, ← zpow_natCast,
      mul_div_assoc, mul_div_assoc, ← two_zpow_sub, ← two_zpow_sub, mul_assoc, ← two_zpow_add]
    congr 2
    rw [hk]; push_cast [hLm, show pw ≤ L' by omega]; ring
  have hq1 : (2 : K) ^ (e1 - 1) ≤ val m.m * 2 ^ (e1 - (64 * m.m.length : ℕ)) := by
    have : (2 : K) ^ ((64 * m.m.length - 1 : ℕ) : ℤ) ≤ val m.m := by
      rw [zpow_natCast]; exact_mod_cast hm.2.2
    calc (2 : K) ^ (e1 - 1) = 2 ^ ((64 * m.m.length - 1 : ℕ) : ℤ) * 2 ^ (e1 - (64 * m.m.length : ℕ)) := by
          rw [← two_zpow_add]; congr 1
          have := hm.2.1
          push_cast [show 1 ≤ 64 * m.m.length by omega]; ring
      _ ≤ _ := mul_le_mul_of_nonneg_right this (two_zpow_pos _).le
  have hq2 : (val m.m : K) * 2 ^ (e1 - (64 * m.m.length : ℕ)) < 2 ^ e1 := by
    have : (val m.m : K) < 2 ^ ((64 * m.m.length : ℕ) : ℤ) := by
      rw [zpow_natCast]; exact_mod_cast hm.val_lt
    calc (val m.m : K) * 2 ^ (e1 - (64 * m.m.length : ℕ)) <
          2 ^ ((64 * m.m.length : ℕ) : ℤ) * 2 ^ (e1 - (64 * m.m.length : ℕ)) :=
            mul_lt_mul_of_pos_right this (two_zpow_pos _)
      _ = 2 ^ e1 := by rw [← two_zpow_add]; congr 1; ring
  have hfmt : ∀ r : K, Rounds rm ((s.toK : K) * (val m.m * 2 ^ (e1 - (64 * m.m.length : ℕ)))) u r →
      RoundsFmt rm (64 * pw) ((s.toK : K) * (val m.m * 2 ^ (e1 - (64 * m.m.length : ℕ)))) r := by
    intro r hr
    refine Or.inr ⟨e1, ?_, ?_, ?_⟩
    · rw [abs_toK, abs_of_pos hX0]; exact hq1
    · rw [abs_toK, abs_of_pos hX0]; exact hq2
    · rw [max_eq_right (by omega)]; exact hr
  set X : K := val m.m * 2 ^ (e1 - (64 * m.m.length : ℕ)) with hX
  have hsgnp : 0 < (s.toK : K) * X → s = .pos := sgn_pos hX0
  have hsgnn : (s.toK : K) * X < 0 → s = .neg := sgn_neg hX0
  rcases y7 with ⟨z1, z2, z3, z4, z5⟩ | ⟨z1, z2, z3, z4, z5⟩
  · -- some bits are left
    have hywf : y.WF := by
      refine ⟨y4, z3, by omega, by rw [z2]; exact EMIN_lt_EMAX.le, fun _ _ => z2, ?_⟩
      rw [y3]; rw [PMAX_eq] at hLP; omega
    have hdel := setPrecision_delivers (K := K) hywf hp0 (by omega) rm
    have hY : (y.toK : K) = (s.toK : K) * ((val y.m.m : K) / 2 ^ k * u) := by
      unfold Num.toK
      rw [y2, y3, z2, mul_assoc, hu, div_mul_eq_mul_div, mul_div_assoc, ← zpow_natCast, ← two_zpow_sub]
      congr 3
      rw [hk]; push_cast [show pw ≤ L' by omega]; ring
    by_cases hx : M' % 2 ^ sh ≠ 0
    swap
    · -- exact
      have hx0 : M' % 2 ^ sh = 0 := by simpa using hx
      have hYX : (y.toK : K) = (s.toK : K) * X := by
        rw [hY, hXM, z5, if_neg hx, Nat.add_zero]
        congr 3
        have : M' = M' / 2 ^ sh * 2 ^ sh := (Nat.div_mul_cancel (Nat.dvd_of_mod_eq_zero hx0)).symm
        have h2 : (M' : K) = ((M' / 2 ^ sh : ℕ) : K) * 2 ^ sh := by
          conv_lhs => rw [this]
          push_cast; ring
        rw [h2, mul_div_assoc, div_self (by positivity), mul_one]
      rw [hYX] at hdel
      have hix : y.inexact = false := by rw [z4]; simpa using hx
      rw [hix] at hdel
      exact hdel
    · -- inexact: the sticky bit
      have hix : y.inexact = true := by rw [z4]; simpa using hx
      set V := M' / 2 ^ sh with hV
      rw [if_pos hx] at z5
      set j := V / 2 ^ (k - 1) with hj
      have hkk : (2 : ℕ) ^ k = 2 * 2 ^ (k - 1) := by rw [← pow_succ']; congr 1; omega
      have hkK : (2 : K) ^ k = 2 * 2 ^ (k - 1) := by rw [← pow_succ']; congr 1; omega
      have hpk : (0 : K) < 2 ^ (k - 1) := by positivity
      have hpn : 0 < 2 ^ (k - 1) := by positivity
      have heven : 2 ^ (k - 1) % 2 = 0 := by
        have : 2 ^ (k - 1) = 2 * 2 ^ (k - 2) := by rw [← pow_succ']; congr 1; omega
        omega
      have hVlt : V < (j + 1) * 2 ^ (k - 1) := by
        rw [hj]; have := Nat.lt_mul_div_succ V hpn; rw [Nat.mul_comm] at this; exact this
      have hVge : j * 2 ^ (k - 1) ≤ V := Nat.div_mul_le_self _ _
      have hYlo : j * 2 ^ (k - 1) < val y.m.m := by
        rw [z5]
        rcases Nat.mod_two_eq_zero_or_one V with h | h
        · rw [h]; omega
        · rw [h]
          rcases Nat.lt_or_ge (j * 2 ^ (k - 1)) V with h' | h'
          · omega
          · have : V = j * 2 ^ (k - 1) := by omega
            rw [this, Nat.mul_mod, heven] at h; simp at h
      have hYhi : val y.m.m < (j + 1) * 2 ^ (k - 1) := by
        rw [z5]
        rcases Nat.mod_two_eq_zero_or_one V with h | h
        · rw [h]
          rcases Nat.lt_or_ge (V + 1) ((j + 1) * 2 ^ (k - 1)) with h' | h'
          · omega
          · have : V + 1 = (j + 1) * 2 ^ (k - 1) := by omega
            have h2 : (V + 1) % 2 = 0 := by rw [this, Nat.mul_mod, heven]; simp
            omega
        · rw [h]; omega
      have hhalf : ∀ a : K, (j : K) * 2 ^ (k - 1) < a → a < ((j : K) + 1) * 2 ^ (k - 1) →
          (j : K) / 2 < a / 2 ^ k ∧ a / 2 ^ k < ((j : K) + 1) / 2 := by
        intro a ha hb
        rw [hkK]
        constructor
        · rw [div_lt_div_iff₀ (by norm_num) (by positivity)]; linarith
        · rw [div_lt_div_iff₀ (by positivity) (by norm_num)]; linarith
      obtain ⟨hY1, hY2⟩ := hhalf (val y.m.m : K) (by exact_mod_cast hYlo) (by exact_mod_cast hYhi)
      have hpsh : (0 : K) < 2 ^ sh := by positivity
      have hMlo : (V : K) < (M' : K) / 2 ^ sh := by
        rw [lt_div_iff₀ hpsh]
        have hdm := Nat.div_add_mod M' (2 ^ sh)
        have : V * 2 ^ sh < M' := by rw [hV, Nat.mul_comm]; omega
        exact_mod_cast this
      have hMhi : (M' : K) / 2 ^ sh < (V : K) + 1 := by
        rw [div_lt_iff₀ hpsh]
        have : M' < (V + 1) * 2 ^ sh := by
          have := Nat.lt_mul_div_succ M' (show 0 < 2 ^ sh by positivity)
          rw [Nat.mul_comm] at this; exact this
        exact_mod_cast this
      obtain ⟨hX1, hX2⟩ := hhalf ((M' : K) / 2 ^ sh)
        (lt_of_le_of_lt (by exact_mod_cast hVge) hMlo)
        (lt_of_lt_of_le hMhi (by exact_mod_cast Nat.succ_le_of_lt hVlt))
      cases hr : y.setPrecision (64 * pw) rm with
      | error er =>
        rw [hr] at hdel
        exfalso
        obtain ⟨_, t, ht1, ht2⟩ := hdel
        have := RoundsPrec.abs_le (by omega) ht1 (a := EMIN) (by
          have := Num.WF.abs_lt_zpow (K := K) hywf
          rw [z2] at this; exact this.le)
        have h3 : (2 : K) ^ EMIN < 2 ^ EMAX := zpow_lt_zpow_right₀ (by norm_num) EMIN_lt_EMAX
        linarith
      | ok v =>
        rw [hr] at hdel
        have hspec := setPrecision_spec (K := K) hywf (p := 64 * pw) (by omega) (by omega) rm
        rw [hr] at hspec
        obtain ⟨⟨_, _, hvs, hvix, hvf⟩, _⟩ := hspec
        have hkb : keptBits rm (64 * pw) = 64 * pw := by unfold keptBits; rw [wordLen_mul]; simp
        rw [hkb] at hvf
        -- the rounded value of `y` in units
        have hmagY := rndN_RMag (K := K) rm y.s.isPos (val y.m.m) k
        have hYpos : 0 < val y.m.m := by omega
        have hroundY : Rounds rm (y.toK : K) u ((s.toK : K) * ((rndN rm y.s.isPos (val y.m.m) k : ℕ) * u)) := by
          have := RMag.toRounds' (s := y.s) (X := (val y.m.m : K) / 2 ^ k * u) (u := u) (rm := rm)
            (by positivity) hu0 (by rw [mul_div_assoc, div_self hu0.ne', mul_one]; exact hmagY)
          rw [hY, ← y2]; exact this
        have hvval : (v.toK : K) = (s.toK : K) * ((rndN rm y.s.isPos (val y.m.m) k : ℕ) * u) := by
          have hz : y.isZero = false := by
            simp only [Num.isZero, Mantissa.isZero, z3, beq_eq_false_iff_ne, ne_eq, Nat.size_eq_zero]; omega
          obtain ⟨q, g1, g2, g3, _⟩ := Num.WF.mag (K := K) hywf hz
          have hf2 : RoundsFmt rm (64 * pw) (y.toK : K)
              ((s.toK : K) * ((rndN rm y.s.isPos (val y.m.m) k : ℕ) * u)) := by
            refine Or.inr ⟨q, g1, g2, ?_⟩
            rw [g3, z2]; exact hroundY
          exact le_antisymm (hvf.mono (by omega) hf2 le_rfl) (hf2.mono (by omega) hvf le_rfl)
        have hmagX := hmagY.sticky hY1 hY2 hX1 hX2
        have hroundX : Rounds rm ((s.toK : K) * X) u (v.toK : K) := by
          have := RMag.toRounds' (s := y.s) (X := X) (u := u) (rm := rm) hX0.le hu0
            (by rw [hXM, mul_div_assoc, div_self hu0.ne', mul_one]; exact hmagX)
          rw [hvval]; rw [y2] at this ⊢; exact this
        obtain ⟨d1, d2, _, _, d5, _⟩ := hdel
        refine ⟨d1, d2, fun h => by rw [hvs, y2]; exact hsgnp h, fun h => by rw [hvs, y2]; exact hsgnn h, ?_,
          Or.inl (hfmt _ hroundX)⟩
        have hvi : v.inexact = true := d5.2 (Or.inl hix)
        rw [hvi]
        refine ⟨fun _ => Or.inr ?_, fun _ => rfl⟩
        intro hc
        rw [hvval] at hc
        have hc2 := mul_left_cancel₀ (toK_ne_zero (K := K) s) hc
        rw [hXM] at hc2
        exact between_half hX1 hX2 _ (mul_right_cancel₀ hu0.ne' hc2).symm
  · -- nothing is left
    have hdu : Num.directedUp rm s.isPos = false := by
      rcases hup with h | h
      · exact h
      · exfalso; rw [hsh] at h; push_cast at h; omega
    obtain ⟨v, v1, v2, v3, v4, v5, v6, v7, v8⟩ := setPrecision_lost (rm := rm) y4 z5 z3 z2 z4 hp0
      (by rw [y3]; omega) (by omega) (by rw [y2]; exact hdu)
    rw [v1]
    have hv0 : (v.toK : K) = 0 := by unfold Num.toK; rw [v3]; simp
    have hXu : X < u / 2 := by
      refine lt_of_lt_of_le hq2 ?_
      rw [hu, le_div_iff₀ (by norm_num), show (2 : K) ^ e1 * 2 = 2 ^ (e1 + 1) by rw [two_zpow_add, zpow_one]]
      apply zpow_mono_two
      rw [hsh]; push_cast; omega
    refine ⟨?_, by rw [v8], fun h => by rw [v6, y2]; exact hsgnp h, fun h => by rw [v6, y2]; exact hsgnn h, ?_,
      Or.inl ?_⟩
    · refine ⟨v2, by rw [v3, v4]; simp, by rw [v5]; unfold EMIN; norm_num, by rw [v5]; unfold EMAX; norm_num, ?_, ?_⟩
      · rw [v4]; intro h; exact absurd h (lt_irrefl 0)
      · rw [v8]; rw [PMAX_eq] at hp; omega
    · rw [v7, hv0]
      refine ⟨fun _ => Or.inr ?_, fun _ => rfl⟩
      exact (mul_ne_zero (toK_ne_zero _) hX0.ne').symm
    · rw [hv0]
      exact hfmt _ (rounds_tiny hX0 hXu hdu)

end AF
