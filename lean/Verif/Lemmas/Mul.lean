import Verif.Lemmas.FftMul
import Verif.Lemmas.Toom3
import Verif.Lemmas.NumAdd
/-!
# Multiplication of word slices and of numbers
-/

namespace AF
set_option linter.unusedSectionVars false

theorem mulSlices_spec {mul : MulFn} {m1 m2 : List Nat} (h : MulOk mul (m1.length + m2.length))
    (h1 : Wf m1) (h2 : Wf m2) {len : Nat} (hl : m1.length + m2.length ≤ len) :
    (mulSlices mul m1 m2 len).length = len ∧ Wf (mulSlices mul m1 m2 len) ∧
    val (mulSlices mul m1 m2 len) = val m1 * val m2 := by
  unfold mulSlices
  split
  · exact mulBasic_spec h1 h2 hl
  · split
    · exact toom2_spec h h1 h2 (by omega) (by omega) hl
    · split
      · exact toom3_spec h h1 h2 (by omega) (by omega) hl
      · split
        · have hN : 64 ≤ m1.length + m2.length := by omega
          have hs := fftParams_short hN
          refine fftMulWith_spec h1 h2 (by omega) (by assumption) (fun a b ha hb la lb => ?_) hl
          exact h a b _ ha hb (by omega) (by omega)
        · exact fftMul_spec h1 h2 hl

/-- The sum of the chunks of `s` words at the positions `0, 2s, 4s, ..`. -/
def evenVal (s : Nat) : Nat → List Nat → Nat
  | 0, _ => 0
  | f + 1, m => if m.length = 0 then 0 else val (m.take s) + B ^ (s * 2) * evenVal s f (m.drop (s * 2))

theorem evenVal_nil (s f : Nat) : evenVal s f [] = 0 := by cases f <;> simp [evenVal]

theorem val_even_odd (s : Nat) (hs : 0 < s) (f : Nat) (m : List Nat) (hf : m.length ≤ f) :
    val m = evenVal s f m + B ^ s * evenVal s f (m.drop s) := by
  induction f generalizing m with
  | zero =>
    have : m = [] := List.eq_nil_of_length_eq_zero (by omega)
    subst this; simp [evenVal]
  | succ f ih =>
    by_cases hm : m.length = 0
    · have : m = [] := List.eq_nil_of_length_eq_zero hm
      subst this; simp [evenVal]
    · have i := ih (m.drop (s * 2)) (by simp; omega)
      have e1 := val_take_drop' m s
      have e2 := val_take_drop' (m.drop s) s
      rw [List.drop_drop, show s + s = s * 2 by omega] at e2
      have eo : evenVal s (f + 1) (m.drop s) =
          val ((m.drop s).take s) + B ^ (s * 2) * evenVal s f ((m.drop (s * 2)).drop s) := by
        simp only [evenVal]
        split
        · rename_i hz
          have : m.drop s = [] := List.eq_nil_of_length_eq_zero hz
          have hl : m.length ≤ s := by
            rw [List.length_drop] at hz; omega
          have h2 : m.drop (s * 2) = [] := List.drop_eq_nil_of_le (by omega)
          rw [this, h2]
          simp [evenVal_nil]
        · rw [List.drop_drop, List.drop_drop]
          congr 4; omega
      rw [eo]
      simp only [evenVal]
      rw [if_neg hm, e1, e2, i, show s * 2 = s + s by omega, pow_add]
      ring

theorem evenPass_spec {mul : MulFn} {sm : List Nat} (hsm : Wf sm) (h : MulOk mul (2 * sm.length + 1))
    (hs : 0 < sm.length) (f : Nat) (lg : List Nat) (hlg : Wf lg) (hf : lg.length ≤ f) :
    (evenPass mul sm f lg).length ≤ lg.length + sm.length ∧ Wf (evenPass mul sm f lg) ∧
    val (evenPass mul sm f lg) = val sm * evenVal sm.length f lg := by
  induction f generalizing lg with
  | zero => simp [evenPass, evenVal, Wf.nil]
  | succ f ih =>
    unfold evenPass evenVal
    by_cases hz : lg.length = 0
    · rw [if_pos hz, if_pos hz]; simp [Wf.nil]
    · rw [if_neg hz, if_neg hz]
      dsimp only
      have hcl : (lg.take sm.length).length = min sm.length lg.length := by simp
      obtain ⟨p1, p2, p3⟩ := mulSlices_spec (mul := mul) (m1 := lg.take sm.length) (m2 := sm)
        (len := 2 * sm.length) (fun a b l ha hb hlt hle => h a b l ha hb (by omega) hle)
        (hlg.take _) hsm (by omega)
      obtain ⟨i1, i2, i3⟩ := ih (lg.drop (sm.length * 2)) (hlg.drop _) (by simp; omega)
      set P := mulSlices mul (lg.take sm.length) sm (2 * sm.length)
      have tl : (P.take ((lg.take sm.length).length + sm.length)).length =
          (lg.take sm.length).length + sm.length := by
        rw [List.length_take, p1]; omega
      refine ⟨?_, wf_append.2 ⟨p2.take _, i2⟩, ?_⟩
      · rw [List.length_append, tl]
        have : (lg.drop (sm.length * 2)).length = lg.length - sm.length * 2 := by simp
        by_cases hc : lg.length ≤ sm.length * 2
        · have hd : lg.drop (sm.length * 2) = [] := List.drop_eq_nil_of_le hc
          rw [hd]
          have : evenPass mul sm f [] = [] := by cases f <;> simp [evenPass]
          rw [this, List.length_nil]
          omega
        · omega
      · rw [val_append, tl, i3, val_take p2, p3, Nat.mod_eq_of_lt (mul_lt_pow (hlg.take _) hsm le_rfl)]
        by_cases hc : lg.length ≤ sm.length * 2
        · have hd : lg.drop (sm.length * 2) = [] := List.drop_eq_nil_of_le hc
          rw [hd, evenVal_nil]; ring
        · have : (lg.take sm.length).length + sm.length = sm.length * 2 := by omega
          rw [this]; ring

theorem oddPass_spec {mul : MulFn} {sm : List Nat} (hsm : Wf sm) (h : MulOk mul (2 * sm.length + 1))
    (hs : 0 < sm.length) (f : Nat) (lg m3 : List Nat) (hlg : Wf lg) (hm3 : Wf m3)
    (hf : lg.length ≤ f) (hb : val m3 + val sm * evenVal sm.length f lg < B ^ m3.length) :
    (oddPass mul sm f lg m3).length = m3.length ∧ Wf (oddPass mul sm f lg m3) ∧
    val (oddPass mul sm f lg m3) = val m3 + val sm * evenVal sm.length f lg := by
  induction f generalizing lg m3 with
  | zero => simp [oddPass, evenVal, hm3]
  | succ f ih =>
    unfold oddPass evenVal
    by_cases hz : lg.length = 0
    · rw [if_pos hz, if_pos hz]; simp [hm3]
    · rw [if_neg hz, if_neg hz]
      unfold evenVal at hb
      rw [if_neg hz] at hb
      dsimp only
      have hcl : (lg.take sm.length).length = min sm.length lg.length := by simp
      obtain ⟨p1, p2, p3⟩ := mulSlices_spec (mul := mul) (m1 := lg.take sm.length) (m2 := sm)
        (len := 2 * sm.length) (fun a b l ha hb hlt hle => h a b l ha hb (by omega) hle)
        (hlg.take _) hsm (by omega)
      set P := mulSlices mul (lg.take sm.length) sm (2 * sm.length)
      have pv : val (P.take ((lg.take sm.length).length + sm.length)) =
          val (lg.take sm.length) * val sm := by
        rw [val_take p2, p3, Nat.mod_eq_of_lt (mul_lt_pow (hlg.take _) hsm le_rfl)]
      have pw : Wf (P.take ((lg.take sm.length).length + sm.length)) := p2.take _
      generalize P.take ((lg.take sm.length).length + sm.length) = Q at *
      obtain ⟨a1, a2⟩ := ssAddAssign_exact hm3 pw (by
        rw [pv]
        refine lt_of_le_of_lt ?_ hb
        rw [Nat.mul_add, Nat.mul_comm (val (lg.take sm.length))]; omega)
      have al := ssAddAssign_length 0 m3 Q
      rw [pv] at a2
      generalize ssAddAssign 0 m3 Q = M at *
      have hM := val_take_drop' M (sm.length * 2)
      have hbound : val (M.drop (sm.length * 2)) +
          val sm * evenVal sm.length f (lg.drop (sm.length * 2)) <
          B ^ (M.drop (sm.length * 2)).length := by
        have hpos := B_pow_pos (sm.length * 2)
        refine Nat.lt_of_mul_lt_mul_left (a := B ^ (sm.length * 2)) ?_
        have hle : B ^ m3.length ≤ B ^ (sm.length * 2) * B ^ (M.drop (sm.length * 2)).length := by
          rw [← pow_add, List.length_drop, al]
          exact Nat.pow_le_pow_right B_pos (by omega)
        refine lt_of_lt_of_le ?_ hle
        refine lt_of_le_of_lt ?_ hb
        rw [Nat.mul_add, Nat.mul_add]
        have e : B ^ (sm.length * 2) * (val sm * evenVal sm.length f (lg.drop (sm.length * 2))) =
          val sm * (B ^ (sm.length * 2) * evenVal sm.length f (lg.drop (sm.length * 2))) := by ring
        rw [e]
        have e3 : val (lg.take sm.length) * val sm = val sm * val (lg.take sm.length) := by ring
        omega
      obtain ⟨i1, i2, i3⟩ := ih (lg.drop (sm.length * 2)) (M.drop (sm.length * 2)) (hlg.drop _)
        (a1.drop _) (by simp; omega) hbound
      refine ⟨?_, wf_append.2 ⟨a1.take _, i2⟩, ?_⟩
      · rw [List.length_append, i1, List.length_take, List.length_drop]; omega
      · rw [val_append, i3]
        by_cases hc : sm.length * 2 ≤ M.length
        · rw [List.length_take, min_eq_left hc]
          rw [hM] at a2
          have e3 : val (lg.take sm.length) * val sm = val sm * val (lg.take sm.length) := by ring
          rw [Nat.mul_add, Nat.mul_add]
          have e : B ^ (sm.length * 2) * (val sm * evenVal sm.length f (lg.drop (sm.length * 2))) =
            val sm * (B ^ (sm.length * 2) * evenVal sm.length f (lg.drop (sm.length * 2))) := by ring
          omega
        · have hd : M.drop (sm.length * 2) = [] := List.drop_eq_nil_of_le (by omega)
          rw [hd] at hbound hM ⊢
          simp only [val_nil, List.length_nil, pow_zero, Nat.zero_add] at hbound
          have hz0 : val sm * evenVal sm.length f (lg.drop (sm.length * 2)) = 0 := by omega
          have e : val sm * (B ^ (sm.length * 2) * evenVal sm.length f (lg.drop (sm.length * 2))) =
            B ^ (sm.length * 2) * (val sm * evenVal sm.length f (lg.drop (sm.length * 2))) := by ring
          rw [hz0, Nat.mul_add (val sm), e, hz0]
          simp only [val_nil, Nat.mul_zero, Nat.add_zero] at hM ⊢
          rw [← hM, a2]; ring

theorem mulUnbalancedWith_spec {mul : MulFn} {m1 m2 : List Nat}
    (h : MulOk mul (m1.length + m2.length)) (h1 : Wf m1) (h2 : Wf m2) {len : Nat}
    (hl : m1.length + m2.length ≤ len) :
    (mulUnbalancedWith mul m1 m2 len).length = len ∧ Wf (mulUnbalancedWith mul m1 m2 len) ∧
    val (mulUnbalancedWith mul m1 m2 len) = val m1 * val m2 := by
  have key : ∀ sm lg : List Nat, Wf sm → Wf lg → sm.length + lg.length = m1.length + m2.length →
      val sm * val lg = val m1 * val m2 →
      let r := if lg.length / 2 ≥ sm.length ∧ sm.length > 70 then
        (fit len (evenPass mul sm lg.length lg)).take sm.length ++
          oddPass mul sm lg.length (lg.drop sm.length)
            ((fit len (evenPass mul sm lg.length lg)).drop sm.length)
        else mulSlices mul sm lg len
      r.length = len ∧ Wf r ∧ val r = val m1 * val m2 := by
    intro sm lg hsm hlg hlen hval
    dsimp only
    split
    · rename_i hc
      have hs : 0 < sm.length := by omega
      have hmul : MulOk mul (2 * sm.length + 1) := fun a b l ha hb hlt hle =>
        h a b l ha hb (by omega) hle
      obtain ⟨p1, p2, p3⟩ := evenPass_spec hsm hmul hs lg.length lg hlg le_rfl
      have heo := val_even_odd sm.length hs lg.length lg le_rfl
      have htot : val sm * val lg < B ^ len := by
        refine mul_lt_pow hsm hlg (by omega)
      generalize hE : evenPass mul sm lg.length lg = E at *
      have q1 := fit_length len E
      have q2 := fit_wf p2 len
      have hev : val E ≤ val sm * val lg := by
        rw [p3]; apply Nat.mul_le_mul_left; omega
      have q3 : val (fit len E) = val E := by
        rw [val_fit p2, Nat.mod_eq_of_lt (lt_of_le_of_lt hev htot)]
      generalize fit len E = F at *
      have hF := val_take_drop' F sm.length
      have e1 : val sm * val lg = val E +
          B ^ sm.length * (val sm * evenVal sm.length lg.length (lg.drop sm.length)) := by
        rw [heo, p3]; ring
      have hdl : (F.drop sm.length).length = len - sm.length := by rw [List.length_drop, q1]
      obtain ⟨o1, o2, o3⟩ := oddPass_spec hsm hmul hs lg.length (lg.drop sm.length)
        (F.drop sm.length) (hlg.drop _) (q2.drop _) (by simp) (by
          refine Nat.lt_of_mul_lt_mul_left (a := B ^ sm.length) ?_
          rw [hdl, ← pow_add, show sm.length + (len - sm.length) = len by omega, Nat.mul_add]
          omega)
      refine ⟨?_, wf_append.2 ⟨q2.take _, o2⟩, ?_⟩
      · rw [List.length_append, o1, List.length_take, List.length_drop]; omega
      · rw [val_append, o3, List.length_take, min_eq_left (by omega), ← hval, e1, Nat.mul_add]
        omega
    · rw [← hlen] at h
      obtain ⟨a, b, c⟩ := mulSlices_spec h hsm hlg (len := len) (by omega)
      exact ⟨a, b, by rw [c, hval]⟩
  unfold mulUnbalancedWith
  dsimp only
  by_cases hc : m1.length < m2.length
  · rw [if_pos hc]
    exact key m1 m2 h1 h2 rfl rfl
  · rw [if_neg hc]
    exact key m2 m1 h2 h1 (by omega) (Nat.mul_comm _ _)

theorem mulFuel_ok (f : Nat) : MulOk (mulFuel f) f := by
  induction f with
  | zero => intro m1 m2 len _ _ h; omega
  | succ f ih =>
    intro m1 m2 len h1 h2 hlt hle
    exact mulUnbalancedWith_spec (fun a b l ha hb hl1 hl2 => ih a b l ha hb (by omega) hl2) h1 h2 hle

/-- The word-level product is the product. -/
theorem mulWords_spec {m1 m2 : List Nat} (h1 : Wf m1) (h2 : Wf m2) {len : Nat}
    (hl : m1.length + m2.length ≤ len) :
    (mulWords m1 m2 len).length = len ∧ Wf (mulWords m1 m2 len) ∧
    val (mulWords m1 m2 len) = val m1 * val m2 :=
  mulFuel_ok (m1.length + m2.length + 1) m1 m2 len h1 h2 (by omega) hl

variable {K : Type*} [Field K] [LinearOrder K] [IsStrictOrderedRing K]

theorem mantMul_spec {m1 m2 : List Nat} (h1 : Normd m1) (h2 : Normd m2) {p : Nat}
    (hp : 0 < wordLen p) (rm : RM) (pos ix : Bool) :
    MantOk rm pos (wordLen p) (frac m1 * frac m2 : K) ix (mantMul m1 m2 p rm pos false ix) := by
  obtain ⟨a1, a2, a3⟩ := mulWords_spec h1.1 h2.1 (len := m1.length + m2.length) le_rfl
  have hv : val (mulWords m1 m2 (m1.length + m2.length)) ≠ 0 := by
    rw [a3]; exact Nat.mul_ne_zero h1.pos.ne' h2.pos.ne'
  obtain ⟨b1, b2, b3, b4, b5⟩ := maximize_spec a2 hv
  unfold mantMul
  dsimp only
  generalize mulWords m1 m2 (m1.length + m2.length) = M at *
  have hN : Normd (maximize M).1 := ⟨b5, by have := h1.2.1; omega, by rw [b4]; exact b3⟩
  have := MantOk_exact (K := K) hN hp rm pos ix (X := frac m1 * frac m2) (c := -((maximize M).2 : ℤ)) (by
    rw [b1, a3, b4, a1]
    unfold frac
    push_cast
    rw [Nat.mul_add, pow_add, zpow_neg, zpow_natCast]
    field_simp)
  rw [neg_neg] at this
  exact this

/-- The inexact mark that `mul` takes over from the operands: a zero operand gives an exact zero. -/
def mulIx (x y : Num) : Bool :=
  if x.isZero || y.isZero then false else x.inexact || y.inexact

theorem mulGeneral_spec {x y : Num} (hx : x.WF) (hy : y.WF) {p : Nat} (hp : 0 < p)
    (hpm : roundP p < PMAX) (rm : RM) :
    Delivers rm (roundP p) ((x.toK : K) * y.toK) (mulIx x y) (x.mulGeneral y p rm false) := by
  have hpw : 0 < wordLen p := by unfold wordLen; omega
  have hp64 := roundP_eq hpm
  unfold Num.mulGeneral mulIx
  dsimp only
  rw [if_neg (show ¬ roundP p ≥ PMAX by omega)]
  generalize wordLen p = pw at *
  generalize roundP p = q at *
  subst hp64
  have hsz : 64 * pw ≤ 2 ^ 62 - 2 ^ 31 := by unfold PMAX at hpm; omega
  by_cases hz : (x.isZero || y.isZero) = true
  · rw [if_pos hz, if_pos hz]
    have h0 : (x.toK : K) * y.toK = 0 := by
      rw [Bool.or_eq_true] at hz
      rcases hz with h | h
      · rw [hx.toK_eq_zero.2 h, zero_mul]
      · rw [hy.toK_eq_zero.2 h, mul_zero]
    rw [h0]
    have e : ∀ s, (Num.zero (64 * pw) .pos false).setSign s = Num.zero (64 * pw) s false := fun s => rfl
    rw [e]
    refine ⟨zero_WF (by rw [wordLen_mul]; exact hsz) _ _, ?_, fun h => absurd h (lt_irrefl _),
      fun h => absurd h (lt_irrefl _), ?_, Or.inl (Or.inl ⟨rfl, zero_toK _ _ _⟩)⟩
    · simp [Num.zero, Mantissa.new, wordLen_mul]
    · rw [zero_toK]; simp [Num.zero]
  · rw [if_neg hz, if_neg hz]
    rw [Bool.not_eq_true, Bool.or_eq_false_iff] at hz
    obtain ⟨e1, m1, hn1, hm1, hv1, hl1, hb1, he1⟩ := normalize_spec (K := K) hx hz.1
    obtain ⟨e2, m2, hn2, hm2, hv2, hl2, hb2, he2⟩ := normalize_spec (K := K) hy hz.2
    rw [hn1, hn2]
    dsimp only
    have h := finish_of_mant (s := if x.s = y.s then .pos else .neg) hpw (by
      have := mantMul_spec (K := K) hm1 hm2 (p := 64 * pw) (by rw [wordLen_mul]; exact hpw) rm
        (Sign.isPos (if x.s = y.s then .pos else .neg)) (x.inexact || y.inexact)
      rw [wordLen_mul] at this
      exact this) hsz (e1 + e2)
    convert h using 1
    rw [Num.toK_eq x, Num.toK_eq y, hv1, hv2, zpow_add₀ (by norm_num)]
    have : (Sign.toK (if x.s = y.s then .pos else .neg) : K) = x.s.toK * y.s.toK := by
      cases x.s <;> cases y.s <;> simp [Sign.toK]
    rw [this]; ring

end AF
