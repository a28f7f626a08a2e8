import Verif.Lemmas.DecInt
import Verif.Model.Text
/-!
# C34: the cache of powers of ten does not influence results

`TenHist` are the caches that any history of requests leaves. Conversions leave such a cache again, its entries
are exact, and results do not depend on which of these caches is given.
-/

namespace AF

/-- The entries are the powers `10^(2^i)`: exact, without leading zero words, and shifted to set the top bit. -/
theorem C34_exact (tp : List TenPow) (h : TenHist tp) (i : Nat) (t : TenPow) (ht : tp[i]? = some t) :
    val t.2.1 = 10 ^ 2 ^ i ∧ val t.1 = 10 ^ 2 ^ i * 2 ^ t.2.2 ∧ Wf t.2.1 ∧ Wf t.1 ∧ t.1.length = t.2.1.length ∧
      B ^ t.1.length ≤ 2 * val t.1 := by
  have ho := h.ok i t ht
  obtain ⟨m1, _, _, m4, m5⟩ := maximize_spec ho.top.1 ho.top.pos.ne'
  have e1 : t.1 = (maximize t.2.1).1 := congrArg Prod.fst ho.max
  have e2 : t.2.2 = (maximize t.2.1).2 := by rw [← ho.max]
  have hT : TopSet t.1 := by rw [e1]; exact maximize_topSet ho.top
  refine ⟨ho.val, by rw [e1, m1, ← e2, ho.val], ho.top.1, hT.1, by rw [e1, m4], hT.2.2⟩

/-- A request for `k` powers makes at least `k` of them available. -/
theorem C34_length (tp : List TenPow) (h : TenHist tp) (k : Nat) : k ≤ (tenpowers tp k).length :=
  (tenpowers_ok h.ok k).2

example : TenHist (tenpowers (tenpowers [] 3) 6) ∧ (tenpowers (tenpowers [] 3) 6).length = 6 :=
  ⟨.request 6 (.request 3 .new), by decide +kernel⟩

/-! ### Results -/

theorem mantToDec_congr {tp tp' : List TenPow} {k : Nat} (h : ∀ i < k, tp[i]? = tp'[i]?) :
    ∀ (p : Nat) (x : Mantissa) (l : Nat) (ms : Bool), p < k ∨ p = 0 →
      mantToDec tp p x l ms = mantToDec tp' p x l ms := by
  intro p
  induction p with
  | zero => intro x l ms _; rw [mantToDec, mantToDec]
  | succ p ih =>
    intro x l ms hp
    rw [mantToDec, mantToDec, h (p + 1) (by omega)]
    simp only [ih _ _ _ (Or.inl (show p < k by omega))]

theorem decPairs_length (t : List Nat) : ∀ (n : Nat) (cs : List (List Nat)), cs.length ≤ n →
    (decPairs t cs).length = (cs.length + 1) / 2 := by
  intro n
  induction n with
  | zero => intro cs h; have : cs = [] := List.length_eq_zero_iff.1 (by omega); subst this; rfl
  | succ n ih =>
    intro cs h
    match cs, h with
    | [], _ => rfl
    | [a], _ => simp [decPairs]
    | a :: b :: cs, h =>
      simp only [decPairs, List.length_cons] at h ⊢
      rw [ih cs (by omega)]; omega

theorem decCombine_congr {tp tp' : List TenPow} {k : Nat} (h : ∀ i < k, tp[i]? = tp'[i]?) :
    ∀ (f p : Nat) (cs : List (List Nat)), cs.length ≤ 2 ^ (k - p) →
      decCombine tp f p cs = decCombine tp' f p cs := by
  intro f
  induction f with
  | zero => intro p cs _; match cs with | [] => rfl | [_] => rfl | _ :: _ :: _ => rfl
  | succ f ih =>
    intro p cs hl
    match cs, hl with
    | [], _ => rfl
    | [_], _ => rfl
    | a :: b :: cs, hl =>
      have hp : p < k := by
        by_contra hc
        rw [show k - p = 0 by omega] at hl
        simp at hl
      simp only [decCombine, h p hp]
      cases tp'[p]? with
      | none => rfl
      | some t =>
        simp only
        apply ih
        rw [decPairs_length _ _ _ (le_refl _)]
        have : 2 ^ (k - p) = 2 * 2 ^ (k - (p + 1)) := by rw [← pow_succ']; congr 1; omega
        omega

theorem mantFromDec_congr {tp tp' : List TenPow} {k : Nat} (h : ∀ i < k, tp[i]? = tp'[i]?) (ds : List Nat)
    (hl : ds.length ≤ 2 ^ k) : mantFromDec ds tp = mantFromDec ds tp' := by
  by_cases hb : ∃ d ∈ ds, 9 < d
  · rw [mantFromDec_bad hb, mantFromDec_bad hb]
  · obtain ⟨cs, h1, _, _, h4⟩ := decChunks_spec ds.reverse 0 0 (by
      intro v hv
      by_contra hc
      exact hb ⟨v, List.mem_reverse.1 hv, by omega⟩) (by norm_num) (by norm_num)
    rw [show (10 : ℕ) ^ 0 = 1 from rfl] at h1
    rw [List.length_reverse] at h4
    unfold mantFromDec
    rw [h1]
    simp only
    rw [decCombine_congr h]
    rw [h4]
    by_cases hk : 4 ≤ k
    · have : 2 ^ k = 16 * 2 ^ (k - 4) := by
        rw [show (16 : ℕ) = 2 ^ 4 from rfl, ← pow_add]; congr 1; omega
      omega
    · have : 2 ^ k ≤ 2 ^ 4 := Nat.pow_le_pow_right (by norm_num) (by omega)
      have : 1 ≤ 2 ^ (k - 4) := Nat.one_le_two_pow
      omega

theorem TenHist.agree {tp tp' : List TenPow} (h : TenHist tp) (h' : TenHist tp') (k : Nat) :
    ∀ i < k, (tenpowers tp k)[i]? = (tenpowers tp' k)[i]? := by
  intro i hi
  obtain ⟨a, b⟩ := tenpowers_ok h.ok k
  obtain ⟨a', b'⟩ := tenpowers_ok h'.ok k
  exact a.agree a' (by omega) (by omega)

/-- Equal outcomes, and caches that a history leaves. -/
def SameOut {α : Type} (a b : α × List TenPow) : Prop :=
  ∃ r t t', a = (r, t) ∧ b = (r, t') ∧ TenHist t ∧ TenHist t'

theorem SameOut.mk {α : Type} (r : α) {t t' : List TenPow} (h : TenHist t) (h' : TenHist t') :
    SameOut (r, t) (r, t') := ⟨r, t, t', rfl, rfl, h, h'⟩

theorem toDecConv_indep (s : Sign) (rm : RM) (n : Nat) (nwrk : Int) (shift acc : Nat) (ix : Bool) (m : Mantissa)
    (k : Nat) {tp tp' : List TenPow} (h : TenHist tp) (h' : TenHist tp') :
    SameOut (Num.toDecConv s rm n nwrk shift acc ix m k tp) (Num.toDecConv s rm n nwrk shift acc ix m k tp') := by
  have hk := mantToDec_congr (h.agree h' k) (k - 1) m (1 <<< k) true (by omega)
  have g := h.request k
  have g' := h'.request k
  unfold Num.toDecConv
  simp only
  rw [hk]
  generalize mantToDec (tenpowers tp' k) (k - 1) m (1 <<< k) true = r
  cases r with
  | error e => exact SameOut.mk _ g g'
  | ok ds => exact SameOut.mk _ g g'

theorem toDecDigits_indep (s : Sign) (rm : RM) (n err pwrk : Nat) (nwrk : Int) (y : Num) (acc : Nat)
    {tp tp' : List TenPow} (h : TenHist tp) (h' : TenHist tp') :
    SameOut (Num.toDecDigits s rm n err pwrk nwrk y acc tp) (Num.toDecDigits s rm n err pwrk nwrk y acc tp') := by
  unfold Num.toDecDigits
  by_cases ha : acc > err
  · rw [if_pos ha, if_pos ha]; exact SameOut.mk _ h h'
  · rw [if_neg ha, if_neg ha]
    by_cases hy : y.e < pwrk
    · rw [if_pos hy, if_pos hy]; exact SameOut.mk _ h h'
    · rw [if_neg hy, if_neg hy]
      exact toDecConv_indep _ _ _ _ _ _ _ _ _ h h'

theorem toDecBody_indep (x : Num) (rm : RM) (n subn err pwrk : Nat) {tp tp' : List TenPow} (h : TenHist tp)
    (h' : TenHist tp') : SameOut (x.toDecBody rm n subn err pwrk tp) (x.toDecBody rm n subn err pwrk tp') := by
  unfold Num.toDecBody
  simp only
  generalize ({ x with inexact := false } : Num).toDecScale _ pwrk = r
  cases r with
  | error e => exact SameOut.mk _ h h'
  | ok ya => exact toDecDigits_indep _ _ _ _ _ _ _ _ h h'

theorem toDecLoop_indep (x : Num) (rm : RM) (n subn : Nat) : ∀ (f err pwrk pinc : Nat) (tp tp' : List TenPow),
    TenHist tp → TenHist tp' →
    (x.toDecLoop rm n subn f err pwrk pinc tp).1 = (x.toDecLoop rm n subn f err pwrk pinc tp').1 ∧
      TenHist (x.toDecLoop rm n subn f err pwrk pinc tp).2 := by
  intro f
  induction f with
  | zero => intro err pwrk pinc tp tp' h h'; exact ⟨rfl, h⟩
  | succ f ih =>
    intro err pwrk pinc tp tp' h h'
    rw [Num.toDecLoop, Num.toDecLoop]
    obtain ⟨r, t, t', e1, e2, g, g'⟩ := toDecBody_indep x rm n subn err pwrk h h'
    rw [e1, e2]
    cases r with
    | done r => exact ⟨rfl, g⟩
    | moreErr acc => exact ih _ _ _ _ _ g g'
    | more => exact ih _ _ _ _ _ g g'

theorem Num.convertToRadix_indep (x : Num) (rdx : Radix) (rm : RM) (tp tp' : List TenPow) (h : TenHist tp)
    (h' : TenHist tp') : (x.convertToRadix rdx rm tp).1 = (x.convertToRadix rdx rm tp').1 ∧
      TenHist (x.convertToRadix rdx rm tp).2 := by
  unfold Num.convertToRadix
  cases rdx
  · exact ⟨rfl, h⟩
  · exact ⟨rfl, h⟩
  · simp only [Num.convToDec]
    split
    · exact ⟨rfl, h⟩
    · exact toDecLoop_indep x rm _ _ _ _ _ _ _ _ h h'
  · exact ⟨rfl, h⟩

theorem convFromDec_indep (s : Sign) (ds : List Nat) (e : Int) (p : Nat) (rm : RM) {tp tp' : List TenPow}
    (h : TenHist tp) (h' : TenHist tp') :
    (Num.convFromDec s ds e p rm tp).1 = (Num.convFromDec s ds e p rm tp').1 ∧
      TenHist (Num.convFromDec s ds e p rm tp).2 := by
  unfold Num.convFromDec
  simp only
  generalize hl : (ds.takeWhile (fun x => decide (x = 0))).length = lead
  by_cases h0 : ds.length - lead = 0
  · rw [if_pos h0, if_pos h0]; exact ⟨rfl, h⟩
  · rw [if_neg h0, if_neg h0]
    rw [mantFromDec_congr (h.agree h' _) (ds.drop lead) (by rw [List.length_drop]; exact le_pow_log2Ceil _)]
    have g := h.request (log2Ceil (ds.length - lead))
    generalize tenpowers tp (log2Ceil (ds.length - lead)) = t at g ⊢
    generalize tenpowers tp' (log2Ceil (ds.length - lead)) = t' at ⊢
    cases mantFromDec (ds.drop lead) t' with
    | error er => exact ⟨rfl, g⟩
    | ok m =>
      simp only
      by_cases h3 : (m.n : Int) > EMAX
      · rw [if_pos h3, if_pos h3]; exact ⟨rfl, g⟩
      · rw [if_neg h3, if_neg h3]
        generalize roundP (ds.length * 3321928095 / 1000000000 + 1) = pa
        by_cases h4 : ¬ p < USIZE_MAX ∧ pa ≥ PMAX
        · rw [if_pos h4, if_pos h4]; exact ⟨rfl, g⟩
        · rw [if_neg h4, if_neg h4]; exact ⟨rfl, g⟩

theorem Num.convertFromRadix_indep (s : Sign) (ds : List Nat) (e : Int) (rdx : Radix) (p : Nat) (rm : RM)
    (tp tp' : List TenPow) (h : TenHist tp) (h' : TenHist tp') :
    (Num.convertFromRadix s ds e rdx p rm tp).1 = (Num.convertFromRadix s ds e rdx p rm tp').1 ∧
      TenHist (Num.convertFromRadix s ds e rdx p rm tp).2 := by
  unfold Num.convertFromRadix
  simp only
  generalize (if p < USIZE_MAX then roundP p else p) = p1
  by_cases h1 : p < USIZE_MAX ∧ p1 ≥ PMAX
  · rw [if_pos h1, if_pos h1]; exact ⟨rfl, h⟩
  · rw [if_neg h1, if_neg h1]
    by_cases h2 : p < USIZE_MAX ∧ p1 = 0
    · rw [if_pos h2, if_pos h2]; exact ⟨rfl, h⟩
    · rw [if_neg h2, if_neg h2]
      cases rdx
      · exact ⟨rfl, h⟩
      · exact ⟨rfl, h⟩
      · exact convFromDec_indep s ds e p1 rm h h'
      · exact ⟨rfl, h⟩

/-- Conversion to digits gives the same result with any two caches, and leaves such a cache. -/
theorem C34_to_radix (x : BF) (rdx : Radix) (rm : RM) (tp tp' : List TenPow) (h : TenHist tp) (h' : TenHist tp') :
    (x.convertToRadix rdx rm tp).1 = (x.convertToRadix rdx rm tp').1 ∧ TenHist (x.convertToRadix rdx rm tp).2 := by
  cases x with
  | num v => exact v.convertToRadix_indep rdx rm tp tp' h h'
  | inf s => exact ⟨rfl, h⟩
  | nan e => exact ⟨rfl, h⟩

/-- Conversion from digits gives the same result with any two caches, and leaves such a cache. -/
theorem C34_from_radix (s : Sign) (ds : List Nat) (e : Int) (rdx : Radix) (p : Nat) (rm : RM)
    (tp tp' : List TenPow) (h : TenHist tp) (h' : TenHist tp') :
    (BF.convertFromRadix s ds e rdx p rm tp).1 = (BF.convertFromRadix s ds e rdx p rm tp').1 ∧
      TenHist (BF.convertFromRadix s ds e rdx p rm tp).2 := by
  obtain ⟨h1, h2⟩ := Num.convertFromRadix_indep s ds e rdx p rm tp tp' h h'
  exact ⟨by unfold BF.convertFromRadix; simp only; rw [h1], h2⟩

/-- Parsing gives the same result with any two caches, and leaves such a cache. -/
theorem C34_parse (t : List Char) (rdx : Radix) (p : Nat) (rm : RM) (tp tp' : List TenPow) (h : TenHist tp)
    (h' : TenHist tp') : (BF.parse t rdx p rm tp).1 = (BF.parse t rdx p rm tp').1 ∧
      TenHist (BF.parse t rdx p rm tp).2 := by
  unfold BF.parse
  simp only
  split
  · exact ⟨rfl, h⟩
  · split
    · exact ⟨rfl, h⟩
    · exact C34_from_radix _ _ _ _ _ _ _ _ h h'

/-- Formatting gives the same result with any two caches, and leaves such a cache. -/
theorem C34_format (x : BF) (rdx : Radix) (rm : RM) (tp tp' : List TenPow) (h : TenHist tp) (h' : TenHist tp') :
    (x.format rdx rm tp).1 = (x.format rdx rm tp').1 ∧ TenHist (x.format rdx rm tp).2 := by
  cases x with
  | inf s => exact ⟨rfl, h⟩
  | nan e => exact ⟨rfl, h⟩
  | num v =>
    obtain ⟨h1, h2⟩ := v.convertToRadix_indep rdx rm tp tp' h h'
    unfold BF.format Num.format
    simp only
    generalize v.convertToRadix rdx rm tp = a at h1 h2 ⊢
    generalize v.convertToRadix rdx rm tp' = b at h1 ⊢
    obtain ⟨a1, a2⟩ := a
    obtain ⟨b1, b2⟩ := b
    simp only at h1 h2 ⊢
    subst h1
    cases a1 with
    | ok d => exact ⟨rfl, h2⟩
    | error e => cases e <;> exact ⟨rfl, h2⟩

/-- Two histories of different length, and a conversion that uses the cache. -/
example : TenHist [] ∧ TenHist (tenpowers [] 6) ∧
    (BF.parse "12345678901234567890.5".toList .dec 128 .toEven []).2.length ≠
      (BF.parse "12345678901234567890.5".toList .dec 128 .toEven (tenpowers [] 6)).2.length :=
  ⟨.new, .request 6 .new, by decide +kernel⟩

end AF
