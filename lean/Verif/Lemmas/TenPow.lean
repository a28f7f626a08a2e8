import Verif.Lemmas.Mul
import Verif.Lemmas.Root
import Verif.Model.Dec
/-!
# The cache of powers of ten
-/

namespace AF

theorem TopNz.inj {a b : List Nat} (ha : TopNz a) (hb : TopNz b) (h : val a = val b) : a = b := by
  refine val_inj ha.1 hb.1 ?_ h
  have h1 := val_lt ha.1
  have h2 := val_lt hb.1
  by_contra hne
  rcases Nat.lt_or_gt_of_ne hne with hlt | hlt
  · have := Nat.pow_le_pow_right B_pos (show a.length ≤ b.length - 1 by omega)
    have := hb.2.2; omega
  · have := Nat.pow_le_pow_right B_pos (show b.length ≤ a.length - 1 by omega)
    have := ha.2.2; omega

/-- The cache entry of `10^(2^i)`. -/
structure TenOk (i : Nat) (t : TenPow) : Prop where
  top : TopNz t.2.1
  val : val t.2.1 = 10 ^ 2 ^ i
  max : (t.1, t.2.2) = maximize t.2.1

theorem TenOk.uniq {i : Nat} {t u : TenPow} (h : TenOk i t) (g : TenOk i u) : t = u := by
  have h1 : t.2.1 = u.2.1 := h.top.inj g.top (h.val.trans g.val.symm)
  have h2 : (t.1, t.2.2) = (u.1, u.2.2) := by rw [h.max, g.max, h1]
  obtain ⟨a, b, c⟩ := t
  obtain ⟨a', b', c'⟩ := u
  simp only [Prod.mk.injEq] at *
  exact ⟨h2.1, h1, h2.2⟩

/-- The entries are the powers `10^(2^i)`. -/
def TpOk (tp : List TenPow) : Prop := ∀ i t, tp[i]? = some t → TenOk i t

theorem TpOk.nil : TpOk [] := by intro i t h; simp at h

theorem TpOk.snoc {tp : List TenPow} (h : TpOk tp) {t : TenPow} (ht : TenOk tp.length t) : TpOk (tp ++ [t]) := by
  intro i u hu
  rcases Nat.lt_trichotomy i tp.length with hi | hi | hi
  · rw [List.getElem?_append_left hi] at hu; exact h i u hu
  · subst hi; simp at hu; subst hu; exact ht
  · rw [List.getElem?_eq_none (by simp; omega)] at hu; cases hu

theorem tenOk_zero : TenOk 0 ((maximize [10]).1, [10], (maximize [10]).2) := by
  refine ⟨⟨by intro w hw; simp at hw; subst hw; decide, by simp, by decide⟩, by decide, rfl⟩

theorem tenLoop_spec (k : Nat) : ∀ (tp : List TenPow), TpOk tp → tp ≠ [] →
    TpOk (tenLoop k tp) ∧ (tenLoop k tp).length = tp.length + k := by
  induction k with
  | zero => intro tp h _; exact ⟨h, rfl⟩
  | succ k ih =>
    intro tp h hne
    unfold tenLoop
    simp only
    have hpos : 0 < tp.length := List.length_pos_iff.2 hne
    obtain ⟨t, ht⟩ : ∃ t, tp[tp.length - 1]? = some t := by
      rw [List.getElem?_eq_getElem (by omega)]; exact ⟨_, rfl⟩
    have hlast : tp.getD (tp.length - 1) ([], [], 0) = t := by rw [List.getD_eq_getElem?_getD, ht]; rfl
    rw [hlast]
    have hT := h _ _ ht
    obtain ⟨m1, m2, m3⟩ := mulWords_spec hT.top.1 hT.top.1 (len := t.2.1.length * 2) (by omega)
    have hvt : 0 < val t.2.1 := hT.top.pos
    have m4 : val (mulWords t.2.1 t.2.1 (t.2.1.length * 2)) = 10 ^ 2 ^ tp.length := by
      rw [m3, hT.val, ← pow_add]
      congr 1
      rw [← Nat.mul_two, ← pow_succ]
      congr 1
      omega
    have h0 : 0 < val (mulWords t.2.1 t.2.1 (t.2.1.length * 2)) := by rw [m3]; exact Nat.mul_pos hvt hvt
    generalize mulWords t.2.1 t.2.1 (t.2.1.length * 2) = w at *
    have h1 : TenOk tp.length ((maximize (truncLeadingZeroes w)).1, truncLeadingZeroes w,
        (maximize (truncLeadingZeroes w)).2) := by
      refine ⟨truncLZ_topNz m2 h0, ?_, rfl⟩
      simp only
      rw [val_truncLeadingZeroes, m4]
    obtain ⟨a, b⟩ := ih _ (h.snoc h1) (by simp)
    refine ⟨a, ?_⟩
    rw [b]; simp; omega

theorem tenpowers_ok {tp : List TenPow} (h : TpOk tp) (p : Nat) :
    TpOk (tenpowers tp p) ∧ p ≤ (tenpowers tp p).length := by
  unfold tenpowers
  split
  · unfold computeTenpowers
    simp only
    by_cases he : tp.isEmpty = true
    · rw [if_pos he]
      have h0 : TpOk [((maximize [10]).1, [10], (maximize [10]).2)] := by
        have := TpOk.nil.snoc tenOk_zero
        simpa using this
      obtain ⟨a, b⟩ := tenLoop_spec (p - 1) _ h0 (by simp)
      refine ⟨a, ?_⟩
      have b' : (tenLoop (p - [((maximize [10]).1, [10], (maximize [10]).2)].length)
        [((maximize [10]).1, [10], (maximize [10]).2)]).length = 1 + (p - 1) := b
      rw [b']; omega
    · rw [if_neg he]
      obtain ⟨a, b⟩ := tenLoop_spec (p - tp.length) tp h (by intro h0; rw [h0] at he; simp at he)
      exact ⟨a, by rw [b]; omega⟩
  · rename_i hc
    exact ⟨h, by omega⟩

theorem TpOk.get {tp : List TenPow} (h : TpOk tp) {i : Nat} (hi : i < tp.length) : ∃ t, tp[i]? = some t ∧ TenOk i t := by
  refine ⟨tp[i], List.getElem?_eq_getElem hi, h _ _ (List.getElem?_eq_getElem hi)⟩

/-- Two caches agree wherever both have an entry. -/
theorem TpOk.agree {tp tp' : List TenPow} (h : TpOk tp) (h' : TpOk tp') {i : Nat} (hi : i < tp.length)
    (hi' : i < tp'.length) : tp[i]? = tp'[i]? := by
  obtain ⟨t, ht, h1⟩ := h.get hi
  obtain ⟨u, hu, h2⟩ := h'.get hi'
  rw [ht, hu, h1.uniq h2]

theorem le_pow_log2Ceil (n : Nat) : n ≤ 2 ^ log2Ceil n := by
  unfold log2Ceil
  split
  · omega
  · rename_i h
    have := Nat.lt_log2_self (n := n - 1)
    omega

/-- The caches of powers of ten that a history of requests leaves, starting from a new `Consts`. -/
inductive TenHist : List TenPow → Prop
  | new : TenHist []
  | request {tp : List TenPow} (k : Nat) : TenHist tp → TenHist (tenpowers tp k)

theorem TenHist.ok {tp : List TenPow} (h : TenHist tp) : TpOk tp := by
  induction h with
  | new => exact TpOk.nil
  | request k _ ih => exact (tenpowers_ok ih k).1

end AF
