import Verif.Lemmas.ConstLoop
/-!
# The loop of the constants with overflows of either sign

The same as in `ConstLoop.lean`, for a series whose numerator can be negative.
-/

namespace AF

/-- The operation failed for an exponent overflow. -/
def IsOvf {α : Type} (r : Except Err α) : Prop := ∃ s, r = .error (.exponentOverflow s)

/-- What the series lemma needs of one constant: `Rep t a n` says that `t` holds the terms `a+1 .. a+n`. No state
holds `nmax` terms or more, and no operation fails up to the term `bmax`. -/
structure SeriesOkS {T : Type} (leaf : Nat → Except Err T) (merge : T → T → Except Err T) (Rep : T → Nat → Nat → Prop)
    (bmax nmax : Nat) : Prop where
  leaf : ∀ a, a < 2 ^ 33 → ∃ t, leaf (a + 1) = .ok t ∧ Rep t a 1
  merge : ∀ {ta tb a m n}, Rep ta a m → Rep tb (a + m) n → a + m + n ≤ 2 ^ 33 →
    (∃ t, merge ta tb = .ok t ∧ Rep t a (m + n)) ∨ IsOvf (merge ta tb) ∧ bmax < a + m + n
  bound : ∀ {t n}, Rep t 0 n → n < nmax
  nmax_le : nmax ≤ 2 ^ 31

variable {T : Type} {leaf : Nat → Except Err T} {merge : T → T → Except Err T} {Rep : T → Nat → Nat → Prop}
  {bmax nmax : Nat}

theorem SeriesOkS.split (h : SeriesOkS leaf merge Rep bmax nmax) : ∀ (f a n : Nat), 0 < n → n ≤ 2 ^ f →
    a + n ≤ 2 ^ 33 →
    (∃ t, splitSeries leaf merge (f + 1) a (a + n) = .ok t ∧ Rep t a n) ∨
      IsOvf (splitSeries leaf merge (f + 1) a (a + n)) ∧ bmax < a + n
  | f, a, n, h0, h1, h2 => by
    by_cases hn : n = 1
    · subst hn
      obtain ⟨t, h3, h4⟩ := h.leaf a (by omega)
      left
      refine ⟨t, ?_, h4⟩
      rw [splitSeries, if_pos rfl, h3]
    · obtain ⟨g, rfl⟩ : ∃ g, f = g + 1 := by
        cases f with
        | zero => rw [pow_zero] at h1; omega
        | succ g => exact ⟨g, rfl⟩
      rw [pow_succ] at h1
      have hm : (a + (a + n)) / 2 = a + n / 2 := by omega
      have hb : a + n = a + n / 2 + (n - n / 2) := by omega
      rw [splitSeries, if_neg (by omega)]
      dsimp only
      rw [hm]
      rcases h.split g a (n / 2) (by omega) (by omega) (by omega) with ⟨ta, h3, h4⟩ | ⟨⟨sg, h3⟩, h4⟩
      · rw [h3]
        dsimp only
        rcases h.split g (a + n / 2) (n - n / 2) (by omega) (by omega) (by omega) with ⟨tb, h5, h6⟩ | ⟨⟨sg, h5⟩, h6⟩
        · rw [hb, h5]
          dsimp only
          rcases h.merge h4 h6 (by omega) with ⟨t, h7, h8⟩ | ⟨h7, h8⟩
          · left
            rw [h7]
            refine ⟨t, rfl, ?_⟩
            rw [show n / 2 + (n - n / 2) = n by omega] at h8
            exact h8
          · right
            exact ⟨h7, h8⟩
        · right
          rw [hb, h5]
          exact ⟨⟨sg, rfl⟩, h6⟩
      · right
        rw [h3]
        exact ⟨⟨sg, rfl⟩, by omega⟩

theorem SeriesOkS.inc (h : SeriesOkS leaf merge Rep bmax nmax) {t : T} {m : Nat} (h0 : 0 < m) (ht : Rep t 0 m) :
    (∃ t', incSeries leaf merge t m = .ok (t', 2 * m) ∧ Rep t' 0 (2 * m)) ∨
      IsOvf (incSeries leaf merge t m) ∧ bmax < 2 * m := by
  have hm := h.bound ht
  have hx := h.nmax_le
  unfold incSeries
  dsimp only
  rw [show m * 2 = m + m by omega]
  rcases h.split 63 m m h0 (by omega) (by omega) with ⟨tb, h5, h6⟩ | ⟨⟨sg, h5⟩, h6⟩
  · rw [h5]
    dsimp only
    rcases h.merge ht (by rw [Nat.zero_add]; exact h6) (by omega) with ⟨t', h7, h8⟩ | ⟨⟨sg, h7⟩, h8⟩
    · left
      rw [h7, show 2 * m = m + m by omega]
      exact ⟨t', rfl, h8⟩
    · right
      rw [h7]
      exact ⟨⟨sg, rfl⟩, by omega⟩
  · right
    rw [h5]
    exact ⟨⟨sg, rfl⟩, by omega⟩

theorem SeriesOkS.grow (h : SeriesOkS leaf merge Rep bmax nmax) (kext : Nat) : ∀ (f : Nat) {t : T} {bb : Nat},
    0 < bb → Rep t 0 bb → 2 ^ 31 ≤ bb * 2 ^ f → (∃ i, bb = 2 ^ i) →
    (∃ t' b', growSeries leaf merge kext f t bb = .ok (t', b') ∧ Rep t' 0 b' ∧ bb ≤ b' ∧ kext < b' ∧
      (∃ i, b' = 2 ^ i)) ∨
    IsOvf (growSeries leaf merge kext f t bb) ∧ bmax < 2 * kext
  | 0, t, bb, h0, ht, hf, hi => by
    have := h.bound ht
    have hx := h.nmax_le
    omega
  | f + 1, t, bb, h0, ht, hf, hi => by
    rw [growSeries]
    by_cases hk : bb ≤ kext
    · rw [if_pos hk]
      rcases h.inc h0 ht with ⟨t', h1, h2⟩ | ⟨⟨sg, h1⟩, h2⟩
      · rw [h1]
        dsimp only
        obtain ⟨i, hi⟩ := hi
        rcases h.grow kext f (by omega) h2 (by rw [pow_succ _ f] at hf; linarith) ⟨i + 1, by rw [hi]; ring⟩ with
          ⟨t'', b', h3, h4, h5, h6⟩ | h3
        · left
          exact ⟨t'', b', h3, h4, by omega, h6⟩
        · right
          exact h3
      · right
        rw [h1]
        exact ⟨⟨sg, rfl⟩, by omega⟩
    · rw [if_neg hk]
      left
      exact ⟨t, bb, rfl, ht, le_refl _, by omega, hi⟩

variable {value : T → Except Err Num} {kext : Nat → Nat} {k : Nat} {rm : RM} {ValOk : Nat → Num → Prop}
  {Inv : Nat → Nat → Nat → Prop} {Acc : Num → Prop} {Sure : Prop}

theorem LoopOk.loopS (hl : LoopOk value Rep kext k rm ValOk Inv Acc Sure) (h : SeriesOkS leaf merge Rep bmax nmax) :
    ∀ (f i w : Nat) {c : ConstCache T}, CacheOk Rep ValOk c → Inv i w c.b → 2 ^ 31 ≤ c.b * 2 ^ f →
    ∃ r c', constLoop leaf merge value kext k rm f i w c = some (r, c') ∧ CacheOk Rep ValOk c' ∧
      ((∃ v, r = .ok v ∧ Acc v) ∨ IsOvf r) ∧
      (Sure → 2 * kext w ≤ bmax → ∃ v, r = .ok v) ∧
      (nmax ≤ kext w → IsOvf r)
  | 0, i, w, c, hc, _, hf => by
    have := h.bound hc.rep
    have hx := h.nmax_le
    omega
  | f + 1, i, w, c, hc, hI, hf => by
    obtain ⟨j, hj⟩ := hc.pow
    have hb := h.bound hc.rep
    have hb0 : 0 < c.b := by rw [hj]; positivity
    have key : ∀ i' w' : Nat,
        (∀ j', 2 * c.b ≤ 2 ^ j' → kext w < 2 ^ j' → Inv i' w' (2 ^ j')) →
        ∃ r c', (match incSeries leaf merge c.t c.b with
          | .error e => some (.error e, c)
          | .ok (t, bb) => match growSeries leaf merge (kext w) 64 t bb with
            | .error e => some (.error e, c)
            | .ok (t, bb) => match value t with
              | .error e => some (.error e, c)
              | .ok v => constLoop leaf merge value kext k rm f i' w' { b := bb, t, val := v }) = some (r, c') ∧
          CacheOk Rep ValOk c' ∧
          ((∃ v, r = .ok v ∧ Acc v) ∨ IsOvf r) ∧
          (w' = w → Sure → c.b ≤ kext w → 2 * kext w ≤ bmax → ∃ v, r = .ok v) ∧
          (w' = w → nmax ≤ kext w → IsOvf r) := by
      intro i' w' hI'
      rcases h.inc hb0 hc.rep with ⟨t', h1, h2⟩ | ⟨⟨sg, h1⟩, h2⟩
      · rw [h1]
        dsimp only
        rcases h.grow (kext w) 64 (by omega) h2 (by omega) ⟨j + 1, by rw [hj]; ring⟩ with
          ⟨t'', b', h3, h4, h5, h6, j', h7⟩ | ⟨⟨sg, h3⟩, h4⟩
        · rw [h3]
          dsimp only
          subst h7
          obtain ⟨v, h8, h9⟩ := hl.value h4
          rw [h8]
          dsimp only
          obtain ⟨r, c', g1, g2, g3, g4, g5⟩ := hl.loopS h f i' w' (c := { b := 2 ^ j', t := t'', val := v })
            ⟨h4, ⟨j', rfl⟩, h9⟩ (hI' j' h5 h6) (by
              rw [pow_succ _ f] at hf
              have := Nat.mul_le_mul_right (2 ^ f) h5
              dsimp only
              linarith)
          exact ⟨r, c', g1, g2, g3, fun hw hr _ hk => g4 hr (by rw [hw]; exact hk), fun hw hk => g5 (by rw [hw]; exact hk)⟩
        · rw [h3]
          exact ⟨_, _, rfl, hc, Or.inr ⟨sg, rfl⟩, fun _ _ _ hk => absurd h4 (by omega), fun _ _ => ⟨sg, rfl⟩⟩
      · rw [h1]
        exact ⟨_, _, rfl, hc, Or.inr ⟨sg, rfl⟩, fun _ _ hck hk => absurd h2 (by omega), fun _ _ => ⟨sg, rfl⟩⟩
    rw [constLoop]
    dsimp only
    by_cases hk : c.b > kext w
    · rw [if_pos hk]
      rw [hj] at hI hk
      obtain ⟨a, v', h1, h2, h3⟩ := hl.test hI hk (by rw [← hj]; exact hc.val)
      rw [h1]
      cases a with
      | true =>
        exact ⟨_, _, rfl, hc, Or.inl ⟨_, rfl, h2 rfl⟩, fun _ _ => ⟨_, rfl⟩, fun hn => absurd hn (by omega)⟩
      | false =>
        dsimp only
        obtain ⟨r, c', g1, g2, g3, g4, g5⟩ := key (roundP ((w + i) / 5)) (w + i)
          (fun j' q1 q2 => hl.fail hI hk (by rw [← hj]; exact q1))
        refine ⟨r, c', g1, g2, g3, fun hr => absurd (h3 hr) (by simp), fun hn => absurd hn (by omega)⟩
    · rw [if_neg hk]
      have hk' : 2 ^ j ≤ kext w := by rw [← hj]; omega
      rw [hj] at hI
      obtain ⟨r, c', g1, g2, g3, g4, g5⟩ := key i w (fun j' q1 q2 => hl.grow hI hk' q2)
      exact ⟨r, c', g1, g2, g3, fun hr => g4 rfl hr (by omega), g5 rfl⟩

/-- `for_prec` on a cache between calls. -/
theorem LoopOk.forPrecS (hl : LoopOk value Rep kext k rm ValOk Inv Acc Sure) (h : SeriesOkS leaf merge Rep bmax nmax)
    {c : ConstCache T} (hc : CacheOk Rep ValOk c) (hI : Inv 64 (roundP k + 64) c.b) :
    ∃ r c', constForPrec leaf merge value kext k rm c = some (r, c') ∧ CacheOk Rep ValOk c' ∧
      ((∃ v, r = .ok v ∧ Acc v) ∨ IsOvf r) ∧
      (Sure → 2 * kext (roundP k + 64) ≤ bmax → ∃ v, r = .ok v) ∧
      (nmax ≤ kext (roundP k + 64) → IsOvf r) := by
  refine hl.loopS h 64 64 _ hc hI ?_
  obtain ⟨j, hj⟩ := hc.pow
  have hb0 : 0 < c.b := by rw [hj]; positivity
  omega

end AF
