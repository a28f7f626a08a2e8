import Mathlib.Tactic.Linarith
import Mathlib.Tactic.Push
import Mathlib.Tactic.Ring
import Mathlib.Tactic.Positivity
import Verif.Model.Consts
/-!
# The shared shape of the constants: binary splitting and the precision loop
-/

namespace AF

/-- What the series lemma needs of one constant: `Rep t a n` says that `t` holds the terms `a+1 .. a+n`. No state
holds `nmax` terms or more, and no operation fails up to the term `bmax`. -/
structure SeriesOk {T : Type} (leaf : Nat → Except Err T) (merge : T → T → Except Err T) (Rep : T → Nat → Nat → Prop)
    (bmax nmax : Nat) : Prop where
  leaf : ∀ a, a < 2 ^ 40 → ∃ t, leaf (a + 1) = .ok t ∧ Rep t a 1
  merge : ∀ {ta tb a m n}, Rep ta a m → Rep tb (a + m) n → a + m + n ≤ 2 ^ 40 →
    (∃ t, merge ta tb = .ok t ∧ Rep t a (m + n)) ∨ merge ta tb = .error (.exponentOverflow .pos) ∧ bmax < a + m + n
  bound : ∀ {t n}, Rep t 0 n → n < nmax
  nmax_le : nmax ≤ 2 ^ 31

variable {T : Type} {leaf : Nat → Except Err T} {merge : T → T → Except Err T} {Rep : T → Nat → Nat → Prop}
  {bmax nmax : Nat}

theorem SeriesOk.split (h : SeriesOk leaf merge Rep bmax nmax) : ∀ (f a n : Nat), 0 < n → n ≤ 2 ^ f →
    a + n ≤ 2 ^ 40 →
    (∃ t, splitSeries leaf merge (f + 1) a (a + n) = .ok t ∧ Rep t a n) ∨
      splitSeries leaf merge (f + 1) a (a + n) = .error (.exponentOverflow .pos) ∧ bmax < a + n
  | f, a, n, h0, h1, h2 => by
    by_cases hn : n = 1
    · subst hn
      obtain ⟨t, h3, h4⟩ := h.leaf a (by omega)
      left
      refine ⟨t, ?_, h4⟩
      rw [splitSeries, if_pos rfl, h3]
    · obtain ⟨g, rfl⟩ : ∃ g, f = g + 1 := by
        cases f with
        | zero => rw [pow_zero] at h1; omega
        | succ g => exact ⟨g, rfl⟩
      rw [pow_succ] at h1
      have hm : (a + (a + n)) / 2 = a + n / 2 := by omega
      have hb : a + n = a + n / 2 + (n - n / 2) := by omega
      rw [splitSeries, if_neg (by omega)]
      dsimp only
      rw [hm]
      rcases h.split g a (n / 2) (by omega) (by omega) (by omega) with ⟨ta, h3, h4⟩ | ⟨h3, h4⟩
      · rw [h3]
        dsimp only
        rcases h.split g (a + n / 2) (n - n / 2) (by omega) (by omega) (by omega) with ⟨tb, h5, h6⟩ | ⟨h5, h6⟩
        · rw [hb, h5]
          dsimp only
          rcases h.merge h4 h6 (by omega) with ⟨t, h7, h8⟩ | ⟨h7, h8⟩
          · left
            rw [h7]
            refine ⟨t, rfl, ?_⟩
            rw [show n / 2 + (n - n / 2) = n by omega] at h8
            exact h8
          · right
            exact ⟨h7, h8⟩
        · right
          rw [hb, h5]
          exact ⟨rfl, h6⟩
      · right
        rw [h3]
        exact ⟨rfl, by omega⟩

theorem SeriesOk.inc (h : SeriesOk leaf merge Rep bmax nmax) {t : T} {m : Nat} (h0 : 0 < m) (ht : Rep t 0 m) :
    (∃ t', incSeries leaf merge t m = .ok (t', 2 * m) ∧ Rep t' 0 (2 * m)) ∨
      incSeries leaf merge t m = .error (.exponentOverflow .pos) ∧ bmax < 2 * m := by
  have hm := h.bound ht
  have hx := h.nmax_le
  unfold incSeries
  dsimp only
  rw [show m * 2 = m + m by omega]
  rcases h.split 63 m m h0 (by omega) (by omega) with ⟨tb, h5, h6⟩ | ⟨h5, h6⟩
  · rw [h5]
    dsimp only
    rcases h.merge ht (by rw [Nat.zero_add]; exact h6) (by omega) with ⟨t', h7, h8⟩ | ⟨h7, h8⟩
    · left
      rw [h7, show 2 * m = m + m by omega]
      exact ⟨t', rfl, h8⟩
    · right
      rw [h7]
      exact ⟨rfl, by omega⟩
  · right
    rw [h5]
    exact ⟨rfl, by omega⟩

theorem SeriesOk.grow (h : SeriesOk leaf merge Rep bmax nmax) (kext : Nat) : ∀ (f : Nat) {t : T} {bb : Nat},
    0 < bb → Rep t 0 bb → 2 ^ 31 ≤ bb * 2 ^ f → (∃ i, bb = 2 ^ i) →
    (∃ t' b', growSeries leaf merge kext f t bb = .ok (t', b') ∧ Rep t' 0 b' ∧ bb ≤ b' ∧ kext < b' ∧
      (∃ i, b' = 2 ^ i)) ∨
    growSeries leaf merge kext f t bb = .error (.exponentOverflow .pos) ∧ bmax < 2 * kext
  | 0, t, bb, h0, ht, hf, hi => by
    have := h.bound ht
    have hx := h.nmax_le
    omega
  | f + 1, t, bb, h0, ht, hf, hi => by
    rw [growSeries]
    by_cases hk : bb ≤ kext
    · rw [if_pos hk]
      rcases h.inc h0 ht with ⟨t', h1, h2⟩ | ⟨h1, h2⟩
      · rw [h1]
        dsimp only
        obtain ⟨i, hi⟩ := hi
        rcases h.grow kext f (by omega) h2 (by rw [pow_succ _ f] at hf; linarith) ⟨i + 1, by rw [hi]; ring⟩ with
          ⟨t'', b', h3, h4, h5, h6⟩ | h3
        · left
          exact ⟨t'', b', h3, h4, by omega, h6⟩
        · right
          exact h3
      · right
        rw [h1]
        exact ⟨rfl, by omega⟩
    · rw [if_neg hk]
      left
      exact ⟨t, bb, rfl, ht, le_refl _, by omega, hi⟩

/-- What the loop needs of one constant. `ValOk b v` describes the value kept for `b` terms, `Inv i w b` the
working precision, `Acc` what an accepted value is, `Sure` a condition under which no value is rejected. -/
structure LoopOk {T : Type} (value : T → Except Err Num) (Rep : T → Nat → Nat → Prop)
    (kext : Nat → Nat) (k : Nat) (rm : RM) (ValOk : Nat → Num → Prop) (Inv : Nat → Nat → Nat → Prop)
    (Acc : Num → Prop) (Sure : Prop) : Prop where
  value : ∀ {t i}, Rep t 0 (2 ^ i) → ∃ v, value t = .ok v ∧ ValOk (2 ^ i) v
  test : ∀ {i w j v}, Inv i w (2 ^ j) → kext w < 2 ^ j → ValOk (2 ^ j) v →
    ∃ a v', v.trySetPrecision k rm w = .ok (a, v') ∧ (a = true → Acc v') ∧ (Sure → a = true)
  fail : ∀ {i w j j'}, Inv i w (2 ^ j) → kext w < 2 ^ j → 2 * 2 ^ j ≤ 2 ^ j' → Inv (roundP ((w + i) / 5)) (w + i) (2 ^ j')
  grow : ∀ {i w j j'}, Inv i w (2 ^ j) → 2 ^ j ≤ kext w → kext w < 2 ^ j' → Inv i w (2 ^ j')

/-- A cache between calls. -/
structure CacheOk {T : Type} (Rep : T → Nat → Nat → Prop) (ValOk : Nat → Num → Prop) (c : ConstCache T) : Prop where
  rep : Rep c.t 0 c.b
  pow : ∃ i, c.b = 2 ^ i
  val : ValOk c.b c.val

variable {value : T → Except Err Num} {kext : Nat → Nat} {k : Nat} {rm : RM} {ValOk : Nat → Num → Prop}
  {Inv : Nat → Nat → Nat → Prop} {Acc : Num → Prop} {Sure : Prop}

theorem LoopOk.loop (hl : LoopOk value Rep kext k rm ValOk Inv Acc Sure) (h : SeriesOk leaf merge Rep bmax nmax) :
    ∀ (f i w : Nat) {c : ConstCache T}, CacheOk Rep ValOk c → Inv i w c.b → 2 ^ 31 ≤ c.b * 2 ^ f →
    ∃ r c', constLoop leaf merge value kext k rm f i w c = some (r, c') ∧ CacheOk Rep ValOk c' ∧
      ((∃ v, r = .ok v ∧ Acc v) ∨ r = .error (.exponentOverflow .pos)) ∧
      (Sure → 2 * kext w ≤ bmax → ∃ v, r = .ok v) ∧
      (nmax ≤ kext w → r = .error (.exponentOverflow .pos))
  | 0, i, w, c, hc, _, hf => by
    have := h.bound hc.rep
    have hx := h.nmax_le
    omega
  | f + 1, i, w, c, hc, hI, hf => by
    obtain ⟨j, hj⟩ := hc.pow
    have hb := h.bound hc.rep
    have hb0 : 0 < c.b := by rw [hj]; positivity
    have key : ∀ i' w' : Nat,
        (∀ j', 2 * c.b ≤ 2 ^ j' → kext w < 2 ^ j' → Inv i' w' (2 ^ j')) →
        ∃ r c', (match incSeries leaf merge c.t c.b with
          | .error e => some (.error e, c)
          | .ok (t, bb) => match growSeries leaf merge (kext w) 64 t bb with
            | .error e => some (.error e, c)
            | .ok (t, bb) => match value t with
              | .error e => some (.error e, c)
              | .ok v => constLoop leaf merge value kext k rm f i' w' { b := bb, t, val := v }) = some (r, c') ∧
          CacheOk Rep ValOk c' ∧
          ((∃ v, r = .ok v ∧ Acc v) ∨ r = .error (.exponentOverflow .pos)) ∧
          (w' = w → Sure → c.b ≤ kext w → 2 * kext w ≤ bmax → ∃ v, r = .ok v) ∧
          (w' = w → nmax ≤ kext w → r = .error (.exponentOverflow .pos)) := by
      intro i' w' hI'
      rcases h.inc hb0 hc.rep with ⟨t', h1, h2⟩ | ⟨h1, h2⟩
      · rw [h1]
        dsimp only
        rcases h.grow (kext w) 64 (by omega) h2 (by omega) ⟨j + 1, by rw [hj]; ring⟩ with
          ⟨t'', b', h3, h4, h5, h6, j', h7⟩ | ⟨h3, h4⟩
        · rw [h3]
          dsimp only
          subst h7
          obtain ⟨v, h8, h9⟩ := hl.value h4
          rw [h8]
          dsimp only
          obtain ⟨r, c', g1, g2, g3, g4, g5⟩ := hl.loop h f i' w' (c := { b := 2 ^ j', t := t'', val := v })
            ⟨h4, ⟨j', rfl⟩, h9⟩ (hI' j' h5 h6) (by
              rw [pow_succ _ f] at hf
              have := Nat.mul_le_mul_right (2 ^ f) h5
              dsimp only
              linarith)
          exact ⟨r, c', g1, g2, g3, fun hw hr _ hk => g4 hr (by rw [hw]; exact hk), fun hw hk => g5 (by rw [hw]; exact hk)⟩
        · rw [h3]
          exact ⟨_, _, rfl, hc, Or.inr rfl, fun _ _ _ hk => absurd h4 (by omega), fun _ _ => rfl⟩
      · rw [h1]
        exact ⟨_, _, rfl, hc, Or.inr rfl, fun _ _ hck hk => absurd h2 (by omega), fun _ _ => rfl⟩
    rw [constLoop]
    dsimp only
    by_cases hk : c.b > kext w
    · rw [if_pos hk]
      rw [hj] at hI hk
      obtain ⟨a, v', h1, h2, h3⟩ := hl.test hI hk (by rw [← hj]; exact hc.val)
      rw [h1]
      cases a with
      | true =>
        exact ⟨_, _, rfl, hc, Or.inl ⟨_, rfl, h2 rfl⟩, fun _ _ => ⟨_, rfl⟩, fun hn => absurd hn (by omega)⟩
      | false =>
        dsimp only
        obtain ⟨r, c', g1, g2, g3, g4, g5⟩ := key (roundP ((w + i) / 5)) (w + i)
          (fun j' q1 q2 => hl.fail hI hk (by rw [← hj]; exact q1))
        refine ⟨r, c', g1, g2, g3, fun hr => absurd (h3 hr) (by simp), fun hn => absurd hn (by omega)⟩
    · rw [if_neg hk]
      have hk' : 2 ^ j ≤ kext w := by rw [← hj]; omega
      rw [hj] at hI
      obtain ⟨r, c', g1, g2, g3, g4, g5⟩ := key i w (fun j' q1 q2 => hl.grow hI hk' q2)
      exact ⟨r, c', g1, g2, g3, fun hr => g4 rfl hr (by omega), g5 rfl⟩

/-- `for_prec` on a cache between calls. -/
theorem LoopOk.forPrec (hl : LoopOk value Rep kext k rm ValOk Inv Acc Sure) (h : SeriesOk leaf merge Rep bmax nmax)
    {c : ConstCache T} (hc : CacheOk Rep ValOk c) (hI : Inv 64 (roundP k + 64) c.b) :
    ∃ r c', constForPrec leaf merge value kext k rm c = some (r, c') ∧ CacheOk Rep ValOk c' ∧
      ((∃ v, r = .ok v ∧ Acc v) ∨ r = .error (.exponentOverflow .pos)) ∧
      (Sure → 2 * kext (roundP k + 64) ≤ bmax → ∃ v, r = .ok v) ∧
      (nmax ≤ kext (roundP k + 64) → r = .error (.exponentOverflow .pos)) := by
  refine hl.loop h 64 64 _ hc hI ?_
  obtain ⟨j, hj⟩ := hc.pow
  have hb0 : 0 < c.b := by rw [hj]; positivity
  omega

/-! ## The integers of a series -/

/-- `q (a+1) * .. * q (a+n)`. -/
def serQ (q : Nat → Nat) (a : Nat) : Nat → Nat
  | 0 => 1
  | n + 1 => serQ q a n * q (a + n + 1)

/-- The numerator of the sum over the terms `a+1 .. a+n`. -/
def serP (p q r : Nat → Nat) (a : Nat) : Nat → Nat
  | 0 => 0
  | n + 1 => serP p q r a n * q (a + n + 1) + serQ r a n * p (a + n + 1)

theorem serQ_add (q : Nat → Nat) (a m : Nat) : ∀ n, serQ q a (m + n) = serQ q a m * serQ q (a + m) n
  | 0 => by simp [serQ]
  | n + 1 => by rw [← Nat.add_assoc, serQ, serQ, serQ_add q a m n, Nat.mul_assoc]; congr 3; omega

theorem serP_add (p q r : Nat → Nat) (a m : Nat) : ∀ n, serP p q r a (m + n) =
    serP p q r a m * serQ q (a + m) n + serQ r a m * serP p q r (a + m) n
  | 0 => by simp [serQ, serP]
  | n + 1 => by
    rw [← Nat.add_assoc, serP, serP, serQ, serP_add p q r a m n, serQ_add r a m n,
      show a + (m + n) + 1 = a + m + n + 1 by omega]
    ring

theorem serQ_pos {q : Nat → Nat} (h : ∀ j, 0 < q (j + 1)) (a : Nat) : ∀ n, 0 < serQ q a n
  | 0 => by simp [serQ]
  | n + 1 => Nat.mul_pos (serQ_pos h a n) (h _)

theorem serP_pos {p q r : Nat → Nat} (hp : ∀ j, 0 < p (j + 1)) (hr : ∀ j, 0 < r (j + 1))
    (a : Nat) (n : Nat) : 0 < serP p q r a (n + 1) := by
  rw [serP]
  exact Nat.add_pos_right _ (Nat.mul_pos (serQ_pos hr a n) (hp _))

end AF
