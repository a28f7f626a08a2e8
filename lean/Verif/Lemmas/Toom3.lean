import Verif.Lemmas.MulBasic
/-!
# Toom-3
-/

namespace AF

theorem SS.shl_spec {s : SS} (h : Wf s.m) (hb : |s.toZ| * 2 < (B ^ s.m.length : ℕ)) :
    (s.shl 1).m.length = s.m.length ∧ Wf (s.shl 1).m ∧ (s.shl 1).toZ = 2 * s.toZ := by
  rw [SS.abs_toZ] at hb
  have hb' : val s.m * 2 ^ 1 < B ^ s.m.length := by
    rw [pow_one]; exact_mod_cast hb
  unfold SS.shl
  refine ⟨by simp, shiftLeft_wf h 1, ?_⟩
  unfold SS.toZ
  dsimp only
  rw [val_shiftLeft h, Nat.mod_eq_of_lt hb']
  split <;> push_cast <;> ring

theorem SS.shr_spec {s : SS} (h : Wf s.m) {t : ℤ} (ht : s.toZ = 2 * t) :
    (s.shr 1).m.length = s.m.length ∧ Wf (s.shr 1).m ∧ (s.shr 1).toZ = t := by
  unfold SS.shr
  refine ⟨by simp, shiftRight_wf h 1, ?_⟩
  unfold SS.toZ at *
  dsimp only
  rw [val_shiftRight h]
  split <;> rename_i hh
  · rw [if_pos hh] at ht; omega
  · rw [if_neg hh] at ht; omega

theorem SS.div3_spec {s : SS} (h : Wf s.m) {t : ℤ} (ht : s.toZ = 3 * t) :
    (divByWord s.m 3).length = s.m.length ∧ Wf (divByWord s.m 3) ∧
    SS.toZ { s with m := divByWord s.m 3 } = t := by
  obtain ⟨h1, h2, h3⟩ := divByWord_full h (d := 3) (by norm_num) (by unfold B; norm_num)
  refine ⟨h1, h2, ?_⟩
  unfold SS.toZ at *
  dsimp only
  rw [h3]
  split <;> rename_i hh
  · rw [if_pos hh] at ht; omega
  · rw [if_neg hh] at ht; omega

theorem SS.neg_toZ (s : SS) : SS.toZ { s with neg := !s.neg } = -s.toZ := by
  unfold SS.toZ
  cases h : s.neg <;> simp

theorem SS.mul_toZ {p q : SS} {m : List Nat} (h : val m = val p.m * val q.m) :
    SS.toZ ⟨p.neg != q.neg, m⟩ = p.toZ * q.toZ := by
  unfold SS.toZ
  dsimp only
  rw [h]
  cases p.neg <;> cases q.neg <;> simp

/-- bound helper: a small multiple of `B^a` is below `B^(a+1)` -/
theorem small_lt {c : ℤ} {x : ℤ} {a b : Nat} (hx : |x| ≤ c * (B ^ a : ℕ)) (hc : c < 1000) (hb : a < b) :
    |x| < (B ^ b : ℕ) := by
  have h1 : (0 : ℤ) < (B ^ a : ℕ) := by exact_mod_cast B_pow_pos a
  have h2 : ((B ^ a : ℕ) : ℤ) * 1000 < (B ^ b : ℕ) := by
    have h3 : B ^ a * 1000 < B ^ (a + 1) := by
      rw [pow_succ]; exact Nat.mul_lt_mul_of_pos_left (by unfold B; norm_num) (B_pow_pos a)
    have h4 : B ^ (a + 1) ≤ B ^ b := Nat.pow_le_pow_right B_pos hb
    exact_mod_cast lt_of_lt_of_le h3 h4
  nlinarith

structure SSok (s : SS) (len : Nat) (v : ℤ) : Prop where
  len : s.m.length = len
  wf : Wf s.m
  val : s.toZ = v

theorem SSok.add {a b : SS} {la lb : Nat} {x y : ℤ} (ha : SSok a la x) (hb : SSok b lb y) {len : Nat}
    (h : |x + y| < (B ^ len : ℕ)) : SSok (a.add b len) len (x + y) := by
  obtain ⟨h1, h2, h3⟩ := SS.addSub_spec ha.wf hb.wf false true (r := x + y)
    (by rw [ha.val, hb.val]; simp) h
  exact ⟨h1, h2, h3⟩

theorem SSok.sub {a b : SS} {la lb : Nat} {x y : ℤ} (ha : SSok a la x) (hb : SSok b lb y) {len : Nat}
    (h : |x - y| < (B ^ len : ℕ)) : SSok (a.sub b len) len (x - y) := by
  obtain ⟨h1, h2, h3⟩ := SS.addSub_spec ha.wf hb.wf false false (r := x - y)
    (by rw [ha.val, hb.val]; simp; ring) h
  exact ⟨h1, h2, h3⟩

theorem SSok.addAssign {a b : SS} {la lb : Nat} {x y : ℤ} (ha : SSok a la x) (hb : SSok b lb y)
    (h : |x + y| < (B ^ la : ℕ)) : SSok (a.addAssign b) la (x + y) := by
  obtain ⟨h1, h2, h3⟩ := SS.addSubAssign_spec ha.wf hb.wf true (r := x + y)
    (by rw [ha.val, hb.val]; simp) (by rw [ha.len]; exact h)
  exact ⟨by rw [← ha.len]; exact h1, h2, h3⟩

theorem SSok.subAssign {a b : SS} {la lb : Nat} {x y : ℤ} (ha : SSok a la x) (hb : SSok b lb y)
    (h : |x - y| < (B ^ la : ℕ)) : SSok (a.subAssign b) la (x - y) := by
  obtain ⟨h1, h2, h3⟩ := SS.addSubAssign_spec ha.wf hb.wf false (r := x - y)
    (by rw [ha.val, hb.val]; simp; ring) (by rw [ha.len]; exact h)
  exact ⟨by rw [← ha.len]; exact h1, h2, h3⟩

theorem SSok.congr {s : SS} {l : Nat} {x y : ℤ} (h : SSok s l x) (e : x = y) : SSok s l y := e ▸ h

theorem SSok.shr {a : SS} {la : Nat} {x t : ℤ} (ha : SSok a la x) (h : x = 2 * t) :
    SSok (a.shr 1) la t := by
  obtain ⟨h1, h2, h3⟩ := SS.shr_spec ha.wf (t := t) (by rw [ha.val, h])
  exact ⟨by rw [h1, ha.len], h2, h3⟩

theorem SSok.shl {a : SS} {la : Nat} {x : ℤ} (ha : SSok a la x) (h : |x| * 2 < (B ^ la : ℕ)) :
    SSok (a.shl 1) la (2 * x) := by
  obtain ⟨h1, h2, h3⟩ := SS.shl_spec ha.wf (by rw [ha.val, ha.len]; exact h)
  exact ⟨by rw [h1, ha.len], h2, by rw [h3, ha.val]⟩

theorem SSok.div3 {a : SS} {la : Nat} {x t : ℤ} (ha : SSok a la x) (h : x = 3 * t) :
    SSok { a with m := divByWord a.m 3 } la t := by
  obtain ⟨h1, h2, h3⟩ := SS.div3_spec ha.wf (t := t) (by rw [ha.val, h])
  exact ⟨by rw [← ha.len]; exact h1, h2, h3⟩

theorem SSok.neg {a : SS} {la : Nat} {x : ℤ} (ha : SSok a la x) :
    SSok { a with neg := !a.neg } la (-x) :=
  ⟨ha.len, ha.wf, by rw [SS.neg_toZ, ha.val]⟩

theorem SSok.pos {m : List Nat} (h : Wf m) : SSok ⟨false, m⟩ m.length (AF.val m) :=
  ⟨rfl, h, by simp [SS.toZ]⟩

theorem SSok.mul {mul : MulFn} {n : Nat} (hm : MulOk mul n) {a b : SS} {la lb : Nat} {x y : ℤ}
    (ha : SSok a la x) (hb : SSok b lb y) {len : Nat} (hn : la + lb < n) (hl : la + lb ≤ len) :
    SSok ⟨a.neg != b.neg, mul a.m b.m len⟩ len (x * y) := by
  obtain ⟨h1, h2, h3⟩ := hm a.m b.m len ha.wf hb.wf (by rw [ha.len, hb.len]; exact hn)
    (by rw [ha.len, hb.len]; exact hl)
  exact ⟨h1, h2, by rw [SS.mul_toZ h3, ha.val, hb.val]⟩

/-- Evaluation at 1, -1 and -2. -/
theorem toom3Factors_spec {l : Nat} {m : SS × SS × SS} {l0 l1 l2 : Nat} {x0 x1 x2 : Nat}
    (h0 : SSok m.1 l0 x0) (h1 : SSok m.2.1 l1 x1) (h2 : SSok m.2.2 l2 x2)
    (b0 : x0 < B ^ l) (b1 : x1 < B ^ l) (b2 : x2 < B ^ l) :
    SSok (toom3Factors l m).1 (l + 1) (x0 + x2 + x1) ∧
    SSok (toom3Factors l m).2.1 (l + 1) (x0 + x2 - x1) ∧
    SSok (toom3Factors l m).2.2 (l + 1) (2 * (x0 + x2 - x1 + x2) - x0) := by
  have c0 : (x0 : ℤ) < (B ^ l : ℕ) := by exact_mod_cast b0
  have c1 : (x1 : ℤ) < (B ^ l : ℕ) := by exact_mod_cast b1
  have c2 : (x2 : ℤ) < (B ^ l : ℕ) := by exact_mod_cast b2
  have n0 : (0 : ℤ) ≤ x0 := by positivity
  have n1 : (0 : ℤ) ≤ x1 := by positivity
  have n2 : (0 : ℤ) ≤ x2 := by positivity
  have hl : l < l + 1 := by omega
  have hx1 := h0.add h2 (len := l + 1)
    (small_lt (c := 100) (a := l) (by rw [abs_le]; constructor <;> linarith) (by norm_num) hl)
  have hp1 := hx1.add h1 (len := l + 1)
    (small_lt (c := 100) (a := l) (by rw [abs_le]; constructor <;> linarith) (by norm_num) hl)
  have hp2 := hx1.sub h1 (len := l + 1)
    (small_lt (c := 100) (a := l) (by rw [abs_le]; constructor <;> linarith) (by norm_num) hl)
  have hp3 := hp2.add h2 (len := l + 1)
    (small_lt (c := 100) (a := l) (by rw [abs_le]; constructor <;> linarith) (by norm_num) hl)
  have hp4 := hp3.shl (by
    have := small_lt (c := 100) (x := ((x0 : ℤ) + x2 - x1 + x2) * 2) (a := l) (b := l + 1)
      (by rw [abs_le]; constructor <;> linarith) (by norm_num) hl
    rw [abs_mul] at this
    simpa using this)
  have hp5 := hp4.subAssign h0
    (small_lt (c := 100) (a := l) (by rw [abs_le]; constructor <;> linarith) (by norm_num) hl)
  exact ⟨hp1, hp2, hp5⟩

/-- Interpolation. -/
theorem toom3Interp_spec {l : Nat} {s0 s1 s2 s3 s4 : SS} {n0 n1 n2 n3 n4 : Nat} {c0 c1 c2 c3 c4 : ℤ}
    (h0 : SSok s0 n0 c0) (h1 : SSok s1 n1 (c0 + c1 + c2 + c3 + c4))
    (h2 : SSok s2 n2 (c0 - c1 + c2 - c3 + c4))
    (h3 : SSok s3 n3 (c0 - 2 * c1 + 4 * c2 - 8 * c3 + 16 * c4)) (h4 : SSok s4 n4 c4)
    (h4n : s4.neg = false) (hl : 2 * l < (l + 1) * 2)
    (p0 : 0 ≤ c0) (p1 : 0 ≤ c1) (p2 : 0 ≤ c2) (p3 : 0 ≤ c3) (p4 : 0 ≤ c4)
    (b0 : c0 ≤ 3 * (B ^ (2 * l) : ℕ)) (b1 : c1 ≤ 3 * (B ^ (2 * l) : ℕ)) (b2 : c2 ≤ 3 * (B ^ (2 * l) : ℕ))
    (b3 : c3 ≤ 3 * (B ^ (2 * l) : ℕ)) (b4 : c4 ≤ 3 * (B ^ (2 * l) : ℕ)) :
    SSok (toom3Interp l s0 s1 s2 s3 s4).1 ((l + 1) * 2) c1 ∧
    SSok (toom3Interp l s0 s1 s2 s3 s4).2.1 ((l + 1) * 2) c2 ∧
    SSok (toom3Interp l s0 s1 s2 s3 s4).2.2 ((l + 1) * 2) c3 := by
  generalize hk : (l + 1) * 2 = k at hl
  unfold toom3Interp
  dsimp only
  rw [hk]
  generalize 2 * l = a at *
  have w3a := h3.sub h1 (len := k)
    (small_lt (c := 200) (a := a) (by rw [abs_le]; constructor <;> linarith) (by norm_num) hl)
  have w3b := w3a.div3 (t := -c1 + c2 - 3 * c3 + 5 * c4) (by ring)
  have w1a := (h1.sub h2 (len := k)
    (small_lt (c := 200) (a := a) (by rw [abs_le]; constructor <;> linarith) (by norm_num) hl)).shr
    (t := c1 + c3) (by ring)
  have w2a := h2.sub h0 (len := k)
    (small_lt (c := 200) (a := a) (by rw [abs_le]; constructor <;> linarith) (by norm_num) hl)
  have w3c := w3b.subAssign w2a
    (small_lt (c := 200) (a := a) (by rw [abs_le]; constructor <;> linarith) (by norm_num) hl)
  have w3d := w3c.neg
  have x3 : SSok ⟨false, shiftLeftCopy s4.m k 2⟩ k (4 * c4) := by
    obtain ⟨q1, q2, q3⟩ := shiftLeftCopy_spec h4.wf k (n := 2) (by norm_num)
    have hv : (val s4.m : ℤ) = c4 := by
      have := h4.val
      unfold SS.toZ at this
      rw [h4n] at this
      simpa using this
    refine ⟨q1, q2, ?_⟩
    have hlt : val s4.m * 2 ^ 2 < B ^ k := by
      have := small_lt (c := 200) (x := (val s4.m : ℤ) * 4) (a := a) (b := k)
        (by rw [abs_le]; constructor <;> linarith) (by norm_num) hl
      rw [abs_of_nonneg (by positivity)] at this
      exact_mod_cast this
    unfold SS.toZ
    simp only [Bool.false_eq_true, if_false]
    rw [q3, Nat.mod_eq_of_lt hlt]
    push_cast
    rw [hv]; ring
  have w3 := (w3d.addAssign x3
    (small_lt (c := 200) (a := a) (by rw [abs_le]; constructor <;> linarith) (by norm_num) hl)).shr
    (t := c3) (by ring)
  have w2 := ((w2a.addAssign w1a
    (small_lt (c := 200) (a := a) (by rw [abs_le]; constructor <;> linarith) (by norm_num) hl)).subAssign h4
    (small_lt (c := 200) (a := a) (by rw [abs_le]; constructor <;> linarith) (by norm_num) hl)).congr
    (y := c2) (by ring)
  have w1 := (w1a.subAssign w3
    (small_lt (c := 200) (a := a) (by rw [abs_le]; constructor <;> linarith) (by norm_num) hl)).congr
    (y := c1) (by ring)
  exact ⟨w1, w2, w3⟩

theorem addAt_spec {d3 : List Nat} (h3 : Wf d3) (start : Nat) {w : SS} {lw : Nat} {x : Nat}
    (hw : SSok w lw x) (hb : val d3 + B ^ start * x < B ^ d3.length) :
    (addAt d3 start w).length = d3.length ∧ Wf (addAt d3 start w) ∧
    val (addAt d3 start w) = val d3 + B ^ start * x := by
  unfold addAt
  by_cases hs : start < d3.length
  · rw [if_pos hs]
    have hsplit := val_take_drop d3 start (by omega)
    have hb' : val (d3.drop start) + x < B ^ (d3.drop start).length := by
      rw [List.length_drop]
      have hp : B ^ d3.length = B ^ start * B ^ (d3.length - start) := by
        rw [← pow_add]; congr 1; omega
      rw [hp] at hb
      apply Nat.lt_of_mul_lt_mul_left (a := B ^ start)
      rw [mul_add]; omega
    have h := (SSok.pos (h3.drop start)).addAssign hw (by
      rw [abs_of_nonneg (by positivity)]; exact_mod_cast hb')
    have hv : val (SS.addAssign ⟨false, d3.drop start⟩ w).m = val (d3.drop start) + x := by
      have := SS.abs_toZ (SS.addAssign ⟨false, d3.drop start⟩ w)
      rw [h.val, abs_of_nonneg (by positivity)] at this
      exact_mod_cast this.symm
    refine ⟨?_, wf_append.2 ⟨h3.take _, h.wf⟩, ?_⟩
    · rw [List.length_append, h.len, ← List.length_append, List.take_append_drop]
    · rw [val_append, hv, List.length_take, min_eq_left (by omega)]
      conv_rhs => rw [hsplit]
      ring
  · rw [if_neg hs]
    have hx : x = 0 := by
      by_contra hc
      have h1 : B ^ d3.length ≤ B ^ start := Nat.pow_le_pow_right B_pos (by omega)
      have h2 : B ^ start * 1 ≤ B ^ start * x := Nat.mul_le_mul_left _ (by omega)
      omega
    exact ⟨rfl, h3, by rw [hx]; simp⟩

theorem split3_val (m : List Nat) (l : Nat) (hl : m.length ≤ 3 * l) :
    val m = val (m.take l) + B ^ l * val ((m.drop l).take l) +
      B ^ (2 * l) * val (((m.drop l).drop l).take l) := by
  rw [List.take_of_length_le (l := (m.drop l).drop l) (by simp; omega)]
  have e1 := val_take_drop' m l
  have e2 := val_take_drop' (m.drop l) l
  rw [e2] at e1
  rw [e1, two_mul, pow_add]
  ring

theorem val_take_lt {m : List Nat} (h : Wf m) (k : Nat) : val (m.take k) < B ^ k := by
  rw [val_take h]; exact Nat.mod_lt _ (B_pow_pos k)

theorem mul_le_of_lt {x y M : Nat} (hx : x < M) (hy : y < M) : (x : ℤ) * y ≤ (M : ℤ) * M := by
  have : x * y ≤ M * M := Nat.mul_le_mul hx.le hy.le
  exact_mod_cast this

theorem toom3_spec {mul : MulFn} {d1 d2 : List Nat} (h : MulOk mul (d1.length + d2.length))
    (h1 : Wf d1) (h2 : Wf d2) (hl1 : 32 < d1.length) (hl2 : 32 < d2.length) {len : Nat}
    (hl : d1.length + d2.length ≤ len) :
    (toom3 mul d1 d2 len).length = len ∧ Wf (toom3 mul d1 d2 len) ∧
    val (toom3 mul d1 d2 len) = val d1 * val d2 := by
  unfold toom3
  dsimp only
  generalize hL : (max d1.length d2.length + 2) / 3 = l
  have hd1 : d1.length ≤ 3 * l := by omega
  have hd2 : d2.length ≤ 3 * l := by omega
  have hrec : (l + 1) + (l + 1) < d1.length + d2.length := by omega
  have hrec2 : 2 * l < d1.length + d2.length := by omega
  have v1 := split3_val d1 l hd1
  have v2 := split3_val d2 l hd2
  have a0 := val_take_lt h1 l
  have a1 := val_take_lt (h1.drop l) l
  have a2 := val_take_lt ((h1.drop l).drop l) l
  have b0 := val_take_lt h2 l
  have b1 := val_take_lt (h2.drop l) l
  have b2 := val_take_lt ((h2.drop l).drop l) l
  have A0 := SSok.pos (h1.take l)
  have A1 := SSok.pos ((h1.drop l).take l)
  have A2 := SSok.pos (((h1.drop l).drop l).take l)
  have B0 := SSok.pos (h2.take l)
  have B1 := SSok.pos ((h2.drop l).take l)
  have B2 := SSok.pos (((h2.drop l).drop l).take l)
  have lA0 : (d1.take l).length ≤ l := by simp
  have lA2 : (((d1.drop l).drop l).take l).length ≤ l := by simp
  have lB0 : (d2.take l).length ≤ l := by simp
  have lB2 : (((d2.drop l).drop l).take l).length ≤ l := by simp
  obtain ⟨p1, p2, p3⟩ := toom3Factors_spec (l := l) (m := toom3Splits d1 l) A0 A1 A2 a0 a1 a2
  obtain ⟨q1, q2, q3⟩ := toom3Factors_spec (l := l) (m := toom3Splits d2 l) B0 B1 B2 b0 b1 b2
  have s0 := A0.mul h B0 (len := (d1.take l).length + (d2.take l).length) (by omega) le_rfl
  have s1 := p1.mul h q1 (len := (l + 1) * 2) (by omega) (by omega)
  have s2 := p2.mul h q2 (len := (l + 1) * 2) (by omega) (by omega)
  have s3 := p3.mul h q3 (len := (l + 1) * 2) (by omega) (by omega)
  have s4 := A2.mul h B2
    (len := (((d1.drop l).drop l).take l).length + (((d2.drop l).drop l).take l).length)
    (by omega) le_rfl
  simp only [bne_self_eq_false] at s0 s4
  have e0 : (toom3Splits d1 l).1.m = d1.take l := rfl
  have e0' : (toom3Splits d2 l).1.m = d2.take l := rfl
  have e2 : (toom3Splits d1 l).2.2.m = ((d1.drop l).drop l).take l := rfl
  have e2' : (toom3Splits d2 l).2.2.m = ((d2.drop l).drop l).take l := rfl
  rw [e0, e0', e2, e2']
  generalize val (d1.take l) = x0 at *
  generalize val ((d1.drop l).take l) = x1 at *
  generalize val (((d1.drop l).drop l).take l) = x2 at *
  generalize val (d2.take l) = y0 at *
  generalize val ((d2.drop l).take l) = y1 at *
  generalize val (((d2.drop l).drop l).take l) = y2 at *
  generalize hS0 : mul (d1.take l) (d2.take l) ((d1.take l).length + (d2.take l).length) = S0 at *
  generalize hS4 : mul (((d1.drop l).drop l).take l) (((d2.drop l).drop l).take l)
    ((((d1.drop l).drop l).take l).length + (((d2.drop l).drop l).take l).length) = S4 at *
  have hBB : ((B ^ (2 * l) : ℕ) : ℤ) = ((B ^ l : ℕ) : ℤ) * ((B ^ l : ℕ) : ℤ) := by
    rw [two_mul, pow_add]; push_cast; ring
  have pr : ∀ {x y : ℕ}, x < B ^ l → y < B ^ l → (x : ℤ) * y ≤ (B ^ (2 * l) : ℕ) := by
    intro x y hx hy; rw [hBB]; exact mul_le_of_lt hx hy
  obtain ⟨w1, w2, w3⟩ := toom3Interp_spec (l := l) (s4 := ⟨false, S4⟩) (c0 := x0 * y0) (c1 := x0 * y1 + x1 * y0)
    (c2 := x0 * y2 + x1 * y1 + x2 * y0) (c3 := x1 * y2 + x2 * y1) (c4 := x2 * y2)
    s0 (s1.congr (by ring)) (s2.congr (by ring)) (s3.congr (by ring)) s4 rfl (by omega)
    (by positivity) (by positivity) (by positivity) (by positivity) (by positivity)
    (by have := pr a0 b0; linarith [Nat.cast_nonneg (α := ℤ) (B ^ (2 * l))])
    (by have := pr a0 b1; have := pr a1 b0; linarith [Nat.cast_nonneg (α := ℤ) (B ^ (2 * l))])
    (by have := pr a0 b2; have := pr a1 b1; have := pr a2 b0; linarith [Nat.cast_nonneg (α := ℤ) (B ^ (2 * l))])
    (by have := pr a1 b2; have := pr a2 b1; linarith [Nat.cast_nonneg (α := ℤ) (B ^ (2 * l))])
    (by have := pr a2 b2; linarith [Nat.cast_nonneg (α := ℤ) (B ^ (2 * l))])
  generalize toom3Interp l _ _ _ _ _ = w at *
  have w1' : SSok w.1 ((l + 1) * 2) ((x0 * y1 + x1 * y0 : ℕ) : ℤ) := w1.congr (by push_cast; ring)
  have w2' : SSok w.2.1 ((l + 1) * 2) ((x0 * y2 + x1 * y1 + x2 * y0 : ℕ) : ℤ) :=
    w2.congr (by push_cast; ring)
  have w3' : SSok w.2.2 ((l + 1) * 2) ((x1 * y2 + x2 * y1 : ℕ) : ℤ) := w3.congr (by push_cast; ring)
  have vS0 : val S0 = x0 * y0 := by
    have := s0.val; simp only [SS.toZ, Bool.false_eq_true, if_false] at this; exact_mod_cast this
  have vS4 : val S4 = x2 * y2 := by
    have := s4.val; simp only [SS.toZ, Bool.false_eq_true, if_false] at this; exact_mod_cast this
  have lS0 : S0.length ≤ 2 * l := by have := s0.len; dsimp only at this; omega
  have wfS0 : Wf S0 := s0.wf
  have wfS4 : Wf S4 := s4.wf
  have htot : x0 * y0 + B ^ l * (x0 * y1 + x1 * y0) + B ^ (l * 2) * (x0 * y2 + x1 * y1 + x2 * y0) +
      B ^ (l * 3) * (x1 * y2 + x2 * y1) + B ^ (4 * l) * (x2 * y2) = val d1 * val d2 := by
    rw [v1, v2]
    have t2 : B ^ (2 * l) = B ^ l * B ^ l := by rw [← pow_add]; congr 1; omega
    have t2' : B ^ (l * 2) = B ^ l * B ^ l := by rw [← pow_add]; congr 1; omega
    have t3 : B ^ (l * 3) = B ^ l * B ^ l * B ^ l := by rw [← pow_add, ← pow_add]; congr 1; omega
    have t4 : B ^ (4 * l) = B ^ l * B ^ l * B ^ l * B ^ l := by
      rw [← pow_add, ← pow_add, ← pow_add]; congr 1; omega
    rw [t2, t2', t3, t4]
    ring
  have hlt : val d1 * val d2 < B ^ len := mul_lt_pow h1 h2 hl
  have hd3 : ∃ d3, d3 = (if 4 * l < len then
      S0 ++ List.replicate (4 * l - S0.length) 0 ++ fit (len - 4 * l) S4
    else S0 ++ List.replicate (len - S0.length) 0) ∧ d3.length = len ∧ Wf d3 ∧
      val d3 = x0 * y0 + B ^ (4 * l) * (x2 * y2) := by
    refine ⟨_, rfl, ?_⟩
    have lS0' : S0.length ≤ d1.length + d2.length := by
      have := s0.len; dsimp only at this
      have g1 : (d1.take l).length ≤ d1.length := by simp
      have g2 : (d2.take l).length ≤ d2.length := by simp
      omega
    split
    · rename_i hc
      refine ⟨by simp; omega, ?_, ?_⟩
      · rw [wf_append, wf_append]; exact ⟨⟨wfS0, wf_zeros _⟩, fit_wf wfS4 _⟩
      · rw [val_append, val_append_zeros, val_fit wfS4, vS0, vS4]
        have : (S0 ++ List.replicate (4 * l - S0.length) 0).length = 4 * l := by simp; omega
        rw [this, Nat.mod_eq_of_lt]
        apply Nat.lt_of_mul_lt_mul_left (a := B ^ (4 * l))
        rw [← pow_add, show 4 * l + (len - 4 * l) = len by omega]
        omega
    · rename_i hc
      refine ⟨by simp; omega, ?_, ?_⟩
      · rw [wf_append]; exact ⟨wfS0, wf_zeros _⟩
      · rw [val_append_zeros, vS0]
        have : x2 * y2 = 0 := by
          by_contra hne
          have g1 : B ^ len ≤ B ^ (4 * l) := Nat.pow_le_pow_right B_pos (by omega)
          have g2 : B ^ (4 * l) * 1 ≤ B ^ (4 * l) * (x2 * y2) := Nat.mul_le_mul_left _ (by omega)
          omega
        rw [this]; simp
  obtain ⟨d3, hd3e, hd3l, hd3w, hd3v⟩ := hd3
  rw [← hd3e]
  generalize x0 * y1 + x1 * y0 = c1 at *
  generalize x0 * y2 + x1 * y1 + x2 * y0 = c2 at *
  generalize x1 * y2 + x2 * y1 = c3 at *
  cases w.1.neg
  · simp only [Bool.false_eq_true, if_false]
    obtain ⟨r1, r2, r3⟩ := addAt_spec hd3w l w1' (by rw [hd3v, hd3l]; omega)
    obtain ⟨r4, r5, r6⟩ := addAt_spec r2 (l * 2) w2' (by rw [r3, r1, hd3v, hd3l]; omega)
    obtain ⟨r7, r8, r9⟩ := addAt_spec r5 (l * 3) w3' (by rw [r6, r4, r3, r1, hd3v, hd3l]; omega)
    exact ⟨by rw [r7, r4, r1, hd3l], r8, by rw [r9, r6, r3, hd3v]; omega⟩
  · simp only [if_true]
    obtain ⟨r1, r2, r3⟩ := addAt_spec hd3w (l * 3) w3' (by rw [hd3v, hd3l]; omega)
    obtain ⟨r4, r5, r6⟩ := addAt_spec r2 l w1' (by rw [r3, r1, hd3v, hd3l]; omega)
    obtain ⟨r7, r8, r9⟩ := addAt_spec r5 (l * 2) w2' (by rw [r6, r4, r3, r1, hd3v, hd3l]; omega)
    exact ⟨by rw [r7, r4, r1, hd3l], r8, by rw [r9, r6, r3, hd3v]; omega⟩

end AF
