import Verif.Model.Mul
import Verif.Lemmas.Int
/-!
# Schoolbook multiplication and Toom-2
-/

namespace AF

theorem val_take_drop' (m : List Nat) (k : Nat) :
    val m = val (m.take k) + B ^ k * val (m.drop k) := by
  rcases Nat.le_total k m.length with h | h
  · exact val_take_drop m k h
  · rw [List.take_of_length_le h, List.drop_eq_nil_of_le h]; simp

@[simp] theorem mulRow_length (d k : Nat) (m2 m3 : List Nat) :
    (mulRow d k m2 m3).length = m3.length := by
  induction m3 generalizing k m2 with
  | nil => cases m2 <;> simp [mulRow]
  | cons x xs ih => cases m2 <;> simp [mulRow, ih]

theorem mulRow_wf (d k : Nat) (m2 : List Nat) {m3 : List Nat} (h : Wf m3) :
    Wf (mulRow d k m2 m3) := by
  induction m3 generalizing k m2 with
  | nil => cases m2 <;> simp [mulRow, Wf.nil]
  | cons x xs ih =>
    rw [wf_cons] at h
    cases m2 with
    | nil => simp only [mulRow]; exact Wf.cons (Nat.mod_lt _ B_pos) h.2
    | cons b bs => simp only [mulRow]; exact Wf.cons (Nat.mod_lt _ B_pos) (ih _ _ h.2)

theorem val_mulRow (d k : Nat) (m2 m3 : List Nat) (hl : m2.length < m3.length)
    (hb : val m3 + d * val m2 + k < B ^ (m2.length + 1)) :
    val (mulRow d k m2 m3) = val m3 + d * val m2 + k := by
  induction m3 generalizing k m2 with
  | nil => simp at hl
  | cons x xs ih =>
    cases m2 with
    | nil =>
      simp only [mulRow, val_cons, val_nil, mul_zero, add_zero, List.length_nil, zero_add, pow_one] at hb ⊢
      have hxs : val xs = 0 := by
        by_contra hc
        have : B * 1 ≤ B * val xs := Nat.mul_le_mul_left _ (by omega)
        omega
      rw [hxs] at hb ⊢
      rw [Nat.mod_eq_of_lt (by omega)]; omega
    | cons b bs =>
      simp only [mulRow, val_cons, List.length_cons] at hb hl ⊢
      have hdm := Nat.div_add_mod (d * b + x + k) B
      have e : x + B * val xs + d * (b + B * val bs) + k =
          (d * b + x + k) % B + B * (val xs + d * val bs + (d * b + x + k) / B) := by
        calc x + B * val xs + d * (b + B * val bs) + k
            = (d * b + x + k) + B * (val xs + d * val bs) := by ring
          _ = (B * ((d * b + x + k) / B) + (d * b + x + k) % B) + B * (val xs + d * val bs) := by
              rw [hdm]
          _ = _ := by ring
      rw [e] at hb
      have hb' : val xs + d * val bs + (d * b + x + k) / B < B ^ (bs.length + 1) := by
        rw [pow_succ B (bs.length + 1), mul_comm _ B] at hb
        exact Nat.lt_of_mul_lt_mul_left (a := B) (by omega)
      rw [ih _ _ (by omega) hb', e]

theorem mulBasicLoop_spec (ds m2 m3 : List Nat) (hd : Wf ds) (h2 : Wf m2) (h3 : Wf m3)
    (hl : ds.length + m2.length ≤ m3.length) (hb : val m3 < B ^ m2.length) :
    (mulBasicLoop ds m2 m3).length = m3.length ∧ Wf (mulBasicLoop ds m2 m3) ∧
    val (mulBasicLoop ds m2 m3) = val m3 + val ds * val m2 := by
  induction ds generalizing m3 with
  | nil => simp [mulBasicLoop, h3]
  | cons d ds ih =>
    rw [wf_cons] at hd
    simp only [List.length_cons] at hl
    simp only [mulBasicLoop]
    obtain ⟨r, hr⟩ : ∃ r, r = (if d = 0 then m3 else mulRow d 0 m2 m3) := ⟨_, rfl⟩
    have hbound : val m3 + d * val m2 < B ^ (m2.length + 1) := by
      have h2' := val_lt h2
      have : d * val m2 ≤ (B - 1) * B ^ m2.length := Nat.mul_le_mul (by omega) h2'.le
      have e : B ^ (m2.length + 1) = (B - 1) * B ^ m2.length + B ^ m2.length := by
        have := B_pos
        rw [pow_succ, mul_comm]
        conv_lhs => rw [show B = (B - 1) + 1 by omega]
        rw [add_mul, one_mul]
        have : B - 1 + 1 = B := by omega
        rw [this]
      omega
    have hrl : r.length = m3.length := by rw [hr]; split <;> simp
    have hrw : Wf r := by rw [hr]; split; exacts [h3, mulRow_wf _ _ _ h3]
    have hrv : val r = val m3 + d * val m2 := by
      rw [hr]
      split
      · rename_i h; rw [h]; simp
      · rw [val_mulRow d 0 m2 m3 (by omega) (by simpa using hbound)]; simp
    rw [← hr]
    cases r with
    | nil => simp at hrl; omega
    | cons x xs =>
      rw [wf_cons] at hrw
      simp only [List.length_cons] at hrl
      have hxs : val xs < B ^ m2.length := by
        rw [val_cons] at hrv
        rw [← hrv, pow_succ, mul_comm (B ^ m2.length)] at hbound
        exact Nat.lt_of_mul_lt_mul_left (a := B) (by omega)
      obtain ⟨i1, i2, i3⟩ := ih xs hd.2 hrw.2 (by omega) hxs
      refine ⟨by simp [i1]; omega, Wf.cons hrw.1 i2, ?_⟩
      rw [val_cons, val_cons, i3]
      rw [val_cons] at hrv
      calc x + B * (val xs + val ds * val m2) = (x + B * val xs) + B * val ds * val m2 := by ring
        _ = _ := by rw [hrv]; ring

theorem mulBasic_spec {m1 m2 : List Nat} (h1 : Wf m1) (h2 : Wf m2) {len : Nat}
    (hl : m1.length + m2.length ≤ len) :
    (mulBasic m1 m2 len).length = len ∧ Wf (mulBasic m1 m2 len) ∧
    val (mulBasic m1 m2 len) = val m1 * val m2 := by
  have := mulBasicLoop_spec m1 m2 (List.replicate len 0) h1 h2 (wf_zeros _) (by simpa using hl)
    (by rw [val_replicate_zero]; exact B_pow_pos _)
  unfold mulBasic
  simpa using this

theorem toWords_spec (n v : Nat) :
    (toWords n v).length = n ∧ Wf (toWords n v) ∧ val (toWords n v) = v % B ^ n := by
  induction n generalizing v with
  | zero => simp [toWords, Wf.nil, Nat.mod_one]
  | succ n ih =>
    obtain ⟨i1, i2, i3⟩ := ih (v / B)
    refine ⟨by simp [toWords, i1], Wf.cons (Nat.mod_lt _ B_pos) i2, ?_⟩
    simp only [toWords, val_cons, i3]
    rw [pow_succ, mul_comm (B ^ n), Nat.mod_mul]

theorem fftMul_val (m : List Nat) : fftMul.val m = val m := by
  induction m with
  | nil => rfl
  | cons x xs ih => simp [fftMul.val, ih]

theorem mul_lt_pow {m1 m2 : List Nat} (h1 : Wf m1) (h2 : Wf m2) {len : Nat}
    (hl : m1.length + m2.length ≤ len) : val m1 * val m2 < B ^ len := by
  calc val m1 * val m2 < B ^ m1.length * B ^ m2.length :=
        Nat.mul_lt_mul_of_lt_of_lt (val_lt h1) (val_lt h2)
    _ = B ^ (m1.length + m2.length) := (pow_add _ _ _).symm
    _ ≤ B ^ len := Nat.pow_le_pow_right B_pos hl

theorem fftMul_spec {m1 m2 : List Nat} (h1 : Wf m1) (h2 : Wf m2) {len : Nat}
    (hl : m1.length + m2.length ≤ len) :
    (fftMul m1 m2 len).length = len ∧ Wf (fftMul m1 m2 len) ∧
    val (fftMul m1 m2 len) = val m1 * val m2 := by
  unfold fftMul
  rw [fftMul_val, fftMul_val]
  obtain ⟨i1, i2, i3⟩ := toWords_spec len (val m1 * val m2)
  exact ⟨i1, i2, by rw [i3, Nat.mod_eq_of_lt (mul_lt_pow h1 h2 hl)]⟩

theorem pairedStep_spec {v s : Nat} (hv : v < B) (hs : s ≤ 2 * B) :
    (pairedStep v s).1 < B ∧ (pairedStep v s).2 ≤ 2 ∧
    (pairedStep v s).1 + s = v + B * (pairedStep v s).2 := by
  unfold pairedStep
  split
  · simp; omega
  · split
    · simp; omega
    · simp; omega

@[simp] theorem pairedSub_length (c : Nat) (a b x : List Nat) : (pairedSub c a b x).length = x.length := by
  induction x generalizing c a b with
  | nil => simp [pairedSub]
  | cons x xs ih => cases a <;> cases b <;> simp [pairedSub, ih]

theorem pairedSub_spec (a b x : List Nat) (c : Nat) (ha : Wf a) (hb : Wf b) (hx : Wf x) (hc : c ≤ 2) :
    Wf (pairedSub c a b x) ∧
    ∃ k : ℤ, (val (pairedSub c a b x) : ℤ) = val x - val a - val b - c + k * (B ^ x.length : ℕ) := by
  induction x generalizing c a b with
  | nil =>
    simp only [pairedSub]
    exact ⟨Wf.nil, (val a + val b + c), by simp⟩
  | cons x xs ih =>
    rw [wf_cons] at hx
    have hB2 := one_lt_B
    have key : ∀ (u v : Nat) (as bs : List Nat), u < B → v < B → Wf as → Wf bs →
        Wf ((pairedStep x (u + v + c)).1 :: pairedSub (pairedStep x (u + v + c)).2 as bs xs) ∧
        ∃ k : ℤ, (val ((pairedStep x (u + v + c)).1 ::
          pairedSub (pairedStep x (u + v + c)).2 as bs xs) : ℤ) =
          val (x :: xs) - (u + B * val as : ℕ) - (v + B * val bs : ℕ) - c +
            k * (B ^ (x :: xs).length : ℕ) := by
      intro u v as bs hu hv has hbs
      obtain ⟨h1, h2, h3⟩ := pairedStep_spec (s := u + v + c) hx.1 (by omega)
      obtain ⟨i1, k, hk⟩ := ih as bs (pairedStep x (u + v + c)).2 has hbs hx.2 h2
      refine ⟨Wf.cons h1 i1, k, ?_⟩
      have h3' : ((pairedStep x (u + v + c)).1 : ℤ) + (u + v + c) =
          x + B * (pairedStep x (u + v + c)).2 := by exact_mod_cast h3
      rw [val_cons, val_cons, List.length_cons, pow_succ]
      push_cast at hk ⊢
      rw [hk]
      linear_combination h3'
    cases a with
    | nil =>
      cases b with
      | nil =>
        have := key 0 0 [] [] B_pos B_pos Wf.nil Wf.nil
        simpa [pairedSub] using this
      | cons b bs =>
        rw [wf_cons] at hb
        have := key 0 b [] bs B_pos hb.1 Wf.nil hb.2
        simpa [pairedSub] using this
    | cons a as =>
      rw [wf_cons] at ha
      cases b with
      | nil =>
        have := key a 0 as [] ha.1 B_pos ha.2 Wf.nil
        simpa [pairedSub] using this
      | cons b bs =>
        rw [wf_cons] at hb
        have := key a b as bs ha.1 hb.1 ha.2 hb.2
        simpa [pairedSub] using this

theorem pairedSub_exact {a b x : List Nat} (ha : Wf a) (hb : Wf b) (hx : Wf x)
    (h : val a + val b ≤ val x) :
    Wf (pairedSub 0 a b x) ∧ val (pairedSub 0 a b x) = val x - val a - val b := by
  obtain ⟨h1, k, hk⟩ := pairedSub_spec a b x 0 ha hb hx (by norm_num)
  refine ⟨h1, ?_⟩
  have hl := val_lt h1
  rw [pairedSub_length] at hl
  have hxl := val_lt hx
  have : (val (pairedSub 0 a b x) : ℤ) = ((val x - val a - val b : ℕ) : ℤ) :=
    eq_of_congr (M := (B ^ x.length : ℕ)) (by positivity) (by exact_mod_cast hl) (by positivity)
      (by rw [Nat.cast_lt]; omega) (k := k)
      (by rw [hk]; push_cast [Nat.cast_sub (show val a ≤ val x by omega),
            Nat.cast_sub (show val b ≤ val x - val a by omega)]; ring)
  exact_mod_cast this

/-- A multiplication routine is exact on operands with fewer than `n` words in total. -/
def MulOk (mul : MulFn) (n : Nat) : Prop :=
  ∀ (m1 m2 : List Nat) (len : Nat), Wf m1 → Wf m2 → m1.length + m2.length < n →
    m1.length + m2.length ≤ len →
    (mul m1 m2 len).length = len ∧ Wf (mul m1 m2 len) ∧ val (mul m1 m2 len) = val m1 * val m2

theorem toom2_spec {mul : MulFn} {m1 m2 : List Nat} (h : MulOk mul (m1.length + m2.length))
    (h1 : Wf m1) (h2 : Wf m2) (hl1 : 32 < m1.length) (hl2 : 32 < m2.length) {len : Nat}
    (hl : m1.length + m2.length ≤ len) :
    (toom2 mul m1 m2 len).length = len ∧ Wf (toom2 mul m1 m2 len) ∧
    val (toom2 mul m1 m2 len) = val m1 * val m2 := by
  unfold toom2
  dsimp only
  set n := (min m1.length m2.length + 1) / 2 with hn
  have hn1 : n + 16 ≤ m1.length := by omega
  have hn2 : n + 16 ≤ m2.length := by omega
  have hn16 : 16 < n := by omega
  have e1 := val_take_drop m1 n (by omega)
  have e2 := val_take_drop m2 n (by omega)
  obtain ⟨a1, a2, a3⟩ := addSlice_spec (h1.take n) (h1.drop n)
  obtain ⟨b1, b2, b3⟩ := addSlice_spec (h2.take n) (h2.drop n)
  have t1 : (m1.take n).length = n := by simp; omega
  have t2 : (m2.take n).length = n := by simp; omega
  have d1 : (m1.drop n).length = m1.length - n := by simp
  have d2 : (m2.drop n).length = m2.length - n := by simp
  rw [t1, d1] at a1
  rw [t2, d2] at b1
  unfold addSlices
  dsimp only
  set x1 := (addWords 0 (m1.take n) (m1.drop n)).1 ++ [(addWords 0 (m1.take n) (m1.drop n)).2]
  set x2 := (addWords 0 (m2.take n) (m2.drop n)).1 ++ [(addWords 0 (m2.take n) (m2.drop n)).2]
  obtain ⟨z1, z2, z3⟩ := h x1 x2 (x1.length + x2.length) a2 b2 (by omega) le_rfl
  obtain ⟨p1, p2, p3⟩ := h (m1.take n) (m2.take n) (2 * n) (h1.take n) (h2.take n) (by omega) (by omega)
  obtain ⟨q1, q2, q3⟩ := h (m1.drop n) (m2.drop n) (len - 2 * n) (h1.drop n) (h2.drop n) (by omega)
    (by omega)
  set z := mul x1 x2 (x1.length + x2.length)
  set m31 := mul (m1.take n) (m2.take n) (2 * n)
  set m32 := mul (m1.drop n) (m2.drop n) (len - 2 * n)
  rw [a3, b3] at z3
  obtain ⟨s1, s2⟩ := pairedSub_exact p2 q2 z2 (by rw [p3, q3, z3]; nlinarith)
  set a := val (m1.take n)
  set b := val (m1.drop n)
  set c := val (m2.take n)
  set d := val (m2.drop n)
  have s2' : val (pairedSub 0 m31 m32 z) = a * d + b * c := by
    rw [s2, z3, p3, q3]
    have : (a + b) * (c + d) = a * c + b * d + (a * d + b * c) := by ring
    omega
  have hm3 : Wf (m31 ++ m32) := wf_append.2 ⟨p2, q2⟩
  have hm3l : (m31 ++ m32).length = len := by rw [List.length_append, p1, q1]; omega
  have hm3v : val (m31 ++ m32) = a * c + B ^ (2 * n) * (b * d) := by rw [val_append, p3, q3, p1]
  have htot : val (m31 ++ m32) + B ^ n * (a * d + b * c) = val m1 * val m2 := by
    rw [hm3v, e1, e2, two_mul, pow_add]; ring
  have hsplit := val_take_drop (m31 ++ m32) n (by omega)
  have hlt : val m1 * val m2 < B ^ len := mul_lt_pow h1 h2 hl
  have hbound : val ((m31 ++ m32).drop n) + val (pairedSub 0 m31 m32 z) <
      B ^ ((m31 ++ m32).drop n).length := by
    rw [s2', List.length_drop, hm3l]
    have hp : B ^ len = B ^ n * B ^ (len - n) := by rw [← pow_add]; congr 1; omega
    rw [hp] at hlt
    apply Nat.lt_of_mul_lt_mul_left (a := B ^ n)
    rw [mul_add]
    omega
  obtain ⟨r1, r2⟩ := ssAddAssign_exact (hm3.drop n) s1 hbound
  refine ⟨?_, wf_append.2 ⟨hm3.take n, r1⟩, ?_⟩
  · rw [List.length_append, ssAddAssign_length, ← List.length_append, List.take_append_drop, hm3l]
  · rw [val_append, r2, s2', List.length_take, hm3l, min_eq_left (by omega), ← htot]
    rw [mul_add, ← add_assoc, ← hsplit]

end AF
