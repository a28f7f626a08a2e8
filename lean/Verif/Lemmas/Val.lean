import Verif.Model.Util
import Verif.Spec
import Mathlib.Tactic.Ring
import Mathlib.Tactic.Linarith
import Mathlib.Tactic.Positivity
import Mathlib.Data.Nat.Size
import Mathlib.Data.Nat.Bitwise
/-!
# Values of word lists

`val` is the number a little-endian word list stands for. It is the only bridge between the
word-level model and the arithmetic specifications.
-/

namespace AF

theorem B_eq : B = 2 ^ 64 := by unfold B; norm_num
theorem MSB_eq : MSB = 2 ^ 63 := by unfold MSB; norm_num
theorem WMAX_eq : WMAX = B - 1 := by unfold WMAX B; norm_num
theorem B_pos : 0 < B := by unfold B; norm_num
theorem one_lt_B : 1 < B := by unfold B; norm_num
theorem B_pow (k : Nat) : B ^ k = 2 ^ (64 * k) := by rw [B_eq, ← pow_mul]
theorem B_pow_pos (k : Nat) : 0 < B ^ k := Nat.pow_pos B_pos

theorem Wf.nil : Wf [] := by simp [Wf]
theorem Wf.cons {x : Nat} {xs : List Nat} (hx : x < B) (h : Wf xs) : Wf (x :: xs) := by
  intro y hy
  rcases List.mem_cons.1 hy with rfl | hy
  · exact hx
  · exact h y hy
theorem wf_cons {x : Nat} {xs : List Nat} : Wf (x :: xs) ↔ x < B ∧ Wf xs :=
  ⟨fun h => ⟨h x (by simp), fun y hy => h y (by simp [hy])⟩, fun h => Wf.cons h.1 h.2⟩
theorem wf_append {a b : List Nat} : Wf (a ++ b) ↔ Wf a ∧ Wf b := by
  simp only [Wf, List.mem_append]
  constructor
  · intro h; exact ⟨fun x hx => h x (Or.inl hx), fun x hx => h x (Or.inr hx)⟩
  · rintro ⟨h1, h2⟩ x (hx | hx)
    · exact h1 x hx
    · exact h2 x hx
theorem wf_replicate (n : Nat) {x : Nat} (hx : x < B) : Wf (List.replicate n x) := by
  intro y hy; rw [List.eq_of_mem_replicate hy]; exact hx
theorem Wf.take {m : List Nat} (h : Wf m) (n : Nat) : Wf (m.take n) :=
  fun x hx => h x (List.mem_of_mem_take hx)
theorem Wf.drop {m : List Nat} (h : Wf m) (n : Nat) : Wf (m.drop n) :=
  fun x hx => h x (List.mem_of_mem_drop hx)
theorem wf_reverse {m : List Nat} : Wf m.reverse ↔ Wf m := by simp [Wf]
theorem wf_zeros (n : Nat) : Wf (List.replicate n 0) := wf_replicate n B_pos
theorem Wf.set {m : List Nat} (h : Wf m) (i : Nat) {x : Nat} (hx : x < B) : Wf (m.set i x) := by
  intro y hy
  rcases List.mem_or_eq_of_mem_set hy with h1 | h1
  · exact h y h1
  · rw [h1]; exact hx

@[simp] theorem val_nil : val [] = 0 := rfl
@[simp] theorem val_cons (x : Nat) (xs : List Nat) : val (x :: xs) = x + B * val xs := rfl

theorem val_append (a b : List Nat) : val (a ++ b) = val a + B ^ a.length * val b := by
  induction a with
  | nil => simp
  | cons x xs ih => simp only [List.cons_append, val_cons, ih, List.length_cons, pow_succ]; ring

@[simp] theorem val_replicate_zero (n : Nat) : val (List.replicate n 0) = 0 := by
  induction n with
  | zero => rfl
  | succ n ih => simp [List.replicate_succ, ih]

theorem val_zeros_append (n : Nat) (m : List Nat) : val (List.replicate n 0 ++ m) = B ^ n * val m := by
  simp [val_append]

theorem val_append_zeros (n : Nat) (m : List Nat) : val (m ++ List.replicate n 0) = val m := by
  simp [val_append]

theorem val_lt {m : List Nat} (h : Wf m) : val m < B ^ m.length := by
  induction m with
  | nil => simp
  | cons x xs ih =>
    obtain ⟨hx, hxs⟩ := wf_cons.1 h
    have := ih hxs
    simp only [val_cons, List.length_cons, pow_succ]
    have h2 : val xs + 1 ≤ B ^ xs.length := this
    calc x + B * val xs < B + B * val xs := by omega
      _ = (val xs + 1) * B := by ring
      _ ≤ B ^ xs.length * B := Nat.mul_le_mul_right _ h2

theorem val_lt_two_pow {m : List Nat} (h : Wf m) : val m < 2 ^ (64 * m.length) := by
  rw [← B_pow]; exact val_lt h

theorem val_take_drop (m : List Nat) (k : Nat) (hk : k ≤ m.length) :
    val m = val (m.take k) + B ^ k * val (m.drop k) := by
  conv_lhs => rw [← List.take_append_drop k m]
  rw [val_append, List.length_take, min_eq_left hk]

theorem val_drop {m : List Nat} (h : Wf m) (k : Nat) : val (m.drop k) = val m / B ^ k := by
  rcases Nat.le_total k m.length with hk | hk
  · rw [val_take_drop m k hk, Nat.add_mul_div_left _ _ (B_pow_pos k)]
    have := val_lt (h.take k)
    rw [List.length_take, min_eq_left hk] at this
    rw [Nat.div_eq_of_lt this, zero_add]
  · rw [List.drop_eq_nil_of_le hk, val_nil]
    symm; apply Nat.div_eq_of_lt
    exact lt_of_lt_of_le (val_lt h) (Nat.pow_le_pow_right B_pos hk)

theorem val_take {m : List Nat} (h : Wf m) (k : Nat) : val (m.take k) = val m % B ^ k := by
  rcases Nat.le_total k m.length with hk | hk
  · rw [val_take_drop m k hk, Nat.add_mul_mod_self_left]
    have := val_lt (h.take k)
    rw [List.length_take, min_eq_left hk] at this
    rw [Nat.mod_eq_of_lt this]
  · rw [List.take_of_length_le hk]
    symm; apply Nat.mod_eq_of_lt
    exact lt_of_lt_of_le (val_lt h) (Nat.pow_le_pow_right B_pos hk)

theorem val_eq_zero_iff {m : List Nat} : val m = 0 ↔ ∀ x ∈ m, x = 0 := by
  induction m with
  | nil => simp
  | cons x xs ih =>
    simp only [val_cons, Nat.add_eq_zero_iff, Nat.mul_eq_zero, ih, List.mem_cons, forall_eq_or_imp]
    have := B_pos
    constructor
    · rintro ⟨h1, h2 | h2⟩
      · omega
      · exact ⟨h1, h2⟩
    · rintro ⟨h1, h2⟩; exact ⟨h1, Or.inr h2⟩

/-- Two well-formed word lists of the same length with the same value are equal. -/
theorem val_inj {a b : List Nat} (ha : Wf a) (hb : Wf b) (hl : a.length = b.length)
    (h : val a = val b) : a = b := by
  induction a generalizing b with
  | nil => cases b with
    | nil => rfl
    | cons y ys => simp at hl
  | cons x xs ih => cases b with
    | nil => simp at hl
    | cons y ys =>
      obtain ⟨hx, hxs⟩ := wf_cons.1 ha
      obtain ⟨hy, hys⟩ := wf_cons.1 hb
      simp only [val_cons] at h
      have e1 : x = y := by
        have := congrArg (· % B) h
        simpa [Nat.add_mul_mod_self_left, Nat.mod_eq_of_lt hx, Nat.mod_eq_of_lt hy] using this
      subst e1
      have e2 : val xs = val ys := by
        have h3 : B * val xs = B * val ys := by omega
        exact Nat.eq_of_mul_eq_mul_left B_pos h3
      rw [ih hxs hys (by simpa using hl) e2]

/-! ## Single-word bit operations -/

theorem or_eq_add {a c s : Nat} (ha : a % 2 ^ s = 0) (hc : c < 2 ^ s) : a ||| c = a + c := by
  obtain ⟨k, rfl⟩ := Nat.dvd_of_mod_eq_zero ha
  rw [mul_comm, ← Nat.shiftLeft_eq, ← Nat.shiftLeft_add_eq_or_of_lt hc]

theorem shl_mod (x s : Nat) (hs : s ≤ 64) : (x <<< s) % B = (x % 2 ^ (64 - s)) * 2 ^ s := by
  rw [Nat.shiftLeft_eq, B_eq]
  have : (2:Nat) ^ 64 = 2 ^ (64 - s) * 2 ^ s := by rw [← pow_add]; congr 1; omega
  rw [this, Nat.mul_mod_mul_right]

theorem shl_mod_mod (x s : Nat) (hs : s ≤ 64) : ((x <<< s) % B) % 2 ^ s = 0 := by
  rw [shl_mod x s hs, Nat.mul_mod_left]

theorem shl_mod_lt (x s : Nat) : (x <<< s) % B < B := Nat.mod_lt _ B_pos

theorem shr_lt {x s : Nat} (hx : x < B) (hs : s ≤ 64) : x >>> (64 - s) < 2 ^ s := by
  rw [Nat.shiftRight_eq_div_pow]
  apply Nat.div_lt_of_lt_mul
  rw [← pow_add, B_eq] at *
  convert hx using 2; omega

theorem mul_two_pow_split (x s : Nat) (hs : s ≤ 64) :
    x * 2 ^ s = (x <<< s) % B + B * (x >>> (64 - s)) := by
  rw [shl_mod x s hs, Nat.shiftRight_eq_div_pow]
  have hB : B = 2 ^ (64 - s) * 2 ^ s := by rw [← pow_add, B_eq]; congr 1; omega
  rw [hB]
  have := Nat.mod_add_div x (2 ^ (64 - s))
  calc x * 2 ^ s = (x % 2 ^ (64 - s) + 2 ^ (64 - s) * (x / 2 ^ (64 - s))) * 2 ^ s := by rw [this]
    _ = _ := by ring

theorem or_lt_B {a b : Nat} (ha : a < B) (hb : b < B) : a ||| b < B := by
  rw [B_eq] at *; exact Nat.or_lt_two_pow ha hb

/-! ## Left shift -/

@[simp] theorem shlBits_length (s p : Nat) (m : List Nat) : (shlBits s p m).length = m.length := by
  induction m generalizing p with
  | nil => rfl
  | cons x xs ih => simp [shlBits, ih]

theorem shlBits_wf {s p : Nat} (hp : p < B) {m : List Nat} (hm : Wf m) :
    Wf (shlBits s p m) := by
  induction m generalizing p with
  | nil => exact Wf.nil
  | cons x xs ih =>
    obtain ⟨hx, hxs⟩ := wf_cons.1 hm
    refine Wf.cons ?_ (ih hx hxs)
    apply or_lt_B (shl_mod_lt _ _)
    exact lt_of_le_of_lt (Nat.shiftRight_le _ _) hp

theorem val_shlBits {s p : Nat} (hs : s ≤ 64) (hp : p < B) {m : List Nat} (hm : Wf m) :
    val (shlBits s p m) = (val m * 2 ^ s + p >>> (64 - s)) % B ^ m.length := by
  induction m generalizing p with
  | nil => simp [shlBits, Nat.mod_one]
  | cons x xs ih =>
    obtain ⟨hx, hxs⟩ := wf_cons.1 hm
    simp only [shlBits, val_cons, List.length_cons, ih hx hxs]
    have hc := shr_lt hp hs
    rw [or_eq_add (shl_mod_mod x s hs) hc]
    have hlt : (x <<< s) % B + p >>> (64 - s) < B := by
      rw [← or_eq_add (shl_mod_mod x s hs) hc]
      exact or_lt_B (shl_mod_lt _ _) (lt_of_le_of_lt (Nat.shiftRight_le _ _) hp)
    have e : (x + B * val xs) * 2 ^ s + p >>> (64 - s) =
        ((x <<< s) % B + p >>> (64 - s)) + B * (val xs * 2 ^ s + x >>> (64 - s)) := by
      have := mul_two_pow_split x s hs
      calc (x + B * val xs) * 2 ^ s + p >>> (64 - s)
          = x * 2 ^ s + B * (val xs * 2 ^ s) + p >>> (64 - s) := by ring
        _ = _ := by rw [this]; ring
    rw [e, pow_succ, mul_comm (B ^ xs.length) B, Nat.mod_mul, Nat.add_mul_mod_self_left,
      Nat.mod_eq_of_lt hlt, Nat.add_mul_div_left _ _ B_pos, Nat.div_eq_of_lt hlt, zero_add]

@[simp] theorem shiftLeft_length (m : List Nat) (n : Nat) : (shiftLeft m n).length = m.length := by
  unfold shiftLeft
  dsimp only
  split
  · simp
  · split
    · simp; omega
    · split
      · simp; omega
      · rfl

theorem shiftLeft_wf {m : List Nat} (hm : Wf m) (n : Nat) : Wf (shiftLeft m n) := by
  unfold shiftLeft
  dsimp only
  split
  · exact wf_zeros _
  · split
    · exact wf_append.2 ⟨wf_zeros _, shlBits_wf B_pos (hm.take _)⟩
    · split
      · exact wf_append.2 ⟨wf_zeros _, hm.take _⟩
      · exact hm

theorem val_shiftLeft {m : List Nat} (hm : Wf m) (n : Nat) :
    val (shiftLeft m n) = val m * 2 ^ n % B ^ m.length := by
  have hn : 2 ^ n = B ^ (n / 64) * 2 ^ (n % 64) := by
    rw [B_pow, ← pow_add]; congr 1; omega
  unfold shiftLeft
  dsimp only
  split
  · rename_i h
    rw [val_replicate_zero, hn]
    have : B ^ (n / 64) = B ^ m.length * B ^ (n / 64 - m.length) := by
      rw [← pow_add]; congr 1; omega
    rw [this]
    symm
    apply Nat.mod_eq_zero_of_dvd
    exact ⟨val m * B ^ (n / 64 - m.length) * 2 ^ (n % 64), by ring⟩
  · rename_i h
    have hlen : m.length = n / 64 + (m.length - n / 64) := by omega
    have key : B ^ (n / 64) * (val m % B ^ (m.length - n / 64) * 2 ^ (n % 64) %
        B ^ (m.length - n / 64)) = val m * 2 ^ n % B ^ m.length := by
      conv_rhs => rw [hlen, pow_add]
      rw [hn, show val m * (B ^ (n / 64) * 2 ^ (n % 64)) = B ^ (n / 64) * (val m * 2 ^ (n % 64)) by ring,
        Nat.mul_mod_mul_left, Nat.mod_mul_mod]
    split
    · rw [val_zeros_append, val_shlBits (by omega) B_pos (hm.take _), val_take hm]
      simp only [Nat.zero_shiftRight, add_zero, List.length_take]
      rw [min_eq_left (by omega), key]
    · rename_i h2
      have h0 : n % 64 = 0 := by omega
      rw [h0] at key
      simp only [pow_zero, mul_one, Nat.mod_mod] at key
      split
      · rw [val_zeros_append, val_take hm, key]
      · rename_i h3
        have : n = 0 := by omega
        subst this
        simp [Nat.mod_eq_of_lt (val_lt hm)]

/-! ## Right shift -/

@[simp] theorem shrBits_length (s : Nat) (m : List Nat) : (shrBits s m).length = m.length := by
  induction m with
  | nil => rfl
  | cons x xs ih => cases xs with
    | nil => rfl
    | cons y ys => simp only [shrBits, List.length_cons, ih]

theorem shrBits_wf {s : Nat} {m : List Nat} (hm : Wf m) : Wf (shrBits s m) := by
  induction m with
  | nil => exact Wf.nil
  | cons x xs ih =>
    obtain ⟨hx, hxs⟩ := wf_cons.1 hm
    cases xs with
    | nil => exact Wf.cons (lt_of_le_of_lt (Nat.shiftRight_le _ _) hx) Wf.nil
    | cons y ys =>
      exact Wf.cons (or_lt_B (lt_of_le_of_lt (Nat.shiftRight_le _ _) hx) (shl_mod_lt _ _)) (ih hxs)

theorem val_shrBits {s : Nat} (hs : s ≤ 64) {m : List Nat} (hm : Wf m) :
    val (shrBits s m) = val m / 2 ^ s := by
  induction m with
  | nil => simp [shrBits]
  | cons x xs ih =>
    obtain ⟨hx, hxs⟩ := wf_cons.1 hm
    cases xs with
    | nil => simp [shrBits, Nat.shiftRight_eq_div_pow]
    | cons y ys =>
      rw [shrBits, val_cons, ih hxs]
      have hlt : x >>> s < 2 ^ (64 - s) := by
        have := shr_lt (s := 64 - s) hx (by omega)
        rwa [show 64 - (64 - s) = s by omega] at this
      rw [Nat.or_comm, or_eq_add (shl_mod_mod y (64 - s) (by omega)) hlt, Nat.shiftRight_eq_div_pow,
        shl_mod y (64 - s) (by omega), show 64 - (64 - s) = s by omega, val_cons x]
      set V := val (y :: ys) with hV
      have hB : B = 2 ^ s * 2 ^ (64 - s) := by rw [← pow_add, B_eq]; congr 1; omega
      have hy : y % 2 ^ s = V % 2 ^ s := by
        rw [hV, val_cons, hB, mul_assoc, Nat.add_mul_mod_self_left]
      rw [hy]
      have : x + B * V = x + 2 ^ s * (2 ^ (64 - s) * V) := by rw [hB]; ring
      rw [this, Nat.add_mul_div_left _ _ (by positivity), hB]
      have h2 := Nat.mod_add_div V (2 ^ s)
      calc V % 2 ^ s * 2 ^ (64 - s) + x / 2 ^ s + 2 ^ s * 2 ^ (64 - s) * (V / 2 ^ s)
          = x / 2 ^ s + 2 ^ (64 - s) * (V % 2 ^ s + 2 ^ s * (V / 2 ^ s)) := by ring
        _ = _ := by rw [h2]

@[simp] theorem shiftRight_length (m : List Nat) (n : Nat) : (shiftRight m n).length = m.length := by
  unfold shiftRight
  dsimp only
  split
  · simp
  · split
    · simp; omega
    · split
      · simp; omega
      · rfl

theorem shiftRight_wf {m : List Nat} (hm : Wf m) (n : Nat) : Wf (shiftRight m n) := by
  unfold shiftRight
  dsimp only
  split
  · exact wf_zeros _
  · split
    · exact wf_append.2 ⟨shrBits_wf (hm.drop _), wf_zeros _⟩
    · split
      · exact wf_append.2 ⟨hm.drop _, wf_zeros _⟩
      · exact hm

theorem val_shiftRight {m : List Nat} (hm : Wf m) (n : Nat) :
    val (shiftRight m n) = val m / 2 ^ n := by
  have hn : 2 ^ n = B ^ (n / 64) * 2 ^ (n % 64) := by
    rw [B_pow, ← pow_add]; congr 1; omega
  unfold shiftRight
  dsimp only
  split
  · rename_i h
    rw [val_replicate_zero]
    symm; apply Nat.div_eq_of_lt
    calc val m < B ^ m.length := val_lt hm
      _ ≤ B ^ (n / 64) := Nat.pow_le_pow_right B_pos h
      _ ≤ 2 ^ n := by rw [hn]; exact Nat.le_mul_of_pos_right _ (by positivity)
  · split
    · rw [val_append_zeros, val_shrBits (by omega) (hm.drop _), val_drop hm, hn, Nat.div_div_eq_div_mul]
    · have h0 : n % 64 = 0 := by omega
      rw [h0, pow_zero, mul_one] at hn
      split
      · rw [val_append_zeros, val_drop hm, hn]
      · rename_i h3
        have : n = 0 := by omega
        subst this; simp

/-! ## Leading zeros -/

theorem and_msb {d : Nat} (hd : d < B) : MSB &&& d = 0 ↔ d < 2 ^ 63 := by
  rw [Nat.and_comm, MSB_eq, Nat.and_two_pow]
  rw [B_eq] at hd
  constructor
  · intro h
    by_contra hc
    have : d.testBit 63 = true := Nat.testBit_of_two_pow_le_and_two_pow_add_one_gt (by omega) hd
    simp [this] at h
  · intro h
    rw [Nat.testBit_lt_two_pow h]; simp

theorem lzLoop_spec (f : Nat) (d : Nat) (hd0 : 0 < d) (hd : d < B) (hf : 2 ^ 63 ≤ d * 2 ^ f) :
    2 ^ 63 ≤ d * 2 ^ lzLoop f d ∧ d * 2 ^ lzLoop f d < 2 ^ 64 := by
  induction f generalizing d with
  | zero =>
    rw [B_eq] at hd
    simp only [lzLoop, pow_zero, mul_one] at *
    exact ⟨hf, hd⟩
  | succ f ih =>
    unfold lzLoop
    split
    · rename_i h
      rw [and_msb hd] at h
      have e : (d <<< 1) % B = d * 2 := by
        rw [Nat.shiftLeft_eq, pow_one, Nat.mod_eq_of_lt]
        rw [B_eq]; omega
      have e2 : ∀ k, d * 2 ^ (k + 1) = d * 2 * 2 ^ k := fun k => by rw [pow_succ]; ring
      rw [e, e2]
      exact ih (d * 2) (by omega) (by rw [B_eq]; omega) (by rw [← e2]; exact hf)
    · rename_i h
      rw [and_msb hd] at h
      rw [B_eq] at hd
      simp only [pow_zero, mul_one]
      exact ⟨by omega, hd⟩

theorem lz_spec {d : Nat} (hd0 : 0 < d) (hd : d < B) :
    2 ^ 63 ≤ d * 2 ^ lz d ∧ d * 2 ^ lz d < 2 ^ 64 :=
  lzLoop_spec 64 d hd0 hd (by
    calc 2 ^ 63 ≤ 1 * 2 ^ 64 := by norm_num
      _ ≤ d * 2 ^ 64 := Nat.mul_le_mul_right _ hd0)

theorem lz_le {d : Nat} (hd0 : 0 < d) (hd : d < B) : lz d ≤ 63 := by
  have h := (lz_spec hd0 hd).2
  by_contra hc
  have : 2 ^ 64 ≤ d * 2 ^ lz d := by
    calc 2 ^ 64 ≤ 2 ^ lz d := Nat.pow_le_pow_right (by norm_num) (by omega)
      _ ≤ d * 2 ^ lz d := Nat.le_mul_of_pos_left _ hd0
  omega

theorem size_word {d : Nat} (hd0 : 0 < d) (hd : d < B) : Nat.size d = 64 - lz d := by
  have h := lz_spec hd0 hd
  have h2 := lz_le hd0 hd
  apply le_antisymm
  · rw [Nat.size_le]
    have : 2 ^ 64 = 2 ^ (64 - lz d) * 2 ^ lz d := by rw [← pow_add]; congr 1; omega
    rw [this] at h
    exact lt_of_mul_lt_mul_right h.2 (by positivity)
  · have : 63 - lz d < Nat.size d := by
      rw [Nat.lt_size]
      have : 2 ^ 63 = 2 ^ (63 - lz d) * 2 ^ lz d := by rw [← pow_add]; congr 1; omega
      rw [this] at h
      exact le_of_mul_le_mul_right h.1 (by positivity)
    omega

/-! ## Scanning from the top -/

theorem topScan_zero {m : List Nat} : (topScan m).1 = 0 ↔ ∀ x ∈ m, x = 0 := by
  induction m with
  | nil => simp [topScan]
  | cons x xs ih =>
    unfold topScan
    split
    · rename_i h; simp [h]
    · rename_i h; simp only [not_not] at h; simp [h, ih]

/-- The scan splits the list (most significant first) at its first non-zero word. -/
theorem topScan_split (m : List Nat) (h : (topScan m).1 ≠ 0) :
    ∃ k rest, m = List.replicate k 0 ++ (topScan m).1 :: rest ∧ (topScan m).2 = 64 * k := by
  induction m with
  | nil => simp [topScan] at h
  | cons x xs ih =>
    unfold topScan at h ⊢
    split
    · rename_i hx
      exact ⟨0, xs, by simp, by simp⟩
    · rename_i hx
      simp only [not_not] at hx
      rw [if_neg (by simp [hx])] at h
      obtain ⟨k, rest, h1, h2⟩ := ih h
      refine ⟨k + 1, rest, ?_, ?_⟩
      · conv_lhs => rw [h1, hx]
        simp [List.replicate_succ]
      · simp only [h2]; ring

theorem topScan_all_zero (m : List Nat) (h : (topScan m).1 = 0) : (topScan m).2 = 64 * m.length := by
  induction m with
  | nil => simp [topScan]
  | cons x xs ih =>
    unfold topScan at h ⊢
    split
    · rename_i hx; rw [if_pos hx] at h; exact absurd h hx
    · rename_i hx
      rw [if_neg hx] at h
      simp only [ih h, List.length_cons]; ring

theorem val_reverse_zero_iff {m : List Nat} : (topScan m.reverse).1 = 0 ↔ val m = 0 := by
  rw [topScan_zero, val_eq_zero_iff]; simp

/-- Position of the top bit: `topScan` plus `lz` gives the number of leading zero bits. -/
theorem topScan_spec {m : List Nat} (hm : Wf m) (h : val m ≠ 0) :
    (topScan m.reverse).1 ≠ 0 ∧
    (topScan m.reverse).2 + lz (topScan m.reverse).1 = 64 * m.length - Nat.size (val m) ∧
    Nat.size (val m) ≤ 64 * m.length ∧ 0 < Nat.size (val m) := by
  have hd : (topScan m.reverse).1 ≠ 0 := fun hc => h (val_reverse_zero_iff.1 hc)
  refine ⟨hd, ?_⟩
  have hsz : Nat.size (val m) ≤ 64 * m.length := Nat.size_le.2 (val_lt_two_pow hm)
  have hsz0 : 0 < Nat.size (val m) := Nat.size_pos.2 (Nat.pos_of_ne_zero h)
  refine ⟨?_, hsz, hsz0⟩
  obtain ⟨k, rest, h1, h2⟩ := topScan_split m.reverse hd
  set d := (topScan m.reverse).1 with hdd
  have hm2 : m = rest.reverse ++ d :: List.replicate k 0 := by
    have := congrArg List.reverse h1
    simpa using this
  have hdB : d < B := hm d (by rw [hm2]; simp)
  have hwf : Wf rest.reverse := by rw [hm2] at hm; exact (wf_append.1 hm).1
  have hv : val m = val rest.reverse + B ^ rest.length * d := by
    conv_lhs => rw [hm2]
    simp [val_append]
  have hlen : m.length = rest.length + 1 + k := by
    conv_lhs => rw [hm2]
    simp; omega
  have hlt := val_lt hwf
  rw [List.length_reverse] at hlt
  have hd0 : 0 < d := Nat.pos_of_ne_zero hd
  have hlz := lz_spec hd0 hdB
  have hlzle := lz_le hd0 hdB
  have hsize : Nat.size (val m) = 64 * rest.length + (64 - lz d) := by
    apply le_antisymm
    · rw [Nat.size_le, hv, pow_add, ← B_pow]
      have hd1 : d < 2 ^ (64 - lz d) := by
        have e : 2 ^ 64 = 2 ^ (64 - lz d) * 2 ^ lz d := by rw [← pow_add]; congr 1; omega
        rw [e] at hlz
        exact lt_of_mul_lt_mul_right hlz.2 (by positivity)
      calc val rest.reverse + B ^ rest.length * d < B ^ rest.length + B ^ rest.length * d := by omega
        _ = B ^ rest.length * (d + 1) := by ring
        _ ≤ B ^ rest.length * 2 ^ (64 - lz d) := Nat.mul_le_mul_left _ hd1
    · have : 64 * rest.length + (63 - lz d) < Nat.size (val m) := by
        rw [Nat.lt_size, hv, pow_add, ← B_pow]
        have hd1 : 2 ^ (63 - lz d) ≤ d := by
          have e : 2 ^ 63 = 2 ^ (63 - lz d) * 2 ^ lz d := by rw [← pow_add]; congr 1; omega
          rw [e] at hlz
          exact le_of_mul_le_mul_right hlz.1 (by positivity)
        calc B ^ rest.length * 2 ^ (63 - lz d) ≤ B ^ rest.length * d := Nat.mul_le_mul_left _ hd1
          _ ≤ _ := by omega
      omega
  rw [h2, hsize, hlen]; omega

theorem findBitLen_eq {m : List Nat} (hm : Wf m) : findBitLen m = Nat.size (val m) := by
  unfold findBitLen
  dsimp only
  by_cases h : val m = 0
  · have h1 := val_reverse_zero_iff.2 h
    rw [if_neg (by simp [h1]), topScan_all_zero _ h1, h]
    simp; omega
  · obtain ⟨h1, h2, h3, h4⟩ := topScan_spec hm h
    rw [if_pos h1, h2]; omega

/-- What `maximize` does to a non-zero value: shift left so that the top bit is set. -/
theorem maximize_spec {m : List Nat} (hm : Wf m) (h : val m ≠ 0) :
    val (maximize m).1 = val m * 2 ^ (maximize m).2 ∧
    (maximize m).2 = 64 * m.length - Nat.size (val m) ∧
    2 ^ (64 * m.length - 1) ≤ val (maximize m).1 ∧
    (maximize m).1.length = m.length ∧ Wf (maximize m).1 := by
  obtain ⟨h1, h2, h3, h4⟩ := topScan_spec hm h
  have e : maximize m = (shiftLeft m (64 * m.length - Nat.size (val m)),
      64 * m.length - Nat.size (val m)) := by
    unfold maximize; dsimp only; rw [if_pos h1, h2]
  rw [e]
  dsimp only
  have hlt : val m * 2 ^ (64 * m.length - Nat.size (val m)) < B ^ m.length := by
    have h5 : val m < 2 ^ Nat.size (val m) := Nat.lt_size_self _
    calc val m * 2 ^ (64 * m.length - Nat.size (val m))
        < 2 ^ Nat.size (val m) * 2 ^ (64 * m.length - Nat.size (val m)) :=
          Nat.mul_lt_mul_of_pos_right h5 (by positivity)
      _ = B ^ m.length := by rw [← pow_add, B_pow]; congr 1; omega
  refine ⟨?_, rfl, ?_, by simp, shiftLeft_wf hm _⟩
  · rw [val_shiftLeft hm, Nat.mod_eq_of_lt hlt]
  · rw [val_shiftLeft hm, Nat.mod_eq_of_lt hlt]
    have h5 : 2 ^ (Nat.size (val m) - 1) ≤ val m := by rw [← Nat.lt_size]; omega
    calc 2 ^ (64 * m.length - 1)
        = 2 ^ (Nat.size (val m) - 1) * 2 ^ (64 * m.length - Nat.size (val m)) := by
          rw [← pow_add]; congr 1; omega
      _ ≤ _ := Nat.mul_le_mul_right _ h5

theorem maximize_zero {m : List Nat} (h : val m = 0) : maximize m = (m, 0) := by
  have h1 := val_reverse_zero_iff.2 h
  unfold maximize; dsimp only; rw [if_neg (by simp [h1])]

@[simp] theorem maximize_length (m : List Nat) : (maximize m).1.length = m.length := by
  unfold maximize; dsimp only; split <;> simp

theorem maximize_wf {m : List Nat} (hm : Wf m) : Wf (maximize m).1 := by
  unfold maximize; dsimp only; split
  · exact shiftLeft_wf hm _
  · exact hm

end AF
