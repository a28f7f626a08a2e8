import Verif.Lemmas.TenPow
import Verif.Lemmas.Radix
import Verif.Lemmas.Div
/-!
# Decimal digits to integers and back
-/

namespace AF

/-- The value of digits written from the least significant one. -/
def lev : List Nat → Nat
  | [] => 0
  | v :: vs => v + 10 * lev vs

theorem lev_append (a b : List Nat) : lev (a ++ b) = lev a + 10 ^ a.length * lev b := by
  induction a with
  | nil => simp [lev]
  | cons v a ih => simp only [List.cons_append, lev, ih, List.length_cons, pow_succ]; ring

theorem lev_reverse (ds : List Nat) : lev ds.reverse = digNat 10 ds := by
  induction ds with
  | nil => rfl
  | cons d ds ih =>
    rw [List.reverse_cons, lev_append, ih, digNat_cons, List.length_reverse]
    simp only [lev]; ring

/-- The value of chunks in base `M`, least significant first. -/
def cval (M : Nat) : List (List Nat) → Nat
  | [] => 0
  | c :: cs => val c + M * cval M cs

/-- The chunks are words with values below `M`. -/
def ChunksOk (M : Nat) (cs : List (List Nat)) : Prop := ∀ c ∈ cs, Wf c ∧ val c < M

theorem decChunks_spec : ∀ (vs : List Nat) (word i : Nat), (∀ v ∈ vs, v ≤ 9) → i < 16 → word < 10 ^ i →
    ∃ cs, decChunks vs word i (10 ^ i) = .ok cs ∧ ChunksOk (10 ^ 2 ^ 4) cs ∧
      cval (10 ^ 2 ^ 4) cs = word + 10 ^ i * lev vs ∧ cs.length = (vs.length + i + 15) / 16 := by
  intro vs
  induction vs with
  | nil =>
    intro word i _ hi hw
    unfold decChunks
    refine ⟨_, rfl, ?_, ?_, ?_⟩
    · split
      · intro c hc
        simp only [List.mem_singleton] at hc
        subst hc
        have h1 : 10 ^ i ≤ 10 ^ 15 := Nat.pow_le_pow_right (by norm_num) (by omega)
        refine ⟨?_, ?_⟩
        · intro w hw'
          simp only [List.mem_singleton] at hw'
          subst hw'
          unfold B; norm_num at h1; omega
        · simp only [val_cons, val_nil]; norm_num at h1 ⊢; omega
      · intro c hc; simp at hc
    · split
      · simp [cval, lev]
      · rename_i h0
        have : i = 0 := by omega
        subst this
        have : word = 0 := by simpa using hw
        simp [cval, lev, this]
    · split
      · simp; omega
      · simp; omega
  | cons v vs ih =>
    intro word i hd hi hw
    have hv : v ≤ 9 := hd v (by simp)
    have hvs : ∀ v ∈ vs, v ≤ 9 := fun v hv => hd v (by simp [hv])
    have hw' : word + v * 10 ^ i < 10 ^ (i + 1) := by
      rw [pow_succ]
      have : v * 10 ^ i ≤ 9 * 10 ^ i := Nat.mul_le_mul_right _ hv
      omega
    unfold decChunks
    rw [if_neg (by omega)]
    simp only
    by_cases h16 : i + 1 = 16
    · rw [if_pos h16]
      obtain ⟨cs, h1, h2, h3, h4⟩ := ih 0 0 hvs (by norm_num) (by norm_num)
      rw [show (10 : ℕ) ^ 0 = 1 from rfl] at h1
      rw [h1]
      refine ⟨_, rfl, ?_, ?_, ?_⟩
      · intro c hc
        rcases List.mem_cons.1 hc with rfl | hc
        · rw [h16] at hw'
          refine ⟨?_, ?_⟩
          · intro w hw2
            simp only [List.mem_singleton] at hw2
            subst hw2
            unfold B; norm_num at hw'; omega
          · simp only [val_cons, val_nil]; norm_num at hw' ⊢; omega
        · exact h2 c hc
      · have hi' : i = 15 := by omega
        subst hi'
        simp only [cval, h3, val_cons, val_nil, lev]
        norm_num
        ring
      · simp only [List.length_cons, h4]; omega
    · rw [if_neg h16]
      obtain ⟨cs, h1, h2, h3, h4⟩ := ih (word + v * 10 ^ i) (i + 1) hvs (by omega) hw'
      rw [show (10 : ℕ) ^ i * 10 = 10 ^ (i + 1) from (pow_succ _ _).symm]
      refine ⟨cs, h1, h2, ?_, ?_⟩
      · rw [h3]; simp only [lev, pow_succ]; ring
      · rw [h4, List.length_cons]; congr 1; omega

theorem decChunks_bad : ∀ (vs : List Nat) (word i t : Nat), (∃ v ∈ vs, 9 < v) →
    decChunks vs word i t = .error .invalidArgument := by
  intro vs
  induction vs with
  | nil => intro _ _ _ h; simp at h
  | cons v vs ih =>
    intro word i t h
    unfold decChunks
    by_cases hv : v > 9
    · rw [if_pos hv]
    · rw [if_neg hv]
      have h' : ∃ v ∈ vs, 9 < v := by
        obtain ⟨u, hu, h9⟩ := h
        rcases List.mem_cons.1 hu with rfl | hu
        · exact absurd h9 hv
        · exact ⟨u, hu, h9⟩
      simp only
      split
      · rw [ih _ _ _ h']
      · exact ih _ _ _ h'

theorem decPairs_spec {M : Nat} {t : List Nat} (ht : Wf t) (htv : val t = M) : ∀ (n : Nat) (cs : List (List Nat)),
    cs.length ≤ n → ChunksOk M cs → ChunksOk (M * M) (decPairs t cs) ∧
      cval (M * M) (decPairs t cs) = cval M cs ∧ (decPairs t cs).length = (cs.length + 1) / 2 := by
  intro n
  induction n with
  | zero =>
    intro cs hl _
    have : cs = [] := List.length_eq_zero_iff.1 (by omega)
    subst this
    exact ⟨by intro c hc; simp [decPairs] at hc, rfl, rfl⟩
  | succ n ih =>
    intro cs hl hok
    match cs, hl, hok with
    | [], _, _ => exact ⟨by intro c hc; simp [decPairs] at hc, rfl, rfl⟩
    | [a], _, hok =>
      obtain ⟨h1, h2⟩ := hok a (by simp)
      have hM : M ≤ M * M := Nat.le_mul_of_pos_left _ (by omega)
      refine ⟨?_, ?_, by simp [decPairs]⟩
      · intro c hc
        simp only [decPairs, List.mem_singleton] at hc
        subst hc
        exact ⟨h1, by omega⟩
      · simp [decPairs, cval]
    | a :: b :: cs, hl, hok =>
      obtain ⟨a1, a2⟩ := hok a (by simp)
      obtain ⟨b1, b2⟩ := hok b (by simp)
      obtain ⟨m1, m2, m3⟩ := mulWords_spec b1 ht (len := b.length + t.length) (by omega)
      obtain ⟨r1, r2, r3⟩ := ih cs (by simp only [List.length_cons] at hl; omega) (fun c hc => hok c (by simp [hc]))
      have hlt := val_lt m2
      rw [m1] at hlt
      have htl : M < B ^ t.length := by rw [← htv]; exact val_lt ht
      have hw0 : Wf (mulWords b t (b.length + t.length) ++ [0]) :=
        wf_append.2 ⟨m2, by intro w hw; simp at hw; subst hw; exact B_pos⟩
      have hv0 : val (mulWords b t (b.length + t.length) ++ [0]) = val b * M := by
        rw [val_append, m3, htv]; simp
      have hle : val b * M + val a < B ^ (mulWords b t (b.length + t.length) ++ [0]).length := by
        rw [List.length_append, m1, List.length_singleton, pow_succ, ← htv, ← m3]
        have h3 : val a < B ^ (b.length + t.length) := by
          have : B ^ t.length ≤ B ^ (b.length + t.length) := Nat.pow_le_pow_right B_pos (by omega)
          omega
        have h4 : 2 * B ^ (b.length + t.length) ≤ B ^ (b.length + t.length) * B := by
          rw [Nat.mul_comm]; exact Nat.mul_le_mul_left _ (by decide)
        omega
      obtain ⟨s1, s2, s3, _⟩ := addAssign_pos hw0 a1 (by rw [hv0]; exact hle)
      have hnew : val b * M + val a < M * M := by
        have : (val b + 1) * M ≤ M * M := Nat.mul_le_mul_right _ b2
        rw [Nat.add_mul, Nat.one_mul] at this
        omega
      unfold decPairs
      refine ⟨?_, ?_, ?_⟩
      · intro c hc
        rcases List.mem_cons.1 hc with rfl | hc
        · refine ⟨truncLZ_wf s2, ?_⟩
          rw [val_truncLeadingZeroes, s3, hv0]; exact hnew
        · exact r1 c hc
      · simp only [cval]
        rw [val_truncLeadingZeroes, s3, hv0, r2]
        ring
      · simp only [List.length_cons, r3]; omega

theorem decCombine_spec {tp : List TenPow} (htp : TpOk tp) : ∀ (f p : Nat) (cs : List (List Nat)),
    cs ≠ [] → cs.length ≤ f → cs.length ≤ 2 ^ (tp.length - p) → ChunksOk (10 ^ 2 ^ p) cs →
    ∃ m, decCombine tp f p cs = .ok m ∧ Wf m ∧ val m = cval (10 ^ 2 ^ p) cs := by
  intro f
  induction f with
  | zero => intro p cs hne hl _ _; exact absurd (List.length_eq_zero_iff.1 (by omega)) hne
  | succ f ih =>
    intro p cs hne hf hl hok
    match cs, hne, hf, hl, hok with
    | [c], _, _, _, hok =>
      exact ⟨c, by unfold decCombine; rfl, (hok c (by simp)).1, by simp [cval]⟩
    | a :: b :: cs, _, hf, hl, hok =>
      have hp : p < tp.length := by
        by_contra hc
        rw [show tp.length - p = 0 by omega] at hl
        simp at hl
      obtain ⟨t, ht, hT⟩ := htp.get hp
      obtain ⟨r1, r2, r3⟩ := decPairs_spec hT.top.1 hT.val _ (a :: b :: cs) le_rfl hok
      have hM : (10 : ℕ) ^ 2 ^ p * 10 ^ 2 ^ p = 10 ^ 2 ^ (p + 1) := by
        rw [← pow_add]; congr 1; rw [pow_succ]; ring
      rw [hM] at r1 r2
      unfold decCombine
      rw [ht]
      simp only
      obtain ⟨m, g1, g2, g3⟩ := ih (p + 1) (decPairs t.2.1 (a :: b :: cs)) (by
          intro h0; rw [h0] at r3; simp at r3; omega) (by rw [r3]; simp only [List.length_cons] at hf ⊢; omega) (by
          rw [r3]
          have : 2 ^ (tp.length - p) = 2 ^ (tp.length - (p + 1)) * 2 := by
            rw [← pow_succ]; congr 1; omega
          omega) r1
      exact ⟨m, g1, g2, by rw [g3, r2]⟩

/-- Decimal digits are converted to the integer they denote. -/
theorem mantFromDec_spec {tp : List TenPow} (htp : TpOk tp) {ds : List Nat} (hne : ds ≠ []) (hd : ∀ d ∈ ds, d ≤ 9)
    (hl : ds.length ≤ 2 ^ tp.length) :
    ∃ m, mantFromDec ds tp = .ok m ∧ Wf m.m ∧ val m.m = digNat 10 ds ∧ m.n = Nat.size (digNat 10 ds) := by
  have hpos : 0 < ds.length := List.length_pos_iff.2 hne
  obtain ⟨cs, h1, h2, h3, h4⟩ := decChunks_spec ds.reverse 0 0 (by simpa using hd) (by norm_num) (by norm_num)
  rw [show (10 : ℕ) ^ 0 = 1 from rfl] at h1
  rw [List.length_reverse] at h4
  obtain ⟨m, g1, g2, g3⟩ := decCombine_spec htp (cs.length + 1) 4 cs (by
      intro h0; rw [h0] at h4; simp at h4; omega) (by omega) (by
      rw [h4]
      by_cases h : 4 ≤ tp.length
      · have : 2 ^ tp.length = 2 ^ (tp.length - 4) * 16 := by
          rw [show (16 : ℕ) = 2 ^ 4 from rfl, ← pow_add]; congr 1; omega
        omega
      · have : 2 ^ tp.length ≤ 2 ^ 4 := Nat.pow_le_pow_right (by norm_num) (by omega)
        have h5 : 0 < 2 ^ (tp.length - 4) := Nat.two_pow_pos _
        omega) h2
  have hv : val m = digNat 10 ds := by
    rw [g3, h3, lev_reverse]; simp
  unfold mantFromDec
  rw [h1]
  simp only [g1]
  exact ⟨_, rfl, g2, hv, by simp only; rw [findBitLen_eq g2, hv]⟩

theorem mantFromDec_bad {tp : List TenPow} {ds : List Nat} (h : ∃ d ∈ ds, 9 < d) :
    mantFromDec ds tp = .error .invalidArgument := by
  unfold mantFromDec
  rw [decChunks_bad _ _ _ _ (by simpa using h)]

/-! ### Integers to digits -/

theorem wordDec_spec : ∀ (f v : Nat), v < 10 ^ f → lev (wordDec f v) = v ∧ (∀ d ∈ wordDec f v, d ≤ 9) ∧
    (wordDec f v).length ≤ f ∧ (v ≠ 0 → ∀ h : wordDec f v ≠ [], (wordDec f v).getLast h ≠ 0) ∧
    (v ≠ 0 → wordDec f v ≠ []) := by
  intro f
  induction f with
  | zero => intro v hv; simp at hv; subst hv; simp [wordDec, lev]
  | succ f ih =>
    intro v hv
    by_cases h0 : v = 0
    · subst h0; simp [wordDec, lev]
    · have heq : wordDec (f + 1) v = v % 10 :: wordDec f (v / 10) := by rw [wordDec, if_pos h0]
      generalize wordDec (f + 1) v = w at heq ⊢
      subst heq
      obtain ⟨h1, h2, h3, h4, h5⟩ := ih (v / 10) (by rw [pow_succ] at hv; omega)
      refine ⟨?_, ?_, ?_, ?_, by simp⟩
      · simp only [lev, h1]; omega
      · intro d hd
        rcases List.mem_cons.1 hd with rfl | hd
        · omega
        · exact h2 d hd
      · simpa using h3
      · intro _ hne
        by_cases h10 : v / 10 = 0
        · have : wordDec f (v / 10) = [] := by rw [h10]; cases f <;> simp [wordDec]
          simp only [this, List.getLast_singleton]
          omega
        · rw [List.getLast_cons (h5 h10)]
          exact h4 h10 _

theorem wordDecN_spec : ∀ (l v : Nat), lev (wordDecN l v) = v % 10 ^ l ∧ (∀ d ∈ wordDecN l v, d ≤ 9) ∧
    (wordDecN l v).length = l := by
  intro l
  induction l with
  | zero => intro v; simp [wordDecN, lev, Nat.mod_one]
  | succ l ih =>
    intro v
    obtain ⟨h1, h2, h3⟩ := ih (v / 10)
    unfold wordDecN
    refine ⟨?_, ?_, by simp [h3]⟩
    · simp only [lev, h1]
      rw [pow_succ, Nat.mul_comm (10 ^ l) 10, Nat.mod_mul]
    · intro d hd
      rcases List.mem_cons.1 hd with rfl | hd
      · omega
      · exact h2 d hd

/-- A mantissa whose bit length is the one of its value. -/
def SizedM (x : Mantissa) : Prop := Wf x.m ∧ x.n = Nat.size (val x.m)

theorem SizedM.isZero {x : Mantissa} (h : SizedM x) : x.isZero = true ↔ val x.m = 0 := by
  unfold Mantissa.isZero
  rw [h.2]; simp [Nat.size_eq_zero]

theorem shiftLeftResize_val {x : Mantissa} (h : SizedM x) (k : Nat) :
    Wf (x.shiftLeftResize k).m ∧ val (x.shiftLeftResize k).m = val x.m * 2 ^ k := by
  have hlt : val x.m < 2 ^ x.n := by rw [h.2]; exact Nat.lt_size_self _
  have hlt2 : val x.m * 2 ^ k < 2 ^ (x.n + k) := by
    rw [pow_add]; exact Nat.mul_lt_mul_of_pos_right hlt (Nat.two_pow_pos k)
  unfold Mantissa.shiftLeftResize
  simp only
  split
  · rename_i hc
    refine ⟨truncLZ_wf (shiftLeft_wf h.1 k), ?_⟩
    rw [val_truncLeadingZeroes, val_shiftLeft h.1, Nat.mod_eq_of_lt]
    rw [B_pow]
    refine lt_of_lt_of_le hlt2 (Nat.pow_le_pow_right (by norm_num) ?_)
    unfold Mantissa.maxBitLen at hc; omega
  · rename_i hc
    unfold tryExtend3
    have hw : Wf (x.m ++ List.replicate ((x.n + k + 63) / 64 - x.m.length) 0) := wf_append.2 ⟨h.1, wf_zeros _⟩
    refine ⟨shiftLeft_wf hw k, ?_⟩
    rw [val_shiftLeft hw, val_append_zeros, Nat.mod_eq_of_lt]
    rw [B_pow]
    refine lt_of_lt_of_le hlt2 (Nat.pow_le_pow_right (by norm_num) ?_)
    unfold Mantissa.maxBitLen at hc
    rw [List.length_append, List.length_replicate]; omega

theorem maximize_topSet {m : List Nat} (h : TopNz m) : TopSet (maximize m).1 := by
  obtain ⟨_, _, h3, h4, h5⟩ := maximize_spec h.1 h.pos.ne'
  refine ⟨h5, by rw [h4]; exact h.2.1, ?_⟩
  rw [h4, B_pow]
  have : 2 ^ (64 * m.length) = 2 * 2 ^ (64 * m.length - 1) := by
    rw [← pow_succ']; congr 1; have := h.2.1; omega
  omega

/-- The division step: quotient and remainder by the power of ten. -/
theorem decStep_spec {x : Mantissa} (h : SizedM x) {i : Nat} {t : TenPow} (ht : TenOk i t) :
    let qr := divWords (x.shiftLeftResize t.2.2).m t.1
    let r := shiftRight qr.2 t.2.2
    SizedM ⟨qr.1, findBitLen qr.1⟩ ∧ SizedM ⟨r, findBitLen r⟩ ∧ val qr.1 = val x.m / 10 ^ 2 ^ i ∧
      val r = val x.m % 10 ^ 2 ^ i := by
  intro qr r
  obtain ⟨w1, v1⟩ := shiftLeftResize_val h t.2.2
  obtain ⟨m1, _, _, _, _⟩ := maximize_spec ht.top.1 ht.top.pos.ne'
  have hm := ht.max
  have e1 : t.1 = (maximize t.2.1).1 := congrArg Prod.fst hm
  have e2 : t.2.2 = (maximize t.2.1).2 := by rw [← hm]
  have hT : TopSet t.1 := by rw [e1]; exact maximize_topSet ht.top
  have hv : val t.1 = 10 ^ 2 ^ i * 2 ^ t.2.2 := by rw [e1, m1, ← e2, ht.val]
  obtain ⟨⟨d1, d2, d3, d4⟩, _⟩ := divWords_spec w1 hT
  have hr : Wf r := shiftRight_wf d2 _
  refine ⟨⟨d1, findBitLen_eq d1⟩, ⟨hr, findBitLen_eq hr⟩, ?_⟩
  rw [v1, hv] at d3
  rw [hv] at d4
  have hrv : val r = val qr.2 / 2 ^ t.2.2 := val_shiftRight d2 _
  have h2 : 0 < 2 ^ t.2.2 := Nat.two_pow_pos _
  generalize (10 : ℕ) ^ 2 ^ i = T at *
  generalize 2 ^ t.2.2 = k at *
  have hdvd : k ∣ val qr.2 := by
    have h3 : k ∣ val qr.1 * (T * k) := Dvd.intro_left (val qr.1 * T) (by ring)
    have h4 : k ∣ val qr.1 * (T * k) + val qr.2 := by rw [← d3]; exact Dvd.intro_left _ rfl
    exact (Nat.dvd_add_right h3).1 h4
  obtain ⟨s, hs⟩ := hdvd
  rw [hs, Nat.mul_div_cancel_left _ h2] at hrv
  rw [hs, Nat.mul_comm T k] at d4
  have hsT : s < T := Nat.lt_of_mul_lt_mul_left d4
  have hx : val x.m = val qr.1 * T + s := by
    apply Nat.eq_of_mul_eq_mul_right h2
    rw [d3, hs]; ring
  rw [hrv, hx]
  refine ⟨?_, ?_⟩
  · rw [Nat.mul_comm, Nat.mul_add_div (by omega), Nat.div_eq_of_lt hsT]; rfl
  · rw [Nat.mul_comm, Nat.mul_add_mod, Nat.mod_eq_of_lt hsT]

/-- A block of `2^(i+1)` digits that is not among those the code mishandles: its value fits a word, or its upper
half is not zero. -/
def GoodBlock (i b : Nat) : Prop := b < 2 ^ 64 ∨ 10 ^ 2 ^ i ≤ b

/-- All aligned blocks of up to `2^(p+1)` digits are good. -/
def AllGood (p v : Nat) : Prop := ∀ i ≤ p, ∀ j, GoodBlock i (v / 10 ^ (2 ^ (i + 1) * j) % 10 ^ 2 ^ (i + 1))

/-- The same but for the most significant block. -/
def TopGood (p v : Nat) : Prop := ∀ i ≤ p, ∀ j, GoodBlock i (v / 10 ^ (2 ^ (i + 1) * j) % 10 ^ 2 ^ (i + 1)) ∨
  v < 10 ^ (2 ^ (i + 1) * (j + 1))

theorem pow_two_split {i p : Nat} (h : i < p) : ∃ c, 2 ^ p = 2 ^ (i + 1) * c :=
  ⟨2 ^ (p - (i + 1)), by rw [← pow_add]; congr 1; omega⟩

theorem block_high {v i p j : Nat} (h : i < p) : ∃ j', v / 10 ^ 2 ^ p / 10 ^ (2 ^ (i + 1) * j) =
    v / 10 ^ (2 ^ (i + 1) * j') ∧ 2 ^ (i + 1) * j' = 2 ^ p + 2 ^ (i + 1) * j := by
  obtain ⟨c, hc⟩ := pow_two_split h
  refine ⟨c + j, ?_, by rw [hc]; ring⟩
  rw [Nat.div_div_eq_div_mul, ← pow_add]
  congr 2
  rw [hc]; ring

theorem block_low {v i p j : Nat} (h : i < p) : (v % 10 ^ 2 ^ p / 10 ^ (2 ^ (i + 1) * j) % 10 ^ 2 ^ (i + 1) =
    v / 10 ^ (2 ^ (i + 1) * j) % 10 ^ 2 ^ (i + 1) ∧ 2 ^ (i + 1) * (j + 1) ≤ 2 ^ p) ∨
    v % 10 ^ 2 ^ p / 10 ^ (2 ^ (i + 1) * j) = 0 := by
  obtain ⟨c, hc⟩ := pow_two_split h
  by_cases hj : j < c
  · left
    have hle : 2 ^ (i + 1) * (j + 1) ≤ 2 ^ p := by rw [hc]; exact Nat.mul_le_mul_left _ hj
    refine ⟨?_, hle⟩
    obtain ⟨d, hd⟩ := Nat.exists_eq_add_of_le hle
    have e1 : (10 : ℕ) ^ 2 ^ p = 10 ^ (2 ^ (i + 1) * j) * 10 ^ (2 ^ (i + 1) + d) := by
      rw [← pow_add]; congr 1; rw [hd]; ring
    rw [e1, Nat.mod_mul_right_div_self]
    rw [pow_add 10 (2 ^ (i + 1)) d, Nat.mod_mul_right_mod]
  · right
    apply Nat.div_eq_of_lt
    refine lt_of_lt_of_le (Nat.mod_lt _ (by positivity)) (Nat.pow_le_pow_right (by norm_num) ?_)
    rw [hc]; exact Nat.mul_le_mul_left _ (by omega)

theorem AllGood.low {p v : Nat} (h : AllGood (p + 1) v) : AllGood p (v % 10 ^ 2 ^ (p + 1)) := by
  intro i hi j
  rcases block_low (v := v) (i := i) (p := p + 1) (j := j) (by omega) with ⟨e, _⟩ | e
  · rw [e]; exact h i (by omega) j
  · rw [e]; left; simp

theorem AllGood.high {p v : Nat} (h : AllGood (p + 1) v) : AllGood p (v / 10 ^ 2 ^ (p + 1)) := by
  intro i hi j
  obtain ⟨j', e, _⟩ := block_high (v := v) (i := i) (p := p + 1) (j := j) (by omega)
  rw [e]; exact h i (by omega) j'

theorem TopGood.low {p v : Nat} (h : TopGood (p + 1) v) (hv : 10 ^ 2 ^ (p + 1) ≤ v) :
    AllGood p (v % 10 ^ 2 ^ (p + 1)) := by
  intro i hi j
  rcases block_low (v := v) (i := i) (p := p + 1) (j := j) (by omega) with ⟨e, hle⟩ | e
  · rw [e]
    rcases h i (by omega) j with h | h
    · exact h
    · exfalso
      have : 10 ^ (2 ^ (i + 1) * (j + 1)) ≤ 10 ^ 2 ^ (p + 1) := Nat.pow_le_pow_right (by norm_num) hle
      omega
  · rw [e]; left; simp

theorem TopGood.high {p v : Nat} (h : TopGood (p + 1) v) : TopGood p (v / 10 ^ 2 ^ (p + 1)) := by
  intro i hi j
  obtain ⟨j', e, e2⟩ := block_high (v := v) (i := i) (p := p + 1) (j := j) (by omega)
  rw [e]
  rcases h i (by omega) j' with h | h
  · exact Or.inl h
  · right
    rw [Nat.div_lt_iff_lt_mul (by positivity), ← pow_add]
    have : 2 ^ (i + 1) * (j + 1) + 2 ^ (p + 1) = 2 ^ (i + 1) * (j' + 1) := by
      rw [Nat.mul_add, Nat.mul_add, e2]; ring
    rw [this]; exact h

theorem TopGood.mono {p v : Nat} (h : TopGood (p + 1) v) : TopGood p v := fun i hi j => h i (by omega) j

theorem val_of_small {m : List Nat} (hm : Wf m) (h : val m < 2 ^ 64) : wd m 0 = val m := by
  cases m with
  | nil => rfl
  | cons x m =>
    have hx := hm x (by simp)
    rw [val_cons] at h ⊢
    have h0 : val m = 0 := by
      by_contra hc
      have : B * 1 ≤ B * val m := Nat.mul_le_mul_left _ (by omega)
      have hB : B = 2 ^ 64 := by norm_num [B]
      omega
    rw [h0]; simp [wd]

theorem lev_zeros : ∀ l : Nat, lev (List.replicate l 0) = 0
  | 0 => rfl
  | l + 1 => by rw [List.replicate_succ]; simp [lev, lev_zeros l]

theorem decBase_spec {x : Mantissa} (hx : SizedM x) (hn : x.n ≤ 64) (l : Nat) (ms : Bool) (hl : val x.m < 10 ^ l) :
    digNat 10 (decBase x l ms) = val x.m ∧ (∀ d ∈ decBase x l ms, d ≤ 9) ∧
      (ms = false → (decBase x l ms).length = l) ∧ (ms = true → (decBase x l ms).head? ≠ some 0) := by
  have hlt : val x.m < 2 ^ 64 := by
    rw [hx.2] at hn; exact Nat.size_le.1 hn
  have hwd := val_of_small hx.1 hlt
  unfold decBase
  by_cases hz : val x.m = 0
  · rw [if_pos (hx.isZero.2 hz), hz]
    cases ms
    · simp only [Bool.false_eq_true, if_false, List.length_replicate, true_and, forall_const, false_implies,
        and_true]
      refine ⟨?_, ?_⟩
      · rw [← List.reverse_replicate, ← lev_reverse, List.reverse_reverse, lev_zeros]
      · intro d hd; rw [List.eq_of_mem_replicate hd]; omega
    · simp [digNat]
  · rw [if_neg (fun h => hz (hx.isZero.1 h)), hwd]
    cases ms
    · simp only [Bool.false_eq_true, if_false, List.length_reverse, forall_const, false_implies, and_true]
      obtain ⟨h1, h2, h3⟩ := wordDecN_spec l (val x.m)
      rw [← lev_reverse, List.reverse_reverse, h1, Nat.mod_eq_of_lt hl]
      exact ⟨rfl, fun d hd => h2 d (List.mem_reverse.1 hd), h3⟩
    · simp only [if_true, forall_const, reduceCtorEq, false_implies, true_and]
      obtain ⟨h1, h2, h3, h4, h5⟩ := wordDec_spec 20 (val x.m) (by norm_num at hlt ⊢; omega)
      rw [← lev_reverse, List.reverse_reverse, h1]
      refine ⟨rfl, fun d hd => h2 d (List.mem_reverse.1 hd), ?_⟩
      rw [List.head?_reverse, List.getLast?_eq_some_getLast (h5 hz)]
      intro h
      exact h4 hz (h5 hz) (Option.some.inj h)

theorem digNat_snoc_block {a b : List Nat} (n : Nat) (h : b.length = n) :
    digNat 10 (a ++ b) = digNat 10 a * 10 ^ n + digNat 10 b := by
  rw [digNat_append, h]

/-- Integers are converted to their decimal digits, when no block is mishandled. -/
theorem mantToDec_spec {tp : List TenPow} (htp : TpOk tp) : ∀ (p : Nat) (x : Mantissa) (ms : Bool), SizedM x →
    val x.m < 10 ^ 2 ^ (p + 1) → (x.n ≤ 64 ∨ p < tp.length) →
    (if ms then TopGood p (val x.m) else AllGood p (val x.m)) →
    ∃ ds, mantToDec tp p x (2 ^ (p + 1)) ms = .ok ds ∧ digNat 10 ds = val x.m ∧ (∀ d ∈ ds, d ≤ 9) ∧
      (ms = false → ds.length = 2 ^ (p + 1)) ∧ (ms = true → ds.head? ≠ some 0) := by
  intro p
  induction p with
  | zero =>
    intro x ms hx hlt _ hg
    have hn : x.n ≤ 64 := by
      rw [hx.2]; exact Nat.size_le.2 (by norm_num at hlt ⊢; omega)
    refine ⟨_, by rw [mantToDec, if_pos (Or.inr hn)], decBase_spec hx hn _ ms hlt⟩
  | succ p ih =>
    intro x ms hx hlt hp hg
    by_cases hn : x.n ≤ 64
    · exact ⟨_, by rw [mantToDec, if_pos (Or.inr hn)], decBase_spec hx hn _ ms hlt⟩
    · have hp : p + 1 < tp.length := by omega
      have hnz : ¬ (x.isZero = true ∨ x.n ≤ 64) := by
        rintro (h | h)
        · unfold Mantissa.isZero at h; simp at h; omega
        · exact hn h
      have hge : 2 ^ 64 ≤ val x.m := by
        by_contra hc
        exact hn (by rw [hx.2]; exact Nat.size_le.2 (by omega))
      obtain ⟨t, ht, htk⟩ : ∃ t, tp[p + 1]? = some t ∧ TenOk (p + 1) t := htp.get hp
      obtain ⟨s1, s2, s3, s4⟩ := decStep_spec hx htk
      rw [mantToDec, if_neg hnz]
      simp only [ht]
      have hl2 : 2 ^ (p + 1 + 1) / 2 = 2 ^ (p + 1) := by rw [pow_succ]; omega
      rw [hl2]
      have hlr : val x.m % 10 ^ 2 ^ (p + 1) < 10 ^ 2 ^ (p + 1) := Nat.mod_lt _ (by positivity)
      have hlq : val x.m / 10 ^ 2 ^ (p + 1) < 10 ^ 2 ^ (p + 1) := by
        rw [Nat.div_lt_iff_lt_mul (by positivity), ← pow_add]
        have : 2 ^ (p + 1) + 2 ^ (p + 1) = 2 ^ (p + 1 + 1) := by rw [pow_succ 2 (p + 1)]; omega
        rw [this]; exact hlt
      generalize hq : (⟨(divWords (x.shiftLeftResize t.2.2).m t.1).1,
        findBitLen (divWords (x.shiftLeftResize t.2.2).m t.1).1⟩ : Mantissa) = q at *
      generalize hr : (⟨shiftRight (divWords (x.shiftLeftResize t.2.2).m t.1).2 t.2.2,
        findBitLen (shiftRight (divWords (x.shiftLeftResize t.2.2).m t.1).2 t.2.2)⟩ : Mantissa) = r at *
      replace s3 : val q.m = val x.m / 10 ^ 2 ^ (p + 1) := by rw [← hq]; exact s3
      replace s4 : val r.m = val x.m % 10 ^ 2 ^ (p + 1) := by rw [← hr]; exact s4
      by_cases hz : val q.m = 0
      · rw [if_pos (s1.isZero.2 hz)]
        have hltx : val x.m < 10 ^ 2 ^ (p + 1) := by
          rw [s3, Nat.div_eq_zero_iff] at hz
          rcases hz with hz | hz
          · exact absurd hz (by positivity)
          · exact hz
        rw [Nat.mod_eq_of_lt hltx] at s4
        cases ms
        · exfalso
          rcases (hg : AllGood _ _) (p + 1) (le_refl _) 0 with h | h
          · rw [Nat.mul_zero, pow_zero, Nat.div_one, Nat.mod_eq_of_lt hlt] at h; omega
          · rw [Nat.mul_zero, pow_zero, Nat.div_one, Nat.mod_eq_of_lt hlt] at h; omega
        · have := ih r true s2 (by rw [s4]; exact hltx) (Or.inr (by omega)) (by rw [s4]; exact (hg : TopGood _ _).mono)
          rw [s4] at this
          exact ⟨this.choose, this.choose_spec.1, this.choose_spec.2.1, this.choose_spec.2.2.1, by simp,
            this.choose_spec.2.2.2.2⟩
      · rw [if_neg (fun h => hz (s1.isZero.1 h))]
        have hgex : 10 ^ 2 ^ (p + 1) ≤ val x.m := by
          by_contra hc
          exact hz (by rw [s3]; exact Nat.div_eq_of_lt (by omega))
        obtain ⟨d1, a1, a2, a3, a4, a5⟩ := ih r false s2 (by rw [s4]; exact hlr) (Or.inr (by omega)) (by
          rw [s4]
          cases ms
          · exact (hg : AllGood _ _).low
          · exact (hg : TopGood _ _).low hgex)
        obtain ⟨d2, b1, b2, b3, b4, b5⟩ := ih q ms s1 (by rw [s3]; exact hlq) (Or.inr (by omega)) (by
          rw [s3]
          cases ms
          · exact (hg : AllGood _ _).high
          · exact (hg : TopGood _ _).high)
        rw [a1, b1]
        refine ⟨_, rfl, ?_, ?_, ?_, ?_⟩
        · rw [digNat_snoc_block _ (a4 rfl), a2, b2, s3, s4, Nat.mul_comm]
          exact Nat.div_add_mod _ _
        · intro d hd
          rcases List.mem_append.1 hd with hd | hd
          · exact b3 d hd
          · exact a3 d hd
        · intro hm
          rw [List.length_append, a4 rfl, b4 hm, pow_succ 2 (p + 1)]; omega
        · intro hm
          have hne : d2 ≠ [] := by rintro rfl; apply hz; rw [← b2]; rfl
          rw [List.head?_append_of_ne_nil _ hne]
          exact b5 hm

end AF
