import Verif.Lemmas.FftCompose
import Verif.Lemmas.FftBound
/-!
# Multiplication with FFT: parameters and the product (fft.rs)
-/

namespace AF

theorem sqrtIntLoop_le (a f x : Nat) (h : x ≤ a) : sqrtIntLoop a f x ≤ a := by
  induction f generalizing x with
  | zero => exact h
  | succ f ih =>
    unfold sqrtIntLoop
    split
    · exact h
    · rename_i h0
      refine ih _ ?_
      rw [Nat.shiftRight_eq_div_pow, pow_one]
      rcases Nat.lt_or_ge x 2 with h2 | h2
      · have : x = 1 := by omega
        subst this
        rw [Nat.div_one]; omega
      · have : a / x ≤ a / 2 := Nat.div_le_div_left h2 (by norm_num)
        omega

theorem sqrtIntLoop_bounds (a f x E : Nat) (h : Nat.sqrt a ≤ x) (hE : x ≤ Nat.sqrt a + 2 + E) :
    Nat.sqrt a ≤ sqrtIntLoop a f x ∧ sqrtIntLoop a f x ≤ Nat.sqrt a + 2 + E / 2 ^ f := by
  induction f generalizing x E with
  | zero => rw [sqrtIntLoop, pow_zero, Nat.div_one]; exact ⟨h, hE⟩
  | succ f ih =>
    unfold sqrtIntLoop
    split
    · rename_i h0
      subst h0
      exact ⟨h, Nat.zero_le _⟩
    · rename_i h0
      rw [Nat.shiftRight_eq_div_pow, pow_one, pow_succ, Nat.mul_comm, ← Nat.div_div_eq_div_mul]
      refine ih _ _ ?_ ?_
      · have h1 : a < x * (a / x + 1) := by
          have := Nat.lt_div_mul_add (a := a) (show 0 < x by omega)
          rw [Nat.mul_add, Nat.mul_comm x]; omega
        have h2 : a / x + x ≤ 2 * ((a / x + x) / 2) + 1 := by omega
        generalize a / x = q at *
        generalize (q + x) / 2 = y at *
        have h3 : a < (y + 1) * (y + 1) := by
          by_contra hc
          have h4 : 4 * (x * (q + 1)) ≤ (x + (q + 1)) * (x + (q + 1)) := by
            rcases Nat.le_total x (q + 1) with hx | hx
            · obtain ⟨d, hd⟩ := Nat.exists_eq_add_of_le hx
              rw [hd]; nlinarith [Nat.zero_le (d * d)]
            · obtain ⟨d, hd⟩ := Nat.exists_eq_add_of_le hx
              rw [hd]; nlinarith [Nat.zero_le (d * d)]
          have h5 : (x + (q + 1)) * (x + (q + 1)) ≤ (2 * (y + 1)) * (2 * (y + 1)) :=
            Nat.mul_le_mul (by omega) (by omega)
          nlinarith
        exact Nat.lt_succ_iff.1 (Nat.sqrt_lt.2 h3)
      · have h1 : a ≤ Nat.sqrt a * Nat.sqrt a + Nat.sqrt a + Nat.sqrt a := Nat.sqrt_le_add a
        have h2 : a / x ≤ Nat.sqrt a + 2 := by
          refine Nat.div_le_of_le_mul ?_
          calc a ≤ Nat.sqrt a * (Nat.sqrt a + 2) := by rw [Nat.mul_add]; omega
            _ ≤ _ := Nat.mul_le_mul_right _ h
        omega

theorem sqrtInt_bounds (a : Nat) : Nat.sqrt a ≤ sqrtInt a ∧ sqrtInt a ≤ Nat.sqrt a + 2 + a / 2 ^ 20 :=
  sqrtIntLoop_bounds a 20 a a (Nat.sqrt_le_self a) (by omega)

theorem log2Ceil_le {n e : Nat} (h : n ≤ 2 ^ e) : log2Ceil n ≤ e := by
  unfold log2Ceil
  split
  · omega
  · rename_i h1
    have h2 : Nat.log2 (n - 1) < e := (Nat.log2_lt (by omega)).2 (by omega)
    omega

theorem le_log2Ceil {n e : Nat} (h : 2 ^ e < n) : e + 1 ≤ log2Ceil n := by
  unfold log2Ceil
  have := Nat.two_pow_pos e
  rw [if_neg (by omega)]
  have h2 : e ≤ Nat.log2 (n - 1) := (Nat.le_log2 (by omega)).2 (by omega)
  omega

/-- The parameters of the transform. -/
structure ParamsOk (n : Nat) (p : FftParams) : Prop where
  k1 : p.k1 = 2 ^ p.k
  klo : 6 ≤ p.k
  khi : p.k ≤ 32
  mlo : n ≤ p.m * 2 ^ p.k
  mhi : p.m * 2 ^ p.k < n + 2 ^ p.k
  n1 : p.n1 = p.t * 2 ^ p.k
  n1lo : 2 * p.m + p.k ≤ p.n1
  n1hi : p.n1 < 2 * p.m + p.k + 2 ^ p.k

theorem roundUp {n K : Nat} (hK : 0 < K) : n ≤ (n + K - 1) / K * K ∧ (n + K - 1) / K * K < n + K := by
  have h1 := Nat.lt_div_mul_add (a := n + K - 1) hK
  have h2 := Nat.div_mul_le_self (n + K - 1) K
  omega

theorem fftParams_k (n : Nat) : (fftParams n).k = max (log2Ceil (if n / 64 < 50000 then sqrtInt (n % 2 ^ 32) / 2
    else sqrtInt (n % 2 ^ 32))) 6 := rfl

theorem fftParams_ok (n : Nat) : ParamsOk n (fftParams n) := by
  have hr : (if n / 64 < 50000 then sqrtInt (n % 2 ^ 32) / 2 else sqrtInt (n % 2 ^ 32)) ≤ 2 ^ 32 := by
    have h1 : sqrtInt (n % 2 ^ 32) ≤ n % 2 ^ 32 := sqrtIntLoop_le _ _ _ le_rfl
    have h2 := Nat.mod_lt n (show 0 < 2 ^ 32 by norm_num)
    split <;> omega
  unfold fftParams
  dsimp only
  generalize (if n / 64 < 50000 then sqrtInt (n % 2 ^ 32) / 2 else sqrtInt (n % 2 ^ 32)) = r at *
  have hk := log2Ceil_le hr
  have hk2 : max (log2Ceil r) 6 ≤ 32 := by omega
  have hk3 : 6 ≤ max (log2Ceil r) 6 := le_max_right _ _
  generalize max (log2Ceil r) 6 = k at *
  have hK : 0 < 2 ^ k := Nat.two_pow_pos k
  rw [Nat.one_shiftLeft]
  generalize hKe : 2 ^ k = K at *
  obtain ⟨a1, a2⟩ := roundUp (n := n) hK
  generalize (n + K - 1) / K = m at *
  have e : (2 * (m * K) + K - 1) / K = 2 * m := by
    rw [show 2 * (m * K) + K - 1 = (K - 1) + 2 * m * K by rw [Nat.mul_assoc]; omega, Nat.add_mul_div_right _ _ hK,
      Nat.div_eq_of_lt (by omega), Nat.zero_add]
  rw [e]
  obtain ⟨b1, b2⟩ := roundUp (n := 2 * m + k) hK
  generalize (2 * m + k + K - 1) / K = t at *
  subst hKe
  refine ⟨rfl, hk3, hk2, a1, a2, ?_, b1, b2⟩
  dsimp only
  rw [Nat.mul_div_cancel _ hK]

theorem two_pow_log2Ceil_le {r N : Nat} (h : r ≤ N) (hN : 1 ≤ N) : 2 ^ log2Ceil r ≤ 2 * N := by
  unfold log2Ceil
  split
  · rw [pow_zero]; omega
  · have := Nat.log2_self_le (n := r - 1) (by omega)
    rw [pow_succ]; omega

/-- The number of parts is well below the number of words. -/
theorem fftParams_K {N : Nat} (hN : 64 ≤ N) : 2 ^ (fftParams (N * 64)).k ≤ 4 * N := by
  rw [fftParams_k]
  have ha := Nat.mod_le (N * 64) (2 ^ 32)
  obtain ⟨_, h2⟩ := sqrtInt_bounds (N * 64 % 2 ^ 32)
  have h3 : Nat.sqrt (N * 64 % 2 ^ 32) ≤ N := by
    have h4 : N * 64 % 2 ^ 32 < (N + 1) * (N + 1) := by nlinarith
    exact Nat.lt_succ_iff.1 (Nat.sqrt_lt.2 h4)
  have h5 : N * 64 % 2 ^ 32 / 2 ^ 20 ≤ N * 64 / 2 ^ 20 := Nat.div_le_div_right ha
  have h6 : sqrtInt (N * 64 % 2 ^ 32) ≤ 2 * N := by omega
  have hr : (if N * 64 / 64 < 50000 then sqrtInt (N * 64 % 2 ^ 32) / 2 else sqrtInt (N * 64 % 2 ^ 32)) ≤ 2 * N := by
    split <;> omega
  generalize (if N * 64 / 64 < 50000 then sqrtInt (N * 64 % 2 ^ 32) / 2 else sqrtInt (N * 64 % 2 ^ 32)) = r at *
  rcases Nat.le_total (log2Ceil r) 6 with h | h
  · rw [max_eq_right h]; omega
  · rw [max_eq_left h]
    have := two_pow_log2Ceil_le hr (by omega)
    omega

/-- The parts are multiplied by a shorter multiplication. -/
theorem fftParams_short {N : Nat} (hN : 64 ≤ N) : 2 * ((fftParams (N * 64)).n1 / 64 + 1) < N := by
  have hK := fftParams_K hN
  have hp := fftParams_ok (N * 64)
  generalize fftParams (N * 64) = p at *
  have h1 := hp.mhi
  have h2 := hp.n1hi
  have h3 := hp.khi
  have h4 : 64 ≤ 2 ^ p.k := le_trans (by norm_num) (Nat.pow_le_pow_right (by norm_num) hp.klo)
  generalize 2 ^ p.k = K at *
  have h5 : p.m ≤ N + 1 := by
    by_contra hc
    have : (N + 2) * K ≤ p.m * K := Nat.mul_le_mul_right _ (by omega)
    have : N * 64 ≤ N * K := Nat.mul_le_mul_left _ h4
    nlinarith
  omega

/-- At least 128 parts, unless the number of bits is just above a multiple of `2^32`. -/
theorem fftParams_parts {N : Nat} (h : 16900 ≤ N * 64 % 2 ^ 32 ∨ (50000 ≤ N ∧ 4225 ≤ N * 64 % 2 ^ 32)) :
    7 ≤ (fftParams (N * 64)).k := by
  rw [fftParams_k, Nat.mul_div_cancel _ (by norm_num)]
  obtain ⟨h1, _⟩ := sqrtInt_bounds (N * 64 % 2 ^ 32)
  refine le_trans (le_log2Ceil (e := 6) ?_) (le_max_left _ _)
  split
  · rename_i hN
    have h2 : 130 ≤ Nat.sqrt (N * 64 % 2 ^ 32) := Nat.le_sqrt.2 (by omega)
    omega
  · have h2 : 65 ≤ Nat.sqrt (N * 64 % 2 ^ 32) := Nat.le_sqrt.2 (by omega)
    omega

theorem ParamsOk.last {n : Nat} {p : FftParams} (h : ParamsOk n p) :
    64 * (p.n1 / 64) = p.n1 ∧ 1 ≤ p.n1 / 64 ∧ (p.m + 63) / 64 ≤ p.n1 / 64 := by
  have hd : 64 ∣ p.n1 := by
    rw [h.n1]
    exact Dvd.dvd.mul_left (show (2 ^ 6 : Nat) ∣ 2 ^ p.k from pow_dvd_pow _ h.klo) _
  have h1 := h.n1lo
  have h2 := h.klo
  omega

theorem ParamsOk.used {n L1 L2 I J : Nat} {p : FftParams} (h : ParamsOk n p) (hn : L1 + L2 ≤ n)
    (h1 : ∀ a, a < I → 0 + a * p.m < L1) (h2 : ∀ a, a < J → 0 + a * p.m < L2) : I + J ≤ 2 ^ p.k + 1 := by
  have hm := h.mlo
  have hK := Nat.two_pow_pos p.k
  generalize 2 ^ p.k = K at *
  by_contra hc
  have key : ∀ a b, (a = 0 ∨ 0 + a * p.m < L1) → (b = 0 ∨ 0 + b * p.m < L2) → (0 < a ∨ 0 < b) → a + b < K := by
    intro a b ha hb hab
    by_contra hge
    have e1 : K * p.m ≤ (a + b) * p.m := Nat.mul_le_mul_right _ (by omega)
    rw [Nat.add_mul, Nat.mul_comm] at e1
    rcases ha with rfl | ha <;> rcases hb with rfl | hb <;> omega
  rcases Nat.eq_zero_or_pos I with hI | hI
  · have := key 0 (J - 1) (Or.inl rfl) (Or.inr (h2 _ (by omega))) (Or.inr (by omega))
    omega
  · rcases Nat.eq_zero_or_pos J with hJ | hJ
    · have := key (I - 1) 0 (Or.inr (h1 _ (by omega))) (Or.inl rfl) (Or.inl (by omega))
      omega
    · have := key (I - 1) (J - 1) (Or.inr (h1 _ (by omega))) (Or.inr (h2 _ (by omega)))
        (by omega)
      omega

/-- The coefficients that `fft_mul` computes modulo `2^n1 + 1`. -/
def fftCoef (d1 d2 : List Nat) (n : Nat) : Nat :=
  convC (2 ^ (fftParams ((d1.length + d2.length) * 64)).k)
    (nv (fftDecompose d1 (fftParams ((d1.length + d2.length) * 64)).m (fftParams ((d1.length + d2.length) * 64)).k1
      ((fftParams ((d1.length + d2.length) * 64)).n1 / 64 + 1)))
    (nv (fftDecompose d2 (fftParams ((d1.length + d2.length) * 64)).m (fftParams ((d1.length + d2.length) * 64)).k1
      ((fftParams ((d1.length + d2.length) * 64)).n1 / 64 + 1))) n

/-- The hypothesis on the multiplication of parts. -/
def MulAt (mul : MulFn) (l : Nat) : Prop :=
  ∀ a b : List Nat, Wf a → Wf b → a.length = l → b.length = l →
    (mul a b (2 * l)).length = 2 * l ∧ Wf (mul a b (2 * l)) ∧ val (mul a b (2 * l)) = val a * val b

theorem Parts.part {last m L s f v : Nat} {q : List SS} (h : Parts (last + 1) m L s f v q)
    (hm : (m + 63) / 64 ≤ last) : ∀ x ∈ q, Part last x := by
  intro x hx
  obtain ⟨a, b, c⟩ := h.wf x hx
  obtain ⟨I, _, _, _, h4⟩ := h.used
  refine ⟨a, b, c, ?_⟩
  obtain ⟨i, hi, rfl⟩ := List.getElem_of_mem hx
  have h5 := h4 i
  have e : nv q i = val q[i].m := by
    unfold nv
    rw [List.getD_eq_getElem?_getD, List.getElem?_map, List.getElem?_eq_getElem hi]
    rfl
  rw [e] at h5
  refine le_of_lt (lt_of_lt_of_le h5 ?_)
  rw [B_pow]
  exact Nat.pow_le_pow_right (by norm_num) (by omega)

/-- `fft_mul` puts the coefficients modulo `2^n1 + 1` together. -/
theorem fftMulWith_val {mul : MulFn} {d1 d2 : List Nat} (h1 : Wf d1) (h2 : Wf d2) (hne : 0 < d1.length + d2.length)
    (hmul : MulAt mul ((fftParams ((d1.length + d2.length) * 64)).n1 / 64 + 1)) {len : Nat}
    (hlen : d1.length + d2.length ≤ len) :
    (fftMulWith mul d1 d2 len).length = len ∧ Wf (fftMulWith mul d1 d2 len) ∧
    val (fftMulWith mul d1 d2 len) =
      ∑ n ∈ Finset.range (2 ^ (fftParams ((d1.length + d2.length) * 64)).k),
        (fftCoef d1 d2 n % (B ^ ((fftParams ((d1.length + d2.length) * 64)).n1 / 64) + 1)) *
          2 ^ (n * (fftParams ((d1.length + d2.length) * 64)).m) ∧
    val d1 * val d2 = ∑ n ∈ Finset.range (2 ^ (fftParams ((d1.length + d2.length) * 64)).k),
        fftCoef d1 d2 n * 2 ^ (n * (fftParams ((d1.length + d2.length) * 64)).m) := by
  have hp := fftParams_ok ((d1.length + d2.length) * 64)
  unfold fftMulWith fftCoef
  dsimp only
  generalize fftParams ((d1.length + d2.length) * 64) = p at *
  obtain ⟨hlast, hl, hml⟩ := hp.last
  have hm0 : 1 ≤ p.m := by
    by_contra h
    have : p.m = 0 := by omega
    have h2 := hp.mlo
    rw [this, Nat.zero_mul] at h2
    omega
  rw [hp.k1]
  generalize hlastv : p.n1 / 64 = last at *
  have P1 := fftDecompose_spec h1 (m := p.m) (plen := last + 1) (by omega) (2 ^ p.k)
  have P2 := fftDecompose_spec h2 (m := p.m) (plen := last + 1) (by omega) (2 ^ p.k)
  generalize fftDecompose d1 p.m (2 ^ p.k) (last + 1) = q1 at *
  generalize fftDecompose d2 p.m (2 ^ p.k) (last + 1) = q2 at *
  obtain ⟨I, i1, i2, i3, i4⟩ := P1.used
  obtain ⟨J, j1, j2, j3, j4⟩ := P2.used
  have hIJ := hp.used (L1 := 64 * d1.length) (L2 := 64 * d2.length) (by omega) i2 j2
  have hroot : ((2 : FR last) ^ p.t) ^ 2 ^ p.k = -1 := by
    rw [← pow_mul, ← hp.n1, ← hlast, FR.two_pow]
  have hg : ∀ k', p.k = k' + 1 → (2 : FR last) ^ (p.t * 2 * 2 ^ k') = -1 := by
    intro k' hk'
    rw [← hroot, ← pow_mul, hk', pow_succ]
    congr 1; ring
  obtain ⟨w1, w2, w3⟩ := fftWeight_spec hl p.t q1 (P1.part hml) 0
  obtain ⟨x1, x2, x3⟩ := fftWeight_spec hl p.t q2 (P2.part hml) 0
  generalize fftWeight last (fftModulus last) p.t 0 q1 = r1 at *
  generalize fftWeight last (fftModulus last) p.t 0 q2 = r2 at *
  have hk64 : p.k ≤ 64 := by have := hp.khi; omega
  obtain ⟨f1, f2, f3⟩ := fftForward_spec hl p.k (p.t * 2) hk64 hg r1 (by rw [w1, P1.len]) w2
  obtain ⟨g1, g2, g3⟩ := fftForward_spec hl p.k (p.t * 2) hk64 hg r2 (by rw [x1, P2.len]) x2
  generalize fftForward last (fftModulus last) p.k (p.t * 2) r1 = s1 at *
  generalize fftForward last (fftModulus last) p.k (p.t * 2) r2 = s2 at *
  obtain ⟨m1, m2, m3⟩ := fftPointwise_spec (mul := mul) hl hmul s1 s2 (by rw [f1, g1]) f2 g2
  generalize fftPointwise mul last (fftModulus last) s1 s2 = s3 at *
  obtain ⟨v1, v2, v3⟩ := fftReverse_spec hl p.k (p.t * 2) hg s3 (by rw [m1, f1]) m2
  generalize fftReverse last (fftModulus last) p.k (p.t * 2) s3 = s4 at *
  have hconv := fun n hn => fft_conv p.k ((2 : FR last) ^ p.t) hroot (fun a => (nv q1 a : FR last))
    (fun b => (nv q2 b : FR last)) (I := I) (J := J) (by intro a ha; simp [i1 a ha]) (by intro b hb; simp [j1 b hb])
    hIJ n hn
  have heval := conv_eval (2 ^ p.k) (nv q1) (nv q2) (2 ^ p.m) (I := I) (J := J) i1 j1 hIJ
  have hs1 := P1.sum (by have := hp.mlo; rw [Nat.mul_comm (2 ^ p.k)]; omega)
  have hs2 := P2.sum (by have := hp.mlo; rw [Nat.mul_comm (2 ^ p.k)]; omega)
  rw [hs1, hs2, pow_zero, Nat.div_one, Nat.div_one] at heval
  have heval2 : val d1 * val d2 = ∑ n ∈ Finset.range (2 ^ p.k), convC (2 ^ p.k) (nv q1) (nv q2) n * 2 ^ (n * p.m) := by
    rw [← heval]
    refine Finset.sum_congr rfl fun n _ => ?_
    rw [← pow_mul, Nat.mul_comm p.m n]
    rfl
  have hle : ∑ n ∈ Finset.range (2 ^ p.k), (convC (2 ^ p.k) (nv q1) (nv q2) n % (B ^ last + 1)) * 2 ^ (n * p.m) ≤
      val d1 * val d2 := by
    rw [heval2]
    exact Finset.sum_le_sum fun n _ => Nat.mul_le_mul_right _ (Nat.mod_le _ _)
  have hlt : val d1 * val d2 < B ^ len := by
    have a1 := val_lt h1
    have a2 := val_lt h2
    calc val d1 * val d2 < B ^ d1.length * B ^ d2.length := Nat.mul_lt_mul_of_lt_of_lt a1 a2
      _ = B ^ (d1.length + d2.length) := by rw [pow_add]
      _ ≤ _ := Nat.pow_le_pow_right B_pos hlen
  have hcomp := fftCompose_spec hl p hm0 (fun n => convC (2 ^ p.k) (nv q1) (nv q2) n % (B ^ last + 1))
    (fun n => Nat.lt_succ_iff.1 (Nat.mod_lt _ (Nat.succ_pos _))) s4 v2 0 (by
      intro i hi
      rw [v1] at hi
      rw [v3 i hi, Nat.zero_add i]
      have c0 : ∀ j, j < 2 ^ p.k → rz last s3 j =
          fwdSum ((2 ^ p.t) ^ 2) p.k (fun a => (nv q1 a : FR last) * (2 ^ p.t) ^ a) j *
          fwdSum ((2 ^ p.t) ^ 2) p.k (fun a => (nv q2 a : FR last) * (2 ^ p.t) ^ a) j := by
        intro j hj
        rw [m3, f3 j hj, g3 j hj, ← pow_mul]
        congr 1
        · refine fwdSum_congr _ _ (fun a _ => ?_) _
          rw [w3, rz_eq, Nat.zero_add a, pow_mul]
        · refine fwdSum_congr _ _ (fun a _ => ?_) _
          rw [x3, rz_eq, Nat.zero_add a, pow_mul]
      rw [revSum_congr _ _ c0 i, show ((2 : FR last) ^ (p.t * 2)) = (2 ^ p.t) ^ 2 by rw [← pow_mul], hconv i hi,
        ZMod.natCast_mod]
      unfold convC
      push_cast
      rw [pow_add, pow_mul]
      ring) (List.replicate len 0) (wf_zeros _) (by rw [val_replicate_zero]; exact Nat.zero_le _) (by
      rw [val_replicate_zero, Nat.zero_add, v1, List.length_replicate]
      simp only [Nat.zero_add]
      exact lt_of_le_of_lt hle hlt)
  obtain ⟨z1, z2, z3⟩ := hcomp
  rw [List.length_replicate] at z1
  rw [val_replicate_zero, Nat.zero_add, v1] at z3
  simp only [Nat.zero_add] at z3
  exact ⟨z1, z2, z3, heval2⟩

theorem fftCoef_le {d1 d2 : List Nat} (h1 : Wf d1) (h2 : Wf d2)
    (hk : 7 ≤ (fftParams ((d1.length + d2.length) * 64)).k) (n : Nat)
    (hn : n < 2 ^ (fftParams ((d1.length + d2.length) * 64)).k) :
    fftCoef d1 d2 n ≤ B ^ ((fftParams ((d1.length + d2.length) * 64)).n1 / 64) := by
  have hp := fftParams_ok ((d1.length + d2.length) * 64)
  unfold fftCoef
  generalize fftParams ((d1.length + d2.length) * 64) = p at *
  obtain ⟨hlast, hl, hml⟩ := hp.last
  rw [hp.k1, B_pow, hlast]
  have P1 := fftDecompose_spec h1 (m := p.m) (plen := p.n1 / 64 + 1) (by omega) (2 ^ p.k)
  have P2 := fftDecompose_spec h2 (m := p.m) (plen := p.n1 / 64 + 1) (by omega) (2 ^ p.k)
  obtain ⟨I, i1, i2, i3, i4⟩ := P1.used
  obtain ⟨J, j1, j2, j3, j4⟩ := P2.used
  have hIJ := hp.used (L1 := 64 * d1.length) (L2 := 64 * d2.length) (by omega) i2 j2
  have hd : 128 ∣ p.n1 := by
    rw [hp.n1]
    exact Dvd.dvd.mul_left (show (2 ^ 7 : Nat) ∣ 2 ^ p.k from pow_dvd_pow _ hk) _
  have e : 64 * ((p.m + 63) / 64) = p.m + (64 * ((p.m + 63) / 64) - p.m) := by omega
  rw [e] at i4 j4
  exact convC_le rfl hk hIJ i1 j1 i3 j3 i4 j4 (by have := hp.n1lo; omega) hp.n1lo hn

/-- `fft_mul` computes the product when it cuts the operands into at least 128 parts. -/
theorem fftMulWith_spec {mul : MulFn} {d1 d2 : List Nat} (h1 : Wf d1) (h2 : Wf d2) (hne : 0 < d1.length + d2.length)
    (hk : 7 ≤ (fftParams ((d1.length + d2.length) * 64)).k)
    (hmul : MulAt mul ((fftParams ((d1.length + d2.length) * 64)).n1 / 64 + 1)) {len : Nat}
    (hlen : d1.length + d2.length ≤ len) :
    (fftMulWith mul d1 d2 len).length = len ∧ Wf (fftMulWith mul d1 d2 len) ∧
    val (fftMulWith mul d1 d2 len) = val d1 * val d2 := by
  obtain ⟨a, b, c, d⟩ := fftMulWith_val h1 h2 hne hmul hlen
  refine ⟨a, b, ?_⟩
  rw [c, d]
  refine Finset.sum_congr rfl fun n hn => ?_
  rw [Nat.mod_eq_of_lt]
  exact Nat.lt_succ_of_le (fftCoef_le h1 h2 hk n (Finset.mem_range.1 hn))

/-- A coefficient beyond the modulus makes the result too small. -/
theorem fftMulWith_lt {mul : MulFn} {d1 d2 : List Nat} (h1 : Wf d1) (h2 : Wf d2) (hne : 0 < d1.length + d2.length)
    (hmul : MulAt mul ((fftParams ((d1.length + d2.length) * 64)).n1 / 64 + 1)) {len : Nat}
    (hlen : d1.length + d2.length ≤ len) {n : Nat} (hn : n < 2 ^ (fftParams ((d1.length + d2.length) * 64)).k)
    (hc : B ^ ((fftParams ((d1.length + d2.length) * 64)).n1 / 64) < fftCoef d1 d2 n) :
    val (fftMulWith mul d1 d2 len) < val d1 * val d2 := by
  obtain ⟨a, b, c, d⟩ := fftMulWith_val h1 h2 hne hmul hlen
  rw [c, d]
  refine Finset.sum_lt_sum (fun n _ => Nat.mul_le_mul_right _ (Nat.mod_le _ _)) ⟨n, Finset.mem_range.2 hn, ?_⟩
  refine Nat.mul_lt_mul_of_pos_right ?_ (Nat.two_pow_pos _)
  exact lt_of_lt_of_le (Nat.mod_lt _ (Nat.succ_pos _)) hc

end AF
