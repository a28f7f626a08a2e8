import Verif.Lemmas.Root
/-! # The recursive integer square root -/

namespace AF

/-- Arithmetic of one level of `sqrt_rem`. -/
theorem sqrt_arith {b S R M0 M1 q u : ℤ} (hb : 0 < b) (hbS : b ≤ S) (hR0 : 0 ≤ R) (hR : R ≤ 2 * S)
    (h0 : 0 ≤ M0) (h0b : M0 < b) (h1 : 0 ≤ M1) (h1b : M1 < b) (hq : 0 ≤ q) (hu : 0 ≤ u)
    (hu2 : u < 2 * S) (hd : b * R + M1 = q * (2 * S) + u) :
    q ≤ b ∧
    M0 + b * M1 + b * b * (S * S + R) = (b * S + q) * (b * S + q) + (u * b + M0 - q * q) ∧
    (0 ≤ u * b + M0 - q * q → u * b + M0 - q * q ≤ 2 * (b * S + q)) ∧
    (u * b + M0 - q * q < 0 → 0 ≤ u * b + M0 - q * q + 2 * (b * S + q) - 1 ∧
      u * b + M0 - q * q + 2 * (b * S + q) - 1 ≤ 2 * (b * S + q - 1) ∧ 1 ≤ q) := by
  have hqb : q ≤ b := by
    by_contra hc
    have h2 : (b + 1) * (2 * S) ≤ q * (2 * S) := by
      refine mul_le_mul_of_nonneg_right (by omega) (by omega)
    have h3 : b * R ≤ b * (2 * S) := mul_le_mul_of_nonneg_left hR hb.le
    nlinarith
  refine ⟨hqb, by linear_combination b * hd, fun h => ?_, fun h => ⟨?_, by linarith, ?_⟩⟩
  · have h2 : u * b ≤ (2 * S - 1) * b := mul_le_mul_of_nonneg_right (by omega) hb.le
    nlinarith [mul_self_nonneg q]
  · have h2 : q * q ≤ b * q := mul_le_mul_of_nonneg_right hqb hq
    have h3 : b * b ≤ b * S := mul_le_mul_of_nonneg_left hbS hb.le
    have h4 : b * q ≤ b * b := mul_le_mul_of_nonneg_left hqb hb.le
    have h5 : 0 ≤ u * b := mul_nonneg hu hb.le
    have h6 : 0 < b * S := mul_pos hb (by omega)
    nlinarith
  · by_contra hc
    have : q = 0 := by omega
    subst this
    have := mul_nonneg hu hb.le
    omega

theorem findOne_top {s : List Nat} (hs : TopNz s) :
    findOneFrom (s ++ [0]) 0 = some (64 * (s.length + 1) - Nat.size (val s)) := by
  have hw : Wf (s ++ [0]) := wf_append.2 ⟨hs.1, Wf.cons B_pos Wf.nil⟩
  have hv : val (s ++ [0]) = val s := by simpa using val_append_zeros 1 s
  have hlt := val_lt_two_pow hw
  rw [findOneFrom_spec hw (by simp), Nat.sub_zero, Nat.mod_eq_of_lt hlt, hv,
    if_neg hs.pos.ne']
  simp

/-- The correction step of `sqrt_rem`. -/
theorem sqrtCorrect {r s : SS} {T : ℤ} {S : ℕ} (hr : Wf r.m) (hs : Wf s.m) (hrz : r.toZ = T)
    (hsz : s.toZ = S) (h1 : 0 ≤ T + 2 * (S : ℤ) - 1) (hT : T < 0)
    (hb : 2 * (S : ℤ) < ((B ^ r.m.length : ℕ) : ℤ)) :
    (((r.addAssign s).addAssign s).subAssign ⟨false, [1]⟩).m.length = r.m.length ∧
    Wf (((r.addAssign s).addAssign s).subAssign ⟨false, [1]⟩).m ∧
    (val (((r.addAssign s).addAssign s).subAssign ⟨false, [1]⟩).m : ℤ) = T + 2 * (S : ℤ) - 1 ∧
    (s.subAssign ⟨false, [1]⟩).m.length = s.m.length ∧
    Wf (s.subAssign ⟨false, [1]⟩).m ∧ (val (s.subAssign ⟨false, [1]⟩).m : ℤ) = S - 1 := by
  have e1w : Wf [1] := Wf.cons one_lt_B Wf.nil
  have e1z : SS.toZ ⟨false, [1]⟩ = 1 := by simp [SS.toZ]
  have hsl : (S : ℤ) < ((B ^ s.m.length : ℕ) : ℤ) := by
    have := val_lt hs
    have h2 := SS.abs_toZ s
    rw [hsz, abs_of_nonneg (by positivity)] at h2
    rw [h2]; exact_mod_cast this
  generalize hX : ((B ^ r.m.length : ℕ) : ℤ) = X at *
  generalize hY : ((B ^ s.m.length : ℕ) : ℤ) = Y at *
  obtain ⟨p1, p2, p3⟩ := SS.addSubAssign_spec (s1 := r) (s2 := s) hr hs true
    (r := T + S) (by rw [hrz, hsz, if_pos rfl]) (by
      rw [_root_.abs_lt, hX]; constructor <;> omega)
  change (r.addAssign s).m.length = r.m.length at p1
  change Wf (r.addAssign s).m at p2
  change (r.addAssign s).toZ = T + S at p3
  generalize r.addAssign s = r3 at *
  obtain ⟨q1, q2, q3⟩ := SS.addSubAssign_spec (s1 := r3) (s2 := s) p2 hs true
    (r := T + 2 * S) (by rw [p3, hsz, if_pos rfl]; ring) (by
      rw [_root_.abs_lt, p1, hX]; constructor <;> omega)
  change (r3.addAssign s).m.length = r3.m.length at q1
  change Wf (r3.addAssign s).m at q2
  change (r3.addAssign s).toZ = T + 2 * S at q3
  generalize r3.addAssign s = r4 at *
  obtain ⟨o1, o2, o3⟩ := SS.addSubAssign_spec (s1 := r4) (s2 := ⟨false, [1]⟩) q2 e1w false
    (r := T + 2 * S - 1) (by
      rw [q3, e1z]; simp only [Bool.false_eq_true, if_false]; ring) (by
      rw [_root_.abs_lt, q1, p1, hX]; constructor <;> omega)
  change (r4.subAssign ⟨false, [1]⟩).m.length = r4.m.length at o1
  change Wf (r4.subAssign ⟨false, [1]⟩).m at o2
  change (r4.subAssign ⟨false, [1]⟩).toZ = T + 2 * S - 1 at o3
  obtain ⟨v1, v2, v3⟩ := SS.addSubAssign_spec (s1 := s) (s2 := ⟨false, [1]⟩) hs e1w false
    (r := S - 1) (by
      rw [hsz, e1z]; simp only [Bool.false_eq_true, if_false]; ring) (by
      rw [_root_.abs_lt, hY]; constructor <;> omega)
  change (s.subAssign ⟨false, [1]⟩).m.length = s.m.length at v1
  change Wf (s.subAssign ⟨false, [1]⟩).m at v2
  change (s.subAssign ⟨false, [1]⟩).toZ = S - 1 at v3
  refine ⟨by rw [o1, q1, p1], o2, ?_, v1, v2, ?_⟩
  · rw [← SS.abs_toZ, o3, abs_of_nonneg h1]
  · rw [← SS.abs_toZ, v3, abs_of_nonneg (by omega)]

set_option maxHeartbeats 3000000 in
theorem sqrtLevel_spec {rec : List Nat → List Nat × List Nat} {m : List Nat} (hm : TopNz m) {l : Nat}
    (hl : 4 * l + 1 ≤ m.length)
    (hrec : SqrtOk (val (m.drop (2 * l))) (rec (m.drop (2 * l)))) :
    SqrtOk (val m) (sqrtLevel rec m l) := by
  obtain ⟨hS, hRw, hM2, hR, hSR⟩ := hrec
  unfold sqrtLevel
  dsimp only
  have h0w : Wf (m.take l) := hm.1.take _
  have h1w : Wf ((m.take (2 * l)).drop l) := (hm.1.take _).drop _
  have h0l : (m.take l).length = l := by simp; omega
  have h1l : ((m.take (2 * l)).drop l).length = l := by simp; omega
  have hmv : val m = val (m.take l) + B ^ l * val ((m.take (2 * l)).drop l) +
      B ^ l * B ^ l * val (m.drop (2 * l)) := by
    rw [val_take_drop m (2 * l) (by omega), val_take_drop (m.take (2 * l)) l (by simp; omega),
      List.take_take, min_eq_left (by omega), two_mul, pow_add]
  have hm2 : TopNz (m.drop (2 * l)) := hm.drop (by omega)
  have hm2l : (m.drop (2 * l)).length = m.length - 2 * l := by simp
  rw [hM2] at hmv
  have hM2' : B ^ (2 * l) ≤ val (rec (m.drop (2 * l))).1 * val (rec (m.drop (2 * l))).1 +
      val (rec (m.drop (2 * l))).2 := by
    rw [← hM2]
    exact le_trans (Nat.pow_le_pow_right B_pos (by omega)) hm2.2.2
  generalize rec (m.drop (2 * l)) = sr at *
  obtain ⟨s, r⟩ := sr
  dsimp only at *
  clear hM2 hm2 hm2l
  have h0lt := val_lt h0w
  rw [h0l] at h0lt
  have h1lt := val_lt h1w
  rw [h1l] at h1lt
  generalize m.take l = m0 at *
  generalize (m.take (2 * l)).drop l = m1 at *
  rw [hmv]
  clear hl hmv hm
  -- b ≤ S
  have hbpos := B_pow_pos l
  have hbS : B ^ l ≤ val s := by
    by_contra hc
    rw [two_mul, pow_add] at hM2'
    have h1 : (val s + 1) * (val s + 1) ≤ B ^ l * B ^ l := Nat.mul_le_mul (by omega) (by omega)
    have : (val s + 1) * (val s + 1) = val s * val s + 2 * val s + 1 := by ring
    omega
  clear hM2'
  have hslt := val_lt hS.1
  -- r * b + m1
  obtain ⟨x1, x2, x3⟩ := tryExtend_spec hRw l
  generalize tryExtend r ((r.length + l) * 64) = rx at *
  have hrlt := val_lt hRw
  have hbr : B ^ l * (val r + 1) ≤ B ^ (r.length + l) := by
    rw [Nat.add_comm r.length l, pow_add]; exact Nat.mul_le_mul_left _ hrlt
  obtain ⟨y1, y2, y3, y4⟩ := addAssign_pos x2 h1w (by rw [x1, x3]; nlinarith)
  generalize (SS.addAssign ⟨false, rx⟩ ⟨false, m1⟩).m = ry at *
  rw [x3] at y3
  rw [x1] at y1
  clear y4 x1 x2 x3 rx
  -- the divisor
  rw [findOne_top hS]
  simp only [Option.getD_some]
  have hsz0 : 0 < Nat.size (val s) := Nat.size_pos.2 hS.pos
  have hsz1 : Nat.size (val s) ≤ 64 * s.length := Nat.size_le.2 (by rw [← B_pow]; exact hslt)
  have hszl : 2 ^ (Nat.size (val s) - 1) ≤ val s := by
    have := (Nat.lt_size (m := Nat.size (val s) - 1) (n := val s)).1 (by omega)
    exact this
  have hszu : val s < 2 ^ Nat.size (val s) := Nat.lt_size_self _
  obtain ⟨t, ht⟩ : ∃ t, 64 * (s.length + 1) - Nat.size (val s) = t + 1 := ⟨_, (Nat.succ_pred (by omega)).symm⟩
  rw [ht, Nat.add_sub_cancel]
  have hw2 : Wf (s ++ [0]) := wf_append.2 ⟨hS.1, Wf.cons B_pos Wf.nil⟩
  have hv2 : val (s ++ [0]) = val s := by simpa using val_append_zeros 1 s
  have hp2 : 2 ^ Nat.size (val s) * 2 ^ (t + 1) = B ^ (s.length + 1) := by
    rw [B_pow, ← pow_add]; congr 1; omega
  have hd2 : val (shiftLeft (s ++ [0]) (t + 1)) = 2 * val s * 2 ^ t := by
    rw [val_shiftLeft hw2, hv2, Nat.mod_eq_of_lt, pow_succ]
    · ring
    · rw [List.length_append, List.length_singleton, ← hp2]
      exact Nat.mul_lt_mul_of_pos_right hszu (by positivity)
  have hD : TopSet (shiftLeft (s ++ [0]) (t + 1)) := by
    refine ⟨shiftLeft_wf hw2 _, by simp, ?_⟩
    rw [hd2, shiftLeft_length, List.length_append, List.length_singleton, ← hp2]
    have e : 2 ^ Nat.size (val s) = 2 ^ (Nat.size (val s) - 1) * 2 := by
      rw [← pow_succ]; congr 1; omega
    rw [e, pow_succ]
    have := Nat.mul_le_mul_right (2 * 2 * 2 ^ t) hszl
    nlinarith
  have hDl : (shiftLeft (s ++ [0]) (t + 1)).length = s.length + 1 := by simp
  generalize shiftLeft (s ++ [0]) (t + 1) = D at *
  -- the dividend
  obtain ⟨z1, z2, z3⟩ := tryExtend2_spec y2 (ry.length + 1)
  generalize tryExtend2 ry ((ry.length + 1) * 64) = rz at *
  have z1' : rz.length = r.length + l + 1 := by rw [z1, y1]; omega
  have hN : val (shiftLeft rz t) = (B ^ l * val r + val m1) * 2 ^ t := by
    rw [val_shiftLeft z2, z3, y3, Nat.mod_eq_of_lt]
    rw [z1']
    have e1 : B ^ l * val r + val m1 < B ^ l * (2 * 2 ^ Nat.size (val s)) := by
      have : B ^ l * (val r + 1) ≤ B ^ l * (2 * 2 ^ Nat.size (val s)) := Nat.mul_le_mul_left _ (by omega)
      rw [Nat.mul_add] at this
      omega
    calc (B ^ l * val r + val m1) * 2 ^ t < B ^ l * (2 * 2 ^ Nat.size (val s)) * 2 ^ t :=
          Nat.mul_lt_mul_of_pos_right e1 (by positivity)
      _ = B ^ l * B ^ (s.length + 1) := by rw [← hp2, pow_succ]; ring
      _ ≤ B ^ (r.length + l + 1) := by
        rw [← pow_add]; exact Nat.pow_le_pow_right B_pos (by omega)
  have hNw : Wf (shiftLeft rz t) := shiftLeft_wf z2 _
  have hNl : (shiftLeft rz t).length = r.length + l + 1 := by simp [z1']
  generalize shiftLeft rz t = N at *
  clear z1 z2 z3 z1' rz y1 y2 y3 ry
  obtain ⟨⟨d1, d2, d3, d4⟩, d5, d6⟩ := divWords_spec hNw hD
  obtain ⟨d7, d8⟩ := d6 (by omega)
  generalize divWords N D = qu at *
  obtain ⟨q, u'⟩ := qu
  dsimp only at *
  rw [hN, hd2] at d3
  rw [hd2] at d4
  -- the remainder
  have hu : B ^ l * val r + val m1 = val q * (2 * val s) + val u' / 2 ^ t ∧ val u' / 2 ^ t < 2 * val s := by
    have hp : 0 < 2 ^ t := by positivity
    have hle : val q * (2 * val s) ≤ B ^ l * val r + val m1 := by
      refine Nat.le_of_mul_le_mul_right ?_ hp
      rw [d3, Nat.mul_assoc]
      omega
    obtain ⟨k, hk⟩ := Nat.exists_eq_add_of_le hle
    have e : val u' = k * 2 ^ t := by
      rw [hk, Nat.add_mul, Nat.mul_assoc] at d3
      omega
    refine ⟨by rw [e, Nat.mul_div_cancel _ hp]; exact hk, ?_⟩
    rw [e, Nat.mul_div_cancel _ hp]
    rw [e] at d4
    exact Nat.lt_of_mul_lt_mul_right d4
  have hUw : Wf (shiftRight u' t) := shiftRight_wf d2 _
  have hUv : val (shiftRight u' t) = val u' / 2 ^ t := val_shiftRight d2 _
  have hUl : (shiftRight u' t).length = u'.length := by simp
  rw [← hUv] at hu
  rw [← hUl] at d8
  generalize shiftRight u' t = U at *
  clear hUv hUl d2 d3 d4 d5 d6 hN hNw hd2 hD hp2 ht hsz0 hsz1 hszl hszu hw2 hv2
  obtain ⟨hd, hu2⟩ := hu
  obtain ⟨a1, a2, a3, a4⟩ := sqrt_arith (b := ((B ^ l : ℕ) : ℤ)) (S := val s) (R := val r) (M0 := val m0)
    (M1 := val m1) (q := val q) (u := val U) (by exact_mod_cast hbpos) (by exact_mod_cast hbS)
    (by positivity) (by exact_mod_cast hR) (by positivity) (by exact_mod_cast h0lt) (by positivity)
    (by exact_mod_cast h1lt) (by positivity) (by positivity) (by exact_mod_cast hu2)
    (by exact_mod_cast hd)
  clear hd
  have hqb : val q ≤ B ^ l := by exact_mod_cast a1
  obtain ⟨s1, s2, s3⟩ := mulWords_spec d1 d1 (len := q.length * 2) (by omega)
  generalize mulWords q q (q.length * 2) = qs at *
  -- s * b + q
  obtain ⟨e1, e2, e3⟩ := tryExtend_spec hS.1 l
  generalize tryExtend s ((s.length + l) * 64) = sx at *
  obtain ⟨f1, f2, f3⟩ := tryExtend2_spec e2 (sx.length + 1)
  generalize tryExtend2 sx ((sx.length + 1) * 64) = sy at *
  have f1' : sy.length = s.length + l + 1 := by rw [f1, e1]; omega
  rw [e3] at f3
  have hpl : B ^ (s.length + l + 1) = B ^ l * B ^ s.length * B := by rw [← pow_add, ← pow_succ]; congr 1; omega
  have hB2 : 4 ≤ B := by unfold B; norm_num
  have hbs1 : B ^ l * (val s + 1) ≤ B ^ l * B ^ s.length := Nat.mul_le_mul_left _ hslt
  have hbig : B ^ l * B ^ s.length * 4 ≤ B ^ (s.length + l + 1) := by
    rw [hpl]; exact Nat.mul_le_mul_left _ hB2
  obtain ⟨g1, g2, g3, g4⟩ := addAssign_pos f2 d1 (by rw [f1', f3]; rw [Nat.mul_add] at hbs1; omega)
  rw [f1'] at g1
  rw [f3] at g3
  have hsz : (SS.addAssign ⟨false, sy⟩ ⟨false, q⟩).toZ = (B ^ l * val s + val q : ℕ) := by
    unfold SS.toZ; rw [g4, g3]; simp
  generalize SS.addAssign ⟨false, sy⟩ ⟨false, q⟩ = s' at *
  clear e1 e2 e3 f1 f2 f3 f1'
  -- u * b + m0 - q^2
  obtain ⟨i1, i2, i3⟩ := tryExtend_spec hUw l
  generalize tryExtend U ((U.length + l) * 64) = ux at *
  have hlen : B ^ (s.length + l + 1) ≤ B ^ ux.length := Nat.pow_le_pow_right B_pos (by omega)
  have hub : B ^ l * (val U + 1) ≤ 2 * (B ^ l * val s) := by
    calc B ^ l * (val U + 1) ≤ B ^ l * (2 * val s) := Nat.mul_le_mul_left _ (by omega)
      _ = _ := by ring
  rw [Nat.mul_add] at hub hbs1
  obtain ⟨j1, j2, j3, j4⟩ := addAssign_pos i2 h0w (by rw [i3]; omega)
  have hrz : (SS.addAssign ⟨false, ux⟩ ⟨false, m0⟩).toZ = (B ^ l * val U + val m0 : ℕ) := by
    unfold SS.toZ; rw [j4, j3, i3]; simp
  generalize SS.addAssign ⟨false, ux⟩ ⟨false, m0⟩ = r1 at *
  have hqq : val q * val q ≤ B ^ l * val s := Nat.mul_le_mul hqb (hqb.trans hbS)
  obtain ⟨T, hT⟩ : ∃ T : ℤ, T = (val U : ℤ) * ((B ^ l : ℕ) : ℤ) + val m0 - val q * val q := ⟨_, rfl⟩
  rw [← hT] at a2 a3 a4
  have hqsz : SS.toZ ⟨false, qs⟩ = (val q * val q : ℕ) := by unfold SS.toZ; simp [s3]
  have hTb : T < 2 * ((B ^ l * val s : ℕ) : ℤ) ∧ -((B ^ l * val s : ℕ) : ℤ) ≤ T := by
    have h1 : ((B ^ l * val U + val m0 : ℕ) : ℤ) < 2 * ((B ^ l * val s : ℕ) : ℤ) := by
      exact_mod_cast (show B ^ l * val U + val m0 < 2 * (B ^ l * val s) by omega)
    have h2 : ((val q * val q : ℕ) : ℤ) ≤ ((B ^ l * val s : ℕ) : ℤ) := by exact_mod_cast hqq
    have h3 : 0 ≤ (val U : ℤ) * ((B ^ l : ℕ) : ℤ) + val m0 := by positivity
    push_cast at h1 h2 ⊢
    push_cast at h3 hT
    constructor
    · have := mul_self_nonneg ((val q : ℤ)); nlinarith
    · linarith
  have hX : 4 * ((B ^ l * val s : ℕ) : ℤ) < ((B ^ r1.m.length : ℕ) : ℤ) := by
    rw [j1]
    exact_mod_cast (show 4 * (B ^ l * val s) < B ^ ux.length by omega)
  have hqZ : (val q : ℤ) ≤ ((B ^ l * val s : ℕ) : ℤ) := by
    exact_mod_cast hqb.trans (Nat.le_mul_of_pos_right _ hS.pos)
  obtain ⟨k1, k2, k3⟩ := SS.addSubAssign_spec (s1 := r1) (s2 := ⟨false, qs⟩) j2 s2 false (r := T)
    (by rw [hrz, hqsz, hT]; push_cast; ring) (by
      rw [_root_.abs_lt]
      constructor <;> linarith [hTb.1, hTb.2])
  have ksub : r1.subAssign ⟨false, qs⟩ = r1.addSubAssign ⟨false, qs⟩ false := rfl
  rw [ksub]
  generalize r1.addSubAssign ⟨false, qs⟩ false = r2 at *
  rw [← k1] at hX
  have hlr : s.length + l ≤ r2.m.length := by rw [k1, j1, i1]; omega
  clear ksub k1 hqsz
  have hMeq : val m0 + B ^ l * val m1 + B ^ l * B ^ l * (val s * val s + val r) =
      val m0 + B ^ l * val m1 + B ^ l * B ^ l * (val s * val s + val r) := rfl
  obtain ⟨M, hM⟩ : ∃ M, M = val m0 + B ^ l * val m1 + B ^ l * B ^ l * (val s * val s + val r) := ⟨_, rfl⟩
  have hMlt : M < (B ^ l * B ^ s.length) * (B ^ l * B ^ s.length) := by
    have h1 : (val s + 1) * (val s + 1) ≤ B ^ s.length * B ^ s.length := Nat.mul_le_mul hslt hslt
    have h2 : B ^ l * B ^ l * (val s * val s + val r + 1) ≤ B ^ l * B ^ l * (B ^ s.length * B ^ s.length) :=
      Nat.mul_le_mul_left _ (by nlinarith)
    have h3 : B ^ l * (val m1 + 1) ≤ B ^ l * B ^ l := Nat.mul_le_mul_left _ h1lt
    have h4 : (B ^ l * B ^ s.length) * (B ^ l * B ^ s.length) = B ^ l * B ^ l * (B ^ s.length * B ^ s.length) := by
      ring
    rw [Nat.mul_add] at h2 h3
    rw [h4, hM]
    omega
  rw [← hM]
  have a2' : (M : ℤ) = ((B ^ l * val s + val q : ℕ) : ℤ) * ((B ^ l * val s + val q : ℕ) : ℤ) + T := by
    rw [hM]; push_cast; push_cast at a2; linear_combination a2
  -- closing both branches
  have close : ∀ (s3 r3 : SS), Wf s3.m → Wf r3.m → s3.m.length = s.length + l + 1 →
      r3.m.length = r2.m.length → (s.length + l ≤ r2.m.length) → val s3.m * val s3.m + val r3.m = M →
      val r3.m ≤ 2 * val s3.m → B ^ l * val s ≤ val s3.m →
      SqrtOk M (s3.m.take (s3.m.length - 1), r3.m) := by
    intro s3 r3 c1 c2 c3 c4 c5 c6 c7 c8
    have hlt : val s3.m < B ^ (s.length + l) := by
      by_contra hc
      have h1 : B ^ (s.length + l) = B ^ l * B ^ s.length := by rw [← pow_add, Nat.add_comm]
      rw [h1] at hc
      have := Nat.mul_le_mul (Nat.le_of_not_lt hc) (Nat.le_of_not_lt hc)
      omega
    have hv : val (s3.m.take (s3.m.length - 1)) = val s3.m := by
      rw [val_take c1, c3, Nat.add_sub_cancel, Nat.mod_eq_of_lt hlt]
    have hsl := hS.2.1
    have hll : (s3.m.take (s3.m.length - 1)).length = s.length + l := by
      rw [List.length_take, c3]; omega
    refine ⟨⟨c1.take _, by rw [hll]; omega, ?_⟩, c2, by dsimp only; rw [hv]; exact c6.symm,
      by dsimp only; rw [hv]; exact c7, by dsimp only; rw [hll, c4]; exact c5⟩
    dsimp only
    rw [hv, hll]
    refine le_trans ?_ c8
    calc B ^ (s.length + l - 1) = B ^ l * B ^ (s.length - 1) := by rw [← pow_add]; congr 1; omega
      _ ≤ _ := Nat.mul_le_mul_left _ hS.2.2
  by_cases hneg : (r2.neg && r2.m.any (· ≠ 0)) = true
  · rw [if_pos hneg]
    rw [SS.neg_iff, k3] at hneg
    obtain ⟨n1, n2, n3⟩ := a4 hneg
    have hsx : ((B ^ l * val s + val q : ℕ) : ℤ) = ((B ^ l * val s : ℕ) : ℤ) + val q := by push_cast; ring
    have hsy : ((B ^ l * val s : ℕ) : ℤ) = ((B ^ l : ℕ) : ℤ) * (val s : ℤ) := by push_cast; ring
    rw [← hsy] at n1 n2
    have hp : (0 : ℤ) ≤ ((B ^ l * val s : ℕ) : ℤ) := by positivity
    obtain ⟨o1, o2, o3, v1, v2, v3⟩ := sqrtCorrect k2 g2 k3 hsz (by rw [hsx]; linarith)
      hneg (by rw [hsx]; linarith)
    generalize ((r2.addAssign s').addAssign s').subAssign ⟨false, [1]⟩ = r5 at *
    generalize s'.subAssign ⟨false, [1]⟩ = s5 at *
    refine close s5 r5 v2 o2 (by rw [v1, g1]) o1 hlr ?_ ?_ ?_
    · have : ((val s5.m * val s5.m + val r5.m : ℕ) : ℤ) = M := by
        rw [a2', Nat.cast_add, Nat.cast_mul, v3, o3]; ring
      exact_mod_cast this
    · have : (val r5.m : ℤ) ≤ 2 * (val s5.m : ℤ) := by rw [v3, o3, hsx]; linarith
      exact_mod_cast this
    · have : ((B ^ l * val s : ℕ) : ℤ) ≤ (val s5.m : ℤ) := by
        rw [v3, hsx]
        linarith
      exact_mod_cast this
  · rw [if_neg hneg]
    rw [SS.neg_iff, k3] at hneg
    have hT0 : 0 ≤ T := by omega
    have hr2 : (val r2.m : ℤ) = T := by rw [← SS.abs_toZ, k3, abs_of_nonneg hT0]
    refine close s' r2 g2 k2 g1 rfl hlr ?_ ?_ (by rw [g3]; omega)
    · have : ((val s'.m * val s'.m + val r2.m : ℕ) : ℤ) = M := by
        rw [a2', g3]; push_cast; rw [hr2]
      exact_mod_cast this
    · have := a3 hT0
      have h2 : (val r2.m : ℤ) ≤ ((2 * val s'.m : ℕ) : ℤ) := by
        rw [hr2, g3]; push_cast; push_cast at this; linarith
      exact_mod_cast h2

theorem sqrtRemFuel_spec (f : Nat) : ∀ m, TopNz m → m.length ≤ f →
    SqrtOk (val m) (sqrtRemFuel f m) := by
  induction f with
  | zero => intro m hm hf; have := hm.2.1; omega
  | succ f ih =>
    intro m hm hf
    have h0 := hm.2.1
    rw [sqrtRemFuel]
    rw [hm.trunc_eq, if_neg (by omega)]
    split
    · exact sqrtRemBasic_spec hm
    · refine sqrtLevel_spec hm (by omega) (ih _ (hm.drop (by omega)) ?_)
      rw [List.length_drop]; omega

/-- `sqrt_rem` returns the integer square root and the remainder. -/
theorem sqrtRem_spec {m : List Nat} (hm : TopNz m) : SqrtOk (val m) (sqrtRem m) :=
  sqrtRemFuel_spec _ m hm (by omega)

end AF
