import Verif.Lemmas.FftDecomp
/-!
# Weights, products of parts, and putting the parts together (fft.rs)
-/

namespace AF

theorem fftWeight_spec {last : Nat} (hl : 1 ≤ last) (t : Nat) (l : List SS) (hp : ∀ x ∈ l, Part last x) (j : Nat) :
    (fftWeight last (fftModulus last) t j l).length = l.length ∧
    (∀ x ∈ fftWeight last (fftModulus last) t j l, Part last x) ∧
    ∀ i, rz last (fftWeight last (fftModulus last) t j l) i = rz last l i * 2 ^ (t * (j + i)) := by
  induction l generalizing j with
  | nil => simp [fftWeight, rz]
  | cons x l ih =>
    obtain ⟨i1, i2, i3⟩ := ih (fun y hy => hp y (by simp [hy])) (j + 1)
    obtain ⟨m1, m2⟩ := fftMulMod_spec hl (hp x (by simp)) (t * j)
    rw [fftWeight]
    refine ⟨by simp [i1], ?_, ?_⟩
    · intro y hy
      rcases List.mem_cons.1 hy with rfl | hy
      · exact m1
      · exact i2 y hy
    · intro i
      cases i with
      | zero => rw [rz_zero, rz_zero, m2, Nat.add_zero j]
      | succ i => rw [rz_succ, rz_succ, i3, show j + (i + 1) = j + 1 + i by omega]

theorem fftPointwise_spec {mul : MulFn} {last : Nat} (hl : 1 ≤ last)
    (hmul : ∀ a b : List Nat, Wf a → Wf b → a.length = last + 1 → b.length = last + 1 →
      (mul a b (2 * (last + 1))).length = 2 * (last + 1) ∧ Wf (mul a b (2 * (last + 1))) ∧
        val (mul a b (2 * (last + 1))) = val a * val b)
    (as bs : List SS) (hlen : as.length = bs.length) (ha : ∀ x ∈ as, Part last x) (hb : ∀ x ∈ bs, Part last x) :
    (fftPointwise mul last (fftModulus last) as bs).length = as.length ∧
    (∀ x ∈ fftPointwise mul last (fftModulus last) as bs, Part last x) ∧
    ∀ i, rz last (fftPointwise mul last (fftModulus last) as bs) i = rz last as i * rz last bs i := by
  induction as generalizing bs with
  | nil => simp [fftPointwise, rz]
  | cons a as ih =>
    match bs, hlen, hb with
    | b :: bs, hlen, hb =>
      obtain ⟨i1, i2, i3⟩ := ih bs (by simpa using hlen) (fun y hy => ha y (by simp [hy]))
        (fun y hy => hb y (by simp [hy]))
      have pa := ha a (by simp)
      have pb := hb b (by simp)
      obtain ⟨u1, u2, u3⟩ := hmul a.m b.m pa.wf pb.wf pa.len pb.len
      have hv : val (mul a.m b.m (2 * (last + 1))) ≤ B ^ (2 * last) := by
        rw [u3, two_mul, pow_add]; exact Nat.mul_le_mul pa.le pb.le
      obtain ⟨q1, q2⟩ := fftMulMod_product hl u2 u1 hv
      rw [fftPointwise, pa.neg, pb.neg]
      simp only [bne_self_eq_false]
      refine ⟨by simp [i1], ?_, ?_⟩
      · intro y hy
        rcases List.mem_cons.1 hy with rfl | hy
        · exact q1
        · exact i2 y hy
      · intro i
        cases i with
        | zero =>
          rw [rz_zero, rz_zero, rz_zero, q2, u3, pz, pz]; push_cast; rfl
        | succ i => rw [rz_succ, rz_succ, rz_succ, i3]

theorem FR.two_unit {last : Nat} (h0 : 1 ≤ last) (e : Nat) (x y : FR last) (h : x * 2 ^ e = y * 2 ^ e) : x = y := by
  have hinv : (2 : FR last) * (-(2 ^ (64 * last - 1))) = 1 := by
    rw [mul_neg, ← pow_succ', show 64 * last - 1 + 1 = 64 * last by omega, FR.two_pow, neg_neg]
  have hu : (2 : FR last) ^ e * (-(2 ^ (64 * last - 1))) ^ e = 1 := by rw [← mul_pow, hinv, one_pow]
  calc x = x * 2 ^ e * (-(2 ^ (64 * last - 1))) ^ e := by rw [mul_assoc, hu, mul_one]
    _ = y := by rw [h, mul_assoc, hu, mul_one]

theorem FR.natCast_inj {last a b : Nat} (ha : a ≤ B ^ last) (hb : b ≤ B ^ last) (h : (a : FR last) = (b : FR last)) :
    a = b := by
  have := (ZMod.natCast_eq_natCast_iff a b (B ^ last + 1)).1 h
  exact Nat.ModEq.eq_of_lt_of_lt this (by omega) (by omega)

theorem fftCompose_spec {last : Nat} (hl : 1 ≤ last) (p : FftParams) (hm : 1 ≤ p.m) (Y : Nat → Nat)
    (hY : ∀ n, Y n ≤ B ^ last) (xs : List SS) (hp : ∀ x ∈ xs, Part last x) (j : Nat)
    (hx : ∀ i, i < xs.length → rz last xs i = (Y (j + i) : FR last) * 2 ^ (p.k + p.t * (j + i)))
    (d3 : List Nat) (hd : Wf d3) (hlow : val d3 ≤ B ^ last * 2 ^ (j * p.m))
    (htot : val d3 + ∑ i ∈ Finset.range xs.length, Y (j + i) * 2 ^ ((j + i) * p.m) < B ^ d3.length) :
    (fftCompose last (fftModulus last) p j xs d3).length = d3.length ∧
    Wf (fftCompose last (fftModulus last) p j xs d3) ∧
    val (fftCompose last (fftModulus last) p j xs d3) =
      val d3 + ∑ i ∈ Finset.range xs.length, Y (j + i) * 2 ^ ((j + i) * p.m) := by
  induction xs generalizing j d3 with
  | nil => simp [fftCompose, hd]
  | cons x xs ih =>
    obtain ⟨v1, v2⟩ := fftDivMod_spec hl (hp x (by simp)) (p.k + p.t * j)
    have hx0 := hx 0 (by simp)
    rw [rz_zero, Nat.add_zero j] at hx0
    have hyv : val (fftDivMod last (fftModulus last) x (p.k + p.t * j)).m = Y j := by
      rw [hx0] at v2
      exact FR.natCast_inj v1.le (hY j) (FR.two_unit hl _ _ _ v2)
    rw [fftCompose]
    dsimp only
    generalize fftDivMod last (fftModulus last) x (p.k + p.t * j) = y at *
    have hfix : fftFixSign (fftModulus last) (wd y.m last + 2) y = y := by
      rw [show wd y.m last + 2 = wd y.m last + 1 + 1 by omega, fftFixSign, if_neg (by rw [v1.neg]; simp)]
    rw [hfix]
    have hsum : ∑ i ∈ Finset.range (x :: xs).length, Y (j + i) * 2 ^ ((j + i) * p.m) =
        Y j * 2 ^ (j * p.m) + ∑ i ∈ Finset.range xs.length, Y (j + 1 + i) * 2 ^ ((j + 1 + i) * p.m) := by
      rw [List.length_cons, Finset.sum_range_succ', Nat.add_zero, Nat.add_comm]
      congr 1
      refine Finset.sum_congr rfl fun i _ => ?_
      rw [show j + (i + 1) = j + 1 + i by omega]
    have hj2 : 2 ^ (j * p.m) = B ^ (j * p.m / 64) * 2 ^ (j * p.m % 64) := by
      rw [B_pow, ← pow_add]; congr 1; omega
    by_cases hi : j * p.m / 64 ≥ d3.length
    · rw [if_pos hi]
      refine ⟨rfl, hd, ?_⟩
      rw [Finset.sum_eq_zero, Nat.add_zero]
      intro i hi2
      have h1 : Y (j + i) * 2 ^ ((j + i) * p.m) ≤
          ∑ i ∈ Finset.range (x :: xs).length, Y (j + i) * 2 ^ ((j + i) * p.m) :=
        Finset.single_le_sum (f := fun i => Y (j + i) * 2 ^ ((j + i) * p.m)) (fun i _ => Nat.zero_le _) hi2
      have h2 : B ^ d3.length ≤ 2 ^ ((j + i) * p.m) := by
        rw [B_pow]
        refine Nat.pow_le_pow_right (by norm_num) ?_
        have : j * p.m ≤ (j + i) * p.m := Nat.mul_le_mul_right _ (by omega)
        omega
      rcases Nat.eq_zero_or_pos (Y (j + i)) with h | h
      · rw [h, Nat.zero_mul]
      · have : 2 ^ ((j + i) * p.m) ≤ Y (j + i) * 2 ^ ((j + i) * p.m) := Nat.le_mul_of_pos_left _ h
        omega
    · rw [if_neg hi]
      rw [hsum] at htot
      have hstep : ∀ L, L + j * p.m / 64 ≤ d3.length →
          (val d3 / B ^ (j * p.m / 64)) % B ^ L + Y j * 2 ^ (j * p.m % 64) < B ^ L → 
          (d3.take (j * p.m / 64) ++ (SS.addAssign ⟨false, (d3.drop (j * p.m / 64)).take L⟩
            (y.shl (j * p.m % 64))).m ++ d3.drop (j * p.m / 64 + L)).length = d3.length ∧
          Wf (d3.take (j * p.m / 64) ++ (SS.addAssign ⟨false, (d3.drop (j * p.m / 64)).take L⟩
            (y.shl (j * p.m % 64))).m ++ d3.drop (j * p.m / 64 + L)) ∧
          val (d3.take (j * p.m / 64) ++ (SS.addAssign ⟨false, (d3.drop (j * p.m / 64)).take L⟩
            (y.shl (j * p.m % 64))).m ++ d3.drop (j * p.m / 64 + L)) = val d3 + Y j * 2 ^ (j * p.m) := by
        intro L hL hb
        rw [hj2]
        generalize j * p.m / 64 = idx at *
        have hsh := Nat.mod_lt (j * p.m) (show 0 < 64 by norm_num)
        generalize j * p.m % 64 = sh at *
        have hw := (hd.drop idx).take L
        have hwl : ((d3.drop idx).take L).length = L := by rw [List.length_take, List.length_drop]; omega
        have hwv : val ((d3.drop idx).take L) = val d3 / B ^ idx % B ^ L := by
          rw [val_take (hd.drop _), val_drop hd]
        have hy2 : val (y.shl sh).m = Y j * 2 ^ sh := by
          unfold SS.shl
          dsimp only
          rw [val_shiftLeft v1.wf, hyv, v1.len]
          refine Nat.mod_eq_of_lt ?_
          rw [pow_succ]
          refine Nat.mul_lt_mul_of_le_of_lt (hY j) ?_ (B_pow_pos _)
          rw [B_eq]; exact Nat.pow_lt_pow_right (by norm_num) hsh
        obtain ⟨s1, s2, s3⟩ := SS.addSubAssign_spec (s1 := ⟨false, (d3.drop idx).take L⟩) (s2 := y.shl sh) hw
          (shiftLeft_wf v1.wf _) true (r := ((val d3 / B ^ idx % B ^ L + Y j * 2 ^ sh : ℕ) : ℤ)) (by
            have e1 : SS.toZ ⟨false, (d3.drop idx).take L⟩ = ((val d3 / B ^ idx % B ^ L : ℕ) : ℤ) := by
              unfold SS.toZ; dsimp only; rw [hwv]; simp
            have e2 : (y.shl sh).toZ = ((Y j * 2 ^ sh : ℕ) : ℤ) := by
              unfold SS.toZ
              rw [hy2]
              unfold SS.shl
              dsimp only
              rw [v1.neg]; simp
            rw [e1, e2]; push_cast; simp) (by
            rw [Nat.abs_cast]; dsimp only; rw [hwl]; exact_mod_cast hb)
        have s4 := SS.val_of_nonneg (x := SS.addSubAssign ⟨false, (d3.drop idx).take L⟩ (y.shl sh) true) (by
          rw [s3]; exact Int.natCast_nonneg _)
        rw [s3] at s4
        have s5 : val (SS.addAssign ⟨false, (d3.drop idx).take L⟩ (y.shl sh)).m =
            val d3 / B ^ idx % B ^ L + Y j * 2 ^ sh := by exact_mod_cast s4
        have s6 : (SS.addAssign ⟨false, (d3.drop idx).take L⟩ (y.shl sh)).m.length = L := by
          exact s1.trans hwl
        have s7 : Wf (SS.addAssign ⟨false, (d3.drop idx).take L⟩ (y.shl sh)).m := s2
        generalize (SS.addAssign ⟨false, (d3.drop idx).take L⟩ (y.shl sh)).m = out at *
        refine ⟨?_, wf_append.2 ⟨wf_append.2 ⟨hd.take _, s7⟩, hd.drop _⟩, ?_⟩
        · rw [List.length_append, List.length_append, List.length_take, List.length_drop, s6]; omega
        · rw [List.append_assoc, val_append, val_append, s5, s6, List.length_take, min_eq_left (by omega),
            val_take hd, val_drop hd, pow_add, ← Nat.div_div_eq_div_mul]
          have h1 := Nat.mod_add_div (val d3) (B ^ idx)
          have h2 := Nat.mod_add_div (val d3 / B ^ idx) (B ^ L)
          generalize val d3 / B ^ idx = q at *
          generalize q % B ^ L = q0 at *
          generalize q / B ^ L = q1 at *
          generalize val d3 % B ^ idx = q2 at *
          rw [← h1, ← h2]
          ring
      have hdiv : val d3 / B ^ (j * p.m / 64) ≤ B ^ last * 2 ^ (j * p.m % 64) := by
        refine Nat.div_le_of_le_mul ?_
        calc val d3 ≤ _ := hlow
          _ = _ := by rw [hj2]; ring
      obtain ⟨r1, r2, r3⟩ := hstep (if d3.length > j * p.m / 64 + (last + 1) + 2 then last + 1 + 2 else
          d3.length - j * p.m / 64) (by split <;> omega) (by
        split
        · have h1 : B ^ last * 2 ^ (j * p.m % 64) ≤ B ^ (last + 1) := by
            rw [pow_succ]
            refine Nat.mul_le_mul_left _ ?_
            rw [B_eq]; exact Nat.pow_le_pow_right (by norm_num) (by omega)
          have h2 : Y j * 2 ^ (j * p.m % 64) ≤ B ^ last * 2 ^ (j * p.m % 64) := Nat.mul_le_mul_right _ (hY j)
          have h3 := Nat.mod_le (val d3 / B ^ (j * p.m / 64)) (B ^ (last + 1 + 2))
          have h4 : 2 * B ^ (last + 1) < B ^ (last + 1 + 2) := by
            rw [pow_add B (last + 1) 2, Nat.mul_comm]
            exact Nat.mul_lt_mul_of_pos_left (by unfold B; norm_num) (B_pow_pos _)
          omega
        · have h3 := Nat.mod_le (val d3 / B ^ (j * p.m / 64)) (B ^ (d3.length - j * p.m / 64))
          refine lt_of_le_of_lt (Nat.add_le_add_right h3 _) ?_
          refine Nat.lt_of_mul_lt_mul_left (a := B ^ (j * p.m / 64)) ?_
          rw [← pow_add, Nat.add_sub_cancel' (by omega)]
          refine lt_of_le_of_lt ?_ (lt_of_le_of_lt (Nat.add_le_add_left (Nat.le_add_right _ _) _) htot)
          rw [Nat.mul_add, hj2]
          have h5 := Nat.mul_div_le (val d3) (B ^ (j * p.m / 64))
          refine Nat.add_le_add h5 (le_of_eq (by ring)))
      generalize (d3.take (j * p.m / 64) ++ _ ++ _ : List Nat) = d4 at *
      obtain ⟨i1, i2, i3⟩ := ih (fun y hy => hp y (by simp [hy])) (j + 1) (by
          intro i hi
          have := hx (i + 1) (by simp; omega)
          rw [rz_succ, show j + (i + 1) = j + 1 + i by omega] at this
          exact this) d4 r2 (by
          rw [r3, Nat.succ_mul, pow_add]
          have h1 : Y j * 2 ^ (j * p.m) ≤ B ^ last * 2 ^ (j * p.m) := Nat.mul_le_mul_right _ (hY j)
          have h2 : 2 ≤ 2 ^ p.m := by
            calc 2 = 2 ^ 1 := rfl
              _ ≤ _ := Nat.pow_le_pow_right (by norm_num) hm
          calc val d3 + Y j * 2 ^ (j * p.m) ≤ B ^ last * 2 ^ (j * p.m) * 2 := by omega
            _ ≤ B ^ last * 2 ^ (j * p.m) * 2 ^ p.m := Nat.mul_le_mul_left _ h2
            _ = _ := by ring) (by rw [r1, r3]; omega)
      refine ⟨by rw [i1, r1], i2, ?_⟩
      rw [i3, r3, hsum]; ring

end AF
