import Verif.Lemmas.Op
/-!
# C41: rounded arithmetic is monotone
-/

namespace AF

/-- Whichever operations and operands they come from, results at the same precision and rounding mode
are ordered like the exact results. -/
theorem C41_monotone (op op' : Op) (x y x' y' : Num) (hx : x.WF) (hy : y.WF) (hx' : x'.WF)
    (hy' : y'.WF) (hd : op.Dom (y.toK : ℚ)) (hd' : op'.Dom (y'.toK : ℚ)) (p : Nat) (hp : ValidP p)
    (rm : RM) (hn : NormalRange rm (precBits p) (op.exact (x.toK : ℚ) y.toK))
    (hn' : NormalRange rm (precBits p) (op'.exact (x'.toK : ℚ) y'.toK))
    (hle : op.exact (x.toK : ℚ) y.toK ≤ op'.exact (x'.toK : ℚ) y'.toK) :
    ∃ v w, op.apply (.num x) (.num y) p rm = .num v ∧ op'.apply (.num x') (.num y') p rm = .num w ∧
      (v.toK : ℚ) ≤ w.toK := by
  obtain ⟨v, h1, _, h2⟩ := (op.delivers (K := ℚ) hx hy hd hp rm).normal hn
  obtain ⟨w, h3, _, h4⟩ := (op'.delivers (K := ℚ) hx' hy' hd' hp rm).normal hn'
  exact ⟨v, w, h1, h3, h2.mono (precBits_pos hp.pos) h4 hle⟩

theorem C41_add_monotone (x y z : Num) (hx : x.WF) (hy : y.WF) (hz : z.WF) (p : Nat) (hp : ValidP p)
    (rm : RM) (hxy : (x.toK : ℚ) ≤ y.toK)
    (hn : NormalRange rm (precBits p) (x.toK + z.toK : ℚ))
    (hn' : NormalRange rm (precBits p) (y.toK + z.toK : ℚ)) :
    ∃ v w, BF.add (.num x) (.num z) p rm = .num v ∧ BF.add (.num y) (.num z) p rm = .num w ∧
      (v.toK : ℚ) ≤ w.toK :=
  C41_monotone .add .add x z y z hx hz hy hz trivial trivial p hp rm hn hn'
    (by show (x.toK + z.toK : ℚ) ≤ y.toK + z.toK; linarith)

theorem C41_mul_monotone (x y z : Num) (hx : x.WF) (hy : y.WF) (hz : z.WF) (p : Nat) (hp : ValidP p)
    (rm : RM) (hxy : (x.toK : ℚ) ≤ y.toK) (hz0 : (0 : ℚ) ≤ z.toK)
    (hn : NormalRange rm (precBits p) (x.toK * z.toK : ℚ))
    (hn' : NormalRange rm (precBits p) (y.toK * z.toK : ℚ)) :
    ∃ v w, BF.mul (.num x) (.num z) p rm = .num v ∧ BF.mul (.num y) (.num z) p rm = .num w ∧
      (v.toK : ℚ) ≤ w.toK :=
  C41_monotone .mul .mul x z y z hx hz hy hz trivial trivial p hp rm hn hn'
    (by show (x.toK * z.toK : ℚ) ≤ y.toK * z.toK; exact mul_le_mul_of_nonneg_right hxy hz0)

/-- In the directed modes (and `None`) the order is kept below the normal range as well. -/
theorem C41_monotone_directed (op op' : Op) (x y x' y' : Num) (hx : x.WF) (hy : y.WF) (hx' : x'.WF)
    (hy' : y'.WF) (hd : op.Dom (y.toK : ℚ)) (hd' : op'.Dom (y'.toK : ℚ)) (p : Nat) (hp : ValidP p)
    (rm : RM) (hrm : rm.nearest = false) (v w : Num)
    (hv : op.apply (.num x) (.num y) p rm = .num v) (hw : op'.apply (.num x') (.num y') p rm = .num w)
    (hle : op.exact (x.toK : ℚ) y.toK ≤ op'.exact (x'.toK : ℚ) y'.toK) :
    (v.toK : ℚ) ≤ w.toK := by
  have h1 := op.delivers (K := ℚ) hx hy hd hp rm
  have h2 := op'.delivers (K := ℚ) hx' hy' hd' hp rm
  rw [hv] at h1
  rw [hw] at h2
  exact (Delivers.directed h1 hrm).mono (precBits_pos hp.pos) (Delivers.directed h2 hrm) hle

example : ∃ v w, BF.mul (.num exB) (.num exA) 64 .up = .num v ∧
    BF.mul (.num exA) (.num exA) 64 .up = .num w ∧ (v.toK : ℚ) ≤ w.toK :=
  C41_mul_monotone exB exA exA exB_WF exA_WF exA_WF 64 ValidP_64 .up
    (by rw [exA_val, exB_val]; norm_num) (by rw [exA_val]; norm_num)
    (NormalRange.of_bounds (by decide) (a := -4) (b := 1)
      (by rw [exA_val, exB_val, abs_of_neg (by norm_num)]; norm_num)
      (by rw [exA_val, exB_val, abs_of_neg (by norm_num)]; norm_num) (by decide) (by decide))
    (NormalRange.of_bounds (by decide) (a := 0) (b := 1)
      (by rw [exA_val, abs_of_pos (by norm_num)]; norm_num)
      (by rw [exA_val, abs_of_pos (by norm_num)]; norm_num) (by decide) (by decide))

example : ∃ v w, BF.add (.num exB) (.num exA) 64 .toOdd = .num v ∧
    BF.add (.num exA) (.num exA) 64 .toOdd = .num w ∧ (v.toK : ℚ) ≤ w.toK :=
  C41_add_monotone exB exA exA exB_WF exA_WF exA_WF 64 ValidP_64 .toOdd
    (by rw [exA_val, exB_val]; norm_num)
    (NormalRange.of_bounds (by decide) (a := -1) (b := 1)
      (by rw [exA_val, exB_val, abs_of_pos (by norm_num)]; norm_num)
      (by rw [exA_val, exB_val, abs_of_pos (by norm_num)]; norm_num) (by decide) (by decide))
    (NormalRange.of_bounds (by decide) (a := 0) (b := 2)
      (by rw [exA_val, abs_of_pos (by norm_num)]; norm_num)
      (by rw [exA_val, abs_of_pos (by norm_num)]; norm_num) (by decide) (by decide))

end AF
