import Verif.SpecFun
import Verif.Lemmas.ExpLoop
import Verif.Lemmas.DecWide
import Verif.Model.Hyper
/-!
# The loop that functions have in common
-/

namespace AF

/-- A value that is neither too small nor too large. -/
def MidRange (y : ℝ) : Prop := ∃ q : ℤ, EMIN + 2 ≤ q ∧ q + 2 ≤ EMAX ∧ (2 : ℝ) ^ (q - 1) ≤ |y| ∧ |y| < 2 ^ q

theorem MidRange.of_bounds {y : ℝ} (h1 : (2 : ℝ) ^ (EMIN + 1) ≤ |y|) (h2 : |y| < 2 ^ (EMAX - 3)) : MidRange y := by
  have hy0 : 0 < |y| := lt_of_lt_of_le (by positivity) h1
  obtain ⟨q, q1, q2⟩ := exists_mem_Ico_zpow hy0 (by norm_num : (1 : ℝ) < 2)
  refine ⟨q + 1, ?_, ?_, by rw [show q + 1 - 1 = q by ring]; exact q1, q2⟩
  · have := (zpow_lt_zpow_iff_right₀ (by norm_num : (1 : ℝ) < 2)).1 (lt_of_le_of_lt h1 q2)
    omega
  · have := (zpow_lt_zpow_iff_right₀ (by norm_num : (1 : ℝ) < 2)).1 (lt_of_le_of_lt q1 h2)
    omega

theorem DecOk.fun {rm : RM} {P : Nat} {y : ℝ} {v : Num} (h : DecOk rm P y v) (hi : v.inexact = true) :
    FunRounded rm P y v where
  wf := h.wf
  prec := h.len
  pos := h.pos
  neg := h.neg
  inexact := hi
  directed := by rintro (rfl | rfl | rfl | rfl) <;> exact h.directed rfl
  nearest := by rintro (rfl | rfl) <;> exact h.nearest rfl
  none := h.none

/-- Correct rounding implies the bounds of `FunRounded`. -/
theorem FunRounded.of_fmt {rm : RM} {P : Nat} {y : ℝ} {v : Num} (hy : (2 : ℝ) ^ (EMIN - 1) ≤ |y|) (h1 : v.WF)
    (h2 : 64 * v.m.m.length = P) (h3 : 0 < y → v.s = .pos) (h3' : y < 0 → v.s = .neg) (h4 : v.inexact = true)
    (h5 : RoundsFmt rm P y v.toK) : FunRounded rm P y v := by
  have hpr := h5.toPrec hy
  refine ⟨h1, h2, h3, h3', h4, fun _ => h5, ?_, ?_⟩
  · intro hr
    refine le_trans (hpr.nearest_rel (by rcases hr with rfl | rfl <;> rfl)) (mul_le_mul_of_nonneg_left ?_ (abs_nonneg _))
    have : (0 : ℝ) < 2 ^ (-(P : ℤ)) := by positivity
    have h60 : (0 : ℝ) < 2 ^ (-60 : ℤ) := by positivity
    nlinarith
  · intro hr
    rw [hr] at hpr
    refine le_trans hpr.none_abs (mul_le_mul_of_nonneg_left ?_ (abs_nonneg _))
    have : (0 : ℝ) < 2 ^ (1 - (P : ℤ)) := by positivity
    have h60 : (0 : ℝ) < 2 ^ (-60 : ℤ) := by positivity
    nlinarith

theorem RoundsFmt.ne_zero_abs {rm : RM} (hd : rm = .up ∨ rm = .down ∨ rm = .toZero ∨ rm = .fromZero) {P : Nat}
    (hP : 1 ≤ P) {y r : ℝ} (hy : (2 : ℝ) ^ (EMIN - 1) ≤ |y|) (h : RoundsFmt rm P y r) : r ≠ 0 := by
  intro hr
  have hy0 : 0 < |y| := lt_of_lt_of_le (by positivity) hy
  have hpr := h.toPrec hy
  have hs : |(2 : ℝ) ^ (1 - (P : ℤ))| ≤ 1 := by
    rw [abs_of_pos (by positivity)]
    exact zpow_le_one_of_nonpos₀ (by norm_num) (by omega)
  rcases h with ⟨h, -⟩ | ⟨q, h1, h2, k, -, h3⟩
  · rw [h, abs_zero] at hy0; exact lt_irrefl _ hy0
  have hq : EMIN - 1 < q := (zpow_lt_zpow_iff_right₀ (by norm_num : (1 : ℝ) < 2)).1 (lt_of_le_of_lt hy h2)
  have hu : (2 : ℝ) ^ (max q EMIN - (P : ℤ)) ≤ |y| := by
    refine le_trans (zpow_le_zpow_right₀ (by norm_num) ?_) h1
    omega
  rw [hr] at h3
  rcases hd with rfl | rfl | rfl | rfl <;> simp only [abs_zero, zero_add] at h3
  · rcases abs_cases y with ⟨e, _⟩ | ⟨e, _⟩ <;> rw [e] at hu hy0 <;> linarith [h3.1, h3.2]
  · rcases abs_cases y with ⟨e, _⟩ | ⟨e, _⟩ <;> rw [e] at hu hy0 <;> linarith [h3.1, h3.2]
  · linarith [h3.2.1]
  · linarith [h3.1]

/-- A function value in a directed mode is determined by the mode and the precision. -/
theorem FunRounded.unique {rm : RM} (hd : rm = .up ∨ rm = .down ∨ rm = .toZero ∨ rm = .fromZero) {P : Nat}
    (hP : 64 ≤ P) {y : ℝ} (hy : (2 : ℝ) ^ (EMIN - 1) ≤ |y|) {v v' : Num}
    (h : FunRounded rm P y v) (h' : FunRounded rm P y v') : v = v' := by
  have hy0 : 0 < |y| := lt_of_lt_of_le (by positivity) hy
  have hs : v.s = v'.s := by
    rcases lt_trichotomy y 0 with h0 | h0 | h0
    · rw [h.neg h0, h'.neg h0]
    · rw [h0, abs_zero] at hy0; exact absurd hy0 (lt_irrefl _)
    · rw [h.pos h0, h'.pos h0]
  refine h.wf.eq_of_toK h'.wf ?_ hs (by rw [h.inexact, h'.inexact])
    ((h.directed hd).unique (by omega) (h'.directed hd)) ((h.directed hd).ne_zero_abs hd (by omega) hy)
  have := h.prec
  have := h'.prec
  omega

/-- A value that a round of a loop tests at `w` bits. -/
structure TestOk (w : Nat) (y : ℝ) (t : Num) : Prop where
  wf : t.WF
  inexact : t.inexact = true
  len : w ≤ 64 * t.m.m.length
  err : ∃ k : ℝ, t.toK = y * k ∧ |k - 1| ≤ 2 ^ (-(w : ℤ)) * (15 / 16)

theorem try_cases_abs {t : Num} (ht : t.WF) {q : ℤ} (hq1 : EMIN < q) (hq2 : q < EMAX)
    (ht1 : (2 : ℝ) ^ (q - 1) ≤ |t.toK|) (ht2 : |(t.toK : ℝ)| < 2 ^ q) {w pw : Nat} (hp : 0 < pw)
    (hpm : 64 * pw < PMAX) (hpw : 64 * pw + 64 ≤ w) (hw : 64 ∣ w) (hwl : w ≤ 64 * t.m.m.length) (rm : RM) :
    ∃ a v', t.trySetPrecision (64 * pw) rm w = .ok (a, v') ∧ (rm = .none → a = true) ∧
      (rm.directed = true → a = false → ∃ j : ℤ, |(|t.toK| - (j : ℝ) * 2 ^ (q - ((64 * pw : ℕ) : ℤ)))| ≤ (2 : ℝ) ^ (q - (w : ℤ))) := by
  have hqlo : (0 : ℝ) < 2 ^ (q - 1) := by positivity
  have hfz : t.isZero = false := by
    rw [← Bool.not_eq_true, ← ht.toK_eq_zero (K := ℝ), ← abs_eq_zero]
    linarith
  obtain ⟨q', q1, q2, q3, _⟩ := ht.mag (K := ℝ) hfz
  have r1 := (zpow_lt_zpow_iff_right₀ (by norm_num : (1 : ℝ) < 2)).1 (lt_of_le_of_lt q1 ht2)
  have r2 := (zpow_lt_zpow_iff_right₀ (by norm_num : (1 : ℝ) < 2)).1 (lt_of_le_of_lt ht1 q2)
  have hte : t.e = q := by omega
  cases htr : t.trySetPrecision (64 * pw) rm w with
  | error e =>
    exfalso
    obtain ⟨_, h2⟩ := tryPrec_error (by omega) hpm (by omega) hwl htr
    omega
  | ok b =>
    obtain ⟨a, v'⟩ := b
    refine ⟨a, v', rfl, ?_, ?_⟩
    · rintro rfl
      exact (tryPrec_eq_setPrec (by omega) (by omega) hwl (by omega) (Or.inr (Or.inl rfl)) htr
        (Or.inr (Or.inl rfl))).1
    · intro hdir ha
      rw [ha] at htr
      obtain ⟨-, j, hj⟩ := tryPrec_reject (K := ℝ) ht hp hpw hw hwl hdir htr
      rw [hte] at hj
      exact ⟨j, by rw [Int.cast_natCast]; exact hj⟩

/-- A value with a known relative error, tried at `w` bits. -/
theorem TestOk.try {t : Num} {y : ℝ} {w : Nat} (h : TestOk w y t) (hy : MidRange y) {pw : Nat} (hp : 0 < pw)
    (hpm : 64 * pw < PMAX) (hpw : 64 * pw + 64 ≤ w) (hw : 64 ∣ w) (rm : RM) :
    ∃ a v', t.trySetPrecision (64 * pw) rm w = .ok (a, v') ∧
      (a = true → FunRounded rm (64 * pw) y v') ∧
      (rm = .none ∨ rm.directed = true ∧ ¬ NearGrid (64 * pw) 63 |y| → a = true) := by
  obtain ⟨q, hq1, hq2, hy1, hy2⟩ := hy
  obtain ⟨c, hc, c2⟩ := h.err
  have hwl := h.len
  have ht := h.wf
  have hqlo : (0 : ℝ) < 2 ^ (q - 1) := by positivity
  have hy0 : 0 < |y| := by linarith
  have hε : (2 : ℝ) ^ (-(w : ℤ)) ≤ 1 / 16 := by
    rw [show (1 / 16 : ℝ) = 2 ^ (-4 : ℤ) by norm_num]
    exact zpow_le_zpow_right₀ (by norm_num) (by omega)
  obtain ⟨c3, c4⟩ := abs_le.1 c2
  have hta : |(t.toK : ℝ)| = |y| * c := by rw [hc, abs_mul, abs_of_pos (a := c) (by linarith)]
  have e1 : (2 : ℝ) ^ q = 2 * 2 ^ (q - 1) := by rw [← zpow_one_add₀ (by norm_num)]; congr 1; ring
  have e2 : (2 : ℝ) ^ (q + 1) = 2 * 2 ^ q := by rw [← zpow_one_add₀ (by norm_num)]; congr 1; ring
  have e3 : (2 : ℝ) ^ (q - 1) = 2 * 2 ^ (q - 1 - 1) := by rw [← zpow_one_add₀ (by norm_num)]; congr 1; ring
  have hcy : |(|(t.toK : ℝ)| - |y|)| ≤ |y| * (2 ^ (-(w : ℤ)) * (15 / 16)) := by
    rw [hta, show |y| * c - |y| = |y| * (c - 1) by ring, abs_mul, abs_of_pos hy0]
    exact mul_le_mul_of_nonneg_left c2 hy0.le
  obtain ⟨T, hT⟩ : ∃ T : ℝ, T = |t.toK| := ⟨_, rfl⟩
  obtain ⟨Y, hY⟩ : ∃ Y : ℝ, Y = |y| := ⟨_, rfl⟩
  rw [← hT, ← hY] at hta hcy
  rw [← hY] at hy0 hy1 hy2
  have ht1 : (2 : ℝ) ^ (q - 1 - 1) ≤ T := by
    have h1 : (2 : ℝ) ^ (q - 1) * (1 / 2) ≤ Y * c := mul_le_mul hy1 (by linarith) (by norm_num) hy0.le
    rw [hta]; linarith
  have ht2 : T < 2 ^ (q + 1) := by
    rw [hta, e2]
    nlinarith
  have hsm : (2 : ℝ) ^ (EMIN - 1) ≤ 2 ^ (q - 1 - 1) := zpow_le_zpow_right₀ (by norm_num) (by omega)
  obtain ⟨a, v', htr, hn, hd⟩ : ∃ a v', t.trySetPrecision (64 * pw) rm w = .ok (a, v') ∧ (rm = .none → a = true) ∧
      (rm.directed = true → a = false → (2 : ℝ) ^ (q - 1) ≤ T → T < 2 ^ q →
        ∃ j : ℤ, |T - (j : ℝ) * 2 ^ (q - ((64 * pw : ℕ) : ℤ))| ≤ (2 : ℝ) ^ (q - (w : ℤ))) := by
    by_cases g1 : T < 2 ^ (q - 1)
    · obtain ⟨a, v', k1, k2, k3⟩ := try_cases_abs ht (q := q - 1) (by omega) (by omega) (hT ▸ ht1) (hT ▸ g1) hp hpm hpw hw hwl rm
      exact ⟨a, v', k1, k2, fun _ _ g2 _ => absurd g1 (not_lt.2 g2)⟩
    · push Not at g1
      by_cases g2 : T < 2 ^ q
      · obtain ⟨a, v', k1, k2, k3⟩ := try_cases_abs ht (q := q) (by omega) (by omega) (hT ▸ g1) (hT ▸ g2) hp hpm hpw hw hwl rm
        exact ⟨a, v', k1, k2, fun h1 h2 _ _ => by rw [hT]; exact k3 h1 h2⟩
      · push Not at g2
        obtain ⟨a, v', k1, k2, k3⟩ := try_cases_abs ht (q := q + 1) (by omega) (by omega)
          (by rw [show q + 1 - 1 = q by ring]; exact hT ▸ g2) (hT ▸ ht2) hp hpm hpw hw hwl rm
        exact ⟨a, v', k1, k2, fun _ _ _ g3 => absurd g3 (not_lt.2 g2)⟩
  refine ⟨a, v', htr, ?_, ?_⟩
  · rintro rfl
    have := tryPrec_apx_wide (K := ℝ) ht (by rw [← hY]; exact le_trans hsm (by linarith))
      (by rw [← hT]; exact le_trans hsm ht1) hc c2 (fun hi => by rw [h.inexact] at hi; cases hi)
      hp hpm hpw hw hwl htr
    exact this.1.fun (this.2 h.inexact)
  · rintro (rfl | ⟨hdir, hng⟩)
    · exact hn rfl
    · by_contra ha
      have ha : a = false := by simpa using ha
      rw [← hY] at hng
      have hsmall : Y * (2 ^ (-(w : ℤ)) * (15 / 16)) ≤ 2 ^ (q - ((64 * pw : ℕ) : ℤ) - 63) := by
        refine le_trans (mul_le_mul hy2.le (mul_le_of_le_one_right (by positivity) (by norm_num)) (by positivity) (by positivity)) ?_
        rw [← zpow_add₀ (by norm_num)]
        exact zpow_le_zpow_right₀ (by norm_num) (by push_cast; omega)
      have key : ∀ (P' : ℕ) (r : ℤ), r = q - ((64 * pw : ℕ) : ℤ) + P' → (2 : ℝ) ^ r = ((2 ^ P' : ℤ) : ℝ) * 2 ^ (q - ((64 * pw : ℕ) : ℤ)) := by
        intro P' r hr
        rw [hr, zpow_add₀ (by norm_num), zpow_natCast]
        push_cast; ring
      by_cases g1 : T < 2 ^ (q - 1)
      · refine hng ⟨q, hy1, hy2, 2 ^ (64 * pw - 1), ?_⟩
        rw [← key (64 * pw - 1) (q - 1) (by omega), abs_of_nonneg (by linarith)]
        have := neg_abs_le (T - Y)
        push_cast at hsmall ⊢
        linarith
      · push Not at g1
        by_cases g2 : T < 2 ^ q
        · obtain ⟨j, hj⟩ := hd hdir ha g1 g2
          exact hng (nearGrid_of_reject (q := q) hy1 hy2 (η := 2 ^ (-(w : ℤ)) * (15 / 16)) hcy
            (le_trans (mul_le_of_le_one_right (by positivity) (by norm_num)) (zpow_le_zpow_right₀ (by norm_num) (by push_cast; omega))) (w := w) (by push_cast; omega) hj)
        · push Not at g2
          refine hng ⟨q, hy1, hy2, 2 ^ (64 * pw), ?_⟩
          rw [← key (64 * pw) q (by omega), abs_of_nonpos (by linarith)]
          have := le_abs_self (T - Y)
          push_cast at hsmall ⊢
          linarith

/-- What a round of a loop may do: leave the function with a good result or test a good value. -/
def StepOut (rm : RM) (P : Nat) (y : ℝ) (w : Nat) : LoopStep → Prop
  | .ret r => ∃ v, r = .ok v ∧ FunRounded rm P y v
  | .tst v => TestOk w y v

variable {σ : Type} {step : Nat → σ → Option (LoopStep × σ)} {p : Nat} {rm : RM} {ix : Bool}

theorem roundLoop_ge : ∀ {f pInc w : Nat} {s s' : σ} {r : Except Err Num} {w' : Nat},
    roundLoop step p rm ix f pInc w s = some (r, s', w') → w ≤ w' := by
  intro f
  induction f with
  | zero => intro pInc w s s' r w' h; simp [roundLoop] at h
  | succ f ih =>
    intro pInc w s s' r w' h
    rw [roundLoop] at h
    split at h
    · simp at h
    · injection h with h; injection h with _ h; injection h with _ h; omega
    · split at h
      · injection h with h; injection h with _ h; injection h with _ h; omega
      · injection h with h; injection h with _ h; injection h with _ h; omega
      · have := ih h; omega

theorem roundLoop_good {Good : σ → Prop} (hgood : ∀ w s o s', step w s = some (o, s') → Good s' → Good s) :
    ∀ {f pInc w : Nat} {s s' : σ} {r : Except Err Num} {w' : Nat},
    roundLoop step p rm ix f pInc w s = some (r, s', w') → Good s' → Good s := by
  intro f
  induction f with
  | zero => intro pInc w s s' r w' h; simp [roundLoop] at h
  | succ f ih =>
    intro pInc w s s' r w' h hg
    rw [roundLoop] at h
    split at h
    · simp at h
    · rename_i heq
      injection h with h; injection h with _ h; injection h with h _
      exact hgood _ _ _ _ heq (h ▸ hg)
    · rename_i heq
      split at h
      · injection h with h; injection h with _ h; injection h with h _
        exact hgood _ _ _ _ heq (h ▸ hg)
      · injection h with h; injection h with _ h; injection h with h _
        exact hgood _ _ _ _ heq (h ▸ hg)
      · exact hgood _ _ _ _ heq (ih h hg)

/-- What the loop returns. -/
theorem roundLoop_spec {Inv : Nat → σ → Prop} {Good : σ → Prop} {y : ℝ} (hy : MidRange y) {W w0 pw : Nat} (hp : 0 < pw)
    (hpm : 64 * pw < PMAX) (hw0 : 64 * pw + 64 ≤ w0)
    (hstep : ∀ w s o s', 64 ∣ w → w0 ≤ w → w ≤ W → Inv w s → step w s = some (o, s') → Good s' →
      (∀ w', w + 64 ≤ w' → Inv w' s') ∧ StepOut rm (64 * pw) y w o)
    (hgood : ∀ w s o s', step w s = some (o, s') → Good s' → Good s) :
    ∀ {f pInc w : Nat} {s s' : σ} {r : Except Err Num} {w' : Nat}, Inv w s → 64 ∣ w → 64 ∣ pInc → 0 < pInc → w0 ≤ w →
    roundLoop step (64 * pw) rm ix f pInc w s = some (r, s', w') → w' ≤ W → W ≤ 2 ^ 32 → Good s' →
    (∀ w'', w' + 64 ≤ w'' → Inv w'' s') ∧ ∃ v, r = .ok v ∧ FunRounded rm (64 * pw) y v := by
  intro f
  induction f with
  | zero => intro pInc w s s' r w' _ _ _ _ _ h; simp [roundLoop] at h
  | succ f ih =>
    intro pInc w s s' r w' hi hw hpi hpi0 h1 h hW h32 hg
    have hge := roundLoop_ge h
    rw [roundLoop] at h
    split at h
    · simp at h
    · rename_i r1 s1 heq
      injection h with h; injection h with h2 h; injection h with h3 h4
      rw [h3] at heq
      obtain ⟨i1, i2⟩ := hstep _ _ _ _ hw h1 (by omega) hi heq hg
      rw [h2] at i2
      rw [← h4]
      exact ⟨i1, i2⟩
    · rename_i v s1 heq
      have hg1 : Good s1 := by
        split at h
        · injection h with h; injection h with _ h; injection h with h _; exact h ▸ hg
        · injection h with h; injection h with _ h; injection h with h _; exact h ▸ hg
        · exact roundLoop_good hgood h hg
      obtain ⟨i1, i2⟩ := hstep _ _ _ _ hw h1 (by omega) hi heq hg1
      obtain ⟨a, v', t1, t2, -⟩ := TestOk.try i2 hy hp hpm (by omega) hw rm
      rw [t1] at h
      cases a with
      | true =>
        injection h with h; injection h with h2 h; injection h with h3 h4
        rw [← h4]
        refine ⟨h3 ▸ i1, v', ?_, t2 rfl⟩
        have hx := (t2 rfl).inexact
        rw [← h2]
        congr 1
        cases v'
        simp only at hx
        simp [hx]
      | false =>
        have hd := Nat.dvd_add hw hpi
        have hge := roundLoop_ge h
        obtain ⟨k1, k2, -⟩ := roundP_step (x := w + pInc) (by omega) hd
        have hp64 : 64 ≤ pInc := Nat.le_of_dvd hpi0 hpi
        exact ih (i1 _ (by omega)) hd k1 (by omega) (by omega) h hW h32 hg

/-- The first round returns a number in mode `None`, and in the directed modes unless the digits are exceptional. -/
theorem roundLoop_number {y : ℝ} (hy : MidRange y) {w pw : Nat} (hp : 0 < pw) (hpm : 64 * pw < PMAX)
    (hw0 : 64 * pw + 64 ≤ w) (hw : 64 ∣ w) {s s' : σ} {o : LoopStep} (hs : step w s = some (o, s'))
    (ho : StepOut rm (64 * pw) y w o) (hrm : rm = .none ∨ rm.directed = true ∧ ¬ NearGrid (64 * pw) 63 |y|) (f pInc : Nat) :
    ∃ r, roundLoop step (64 * pw) rm ix (f + 1) pInc w s = some (r, s', w) := by
  rw [roundLoop, hs]
  cases o with
  | ret r => exact ⟨r, rfl⟩
  | tst v =>
    obtain ⟨a, v', t1, -, t3⟩ := TestOk.try ho hy hp hpm hw0 hw rm
    dsimp only
    rw [t1, t3 hrm]
    exact ⟨_, rfl⟩

end AF
