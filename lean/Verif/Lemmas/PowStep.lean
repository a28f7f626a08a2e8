import Verif.Model.PowGen
import Verif.Lemmas.Tanh
import Verif.Lemmas.InvLn
/-!
# The general power: a round of the loop
-/

namespace AF

open Num

/-- The exponentials of two close numbers. -/
theorem exp_shift {L M η : ℝ} (h : |M - L| ≤ η) (hη : η ≤ 1) :
    Real.exp L * (1 - 2 * η) ≤ Real.exp M ∧ Real.exp M ≤ Real.exp L * (1 + 2 * η) := by
  have h1 := Real.abs_exp_sub_one_le (le_trans h hη)
  have h2 : Real.exp M = Real.exp L * Real.exp (M - L) := by rw [← Real.exp_add]; congr 1; ring
  have hE := Real.exp_pos L
  obtain ⟨a, b⟩ := abs_le.1 h1
  rw [h2]
  exact ⟨mul_le_mul_of_nonneg_left (by linarith) hE.le, mul_le_mul_of_nonneg_left (by linarith) hE.le⟩

/-- A truncated operation with any sign, far from the ends of the range. -/
theorem tr_abs {P : Nat} (hP : 1 ≤ P) {Y : ℝ} {ix : Bool} {r : Except Err Num} (h : Delivers .none P Y ix r)
    (hl : (2 : ℝ) ^ (EMIN - 1) ≤ |Y|) (hu : |Y| ≤ 2 ^ (EMAX - 2)) :
    ∃ v, r = .ok v ∧ v.WF ∧ 64 * v.m.m.length = P ∧ |v.toK - Y| ≤ |Y| * 2 ^ (1 - (P : ℤ)) ∧
      (ix = true → v.inexact = true) := by
  cases r with
  | ok v =>
    obtain ⟨g1, g2, g3⟩ := (h.normal hl).none_rel
    refine ⟨v, rfl, h.1, h.2.1, ?_, fun hi => h.2.2.2.2.1.2 (Or.inl hi)⟩
    rcases abs_cases Y with ⟨e, i⟩ | ⟨e, i⟩ <;> rw [e] at g1 g2 hl ⊢
    · have hY : 0 < Y := lt_of_lt_of_le (by positivity) hl
      have hv : (0 : ℝ) ≤ v.toK := by
        by_contra hc
        push Not at hc
        nlinarith
      rw [abs_of_nonneg hv] at g1 g2
      rw [abs_le]; constructor <;> nlinarith
    · have hv : (v.toK : ℝ) ≤ 0 := by
        by_contra hc
        push Not at hc
        nlinarith
      rw [abs_of_nonpos hv] at g1 g2
      rw [abs_le]; constructor <;> nlinarith
  | error e =>
    exfalso
    obtain ⟨_, t, h3, h4⟩ := h
    obtain ⟨g1, -, -⟩ := h3.none_rel
    have : (2 : ℝ) ^ (EMAX - 2) < 2 ^ EMAX := zpow_lt_zpow_right₀ (by norm_num) (by omega)
    linarith

/-- The exponential function in mode `None` with `k` bits more than a working precision. -/
theorem exp_none_k {x : Num} (hx : x.WF) (hz : x.isZero = false) (htop : Real.exp |(x.toK : ℝ)| ≤ 2 ^ (EMAX - 4))
    (hs : x.s = .pos) {w k : Nat} (hd : 64 ∣ w) (h1 : 64 ≤ w) (h2 : w + 128 ≤ 2 ^ 22) (hk : 1 ≤ k) (hk' : k ≤ 64)
    (hl : 64 * x.m.m.length ≤ w + 64)
    {c : ConstCache (Num × Num)} (hc : CacheOk ERep EValOk c) (f : Nat) :
    ∃ v c' w', x.exp (w + k) .none (f + 1) c = some (.ok v, c', w') ∧ CacheOk ERep EValOk c' ∧ v.WF ∧
      64 * v.m.m.length = w + 64 ∧ v.inexact = true ∧ Real.exp |(x.toK : ℝ)| * (1 - 2 * wUnit w) ≤ v.toK ∧
      (v.toK : ℝ) ≤ Real.exp |(x.toK : ℝ)| * (1 + 2 * wUnit w) := by
  have e4 := precBits_w (w := w) (k := 4) hd (by norm_num) (by norm_num)
  have ek := precBits_w (w := w) (k := k) hd hk hk'
  have v4 := (validP_w (w := w) (k := 4) (by omega) (by norm_num) (by norm_num)).roundP
  have vk := (validP_w (w := w) (k := k) (by omega) hk hk').roundP
  have : x.exp (w + k) .none (f + 1) c = x.exp (w + 4) .none (f + 1) c := by
    unfold Num.exp
    rw [v4, vk, e4, ek]
  rw [this]
  exact exp_none hx hz htop hs hd h1 h2 hl hc f

theorem top_room {L M : ℝ} {δ : ℝ} (hδ0 : 0 < δ) (hδ : δ ≤ 1 / 2 ^ 190) (hL : |L| ≤ 2 ^ 31) (hM : |M - L| ≤ |L| * (4 * δ))
    (htop : Real.exp |L| ≤ 2 ^ (EMAX - 5)) : Real.exp |M| ≤ 2 ^ (EMAX - 4) := by
  have h1 : |(|M| - |L|)| ≤ 1 / 2 := by
    refine le_trans (abs_abs_sub_abs_le_abs_sub M L) (le_trans hM ?_)
    calc |L| * (4 * δ) ≤ 2 ^ 31 * (4 * (1 / 2 ^ 190)) := mul_le_mul hL (by linarith) (by linarith) (by norm_num)
      _ ≤ _ := by norm_num
  obtain ⟨-, h2⟩ := exp_shift h1 (by norm_num)
  have h3 : (2 : ℝ) ^ (EMAX - 4) = 2 ^ (EMAX - 5) * 2 := by
    rw [← zpow_add_one₀ (by norm_num)]; congr 1
  rw [h3]
  linarith

theorem log_le_of_top {L : ℝ} (htop : Real.exp L ≤ 2 ^ (EMAX - 5)) : L ≤ 2 ^ 31 := by
  by_contra hc
  push Not at hc
  have h1 := exp_ge_two_pow (t := L) (n := 2 ^ 31) (by rw [Nat.cast_pow]; exact hc.le)
  have h2 : (2 : ℝ) ^ (EMAX - 5) < 2 ^ ((2 ^ 31 : ℕ) : ℤ) := zpow_lt_zpow_right₀ (by norm_num) (by unfold EMAX; norm_num)
  linarith

variable {m : Num}

/-- The value of a round. -/
theorem powValue_spec (hm : m.WF) (hz : m.isZero = false) {L : ℝ} (htop : Real.exp |L| ≤ 2 ^ (EMAX - 5)) {w : Nat} (hd : 64 ∣ w)
    (h1 : 128 ≤ w) (h2 : w + 128 ≤ 2 ^ 22) (hl : 64 * m.m.m.length ≤ w + 64) (hM : |m.toK - L| ≤ |L| * (4 * wUnit w))
    {c : ConstCache (Num × Num)} (hc : CacheOk ERep EValOk c) (xix : Bool) (p f : Nat) :
    ∃ t c', m.powValue xix p (w + 2) (f + 1) c = some (.tst t, c') ∧ CacheOk ERep EValOk c' ∧ TestOk w (Real.exp L) t := by
  obtain ⟨hδ0, hδ, hδ2⟩ := wUnit_tiny h1
  have hLb := log_le_of_top htop
  have hMt := top_room hδ0 hδ hLb hM htop
  have hsh : |(m.toK : ℝ) - L| ≤ 2 ^ 34 * wUnit w := by
    refine le_trans hM ?_
    calc |L| * (4 * wUnit w) ≤ 2 ^ 31 * (4 * wUnit w) := mul_le_mul_of_nonneg_right hLb (by linarith)
      _ ≤ _ := by linarith
  obtain ⟨s1, s2⟩ := exp_shift hsh (by
    calc 2 ^ 34 * wUnit w ≤ 2 ^ 34 * (1 / 2 ^ 190) := by linarith
      _ ≤ 1 := by norm_num)
  have hE := Real.exp_pos L
  have key : ∀ t : Num, t.WF → t.inexact = true → 64 * t.m.m.length = w + 64 →
      Real.exp m.toK * (1 - 2 ^ 3 * wUnit w) ≤ t.toK → (t.toK : ℝ) ≤ Real.exp m.toK * (1 + 2 ^ 3 * wUnit w) → TestOk w (Real.exp L) t := by
    intro t t1 t2 t3 t4 t5
    refine TestOk.of_rel t1 t2 (by omega) hE.ne' (δ := 2 ^ 36 * (4 * wUnit w)) (by rw [hδ2]; linarith) ?_
    rw [abs_of_pos hE]
    obtain ⟨δ, hδe⟩ : ∃ δ, δ = wUnit w := ⟨_, rfl⟩
    rw [← hδe] at s1 s2 t4 t5 hδ hδ0 ⊢
    have hd : δ ≤ 1 / 2 ^ 60 := le_trans hδ (by norm_num)
    have hq : 2 ^ 38 * (δ * δ) ≤ δ := by
      have : δ * δ ≤ δ * (1 / 2 ^ 60) := mul_le_mul_of_nonneg_left hd hδ0.le
      linarith
    obtain ⟨E, hEe⟩ : ∃ E, E = Real.exp L := ⟨_, rfl⟩
    obtain ⟨e, hee⟩ : ∃ e, e = Real.exp (m.toK : ℝ) := ⟨_, rfl⟩
    rw [← hEe] at hE s1 s2 ⊢
    rw [← hee] at s1 s2 t4 t5
    have he : 0 < e := hee ▸ Real.exp_pos _
    generalize (t.toK : ℝ) = T at t4 t5 ⊢
    rw [abs_le]
    constructor
    · have a1 : E * (1 - 2 * (2 ^ 34 * δ)) * (1 - 2 ^ 3 * δ) ≤ T := le_trans (mul_le_mul_of_nonneg_right s1 (by linarith)) t4
      have a3 : E * (1 - 2 ^ 36 * (4 * δ)) ≤ E * ((1 - 2 * (2 ^ 34 * δ)) * (1 - 2 ^ 3 * δ)) := mul_le_mul_of_nonneg_left (by
        have := mul_pos hδ0 hδ0
        ring_nf; ring_nf at hq this; linarith) hE.le
      linarith
    · have a1 : T ≤ E * (1 + 2 * (2 ^ 34 * δ)) * (1 + 2 ^ 3 * δ) := le_trans t5 (mul_le_mul_of_nonneg_right s2 (by linarith))
      have a3 : E * ((1 + 2 * (2 ^ 34 * δ)) * (1 + 2 ^ 3 * δ)) ≤ E * (1 + 2 ^ 36 * (4 * δ)) := mul_le_mul_of_nonneg_left (by
        have := mul_pos hδ0 hδ0
        ring_nf; ring_nf at hq this; linarith) hE.le
      linarith
  unfold powValue
  have hsg := Num.toK_eq (K := ℝ) m
  by_cases hn : m.isNegative = true
  · rw [if_pos hn]
    have hs : m.s = .neg := by simpa [Num.isNegative] using hn
    rw [hs] at hsg
    have hexp : Real.exp (m.toK : ℝ) = (Real.exp |(m.toK : ℝ)|)⁻¹ := by
      rw [← Real.exp_neg]; congr 1; rw [hsg]; simp [Sign.toK]
    have z1 : (m.setSign .pos).WF := ⟨hm.wf, hm.bits, hm.emin, hm.emax, hm.norm, hm.sized⟩
    have z2 : |((m.setSign .pos).toK : ℝ)| = |(m.toK : ℝ)| := by rw [setSign_toK]; simp [Sign.toK]
    obtain ⟨u, c', w', a1, a2, a3, a4, a5, a6, a7⟩ := exp_none_k z1 (show (m.setSign .pos).isZero = false from hz) (by rw [z2]; exact hMt)
      rfl hd (by omega) h2 (k := 2) (by norm_num) (by norm_num) hl hc f
    rw [z2] at a6 a7
    rw [a1]
    dsimp only
    have hE1 : 1 ≤ Real.exp |(m.toK : ℝ)| := Real.one_le_exp (abs_nonneg _)
    obtain ⟨u0, b1, b2, b3, b4⟩ := exp_recip_range hE1 hMt hδ0 hδ a6 a7
    have hvz : u.isZero = false := by
      rw [← Bool.not_eq_true, ← a3.toK_eq_zero (K := ℝ)]
      exact u0.ne'
    have hp2 := wUnit_PrecOk (w := w) hd (by omega) (k := 2) (by norm_num) (by norm_num)
    have hdv := div_spec (K := ℝ) ONE_WF a3 hvz hp2.pos (by rw [hp2.eq]; exact hp2.lt) .fromZero
    rw [hp2.eq, ONE_toK] at hdv
    obtain ⟨r, r1, r2, r3, r4, r5, r6⟩ := fz_step hdv b3 (le_trans b4 (by
      conv_lhs => rw [show (2 : ℝ) = 2 ^ (1 : ℤ) by norm_num]
      exact zpow_le_zpow_right₀ (by norm_num) (by unfold EMAX; norm_num))) (by omega)
    rw [r1]
    refine ⟨r, c', rfl, a2, key r r2 (r6 ?_) r3 ?_ ?_⟩
    · unfold divIx; rw [ONE_nz, a5]; simp
    · rw [hexp]
      have hi : 0 < (Real.exp |(m.toK : ℝ)|)⁻¹ := by positivity
      refine le_trans (le_trans (mul_le_mul_of_nonneg_left ?_ hi.le) b1) r4
      linarith
    · rw [hexp]
      have hi : 0 < (Real.exp |(m.toK : ℝ)|)⁻¹ := by positivity
      rw [wUnit_eq] at r5
      refine le_trans r5 (le_trans (mul_le_mul_of_nonneg_right b2 (by linarith)) ?_)
      rw [mul_assoc]
      refine mul_le_mul_of_nonneg_left ?_ hi.le
      have : wUnit w ≤ 1 / 4 := le_trans hδ (by norm_num)
      generalize wUnit w = δ at *
      nlinarith only [hδ0, this]
  · rw [if_neg hn]
    have hs : m.s = .pos := by
      cases h : m.s
      · exact absurd (by simp [Num.isNegative, h]) hn
      · rfl
    rw [hs] at hsg
    have hexp : |(m.toK : ℝ)| = m.toK := by
      rw [hsg]; simp [Sign.toK]
    obtain ⟨u, c', w', a1, a2, a3, a4, a5, a6, a7⟩ := exp_none_k hm hz hMt hs hd (by omega) h2 (k := 2) (by norm_num) (by norm_num) hl hc f
    rw [hexp] at a6 a7
    rw [a1]
    have he := Real.exp_pos (m.toK : ℝ)
    exact ⟨u, c', rfl, a2, key u a3 a5 a4 (le_trans (mul_le_mul_of_nonneg_left (by linarith) he.le) a6)
      (le_trans a7 (mul_le_mul_of_nonneg_left (by linarith) he.le))⟩

end AF
