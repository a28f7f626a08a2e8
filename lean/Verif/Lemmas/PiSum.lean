import Mathlib.Analysis.SpecificLimits.Basic
import Mathlib.Tactic.FieldSimp
import Verif.SpecPi
import Verif.Lemmas.PiMerge
/-!
# The sum of the Chudnovsky series
-/

namespace AF

set_option linter.unusedSectionVars false

theorem chud_ratio : ∀ j : ℕ, piR 0 j * ((3 * j).factorial * j.factorial ^ 3 * 640320 ^ (3 * j)) =
    piQ 0 j * (6 * j).factorial
  | 0 => by simp [piR, piQ, serQ]
  | j + 1 => by
    have ih := chud_ratio j
    have hr : piR 0 (j + 1) = piR 0 j * chR (j + 1) := by
      show serQ chR 0 (j + 1) = _
      rw [serQ, Nat.zero_add]; rfl
    have hq : piQ 0 (j + 1) = piQ 0 j * chQ (j + 1) := by
      show serQ chQ 0 (j + 1) = _
      rw [serQ, Nat.zero_add]; rfl
    have h6 : (6 * (j + 1)).factorial = (6 * j + 6) * ((6 * j + 5) * ((6 * j + 4) * ((6 * j + 3) * ((6 * j + 2) *
        ((6 * j + 1) * (6 * j).factorial))))) := by
      rw [show 6 * (j + 1) = 6 * j + 6 by ring]
      simp only [Nat.factorial_succ]
    have h3 : (3 * (j + 1)).factorial = (3 * j + 3) * ((3 * j + 2) * ((3 * j + 1) * (3 * j).factorial)) := by
      rw [show 3 * (j + 1) = 3 * j + 3 by ring]
      simp only [Nat.factorial_succ]
    rw [hr, hq, h6, h3, Nat.factorial_succ, chR_succ, show 3 * (j + 1) = 3 * j + 3 by ring, pow_add]
    have hc : (640320 : ℕ) ^ 3 = 24 * 10939058860032000 := by norm_num
    rw [hc]
    unfold chQ
    obtain ⟨C, hC⟩ : ∃ C : ℕ, C = 10939058860032000 := ⟨_, rfl⟩
    obtain ⟨W, hW⟩ : ∃ W : ℕ, W = 640320 ^ (3 * j) := ⟨_, rfl⟩
    rw [← hC, ← hW]
    rw [← hW] at ih
    calc _ = (piR 0 j * ((3 * j).factorial * j.factorial ^ 3 * W)) * ((6 * j + 1) * (2 * j + 1) * (6 * j + 5) *
          ((3 * j + 3) * (3 * j + 2) * (3 * j + 1)) * (j + 1) ^ 3 * (24 * C)) := by ring
      _ = _ := by rw [ih]; ring

theorem chudTerm_eq (j : ℕ) : chudTerm j = (-1) ^ j * ((piR 0 j : ℝ) / piQ 0 j) * chA j := by
  have h := chud_ratio j
  have h' : (piR 0 j : ℝ) * ((3 * j).factorial * j.factorial ^ 3 * 640320 ^ (3 * j)) = piQ 0 j * (6 * j).factorial := by
    exact_mod_cast h
  have hq : (0 : ℝ) < piQ 0 j := by exact_mod_cast piQ_pos 0 j
  have hd : (0 : ℝ) < (3 * j).factorial * j.factorial ^ 3 * 640320 ^ (3 * j) := by positivity
  unfold chudTerm chA
  rw [div_eq_iff hd.ne']
  push_cast
  rw [show (-1 : ℝ) ^ j * (piR 0 j / piQ 0 j) * (13591409 + 545140134 * j) *
    ((3 * j).factorial * j.factorial ^ 3 * 640320 ^ (3 * j)) = (-1 : ℝ) ^ j * (13591409 + 545140134 * j) *
    (((piR 0 j : ℝ) * ((3 * j).factorial * j.factorial ^ 3 * 640320 ^ (3 * j))) / piQ 0 j) by ring, h']
  field_simp

theorem chS_eq (j : ℕ) : (chS j : ℝ) = (-1) ^ j * (chR j * chA j) := by
  unfold chS
  split
  · rename_i h
    rw [Odd.neg_one_pow (Nat.odd_iff.2 (by omega))]; push_cast; ring
  · rename_i h
    rw [Even.neg_one_pow (Nat.even_iff.2 (by omega))]; push_cast; ring

theorem chud_partial : ∀ n : ℕ, ∑ j ∈ Finset.range (n + 1), chudTerm j = 13591409 + (piP 0 n : ℝ) / piQ 0 n
  | 0 => by simp [piP, chudTerm]
  | n + 1 => by
    rw [Finset.sum_range_succ, chud_partial n, chudTerm_eq]
    have hr : piR 0 (n + 1) = piR 0 n * chR (n + 1) := by
      show serQ chR 0 (n + 1) = _
      rw [serQ, Nat.zero_add]; rfl
    have hq : piQ 0 (n + 1) = piQ 0 n * chQ (n + 1) := by
      show serQ chQ 0 (n + 1) = _
      rw [serQ, Nat.zero_add]; rfl
    have hp : piP 0 (n + 1) = piP 0 n * chQ (n + 1) + piR 0 n * chS (n + 1) := by
      rw [piP, Nat.zero_add]
    have h1 : (0 : ℝ) < piQ 0 n := by exact_mod_cast piQ_pos 0 n
    have h2 : (0 : ℝ) < chQ (n + 1) := by exact_mod_cast chQ_pos n
    rw [hr, hq, hp]
    push_cast
    rw [chS_eq]
    field_simp
    ring

theorem piRQ_le (n : ℕ) : (piR 0 n : ℝ) / piQ 0 n ≤ 2 ^ (-(47 * n : ℤ)) := by
  have h1 : (0 : ℝ) < piQ 0 n := by exact_mod_cast piQ_pos 0 n
  have h2 : (2 : ℝ) ^ (47 * n) * piR 0 n ≤ piQ 0 n := by exact_mod_cast piR_le 0 n
  rw [div_le_iff₀ h1, zpow_neg, show ((47 * n : ℤ)) = ((47 * n : ℕ) : ℤ) by push_cast; ring, zpow_natCast]
  rw [inv_mul_eq_div, le_div_iff₀ (by positivity)]
  linarith

theorem chA_pow (j : ℕ) : (chA j : ℝ) ≤ 2 ^ 30 * 2 ^ j := by
  have h1 : j + 1 ≤ 2 ^ j := Nat.lt_two_pow_self
  have h2 : chA j ≤ 2 ^ 30 * 2 ^ j := by unfold chA; omega
  exact_mod_cast h2

theorem chud_summable : Summable chudTerm := by
  refine Summable.of_norm_bounded (g := fun j : ℕ => 2 ^ 30 * (1 / 2 : ℝ) ^ j)
    ((summable_geometric_of_lt_one (by norm_num) (by norm_num)).mul_left _) (fun j => ?_)
  rw [chudTerm_eq, Real.norm_eq_abs, abs_mul, abs_mul, abs_pow, abs_neg, abs_one, one_pow, one_mul,
    abs_of_nonneg (by positivity), abs_of_nonneg (by positivity)]
  have h1 := piRQ_le j
  have h2 := chA_pow j
  have h3 : (0 : ℝ) < 2 ^ (-(47 * j : ℤ)) := by positivity
  calc (piR 0 j : ℝ) / piQ 0 j * chA j ≤ 2 ^ (-(47 * j : ℤ)) * (2 ^ 30 * 2 ^ j) :=
        mul_le_mul h1 h2 (by positivity) h3.le
    _ = 2 ^ 30 * (2 ^ (-(47 * j : ℤ)) * 2 ^ (j : ℤ)) := by rw [zpow_natCast]; ring
    _ ≤ 2 ^ 30 * (1 / 2) ^ j := by
      refine mul_le_mul_of_nonneg_left ?_ (by positivity)
      rw [← zpow_add₀ (by norm_num), one_div, inv_pow, ← zpow_natCast, ← zpow_neg]
      exact zpow_le_zpow_right₀ (by norm_num) (by omega)

/-- The sum of the series. -/
noncomputable def chudSum : ℝ := ∑' j, chudTerm j

/-- The sum is close to its partial sums. -/
theorem chud_bounds (n : ℕ) : |chudSum - (13591409 + (piP 0 n : ℝ) / piQ 0 n)| ≤ 2 ^ (-(47 * n : ℤ)) * chA n := by
  have ht := chud_summable.hasSum.tendsto_sum_nat
  have ht2 : Filter.Tendsto (fun m => |∑ j ∈ Finset.range m, chudTerm j - (13591409 + (piP 0 n : ℝ) / piQ 0 n)|)
      Filter.atTop (nhds |chudSum - (13591409 + (piP 0 n : ℝ) / piQ 0 n)|) := (ht.sub_const _).abs
  refine le_of_tendsto ht2 ?_
  rw [Filter.eventually_atTop]
  refine ⟨n + 1, fun m hm => ?_⟩
  obtain ⟨k, rfl⟩ : ∃ k, m = n + k + 1 := ⟨m - n - 1, by omega⟩
  rw [chud_partial (n + k)]
  have h1 : (0 : ℝ) < piQ 0 n := by exact_mod_cast piQ_pos 0 n
  have h2 : (0 : ℝ) < piQ n k := by exact_mod_cast piQ_pos n k
  have hq : piQ 0 (n + k) = piQ 0 n * piQ n k := by
    have : piQ 0 (n + k) = piQ 0 n * piQ (0 + n) k := serQ_add _ _ _ _
    rwa [Nat.zero_add] at this
  have hp : piP 0 (n + k) = piP 0 n * piQ n k + piR 0 n * piP n k := by
    have := piP_add 0 n k
    rwa [Nat.zero_add] at this
  rw [hq, hp]
  push_cast
  have e : (13591409 + ((piP 0 n : ℝ) * piQ n k + piR 0 n * piP n k) / (piQ 0 n * piQ n k) -
      (13591409 + (piP 0 n : ℝ) / piQ 0 n)) = (piR 0 n : ℝ) / piQ 0 n * ((piP n k : ℝ) / piQ n k) := by
    field_simp
    ring
  rw [e, abs_mul, abs_of_nonneg (show (0 : ℝ) ≤ (piR 0 n : ℝ) / piQ 0 n by positivity)]
  refine mul_le_mul (piRQ_le n) ?_ (abs_nonneg _) (by positivity)
  rw [abs_div, abs_of_pos h2, div_le_iff₀ h2, ← Int.cast_abs]
  exact_mod_cast (piP_lt k n).1.le

theorem piP_div_one : (piP 0 1 : ℝ) / piQ 0 1 = -2793657715 / 10939058860032000 := by
  have h1 : piP 0 1 = -2793657715 := by rw [piP_one]; decide
  have h2 : piQ 0 1 = 10939058860032000 := by decide
  rw [h1, h2]; norm_num

theorem chudSum_small : (13591408.9 : ℝ) ≤ chudSum ∧ chudSum ≤ 13591409.1 := by
  have h := chud_bounds 1
  rw [piP_div_one] at h
  have hA : (chA 1 : ℝ) = 558731543 := by
    have : chA 1 = 558731543 := by decide
    rw [this]; norm_num
  rw [hA] at h
  norm_num at h
  obtain ⟨h1, h2⟩ := abs_le.1 h
  constructor <;> linarith

theorem sqrt_10005 : (100.0249 : ℝ) ≤ Real.sqrt 10005 ∧ Real.sqrt 10005 ≤ 100.025 := by
  constructor
  · exact Real.le_sqrt_of_sq_le (by norm_num)
  · exact Real.sqrt_le_iff.2 ⟨by norm_num, by norm_num⟩

theorem chudPi_eq : chudPi = 426880 * Real.sqrt 10005 / chudSum := rfl

theorem chudPi_small : (3.14 : ℝ) ≤ chudPi ∧ chudPi ≤ 3.15 := by
  obtain ⟨h1, h2⟩ := chudSum_small
  obtain ⟨h3, h4⟩ := sqrt_10005
  rw [chudPi_eq]
  constructor
  · rw [le_div_iff₀ (by linarith)]; nlinarith
  · rw [div_le_iff₀ (by linarith)]; nlinarith

end AF
