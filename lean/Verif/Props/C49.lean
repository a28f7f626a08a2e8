import Verif.Lemmas.Samples
import Verif.Model.Text
/-!
# C49: decimal text round trip

Refuted: two different numbers of the same precision are formatted to the same decimal text, so no reading of
the text can give both back. The formatter writes too few digits for its precision.
-/

namespace AF

/-- `1000 + 2^-54` and `1000 + 2^-53`, both of 64 bits. -/
def exDecA : Num := Num.mk 10 .pos ⟨[1000 * 2 ^ 54 + 1], 64⟩ false
def exDecB : Num := Num.mk 10 .pos ⟨[1000 * 2 ^ 54 + 2], 64⟩ false

theorem C49_same_text_refuted :
    exDecA.WF ∧ exDecB.WF ∧ (exDecA.toK : ℚ) ≠ exDecB.toK ∧
    ((BF.num exDecA).format .dec .toEven []).1 = .ok "1.0000000000000000001e+3".toList ∧
    ((BF.num exDecB).format .dec .toEven []).1 = .ok "1.0000000000000000001e+3".toList := by
  refine ⟨Num.WF_of_check (by decide), Num.WF_of_check (by decide), ?_, by decide +kernel, by decide +kernel⟩
  unfold exDecA exDecB Num.toK
  norm_num [val, Sign.toK]

/-- The property itself, at precision 64 and mode `ToEven`, in the most favourable reading: equality of values. -/
theorem C49_refuted :
    ¬ ∀ x : Num, x.WF → x.m.m.length = 1 → ∃ t v, ((BF.num x).format .dec .toEven []).1 = .ok t ∧
      (BF.parse t .dec 64 .toEven []).1 = .num v ∧ (v.toK : ℚ) = x.toK := by
  intro h
  obtain ⟨h1, h2, h3, h4, h5⟩ := C49_same_text_refuted
  obtain ⟨t, v, a1, a2, a3⟩ := h exDecA h1 rfl
  obtain ⟨t', v', b1, b2, b3⟩ := h exDecB h2 rfl
  rw [h4] at a1
  rw [h5] at b1
  cases a1; cases b1
  rw [a2] at b2
  cases b2
  exact h3 (a3.symm.trans b3)

end AF
