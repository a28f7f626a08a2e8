import Verif.Lemmas.Mul
import Verif.Lemmas.FftWrong
/-!
# C57: the product computed with the fast Fourier transform is exact

`fftMulWith mul` models `fft_mul` step by step, `mul` being the multiplication used for the products of parts
(`mul_unbalanced`, here `mulWords`). The choice of the parameters takes the square root of the number of bits
cut to 32 bits, so for operands of `2^26` words and more together it may choose 64 parts only. Then a part can be
longer than the transform has room for.

* `C57_fft_exact_partial`: the product is exact unless 64 parts are chosen. Missing: the sizes at which 64 parts
  are chosen.
* `C57_no_contract`: below `2^26` words together `mul_slices` runs the modelled transform.
* `C57_refuted`: with 64 parts the product can be wrong.
-/

namespace AF

/-- The product is exact when the number of bits, cut to 32 bits, is not small. Missing: the other sizes. -/
theorem C57_fft_exact_partial (a b : List Nat) (ha : Wf a) (hb : Wf b) (len : Nat)
    (hlen : a.length + b.length ≤ len)
    (hbits : 16900 ≤ (a.length + b.length) * 64 % 2 ^ 32 ∨
      (50000 ≤ a.length + b.length ∧ 4225 ≤ (a.length + b.length) * 64 % 2 ^ 32)) :
    (fftMulWith mulWords a b len).length = len ∧ Wf (fftMulWith mulWords a b len) ∧
      val (fftMulWith mulWords a b len) = val a * val b := by
  refine fftMulWith_spec ha hb (by omega) (fftParams_parts hbits) (fun x y hx hy lx ly => ?_) hlen
  exact mulWords_spec hx hy (by omega)

example : val (fftMulWith mulWords (List.replicate 6000 WMAX) (List.replicate 300 7) 6300) =
    val (List.replicate 6000 WMAX) * val (List.replicate 300 7) :=
  (C57_fft_exact_partial _ _ (wf_ones _) (by intro x hx; rw [List.eq_of_mem_replicate hx]; decide) 6300
    (by simp only [List.length_replicate]; omega) (by left; rw [List.length_replicate, List.length_replicate]; decide)).2.2

/-- The parts are shorter than the operands, so it is enough that the multiplication used for them is right. -/
theorem C57_fft_reduces_partial (mul : List Nat → List Nat → Nat → List Nat) (a b : List Nat) (ha : Wf a) (hb : Wf b)
    (len : Nat) (hlen : a.length + b.length ≤ len) (hN : 265 ≤ a.length + b.length)
    (hbits : (a.length + b.length) * 64 < 2 ^ 32)
    (hmul : ∀ x y, Wf x → Wf y → x.length + y.length < a.length + b.length →
      (mul x y (x.length + y.length)).length = x.length + y.length ∧ Wf (mul x y (x.length + y.length)) ∧
      val (mul x y (x.length + y.length)) = val x * val y) :
    (fftMulWith mul a b len).length = len ∧ Wf (fftMulWith mul a b len) ∧
      val (fftMulWith mul a b len) = val a * val b := by
  have hs := fftParams_short (N := a.length + b.length) (by omega)
  refine fftMulWith_spec ha hb (by omega) (fftParams_parts (Or.inl ?_)) (fun x y hx hy lx ly => ?_) hlen
  · rw [Nat.mod_eq_of_lt hbits]; omega
  · have := hmul x y hx hy (by omega)
    rw [lx, ly, ← Nat.two_mul] at this
    exact this

example : val (fftMulWith (fun x y len => mulWords x y len) (List.replicate 5401 WMAX) (List.replicate 221 WMAX) 5622) =
    val (List.replicate 5401 WMAX) * val (List.replicate 221 WMAX) :=
  (C57_fft_reduces_partial _ _ _ (wf_ones _) (wf_ones _) 5622 (by simp only [List.length_replicate]; omega) (by simp only [List.length_replicate]; omega) (by simp only [List.length_replicate]; omega)
    (fun _ _ hx hy _ => mulWords_spec hx hy le_rfl)).2.2

/-- Operands in the range of the transform and of less than `2^26` words together are multiplied by the modelled
transform. -/
theorem C57_no_contract (mul : List Nat → List Nat → Nat → List Nat) (a b : List Nat) (len : Nat)
    (ha : 220 < a.length) (hb : 220 < b.length) (hab : 5400 < a.length ∨ 5400 < b.length)
    (hN : a.length + b.length < 2 ^ 26) : mulSlices mul a b len = fftMulWith mul a b len := by
  unfold mulSlices
  rw [if_neg (by omega), if_neg (by omega), if_neg (by omega), if_pos (fftParams_parts (Or.inl ?_))]
  rw [Nat.mod_eq_of_lt (by omega)]; omega

example : mulSlices mulWords (List.replicate 6000 WMAX) (List.replicate 300 7) 6300 =
    fftMulWith mulWords (List.replicate 6000 WMAX) (List.replicate 300 7) 6300 :=
  C57_no_contract _ _ _ _ (by simp only [List.length_replicate]; omega) (by simp only [List.length_replicate]; omega) (by simp only [List.length_replicate]; omega) (by simp only [List.length_replicate]; omega)

/-- `2^(31*2^26) - 1` times `2^(33*2^26+128) - 1`: the square root of `2^32 + 128` bits is taken of 128, 64 parts of
`2^26 + 2` bits are chosen, the last part of the second operand has `2^26 + 64` bits, and its product with a part of
the first operand exceeds the modulus `2^(2^27+64) + 1`. -/
theorem C57_refuted : ¬ ∀ a b : List Nat, Wf a → Wf b → 220 < a.length → 5400 < b.length →
    val (fftMulWith mulWords a b (a.length + b.length)) = val a * val b := by
  intro h
  have := h (List.replicate wrongLen1 WMAX) (List.replicate wrongLen2 WMAX) (wf_ones _) (wf_ones _)
    (by rw [List.length_replicate]; decide) (by rw [List.length_replicate]; decide)
  rw [List.length_replicate, List.length_replicate] at this
  have hw := fftMulWith_wrong (mul := mulWords) (fun x y hx hy lx ly => mulWords_spec hx hy (by omega))
  omega

end AF
