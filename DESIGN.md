# Formal model of astro-float: design

Subject: `/repo` (stencillogic/astro-float, crate `astro-float-num`), read as text. Nothing was
compiled or run. The Lean 4 project is in `lean/`; it builds with `lake build`.

## 1. What is modelled and how

Target: 64-bit, non-x86 configuration (`Word = u64`, `DoubleWord = u128`, `SignedWord = i128`,
`Exponent = i32`, `usize`/`isize` of 64 bits), as selected by `defs.rs` on x86_64 and aarch64.

* A word is a `Nat` below `B = 2^64`; every Rust operation that can wrap or lose bits is written with
  an explicit `% B`. A word slice is a little-endian `List Nat`.
* `Mantissa { m, n }` and `BigFloatNumber { e, s, m, inexact }` keep the fields of the Rust structs;
  exponents are `Int`.
* `&mut` arguments become returned values; `Result<_, Error>` becomes `Except Err _`; paths that would
  panic (index out of range, unwrap of `None`, overflow check) are the explicit value `Err.panic`.
* Loops are structural recursion over the slices they walk, or recursion on explicit fuel when the Rust
  loop has a data-dependent bound; in the latter case the theorems show that the fuel suffices.
* Memory: allocation never fails (`Error::MemoryAllocation` is not produced by the model) and buffers
  created without initialisation are filled with zeros in the model (each such place is commented).

Every definition carries a comment citing file and lines, and says what was simplified.

Layers: word utilities (`common/util.rs`, `common/buf.rs`, `common/int.rs`) -> mantissa
(`mantissa/*.rs`) -> `BigFloatNumber` (`num.rs`, `ops/sqrt.rs`, `ops/cbrt.rs`, `ops/exp.rs`, `ops/sinh.rs`, `ops/cosh.rs`, `ops/tanh.rs`, `ops/asinh.rs`, `ops/acosh.rs`, `ops/atanh.rs`, `ops/atan.rs`, `ops/asin.rs`, `ops/acos.rs`, `ops/sin.rs`, `ops/cos.rs`, `ops/tan.rs`, `ops/util.rs`, `ops/log.rs`, `ops/consts/{e,ln2,ln10,pi}.rs`, `ops/pow.rs`) ->
radix conversion, parser, formatter (`conv.rs`, `parser.rs`, `strop.rs`, `mantissa/conv.rs`) ->
`BigFloat` (`ext.rs`) and `Context` (`ctx.rs`) -> the code generated by the macro `expr!` (`astro-float-macro/src/lib.rs`).

One contract: with `fft_params(..).k = 6` (64 parts; this takes operands of `2^26` words and more together, and a
total number of bits less than 16900 above a multiple of `2^32`) `mul_slices` of the model returns the exact product
instead of running the modelled `fft_mul`, because the code is wrong there (`C57_refuted`). So the arithmetic
theorems speak about the code only outside these sizes. Below `2^26` words the contract is never used
(`C57_no_contract`).

Of `ops/series.rs` the runs used by `exp`, `sinh`, `ln`, `atan`, `sin` and `cos` are modelled (`series_run` with linear, Horner and rectangular
summation, argument reduction and restoration for the hyperbolic sine, the logarithm, the arctangent, the sine and the cosine); `tan` has its own loop, which is
modelled too. `random_normal` is modelled with the values drawn from the generator as arguments, the visitor of
`for_3rd/de.rs` on the tokens of the serde data model. Not modelled: 32-bit builds, the `serde` and `rand` crates; of the `astro-float-macro` crate
the functions and constants that need the cache of constants, literals parsed at run time, and the compile errors (the arithmetic operators, `recip`,
`sqrt`, `cbrt`, the error array and the loop are modelled).

## 2. Specification side

`Verif/Spec.lean` contains the specification, written without the model's helpers: the value of a number
as a rational, `(-1)^s * (sum m_i 2^(64 i)) / 2^(64 len) * 2^e`, and a relational definition of rounding
of a rational to a grid `u * Z` in each of the modes (`None`/`ToZero` truncate, `FromZero`, `Up`, `Down`,
`ToEven`, `ToOdd` nearest with ties to even/odd), and of rounding to `P` significant bits (grid chosen by
the binade of the exact value). Theorems relate API results to exact rationals through these predicates.

## 3. Plan per property

| id | modelled | proof method |
|----|----------|--------------|
| C01 | `add_sub`, `abs_add`, `abs_sub`, shifted-slice iterators, `round_mantissa`, `normalize` | word lists to integers, alignment and sticky lemmas, rounding lemma, then rationals |
| C02 | `mul_general_case`, `Mantissa::mul`, `mul_unbalanced` | exact product (C28) plus the rounding lemma |
| C03 | `div`, `Mantissa::div`, `div_unbalanced` | exact quotient/remainder (C29), sticky lemma, rounding lemma |
| C04 | `ops/sqrt.rs`, `Mantissa::sqrt`, `sqrt_rem` | integer root (C30), sticky lemma; spec states rounding by comparing squares |
| C05 | `ops/cbrt.rs`, `Mantissa::cbrt`, `cbrt_rem` | same with cubes |
| C06 | `rem`, `pow_mod`, `mul_mod` | modular arithmetic over integers; the subnormal-range branch is expected to fail (see 4) |
| C07 | `set_precision_internal`, `set_length` | rounding lemma |
| C08 | `reciprocal` | corollary of C03 |
| C09 | `add_full_prec` etc. | exact alignment lemmas; zero operand expected to fail (see 4) |
| C10 | `subnormalize` | directed modes provable; nearest modes expected to fail (double rounding) |
| C11 | range checks in `add_sub`, `mul`, `div`, `result_to_ext` | corollary of the rounding theorems |
| C12 | `cmp`, `abs_cmp`, `NormalizedView`, `cmp_iters` | lexicographic comparison; zero operand expected to fail |
| C13 | `PartialEq` | from the comparison lemma |
| C14 | `ext.rs abs_cmp` | expected to fail for negative numbers |
| C15, C16 | `ext.rs` | case analysis against an extended-real table |
| C17 | `neg`, `abs`, `set_sign`, `add_sub` | rational semantics, functional equality for sub/add-neg |
| C18 | `add`, `mul` | equality of results: commutation of aligned sums and exact products |
| C19, C20, C50 | `int`, `fract`, `floor`, `ceil`, `round`, `is_int` | bit masks as division with remainder |
| C21, C22, C23, C24 | constructors | exact value lemmas; f64 subnormals expected to fail |
| C25 | all of the above | invariant `WF`, one preservation theorem per operation, then induction over histories |
| C26 | inexact flag | from the rounding lemma, both directions |
| C27 | precision checks | case analysis |
| C28 | `mul_basic`, `toom2`, `toom3`, `fft_mul`, `mul_unbalanced` | loop invariants on list values; the transform through C57; for operands cut into 64 parts (at least `2^26` words) `fft_mul` is replaced by its contract |
| C29 | `div_basic`, `div_recursive`, `div_unbalanced` | Knuth D and recursive division invariants |
| C30 | `sqrt_rem`, `sqrt_rem_basic`, `cbrt_rem` | Newton iteration from above |
| C31, C32 | `conv_to_*`, `conv_from_*` | digit regrouping lemmas |
| C33, C34 | `mantissa/conv.rs`, `tenpowers` | divide-and-conquer induction, cache invariant over histories |
| C35, C36 | `parser.rs` | grammar as an inductive specification; rejection expected to fail (trailing characters) |
| C37 | `strop.rs` + parser + conversion | composition of C31, C35 |
| C38, C39 | `ext.rs` | from the comparison theorem; `classify` of zero and `signum` of zero expected to fail |
| C40, C41, C48 | arithmetic | corollaries of the rounding theorems |
| C42 | arithmetic | corollaries of the rounding theorems |
| C43 | `round_mantissa` with `check_roundable` | analysis of the check; expected to fail for nearest modes |
| C44 | `powi` | short paths only; the general loop is partial |
| C45, C46 | `ext.rs` wrappers, finite branch opaque | case analysis; `pow` at -Inf expected to fail |
| C47 | `ctx.rs` | invariant over setter histories |
| C49 | decimal formatting | expected to fail (too few digits); witness if the conversion model is small enough |
| C51 | `check_exponent_range` (`macro_util.rs`) | bounds of the value from the exponent field |
| C52, C53 | `pow`, `log` outside the series computation | case analysis against the exact limit values |
| C54 | `format` in decimal | refuted by evaluation of the model; partial: correct rounding to the decimal precision without the defect of C33, from the error of the scaled number, the exactness of the digits of an integer and the acceptance test of the loop (`DecRound`, `DecFmt`), and from the exactness of the scaling for numbers with few significant bits (`PowTen`); mode `None`: within one unit of the last digit (`DecNone`); large numbers, which are divided by a power of ten, when the first round accepts them (`DecBig`) or the working precision reaches the exponent in later rounds (`DecAll`); the text denotes the digits (`DecText`). Missing: exponents above `1.5·10^9` or below `-6·10^8`, subnormal numbers, numbers so large that the first round does not accept them and the working precision does not reach the exponent |
| C55 | `powi_internal`, its loop, `try_set_precision` | error analysis of square and multiply (`m - 1` roundings away from zero, induction over the bits of the exponent), acceptance by the theorems of C43, growth of the working precision for termination; nearest modes refuted by evaluation |
| C56 | `conv_from_dec`: start value, scaling by approximate powers of ten, acceptance loop; `parse` through C35 | error propagation through the scaling (`ScApx`), acceptance lemma for approximations from either side (`tryPrec_apx`), rejection lemma and a gap argument for decimal fractions (`tryPrec_reject`, `dec_gap`) giving termination in the directed modes; witness against the nearest modes |
| C57 | `mantissa/fft.rs`: parameters, decomposition, weights, both transforms, products modulo `2^n1+1`, recomposition | words to residues in `ZMod (B^last+1)`, transform steps as index-wise identities, convolution theorem for the negacyclic transform in the bit-reversed order, bound on the coefficients; symbolic witness with 64 parts |
| C58 | `ops/consts/e.rs`: binary splitting, number of terms, cache, `for_prec`; `Consts::e` | the integers of the state are `serP`/`serQ` of the terms (exact while they are numbers), `Real.exp 1` between partial sum and tail, working precision as loop invariant, acceptance by the lemma on rounding an approximation; the cache is any state reachable from `new` (`EHist`) |
| C59 | `ops/consts/ln2.rs`, `Consts::ln_2` | as C58 with the series of `artanh(1/3)`; inexactness of the quotient from a prime between `b` and `2b` (Bertrand) |
| C60 | `ops/consts/ln10.rs`, `Consts::ln_10` | as C59 with `artanh(9/11)`; the number of terms only covers the precision of the result, so the statement carries a condition on the bits of `ln 10` |
| C61 | `ops/exp.rs` (`exp`, `exp_int`, `expf`), `ops/series.rs`, `sinh_series` of `ops/sinh.rs`, `BigFloat::exp` | error bound of the series and of the powers of the cached `e` over the reals, then the accepted value as in C58; the cache is quantified over all histories; far arguments and large precisions by following the overflow through `powi` and `e` |
| C62 | `ops/cosh.rs`, `BigFloat::cosh` | error of `(e^x + e^-x)/2` over the reals from that of `exp`, accepted value by the lemma on the common loop; the small branch by the lemma on `add_correction`; overflow followed through `exp` |
| C63 | `ops/sinh.rs` (`sinh`, `sinh_series`), `BigFloat::sinh` | as C62, with the series for arguments below 1 and the difference of exponentials above |
| C64 | `ops/tanh.rs` (`tanh`, `process_large_exp`), `BigFloat::tanh` | as C62 for the quotient `(e^2x - 1)/(e^2x + 1)` with the additional precision for small arguments; large arguments by `1 - tanh x < 2e^-2x` |
| C65 | `ops/log.rs` (`ln`, `ln_series`, `ln_arg_reduce`, `AtanhPolycoeffGen`, `LnArgReductionEstimator`), `BigFloat::ln` | truncation and rounding errors of the `artanh` series (Horner and rectangular summation) and of the repeated square root, bound on the reduction chosen by the cost estimate, bits lost next to 1 against `count_leading_ones`/`count_leading_zeroes_skip_first`; accepted value by the lemma on the common loop |
| C66 | `ops/log.rs` (`log2`), `BigFloat::log2` | as C65 with the quotient by `ln 2` and the sum with the exponent; powers of two separately |
| C67 | `ops/atanh.rs`, `BigFloat::atanh` | error of `(1+x)/(1-x)` and of the logarithm of it, then the rounding loop as in C65; next to zero the direct branch with the bound on `artanh x - x` |
| C68 | `ops/asinh.rs`, `BigFloat::asinh` | error of `x + sqrt(x^2+1)` or of `2x`, of the logarithm of it, then the rounding loop; next to zero as C67 |
| C69 | `ops/acosh.rs`, `BigFloat::acosh` | as C68 with `x^2-1`; next to 1 the cancellation is bounded by the exponent of `x-1` |
| C70 | `ops/pow.rs` `pow` in full, `BigFloat::pow` | `n ln x` has a relative error of a few units of the working precision plus 64 bits, which covers the magnitude `2^31` that `exp` allows; shared rounding loop; accepted bits keep away from the numbers of the format, so exact powers are never accepted in directed modes |
| C71 | `ops/log.rs` `log10` in full, `BigFloat::log10` | the quotient of the truncated logarithms has a relative error of 4 units of the working precision plus 64 bits; an integer quotient is the logarithm itself unless a power of ten is very near, which is excluded by comparing multiples of powers of two; shared rounding loop |
| C72 | `ops/log.rs` `log` in full, `BigFloat::log` with the caches | both logarithms and the division as in C71; the power with which a rejected quotient is tested (C70) always exists in mode `None` and leaves the caches in order; own induction over the loop, since it has a second exit; the second exit rounds the quotient itself, which is within 124 bits more than the precision |
| C73 | `ops/consts/pi.rs`, `Consts::pi` | as C58 with the series of Chudnovsky and Chudnovsky, whose state has a third, signed component; the statement is about `chudPi`, the right-hand side of their formula (`SpecPi.lean`), since Mathlib does not have the formula itself; up to 4096 bits both numbers are bracketed by integers (formula of Machin, kernel evaluation) and the result is transferred to pi |
| C74 | `ops/atan.rs`, `atan` and `half_pi` of `ext.rs`, `series_run` with an alternating series | relative errors of either sign through the argument reduction (half-angle formula), linear and rectangular summation; from one on `pi/2 - arctan(1/x)` with the constant of C73; the loop as in C62. The endless run: invariant of the series loop for any amount of fuel |
| C75 | `ops/asin.rs`, `BigFloat::asin` | relative error of `x / sqrt(1 - x^2)` (amplified by at most `2^L` where `1 - abs x >= 2^-L`, which the extra precision pays for), conditioning of `arctan`, then the loop as in C62; at 1 and -1 half of the constant of C73; next to zero the direct branch with `0 < arcsin t - t <= t^3/5` |
| C76 | `ops/acos.rs`, `BigFloat::acos` | absolute error of `pi/2 - arcsin x` from C73 and C75, the growth of the extra precision by the exponent lost in the cancellation (`arccos x >= sqrt(2 (1 - x))`), then the loop as in C62; the condition `AcosBand` on the exponent of the result |
| C77 | `ops/sin.rs`, `ops/util.rs` (`reduce_trig_arg`, `trig_arg_pi_proximity`), the series run for trigonometric functions, `BigFloat::sin` | error of the remainder modulo `2 pi` from C73 and the truncated quotient, error of the series and of `3 s - 4 s^3` relative to the angle, distance to the nearest multiple of pi as in the code, then the loop as in C62; the condition `SinOk` on argument and working precision |
| C78 | `ops/cos.rs`, `ops/util.rs` (`reduce_trig_arg`, `trig_arg_pi_proximity`), `BigFloat::cos` | the halving is exact, the error of the series is relative to the square of the angle, `2 c^2 - 1` multiplies an absolute error by four; the number of halvings chosen by `series_cost_optimize` bounds how far the extra precision falls short; then the loop as in C62; the condition `CosOk` on argument and working precision |
| C79 | `ops/tan.rs`, `ops/util.rs` (`reduce_trig_arg`, `trig_arg_pi_proximity`), `BigFloat::tan` | invariant of the loop that builds numerator and denominator (exact products of factorials, partial sums of sine and cosine with relative errors), truncation of both series; the error of `2t/(1-t^2)` as a change of the angle, which doubles with the angle, so that a cancellation in one step does no harm unless the angle itself is next to a multiple of half pi; the number of halvings chosen by the cost estimate; then the loop as in C62; the condition `TanOk` on argument and working precision |
| C80 | `astro-float-macro/src/lib.rs` (the generated code: `traverse_binary`, the error array, the loop), `check_exponent_range` | the meaning of an expression over the reals as an inductive relation; induction over the expression: a value of the round has a relative error of at most `2^(S+2n)` units, `S` the sum of its entries of the error array, and is exact if not marked inexact; an entry grows only up to the number of bits cancelled, so the loop ends; for `(1/3)*3-1` an invariant of the loop gives that it does not end |
| C81 | `random_normal` (`num.rs`, `mantissa.rs`, `ext.rs`); the draws are arguments | `maximize` sets the top bit, the mixed-in word keeps it; truncated remainder bounds; the converse (every number is reached) with explicit draws |
| C82 | `From<T>`, `FromExt`, `from_f32`; `f32 as f64` by its IEEE definition | composition of C21, C22 and C07; the halved subnormals and the NaN on overflow expected to fail |
| C83 | `for_3rd/ser.rs`, `for_3rd/de.rs` | composition of C21, C22, C82; negative integers expected to fail |

## 4. Disagreements between code and property

Each line is a theorem stating the negation of the property with a concrete witness; the property is
then proved on the remaining inputs (`*_partial`).

| theorem | what the code does |
|---------|--------------------|
| `C06_subnormal_refuted` | `rem` returns 0 when the exact remainder is subnormal |
| `C09_zero_operand_refuted` | `add_full_prec`/`sub_full_prec` with a zero operand give an inexact zero without mantissa |
| `C09_subnormal_refuted` | full-precision sum of subnormals is 0 although it is representable |
| `C10_refuted` | nearest modes round twice when the result is subnormal |
| `C12_refuted`, `C13_value_refuted`, `C13_symm_refuted`, `C38_refuted` | a zero is compared as if its mantissa started at its exponent field: `2^-1000 < 0`, `2^-65 == 0` |
| `C14_refuted` | `BigFloat::abs_cmp` compares with signs |
| `C18_add_refuted` | the sign of a zero sum depends on the order of the operands |
| `C20_subnormal_refuted` | `round` of a subnormal at digit position 2^31 goes the wrong way |
| `C22_refuted` | subnormal `f64` values are converted to half their value |
| `C26_refuted`, `C26_set_precision_refuted` | the inexact flag of a zero operand is dropped; in mode `None` the flag can be set for an unchanged value |
| `C27_refuted` | `1/Inf` and `1/0` do not check the precision |
| `C31_com_empty_refuted` | a zero without mantissa words (`BigFloat::new(0)`) makes the octal and hexadecimal conversion index out of range |
| `C31_com_auto_refuted` | a subnormal read back from octal or hexadecimal digits with `p = usize::MAX` has a wrong bit length and compares unequal |
| `C32_bin_leading_zero_refuted`, `C32_bin_lost_bit_refuted` | binary digits with a leading zero give an unnormalised number that has lost bits |
| `C32_com_underflow_refuted` | `0.1 * 16^-600000000` rounded up is `2^-64` |
| `C32_com_bad_digit_refuted`, `C32_bin_auto_zero_refuted` | a digit out of range with a large exponent gives Inf; `0` read with `p = usize::MAX` is not a zero |
| `C35_zero_inf_refuted`, `C35_overflow_refuted`, `C35_underflow_refuted` | the parser judges the exponent before the digits: `0.0e9999999999` is Inf, `0.01e2^31` (binary) is Inf, `0.1e-(2^31+1)` (binary) is 0 |
| `C35_leading_zeros_refuted` | zeros after the point stay in the digit list |
| `C36_trailing_refuted` | text after a number is ignored: `1.1xyz` is `1.1` |
| `C37_empty_refuted`, `C37_empty_sign_refuted` | a zero without mantissa words panics in the octal and hexadecimal formatter, and its sign is lost in binary |
| `C49_refuted`, `C49_same_text_refuted` | decimal text has too few digits: `1000+2^-54` and `1000+2^-53` at 64 bits have the same text |
| `C33_to_dec_refuted`, `C54_refuted` | `Mantissa::conv_to_dec` (mantissa/conv.rs 70-73) drops the leading zeros of a block that is not the leading one when its upper half is zero and its lower half does not fit a word: `10^64 + 2^64` is converted to the digits of `10^32 + 2^64`, and `10^50 + 10^5` with 512 bits is formatted as `1.0000000000001e+18` |
| `C55_nearest_refuted` | the same check of the wrong words as in C43 makes `powi` accept a working result which does not decide the rounding to nearest: a cube with 576 bits is off by one unit in the last place in `ToEven` and `ToOdd` |
| `C56_nearest_refuted` | `"9536743164062499999224518175731536554808054351184409824782051146030426025390624e-85".parse` with 64 bits in `ToEven` or `ToOdd` gives the upper of the two neighbours, although the number is below their middle; the cause is the roundability check as in C43 and C55 |
| `C57_refuted` | `fft_params` takes the square root of the number of bits cut to 32 bits; for operands of `31*2^20` and `33*2^20+2` words of ones it chooses 64 parts, the last part is 62 bits longer than the others and the product is too small |
| `C58_refuted`, `C58_overflow` | `Consts::e` returns NaN (`ExponentOverflow`) at every precision from `2^32` bits on: the denominator of the series exceeds the largest number |
| `C59_refuted`, `C59_overflow` | `Consts::ln_2` likewise from `2^28` bits on |
| `C60_refuted`, `C60_overflow` | `Consts::ln_10` likewise from 39 million bits on. Its number of terms does not grow with the working precision either: the value accepted as known to `P + 64` bits is known to `P + 7` bits |
| `C61_rounding_refuted`, `C61_inexact_refuted`, `C61_sign_refuted`, `C61_underflow`, `C61_underflow_far` | `exp` of arguments far below zero is a zero marked exact in every mode (also `Up` and `FromZero`, where the smallest number is due), and `-0` for arguments up to `-2^64` |
| `C61_precision_refuted`, `C61_precision` | `exp` at every precision from `2^32` bits on is `+Inf` for arguments from 1 on and zero for arguments up to -1, because the cached `e` overflows |
| `C62_overflow_refuted`, `C63_overflow_refuted` | `cosh` and `sinh` of arguments whose exponential is too large although half of it is a number (for example 1488522235.25) are infinite |
| `C62_precision_refuted`, `C63_precision_refuted`, `C62_precision`, `C63_precision` | `cosh` and `sinh` of numbers from 1 on are infinite at every precision from `2^32` bits on |
| `C64_precision_refuted`, `C64_precision` | `tanh` of numbers from one half on is 1 or the number next to it at every precision from `2^32` bits on: the overflow of `exp` is taken for a large argument |
| `C64_inf_refuted` | `tanh` of an infinity is NaN with fewer than 8 bits |
| `C66_precision_refuted`, `C66_precision` | `log2` of a number that is not a power of two is no number at every precision from `2^28` bits on, because `ln 2` overflows there |
| `C66_one_refuted`, `C66_one` | the zero returned by `log2(1)` carries the exponent 64 (`from_usize(0)`); at 64 bits it compares as greater than every number below one half |
| `C68_precision_refuted`, `C68_sign_refuted`, `C68_precision` | from `2^30` bits on `asinh` of numbers of magnitude `2^(2^30)` and more is `+Inf`, because the square of the argument overflows; for negative arguments the sign is wrong too |
| `C69_precision_refuted`, `C69_precision` | the same for `acosh` |
| `C70_exact_refuted`, `C70_exact_partial` | `pow` never returns an exact power (`2^10`, `3^3`, `4^0.5`) in the modes `Up`, `Down`, `ToZero`, `FromZero`: every approximation is rejected and the working precision grows without end |
| `C70_flag_refuted` | `2^10` rounded to the nearest is exact but marked inexact |
| `C71_flag_refuted` | `log10 10 = 1` is marked inexact in every mode, like every other power of ten except 1 |
| `C71_one_flag_refuted` | `log10` of a 1 that is marked inexact is marked exact (`ln` keeps the mark) |
| `C71_precision_refuted` | from 39 million bits on `log10` returns no number, even for 1 and 10 |
| `C72_flag_refuted` | `log_3 3 = 1` is marked inexact in every mode, like every exact logarithm of a number other than 1 |
| `C72_base_one_refuted` | the logarithm of `1/2` to the base 1 is `+Inf` although `ln(1/2) / ln(1)` is `-Inf`; the sign of `ln x` is not used |
| `C73_refuted`, `C73_overflow` | `Consts::pi` is NaN with `ExponentOverflow` from 900 million bits on, in every mode, for the reason of C58 |
| `C74_endless`, `C74_endless_refuted` | `atan(1.25 * 2^715827946)` at 64 bits does not return: the first term of the series underflows to zero, whose exponent is 0, so the loop of `series_linear`, which waits for a term with a small exponent, never ends |
| `C74_inf_refuted` | `atan(-Inf)` rounds pi and then changes the sign: in the modes `Up` and `Down` the result lies on the wrong side of `-pi/2` |
| `C80_cancel_refuted` | `expr!(x*x - z, ctx)` with x = 1 + 2^-100, z = 1 + 2^-99 at 64 bits is zero instead of 2^-200: after a complete cancellation the exponent is that of a zero, 0, and the check sees no loss |
| `C80_argument_refuted` | `expr!(x - 1, ctx)` with x = 1 + 2^-255 at 64 bits is zero, marked exact: the argument is rounded to the working precision and then marked exact |
| `C80_rem_refuted` | `expr!((x*x) % 3, ctx)` with x = 2^100 + 1 at 64 bits is 0 instead of 1: `%` takes no part in the error compensation |
| `C80_limit_refuted` | `expr!((1/3)*3 - 1, ctx)` restarts round after round with an ever larger working precision, whatever the exponent range of the context |
| `C81_zero_refuted`, `C81_no_words_refuted` | `random_normal` returns a zero (with an arbitrary exponent field) when all the words drawn are zero, and always when `p = 0` |
| `C81_inclusive_refuted` | `random_normal` never returns the exponent `exp_to`, which its documentation includes |
| `C81_abs_refuted` | `rand::random::<isize>().abs()` of the smallest `isize`: a panic, or an exponent out of the range without overflow checks |
| `C82_overflow_refuted` | `from_ext` of a `BigFloat` whose rounding overflows is NaN, not Inf |
| `C82_subnormal_refuted`, `C83_subnormal_refuted` | the halved subnormals of `from_f64` (C22) seen through `From` and `serde` |
| `C83_negative_refuted` | `visit_i64` is missing: a negative integer in the data (`-5` in JSON) is an error |
| `C83_round_trip_refuted` | two different 64-bit numbers are serialised to the same text |
| `C39_classify_refuted`, `C39_signum_refuted` | `classify(0)` is Subnormal, `signum(0)` is 1 |
| `C40_refuted` | the sign of an exact zero sum in mode `Down` |
| `C43_nearest_refuted`, `C43_none_refuted` | `try_set_precision` accepts undecided halves (scan in the wrong direction); `None` is not checked |
| `C44_inf_zero_refuted`, `C45_one_refuted`, `C46_tanh_refuted`, `C52_minus_one_refuted` | the constant 1 is built with `from_u8`/`from_i8`, which reject p < 8, so the result is NaN |
| `C45_neg_base_refuted`, `C45_neg_exponent_refuted`, `C45_small_base_refuted` | `(-2)^Inf = 0`, `2^-Inf = -Inf`, `(1/2)^-Inf = 0` |
| `C51_zero_refuted` | `check_exponent_range` turns a zero with a large exponent field into Inf |
| `C52_exponent_one_refuted` | `pow(x, 1)` rounds to exactly p bits, not to whole words |
| `C53_zero_argument_refuted`, `C53_zero_base_refuted`, `C53_negative_refuted` | `log(0, 2)` is NaN, `log(2, 0)` is -Inf, `log(Inf, -2)` is Inf, `log(-2, Inf)` is 0 |

Observed and not part of a property: the documentation of `RoundingMode::Up`, `Down`, `ToZero`, `FromZero`
speaks of rounding half, the implementation rounds in the direction.

## 5. Trusted base

* Lean 4 kernel; axioms `propext`, `Classical.choice`, `Quot.sound` at most (checked with
  `#print axioms`). No `sorry`, no added axioms, no `native_decide`, no `bv_decide`.
* The reading of the Rust source: the model is hand written from the text; nothing was executed.
* The meaning of primitive Rust operations (wrapping shifts, `_addcarry_u64`, slice copies).
* Mathlib is used for tactics and for basic facts on naturals, integers and rationals.
