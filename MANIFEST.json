{
 "claims": [
  {
   "property": "C01",
   "status": "proved",
   "theorems": [
    "AF.C01_add_correctly_rounded",
    "AF.C01_sub_correctly_rounded",
    "AF.C01_add_zero",
    "AF.C01_sub_zero"
   ],
   "note": "Proved for all well-formed finite operands, all accepted precisions and all modes."
  },
  {
   "property": "C02",
   "status": "proved",
   "theorems": [
    "AF.C02_mul_correctly_rounded",
    "AF.C02_mul_zero"
   ],
   "note": "Proved for all well-formed finite operands; products of mantissas above the FFT thresholds use the integer-product contract fftMul (see DESIGN.md)."
  },
  {
   "property": "C03",
   "status": "proved",
   "theorems": [
    "AF.C03_div_correctly_rounded",
    "AF.C03_div_zero"
   ],
   "note": "Proved for all well-formed finite operands with nonzero divisor; products inside division use fftMul above the FFT thresholds."
  },
  {
   "property": "C04",
   "status": "proved",
   "theorems": [
    "AF.C04_sqrt_correctly_rounded",
    "AF.C04_sqrt_correctly_rounded_short",
    "AF.C04_sqrt_inexact",
    "AF.C04_sqrt_zero",
    "AF.C04_sqrt_negative"
   ],
   "note": "Proved for all well-formed nonnegative x, all accepted precisions and all modes against the real square root; negative input gives NaN(InvalidArgument)."
  },
  {
   "property": "C05",
   "status": "proved",
   "theorems": [
    "AF.C05_cbrt_correctly_rounded",
    "AF.C05_cbrt_correctly_rounded_short",
    "AF.C05_cbrt_sign_inexact",
    "AF.C05_cbrt_zero"
   ],
   "note": "Proved for all well-formed x against the real cube root (shown to exist)."
  },
  {
   "property": "C06",
   "status": "partial",
   "theorems": [
    "AF.C06_rem_partial",
    "AF.C06_rem_properties_partial",
    "AF.C06_rem_zero",
    "AF.C06_subnormal_refuted"
   ],
   "note": "Exact for all finite x and non-zero finite y whose remainder is zero or not below the normal range; below it the code returns zero (C06_subnormal_refuted), sign, bound and congruence are proved in general."
  },
  {
   "property": "C07",
   "status": "proved",
   "theorems": [
    "AF.C07_set_precision_rounds",
    "AF.C07_set_precision_normal",
    "AF.C07_widening_exact"
   ],
   "note": "Proved for all well-formed numbers, precisions and modes, including the overflow error and exact widening."
  },
  {
   "property": "C08",
   "status": "proved",
   "theorems": [
    "AF.C08_reciprocal_correctly_rounded",
    "AF.C08_reciprocal_of_zero",
    "AF.C08_reciprocal_of_inf",
    "AF.C08_reciprocal_of_nan"
   ],
   "note": "Proved for all well-formed finite numbers, zero included."
  },
  {
   "property": "C09",
   "status": "partial",
   "theorems": [
    "AF.C09_add_full_prec_partial",
    "AF.C09_sub_full_prec_partial",
    "AF.C09_mul_full_prec_partial",
    "AF.C09_zero_operand_refuted",
    "AF.C09_subnormal_refuted"
   ],
   "note": "Exact for all non-zero finite operands whose exact result is zero, in the normal range or overflowing; refuted for a zero operand of add/sub_full_prec (result is zero with no words) and below the normal range (min_positive(128) + itself gives 0). mul_full_prec with zero operand is exact."
  },
  {
   "property": "C10",
   "status": "partial",
   "theorems": [
    "AF.C10_refuted",
    "AF.C10_underflow_directed_partial",
    "AF.C10_underflow_nearest_partial"
   ],
   "note": "False in the code for the two nearest modes (C10_refuted: 3/4 of the smallest positive number rounds to 0). Proved for all directed modes and None; for nearest modes proved to be on the grid within one unit."
  },
  {
   "property": "C11",
   "status": "proved",
   "theorems": [
    "AF.C11_infinity_iff_overflow",
    "AF.C11_infinity_sign",
    "AF.C11_number_or_infinity"
   ],
   "note": "Proved for add, sub, mul, div."
  },
  {
   "property": "C12",
   "status": "partial",
   "theorems": [
    "AF.C12_refuted",
    "AF.C12_cmp_agrees_partial"
   ],
   "note": "The claim is false in the code for a nonzero number against a zero of the same sign when the number is below 2^-(mantissa bits of the zero) (C12_refuted); proved for every other pair."
  },
  {
   "property": "C13",
   "status": "partial",
   "theorems": [
    "AF.C13_value_refuted",
    "AF.C13_symm_refuted",
    "AF.C13_eq_iff_value_partial",
    "AF.C13_refl",
    "AF.C13_nan",
    "AF.C13_symm_partial",
    "AF.C13_trans_partial"
   ],
   "note": "False in the code for the same pairs as C12 (2^-65 == 0, and not symmetric); proved otherwise. Reflexivity and NaN behaviour are unrestricted."
  },
  {
   "property": "C14",
   "status": "partial",
   "theorems": [
    "AF.C14_refuted",
    "AF.C14_abs_cmp_nonneg_partial",
    "AF.C14_abs_cmp_inf"
   ],
   "note": "False in the code for negative numbers: abs_cmp of BigFloat calls the signed comparison (C14_refuted). Proved for nonnegative numbers and infinities."
  },
  {
   "property": "C15",
   "status": "proved",
   "theorems": [
    "AF.C15_cmp_none_iff",
    "AF.C15_partial_cmp_none_iff",
    "AF.C15_inf_order",
    "AF.C15_trans"
   ],
   "note": "Proved for all values."
  },
  {
   "property": "C16",
   "status": "proved",
   "theorems": [
    "AF.C16_add",
    "AF.C16_sub",
    "AF.C16_mul",
    "AF.C16_div",
    "AF.C16_rem",
    "AF.C16_nan_payload"
   ],
   "note": "Proved for add, sub, mul, div, rem against a separate extended-real specification. x/Inf is stated for dividends shorter than the maximal length 2^62-2^31 bits."
  },
  {
   "property": "C17",
   "status": "proved",
   "theorems": [
    "AF.C17_neg_involution",
    "AF.C17_neg_value",
    "AF.C17_abs_value",
    "AF.C17_set_sign",
    "AF.C17_inv_sign",
    "AF.C17_sub_is_add_neg"
   ],
   "note": "Proved for all values; sub = add of the negation holds bit for bit."
  },
  {
   "property": "C18",
   "status": "partial",
   "theorems": [
    "AF.C18_mul_comm",
    "AF.C18_add_refuted",
    "AF.C18_add_comm_partial",
    "AF.C18_add_zeros"
   ],
   "note": "mul proved in full. add is false only for two zeros of different sign (C18_add_refuted), proved for all other pairs."
  },
  {
   "property": "C19",
   "status": "proved",
   "theorems": [
    "AF.C19_int",
    "AF.C19_fract",
    "AF.C19_int_add_fract",
    "AF.C19_floor",
    "AF.C19_ceil"
   ],
   "note": "Proved for every well-formed x with fewer than 2^31 mantissa bits; int needs no length limit."
  },
  {
   "property": "C20",
   "status": "partial",
   "theorems": [
    "AF.C20_round_partial",
    "AF.C20_round_large",
    "AF.C20_subnormal_refuted"
   ],
   "note": "Proved for every finite x, n < 2^62-1 and mode except None, but for the corner nearest mode, n = 2^31, x subnormal with a bit length divisible by 64, where the code rounds the wrong way (C20_subnormal_refuted). Larger n is refused (C20_round_large)."
  },
  {
   "property": "C21",
   "status": "proved",
   "theorems": [
    "AF.C21_from_unsigned",
    "AF.C21_from_signed",
    "AF.C21_from_u128",
    "AF.C21_from_i128",
    "AF.C21_from_word",
    "AF.C21_rejects"
   ],
   "note": "Proved for all primitive integer sources and all precisions."
  },
  {
   "property": "C22",
   "status": "partial",
   "theorems": [
    "AF.C22_from_f64_partial",
    "AF.C22_subnormal_half",
    "AF.C22_from_f64_zero",
    "AF.C22_from_f64_inf_nan",
    "AF.C22_refuted"
   ],
   "note": "False for subnormal doubles: from_f64 returns half the value (C22_refuted, C22_subnormal_half). Proved for zero, normal, infinite and NaN patterns."
  },
  {
   "property": "C23",
   "status": "proved",
   "theorems": [
    "AF.C23_raw_parts_round_trip",
    "AF.C23_from_raw_parts_accepts",
    "AF.C23_from_words"
   ],
   "note": "Proved; the exponent of a zero is reset to 0."
  },
  {
   "property": "C24",
   "status": "proved",
   "theorems": [
    "AF.C24_set_exponent",
    "AF.C24_set_exponent_zero"
   ],
   "note": "Proved for all well-formed numbers and all exponents."
  },
  {
   "property": "C25",
   "status": "proved",
   "theorems": [
    "AF.C25_reachable_well_formed"
   ],
   "note": "Every value built by the constructors, arithmetic with p > 0, roots, setters, min/max/clamp, int/fract/floor/ceil is well-formed; elementary functions and parsing are not constructors of the inductive reachability predicate."
  },
  {
   "property": "C26",
   "status": "partial",
   "theorems": [
    "AF.C26_exact_operands",
    "AF.C26_refuted",
    "AF.C26_inexact_operand_partial",
    "AF.C26_set_precision_partial",
    "AF.C26_set_precision_refuted"
   ],
   "note": "Exact operands: proved without restriction for the four operations. False in the code: zero operands forget the inexact mark (C26_refuted); set_precision in mode None with p not a multiple of 64 marks unchanged numbers (C26_set_precision_refuted)."
  },
  {
   "property": "C27",
   "status": "partial",
   "theorems": [
    "AF.C27_result_precision",
    "AF.C27_sqrt_precision",
    "AF.C27_cbrt_precision",
    "AF.C27_roots_reject_large",
    "AF.C27_rejects_large_partial",
    "AF.C27_refuted"
   ],
   "note": "Precision of results proved for add, sub, mul, div, sqrt, cbrt. Rejection of precisions above the limit is false for division by zero and infinite operands (C27_refuted), proved otherwise."
  },
  {
   "property": "C28",
   "status": "proved",
   "theorems": [
    "AF.C28_mul_words_exact"
   ],
   "note": "Schoolbook, Toom-2, Toom-3 and FFT paths are modelled and proved; only where fft_params chooses 64 parts (2^26 words and more together, see C57) the product is the contract fftMul."
  },
  {
   "property": "C29",
   "status": "proved",
   "theorems": [
    "AF.C29_div_words_exact",
    "AF.C29_div_basic_exact"
   ],
   "note": "Proved for both division algorithms, all lengths."
  },
  {
   "property": "C30",
   "status": "proved",
   "theorems": [
    "AF.C30_sqrt_rem",
    "AF.C30_cbrt_rem"
   ],
   "note": "Proved for all operands meeting the internal preconditions stated in the quantifier."
  },
  {
   "property": "C31",
   "status": "partial",
   "theorems": [
    "AF.C31_bin_digits",
    "AF.C31_com_digits_partial",
    "AF.C31_com_empty_refuted",
    "AF.C31_bin_back",
    "AF.C31_com_back",
    "AF.C31_bin_auto",
    "AF.C31_com_auto_partial",
    "AF.C31_com_auto_refuted"
   ],
   "note": "Proved for every finite x except: a zero without mantissa panics in octal/hex (C31_com_empty_refuted); subnormals read back from octal/hex digits with p = usize::MAX get a wrong bit length (C31_com_auto_refuted)."
  },
  {
   "property": "C32",
   "status": "partial",
   "theorems": [
    "AF.C32_bin_partial",
    "AF.C32_com_partial",
    "AF.C32_bin_bad_digit",
    "AF.C32_com_bad_digit_partial",
    "AF.C32_bin_auto_partial",
    "AF.C32_bin_leading_zero_refuted",
    "AF.C32_bin_lost_bit_refuted",
    "AF.C32_com_underflow_refuted",
    "AF.C32_com_bad_digit_refuted",
    "AF.C32_bin_auto_zero_refuted"
   ],
   "note": "Proved for all digit strings within the size limit except: binary digits with a leading zero above the smallest exponent, octal/hex values far below the smallest subnormal that round away from zero, out-of-range digits with overflowing exponent, and zeros with p = usize::MAX (five refuted theorems)."
  },
  {
   "property": "C33",
   "status": "partial",
   "theorems": [
    "AF.C33_from_dec",
    "AF.C33_to_dec_partial",
    "AF.C33_to_dec_refuted"
   ],
   "note": "C33_from_dec is the full statement for digits to integer (any history of the power cache, any digit list, invalid digits refused). Integer to digits is refuted (C33_to_dec_refuted: zeros inside the number are dropped); C33_to_dec_partial covers every integer with no aligned block of 64, 128, ... digits whose upper half is zero and lower half does not fit a word."
  },
  {
   "property": "C34",
   "status": "proved",
   "theorems": [
    "AF.C34_exact",
    "AF.C34_length",
    "AF.C34_to_radix",
    "AF.C34_from_radix",
    "AF.C34_parse",
    "AF.C34_format"
   ],
   "note": "All histories of requests (TenHist). Entries exact, conversions in both directions, parse and format give equal results with any two such caches and leave such a cache."
  },
  {
   "property": "C35",
   "status": "partial",
   "theorems": [
    "AF.C35_literal_partial",
    "AF.C35_parse_literal_partial",
    "AF.C35_inf",
    "AF.C35_nan",
    "AF.C35_zero_inf_refuted",
    "AF.C35_overflow_refuted",
    "AF.C35_underflow_refuted",
    "AF.C35_leading_zeros_refuted"
   ],
   "note": "Proved for all literals with exponent at most 2^31 in magnitude and exponent plus integer digits in range; outside the code answers Inf or 0 even when the value is representable or zero (refuted theorems). Zeros after the point are kept as digits."
  },
  {
   "property": "C36",
   "status": "partial",
   "theorems": [
    "AF.C36_partial",
    "AF.C36_accepted",
    "AF.C36_trailing_refuted"
   ],
   "note": "Refuted: text after a literal is ignored. Proved: the result is NaN exactly when no prefix of the text is a literal or a spelling of infinity."
  },
  {
   "property": "C37",
   "status": "partial",
   "theorems": [
    "AF.C37_bin",
    "AF.C37_com_partial",
    "AF.C37_empty_refuted",
    "AF.C37_empty_sign_refuted"
   ],
   "note": "Proved for every finite number with a mantissa, signs of zeros included; a zero without mantissa panics in octal/hex and loses its sign in binary (refuted theorems)."
  },
  {
   "property": "C38",
   "status": "partial",
   "theorems": [
    "AF.C38_max_partial",
    "AF.C38_min_partial",
    "AF.C38_clamp_partial",
    "AF.C38_nan",
    "AF.C38_clamp_order_partial",
    "AF.C38_refuted"
   ],
   "note": "False where cmp is wrong (C38_refuted); proved for all other arguments."
  },
  {
   "property": "C39",
   "status": "partial",
   "theorems": [
    "AF.C39_classify_partial",
    "AF.C39_zero_class",
    "AF.C39_classify_refuted",
    "AF.C39_signum_partial",
    "AF.C39_signum_refuted"
   ],
   "note": "A zero with a non-empty mantissa is classified as Subnormal, and signum of a zero is plus or minus one (C39_classify_refuted, C39_signum_refuted); proved for everything else."
  },
  {
   "property": "C40",
   "status": "partial",
   "theorems": [
    "AF.C40_refuted",
    "AF.C40_down_partial",
    "AF.C40_up_partial",
    "AF.C40_toZero_partial",
    "AF.C40_fromZero"
   ],
   "note": "False when the result overflows (max+max rounded Down is +Inf, C40_refuted); proved for every numeric result, subnormal included."
  },
  {
   "property": "C41",
   "status": "proved",
   "theorems": [
    "AF.C41_monotone",
    "AF.C41_add_monotone",
    "AF.C41_mul_monotone",
    "AF.C41_monotone_directed"
   ],
   "note": "Proved for add, mul and, more generally, across operations; in directed modes below the normal range too."
  },
  {
   "property": "C42",
   "status": "proved",
   "theorems": [
    "AF.C42_add_zero",
    "AF.C42_zero_add",
    "AF.C42_sub_zero",
    "AF.C42_mul_one",
    "AF.C42_div_one",
    "AF.C42_sub_self",
    "AF.C42_sqrt_square",
    "AF.C42_cbrt_cube",
    "AF.C42_div_self"
   ],
   "note": "Proved for add, sub, mul, div, sqrt, cbrt."
  },
  {
   "property": "C43",
   "status": "partial",
   "theorems": [
    "AF.C43_try_set_precision_partial",
    "AF.C43_exact",
    "AF.C43_special",
    "AF.C43_nearest_refuted",
    "AF.C43_none_refuted"
   ],
   "note": "Proved for the directed modes and any number of correct words, and for the nearest modes when all words are correct; refuted for the nearest modes with fewer correct words (wrong scan direction, C43_nearest_refuted) and for None, where nothing is checked. s is a multiple of 64 as the code asserts."
  },
  {
   "property": "C44",
   "status": "partial",
   "theorems": [
    "AF.C44_zero_exponent",
    "AF.C44_inf_zero_exponent_partial",
    "AF.C44_inf_zero_refuted",
    "AF.C44_one_exponent",
    "AF.C44_zero_base",
    "AF.C44_inf",
    "AF.C44_nan"
   ],
   "note": "powi with exponent 0 and 1, zero base, infinities and NaN. Inf^0 at p < 8 is NaN in the code (C44_inf_zero_refuted)."
  },
  {
   "property": "C45",
   "status": "partial",
   "theorems": [
    "AF.C45_above_one_partial",
    "AF.C45_below_one",
    "AF.C45_neg_inf_partial",
    "AF.C45_one_partial",
    "AF.C45_inf_base_partial",
    "AF.C45_nan",
    "AF.C45_neg_base_refuted",
    "AF.C45_neg_exponent_refuted",
    "AF.C45_small_base_refuted",
    "AF.C45_one_refuted"
   ],
   "note": "Proved where the code agrees; (-2)^Inf, 2^-Inf, (1/2)^-Inf and 1^Inf at p < 8 are wrong in the code (refuted theorems). The computation for finite arguments is a parameter."
  },
  {
   "property": "C46",
   "status": "partial",
   "theorems": [
    "AF.C46_at_pos_inf",
    "AF.C46_at_neg_inf",
    "AF.C46_tanh_partial",
    "AF.C46_tanh_refuted",
    "AF.C46_atan",
    "AF.C46_nan",
    "AF.C46_log_zero"
   ],
   "note": "The finite branches are arbitrary functions in the model. tanh(+-Inf) at p < 8 is NaN in the code (C46_tanh_refuted)."
  },
  {
   "property": "C47",
   "status": "proved",
   "theorems": [
    "AF.C47_history_state",
    "AF.C47_limits",
    "AF.C47_in_range",
    "AF.C47_clone",
    "AF.C47_tuples"
   ],
   "note": "By induction over arbitrary sequences of constructor, setter and clone calls; the constants cache is an arbitrary type."
  },
  {
   "property": "C48",
   "status": "proved",
   "theorems": [
    "AF.C48_half_ulp"
   ],
   "note": "Proved for add, sub, mul, div."
  },
  {
   "property": "C49",
   "status": "partial",
   "theorems": [
    "AF.C49_same_text_refuted",
    "AF.C49_refuted"
   ],
   "note": "Refuted: 1000+2^-54 and 1000+2^-53 (64 bits) have the same decimal text."
  },
  {
   "property": "C50",
   "status": "proved",
   "theorems": [
    "AF.C50_is_int",
    "AF.C50_is_zero",
    "AF.C50_sign",
    "AF.C50_special"
   ],
   "note": "Proved for all well-formed values."
  },
  {
   "property": "C51",
   "status": "partial",
   "theorems": [
    "AF.C51_above",
    "AF.C51_inside",
    "AF.C51_below",
    "AF.C51_zero_partial",
    "AF.C51_special",
    "AF.C51_zero_refuted"
   ],
   "note": "Zeros with a nonzero exponent field above emax become Inf (C51_zero_refuted)."
  },
  {
   "property": "C52",
   "status": "partial",
   "theorems": [
    "AF.C52_zero_exponent",
    "AF.C52_zero_base",
    "AF.C52_one_base",
    "AF.C52_minus_one_partial",
    "AF.C52_negative_base",
    "AF.C52_exponent_one_partial",
    "AF.C52_exponent_one_refuted",
    "AF.C52_exponent_minus_one",
    "AF.C52_minus_one_refuted"
   ],
   "note": "The computation through ln and exp is a parameter that these arguments never reach. pow(x,1) is rounded to p bits instead of whole words (C52_exponent_one_refuted); (-1)^odd at p < 8 is NaN (C52_minus_one_refuted)."
  },
  {
   "property": "C53",
   "status": "partial",
   "theorems": [
    "AF.C53_inf_argument",
    "AF.C53_inf_base",
    "AF.C53_negative_partial",
    "AF.C53_nan",
    "AF.C53_zero_argument_refuted",
    "AF.C53_zero_base_refuted",
    "AF.C53_negative_refuted"
   ],
   "note": "The computation for finite positive arguments is a parameter. Zero argument, zero base and negative arguments against infinities are wrong in the code (refuted theorems)."
  },
  {
   "property": "C54",
   "status": "partial",
   "theorems": [
    "AF.C54_refuted",
    "AF.C54_far_partial",
    "AF.C54_short_partial",
    "AF.C54_exact_partial",
    "AF.C54_word_partial",
    "AF.C54_none_partial",
    "AF.C54_big_partial",
    "AF.C54_large_far_partial",
    "AF.C54_large_exact_partial",
    "AF.C54_big_none_partial",
    "AF.C54_word_none_partial",
    "AF.C54_word_big_partial"
   ],
   "note": "Refuted with a concrete number, caused by the defect shown in C33_to_dec_refuted. Partial: the text is a literal, and in every rounding mode but None its value is the number correctly rounded to the decimal precision (decDigits), when the scaled number has no gap of the kind that triggers the defect and the number is far from (C54_far_partial) or not equal to (C54_short_partial) a decimal with one digit more, or has few significant bits compared to the working precision reached (C54_exact_partial; C54_word_partial for 64 bits without any condition on gaps). Mode None: within one unit of the last digit (C54_none_partial; C54_word_none_partial for 64 bits). Large numbers, which are divided by a power of ten: C54_big_partial, C54_word_big_partial (far from a decimal with one digit more) and C54_big_none_partial; C54_large_far_partial and C54_large_exact_partial follow them through the rounds in which the number is still divided, as long as the working precision reaches the exponent within the given number of rounds. Missing: exponents above 1.5e9 or below -6e8, subnormal numbers, numbers so large that the first round does not accept them and the working precision does not reach the exponent."
  },
  {
   "property": "C55",
   "status": "partial",
   "theorems": [
    "AF.C55_outcomes_partial",
    "AF.C55_directed_partial",
    "AF.C55_nearest_partial",
    "AF.C55_none_partial",
    "AF.C55_nearest_refuted"
   ],
   "note": "Correct rounding with exact flag proved for the directed modes, and error bounds for the nearest modes and None, for powers in the normal range below 2^(EMAX-2) with 64*len*n and the precision at most 2^60 bits. Refuted for ToEven and ToOdd. Missing: powers below the normal range and in the two top binades."
  },
  {
   "property": "C56",
   "status": "partial",
   "theorems": [
    "AF.C56_outcomes_partial",
    "AF.C56_directed_partial",
    "AF.C56_nearest_partial",
    "AF.C56_none_partial",
    "AF.C56_parse_directed_partial",
    "AF.C56_parse_nearest_partial",
    "AF.C56_nearest_refuted"
   ],
   "note": "Directed modes: correctly rounded with the exact flag, and never NaN (a gap argument shows that the acceptance loop ends). Mode None: within one unit. Nearest modes: refuted by a 79-digit literal; error within a factor 1+2^-60 of half a unit, or NaN. Value between 2^EMIN and 2^(EMAX-2), at most 646456991 digits, at most 2^59 bits."
  },
  {
   "property": "C57",
   "status": "partial",
   "theorems": [
    "AF.C57_fft_exact_partial",
    "AF.C57_fft_reduces_partial",
    "AF.C57_no_contract",
    "AF.C57_refuted"
   ],
   "note": "fft_mul is modelled step by step and proved exact unless fft_params chooses 64 parts, which needs 2^26 words and more together; there a concrete pair of operands gives a wrong product (C57_refuted, proved symbolically)."
  },
  {
   "property": "C58",
   "status": "partial",
   "theorems": [
    "AF.C58_new",
    "AF.C58_outcomes_partial",
    "AF.C58_directed_partial",
    "AF.C58_history_partial",
    "AF.C58_number_partial",
    "AF.C58_overflow",
    "AF.C58_refuted"
   ],
   "note": "Partial: correct rounding in the four directed modes, error bounds in the others, termination, independence of the cache history; numbers are returned below 2^29 bits. False from 2^32 bits on, where the answer is NaN (C58_refuted)."
  },
  {
   "property": "C59",
   "status": "partial",
   "theorems": [
    "AF.C59_new",
    "AF.C59_outcomes_partial",
    "AF.C59_directed_partial",
    "AF.C59_history_partial",
    "AF.C59_number_partial",
    "AF.C59_overflow",
    "AF.C59_refuted"
   ],
   "note": "Partial: correct rounding in the four directed modes, error bounds in the others, termination, independence of the cache history; numbers are returned below 2^26 bits. False from 2^28 bits on, where the answer is NaN (C59_refuted)."
  },
  {
   "property": "C60",
   "status": "partial",
   "theorems": [
    "AF.C60_new",
    "AF.C60_outcomes_partial",
    "AF.C60_directed_partial",
    "AF.C60_history_partial",
    "AF.C60_number_partial",
    "AF.C60_overflow",
    "AF.C60_refuted"
   ],
   "note": "Partial: directed modes are correctly rounded unless 6 bits of ln 10 in a row are equal at that place, error bounds otherwise, termination; numbers are returned up to 2^23 bits. False from 39 million bits on, where the answer is NaN (C60_refuted)."
  },
  {
   "property": "C61",
   "status": "partial",
   "theorems": [
    "AF.C61_zero",
    "AF.C61_small",
    "AF.C61_outcome_partial",
    "AF.C61_directed_partial",
    "AF.C61_history_partial",
    "AF.C61_mono_partial",
    "AF.C61_number_partial",
    "AF.C61_overflow_far",
    "AF.C61_overflow_partial",
    "AF.C61_underflow",
    "AF.C61_underflow_far",
    "AF.C61_precision",
    "AF.C61_sign_refuted",
    "AF.C61_inexact_refuted",
    "AF.C61_rounding_refuted",
    "AF.C61_precision_refuted"
   ],
   "note": "Partial: exact at zero, correctly rounded in every mode next to zero; for results between 2^-(EMAX-4) and 2^(EMAX-4) and working precisions up to 2^22 bits correctly rounded in directed modes, error bounds in the others, independent of the cache, monotone; overflow. False for results below the range (exact zero in every mode, sometimes -0) and from 2^32 bits on."
  },
  {
   "property": "C62",
   "status": "partial",
   "theorems": [
    "AF.C62_zero",
    "AF.C62_small",
    "AF.C62_outcome_partial",
    "AF.C62_directed_partial",
    "AF.C62_history_partial",
    "AF.C62_mono_partial",
    "AF.C62_number_partial",
    "AF.C62_overflow_partial",
    "AF.C62_precision",
    "AF.C62_precision_refuted",
    "AF.C62_overflow_refuted"
   ],
   "note": "Partial: exact at zero, correctly rounded in every mode next to zero; for exp|x| up to 2^(EMAX-4) and working precisions up to 2^21 bits correctly rounded in directed modes, error bounds in the others, independent of the cache and of the sign, monotone; overflow. False where exp overflows but its half does not, and from 2^32 bits on."
  },
  {
   "property": "C63",
   "status": "partial",
   "theorems": [
    "AF.C63_zero",
    "AF.C63_small",
    "AF.C63_outcome_partial",
    "AF.C63_directed_partial",
    "AF.C63_history_partial",
    "AF.C63_mono_partial",
    "AF.C63_odd_partial",
    "AF.C63_number_partial",
    "AF.C63_overflow_partial",
    "AF.C63_precision",
    "AF.C63_precision_refuted",
    "AF.C63_overflow_refuted"
   ],
   "note": "Partial: exact at zero, correctly rounded in every mode next to zero; for exp|x| up to 2^(EMAX-4) and working precisions up to 2^21 bits correctly rounded in directed modes, error bounds in the others, independent of the cache, odd, monotone; overflow with the right sign. Missing: arguments in the two lowest binades. False where exp overflows but its half does not, and from 2^32 bits on."
  },
  {
   "property": "C64",
   "status": "partial",
   "theorems": [
    "AF.C64_zero",
    "AF.C64_small",
    "AF.C64_outcome_partial",
    "AF.C64_directed_partial",
    "AF.C64_history_partial",
    "AF.C64_mono_partial",
    "AF.C64_odd_partial",
    "AF.C64_number_partial",
    "AF.C64_inf_partial",
    "AF.C64_inf_refuted",
    "AF.C64_top",
    "AF.C64_bound_partial",
    "AF.C64_precision",
    "AF.C64_precision_refuted"
   ],
   "note": "Partial: exact at zero and the infinities (from 8 bits on), correctly rounded in every mode next to zero and for the largest exponent; otherwise correctly rounded in directed modes for working precisions up to 2^22 bits, error bounds in the others, independent of the cache, odd, monotone, at most one. Missing: arguments in the two lowest binades, exp(2|x|) within four binades of the largest number. False from 2^32 bits on; NaN for infinities with fewer than 8 bits."
  },
  {
   "property": "C65",
   "status": "partial",
   "theorems": [
    "AF.C65_special",
    "AF.C65_zero",
    "AF.C65_negative",
    "AF.C65_one",
    "AF.C65_outcome_partial",
    "AF.C65_directed_partial",
    "AF.C65_sign_partial",
    "AF.C65_history_partial",
    "AF.C65_mono_partial",
    "AF.C65_number_partial"
   ],
   "note": "Partial: special values exact; otherwise correctly rounded in directed modes for working precisions up to 2^17 bits, error bounds in the others, right sign, independent of the cache and of the precision of the argument, monotone; the first round ends unless 63 bits after the last are equal. Missing: nearest modes exactly, larger working precisions."
  },
  {
   "property": "C66",
   "status": "partial",
   "theorems": [
    "AF.C66_special",
    "AF.C66_zero",
    "AF.C66_negative",
    "AF.C66_pow2",
    "AF.C66_outcome_partial",
    "AF.C66_directed_partial",
    "AF.C66_history_partial",
    "AF.C66_mono_partial",
    "AF.C66_number_partial",
    "AF.C66_precision",
    "AF.C66_precision_refuted",
    "AF.C66_one",
    "AF.C66_one_refuted"
   ],
   "note": "Partial: exact on powers of two and at the special values; otherwise as C65 with the base 2 logarithm. False from 2^28 bits on (no number), and the zero for log2(1) carries exponent 64 and compares wrongly at 64 bits."
  },
  {
   "property": "C67",
   "status": "partial",
   "theorems": [
    "AF.C67_special",
    "AF.C67_zero",
    "AF.C67_one",
    "AF.C67_domain",
    "AF.C67_small",
    "AF.C67_outcome_partial",
    "AF.C67_directed_partial",
    "AF.C67_history_partial",
    "AF.C67_mono_partial",
    "AF.C67_odd_partial",
    "AF.C67_number_partial"
   ],
   "note": "Partial: special values exact; next to zero correctly rounded in all modes; otherwise correctly rounded in directed modes for working precisions up to 2^15 bits, error bounds in the others, right sign, odd, monotone, independent of the cache. Missing: nearest modes exactly, the two lowest binades, larger working precisions."
  },
  {
   "property": "C68",
   "status": "partial",
   "theorems": [
    "AF.C68_special",
    "AF.C68_zero",
    "AF.C68_small",
    "AF.C68_outcome_partial",
    "AF.C68_directed_partial",
    "AF.C68_history_partial",
    "AF.C68_mono_partial",
    "AF.C68_odd_partial",
    "AF.C68_number_partial",
    "AF.C68_precision",
    "AF.C68_precision_refuted",
    "AF.C68_sign_refuted"
   ],
   "note": "Partial: as C67 for working precisions up to 2^14 bits. False from 2^30 bits on: +Inf for arguments of magnitude 2^(2^30) and more, negative ones included."
  },
  {
   "property": "C69",
   "status": "partial",
   "theorems": [
    "AF.C69_special",
    "AF.C69_one",
    "AF.C69_domain",
    "AF.C69_outcome_partial",
    "AF.C69_directed_partial",
    "AF.C69_history_partial",
    "AF.C69_mono_partial",
    "AF.C69_number_partial",
    "AF.C69_precision",
    "AF.C69_precision_refuted"
   ],
   "note": "Partial: special values and the domain exact; otherwise as C68. False from 2^30 bits on: +Inf for arguments of magnitude 2^(2^30) and more."
  },
  {
   "property": "C70",
   "status": "partial",
   "theorems": [
    "AF.C70_early",
    "AF.C70_outcome_partial",
    "AF.C70_directed_partial",
    "AF.C70_history_partial",
    "AF.C70_mono_partial",
    "AF.C70_number_partial",
    "AF.C70_exact_partial",
    "AF.C70_exact_refuted",
    "AF.C70_flag_refuted"
   ],
   "note": "Partial: early results as in C45 and C52; otherwise correct rounding in directed modes, history, growth with the base and the first round, for powers away from the ends of the range and working precisions up to 2^15 bits. False in the code: exact powers are never returned in directed modes (C70_exact_refuted) and are marked inexact in the nearest mode (C70_flag_refuted)."
  },
  {
   "property": "C71",
   "status": "partial",
   "theorems": [
    "AF.C71_clear",
    "AF.C71_special",
    "AF.C71_zero",
    "AF.C71_negative",
    "AF.C71_one",
    "AF.C71_outcome_partial",
    "AF.C71_directed_partial",
    "AF.C71_history_partial",
    "AF.C71_mono_partial",
    "AF.C71_power_partial",
    "AF.C71_number_partial",
    "AF.C71_precision",
    "AF.C71_new",
    "AF.C71_precision_refuted",
    "AF.C71_one_flag_refuted",
    "AF.C71_flag_refuted"
   ],
   "note": "Partial: special values in full; otherwise correct rounding in directed modes, history, monotonicity, powers of ten and the first round, for working precisions up to 2^15 bits and arguments whose exponent is not large compared with the precision. False in the code: powers of ten are marked inexact (C71_flag_refuted), the mark of an inexact 1 is lost (C71_one_flag_refuted), no number from 39 million bits on (C71_precision_refuted)."
  },
  {
   "property": "C72",
   "status": "partial",
   "theorems": [
    "AF.C72_early",
    "AF.C72_one",
    "AF.C72_base_one",
    "AF.C72_outcome_partial",
    "AF.C72_directed_partial",
    "AF.C72_history_partial",
    "AF.C72_mono_partial",
    "AF.C72_number_partial",
    "AF.C72_new",
    "AF.C72_flag_refuted",
    "AF.C72_base_one_refuted"
   ],
   "note": "Partial: arguments and bases outside of the positive numbers, and argument one, in full; otherwise the result is the rounded value of a number within 2^(-P-124) of the logarithm (correctly rounded in directed modes unless 63 bits after the first P are equal), history, monotonicity, first round, for working precisions up to 2^14 bits. False in the code: exact logarithms are marked inexact; base one gives +Inf for arguments below one. Missing: nearest modes, exceptional digits, large working precisions, six binades at the ends."
  },
  {
   "property": "C73",
   "status": "partial",
   "theorems": [
    "AF.C73_new",
    "AF.C73_outcomes_partial",
    "AF.C73_directed_partial",
    "AF.C73_history_partial",
    "AF.C73_number_partial",
    "AF.C73_pi_partial",
    "AF.C73_formula_partial",
    "AF.C73_overflow",
    "AF.C73_refuted"
   ],
   "note": "Partial: correct rounding of the number given by the Chudnovsky formula in the four directed modes, error bounds in the others, termination, independence of the cache history; numbers are returned up to 394 million bits. False from 900 million bits on, where the answer is NaN (C73_refuted). Up to 4096 bits the statement is proved about pi itself (C73_pi_partial). Missing: nearest modes; the formula itself (not in Mathlib)."
  },
  {
   "property": "C74",
   "status": "partial",
   "theorems": [
    "AF.C74_nan",
    "AF.C74_zero",
    "AF.C74_small",
    "AF.C74_outcome_partial",
    "AF.C74_directed_partial",
    "AF.C74_history_partial",
    "AF.C74_mono_partial",
    "AF.C74_odd_partial",
    "AF.C74_number_partial",
    "AF.C74_inf_partial",
    "AF.C74_inf_refuted",
    "AF.C74_endless",
    "AF.C74_endless_refuted"
   ],
   "note": "Partial: correct rounding in the four directed modes and error bounds in the others for arguments below 2^689999990, for working precisions up to 2^17-64 bits below one and 4096 bits from one on (beyond that under the hypothesis of the Chudnovsky formula); all precisions next to zero; independence of the cache history, monotonicity, oddness. False: the call does not return for some numbers near 2^715827946 (C74_endless_refuted), and -pi/2 is rounded in the wrong direction at minus infinity (C74_inf_refuted). Missing: nearest modes, the two lowest binades, larger arguments."
  },
  {
   "property": "C75",
   "status": "partial",
   "theorems": [
    "AF.C75_nan",
    "AF.C75_inf",
    "AF.C75_zero",
    "AF.C75_domain",
    "AF.C75_one_partial",
    "AF.C75_small",
    "AF.C75_outcome_partial",
    "AF.C75_directed_partial",
    "AF.C75_history_partial",
    "AF.C75_mono_partial",
    "AF.C75_odd_partial",
    "AF.C75_number_partial"
   ],
   "note": "Partial: correct rounding in the four directed modes and error bounds in the others for working precisions up to 2^17-64 bits up to 7/10 and 4096 bits above (beyond that under the hypothesis of the Chudnovsky formula); +-pi/2 at +-1 up to 4096 bits; all precisions next to zero; zeros, infinities, NaN and the domain error; independence of the cache history, monotonicity, oddness; the loop ends in the first round in mode None. Missing: nearest modes, the two lowest binades, the end of the loop in the other modes."
  },
  {
   "property": "C76",
   "status": "partial",
   "theorems": [
    "AF.C76_nan",
    "AF.C76_inf",
    "AF.C76_one",
    "AF.C76_domain",
    "AF.C76_band",
    "AF.C76_outcome_partial",
    "AF.C76_directed_partial",
    "AF.C76_history_partial",
    "AF.C76_mono_partial",
    "AF.C76_number_partial"
   ],
   "note": "Partial: correct rounding in the four directed modes and error bounds in the others for working precisions up to 4096 bits (to 2^17-64 under the hypothesis of the Chudnovsky formula) for all x up to 1-2^-113, -1 and 0 included, and next to one for 7 of 8 binades of the result; value at one, NaN, infinities, the domain error; independence of the cache history, monotonicity; the loop ends in the first round in mode None. Missing: nearest modes, the remaining binades next to one, the two lowest binades of the argument, the end of the loop in the other modes."
  },
  {
   "property": "C77",
   "status": "partial",
   "theorems": [
    "AF.C77_nan",
    "AF.C77_inf",
    "AF.C77_zero",
    "AF.C77_small",
    "AF.C77_outcome_partial",
    "AF.C77_directed_partial",
    "AF.C77_history_partial",
    "AF.C77_bound_partial",
    "AF.C77_odd_partial",
    "AF.C77_number_partial"
   ],
   "note": "Partial: correct rounding in the four directed modes and error bounds in the others, range [-1,1], oddness and independence of the cache history, for |x| <= 3 or |sin x| >= 2^-65 and any exponent such that working precision plus exponent is at most 4092 (2^15-192 for |x| < 4 or under the hypothesis of the Chudnovsky formula); correct rounding in all modes next to zero; zeros, NaN, infinities; the loop ends in mode None. Missing: arguments within 2^-65 of nonzero multiples of pi, the two lowest binades, nearest modes, the end of the loop in the other modes."
  },
  {
   "property": "C78",
   "status": "partial",
   "theorems": [
    "AF.C78_nan",
    "AF.C78_inf",
    "AF.C78_zero",
    "AF.C78_small",
    "AF.C78_outcome_partial",
    "AF.C78_directed_partial",
    "AF.C78_history_partial",
    "AF.C78_bound_partial",
    "AF.C78_even_partial",
    "AF.C78_number_partial"
   ],
   "note": "Partial: correct rounding in the four directed modes and error bounds in the others, range [-1,1], evenness and independence of the cache history, for |cos x| >= 2^-58 and (|x| <= 3 or |sin x| >= 2^-58), working precision at most 3264 bits or x of exponent at least -284 (in both cases together with the exponent at most 4092 from |x| = 4 on, at most 2^15-192 below or under the hypothesis of the Chudnovsky formula); correct rounding in all modes next to zero, subnormals included; cos 0 = 1, NaN, infinities; the loop ends in mode None. Missing: arguments within 2^-58 of nonzero multiples of half pi, small arguments at high precision, nearest modes, the end of the loop in the other modes. Observed by calculation, not proved: from about 261952 bits on the extra precision of cos_series for arguments near 2^-539 falls short by more than the spare bits of the working precision."
  },
  {
   "property": "C79",
   "status": "partial",
   "theorems": [
    "AF.C79_nan",
    "AF.C79_inf",
    "AF.C79_zero",
    "AF.C79_small",
    "AF.C79_outcome_partial",
    "AF.C79_directed_partial",
    "AF.C79_history_partial",
    "AF.C79_odd_partial",
    "AF.C79_number_partial"
   ],
   "note": "Partial: correct rounding in the four directed modes and error bounds in the others, sign, oddness and independence of the cache history, for |cos x| >= 2^-56 and (|x| <= 3 or |sin x| >= 2^-56), working precision at most 6808 bits (from |x| = 4 on together with the exponent at most 3308); correct rounding in all modes next to zero; tan 0 = 0 with its sign, NaN, infinities; the loop ends in mode None. Missing: arguments within 2^-56 of nonzero multiples of half pi, the two lowest binades and subnormal arguments, nearest modes, larger working precisions, the end of the loop in the other modes."
  },
  {
   "property": "C80",
   "status": "partial",
   "theorems": [
    "AF.C80_means",
    "AF.C80_accuracy_partial",
    "AF.C80_first_round",
    "AF.C80_cancel_refuted",
    "AF.C80_argument_refuted",
    "AF.C80_rem_refuted",
    "AF.C80_limit_refuted"
   ],
   "note": "Partial: for expressions of arguments, exact literals, + - * / unary minus, recip, sqrt, cbrt with at most 16 operations, arguments of at most p+64 bits, values well inside the normal range and at most p+24 bits cancelled per addition or subtraction, the loop ends, the working precision has a bound and the relative error is at most 2^(1-p)+2^(2n-62-p) (C80_accuracy_partial). The full claim is false in the code: complete cancellation (C80_cancel_refuted), long arguments (C80_argument_refuted), % (C80_rem_refuted), and (1/3)*3-1 restarts whatever the exponent range (C80_limit_refuted). Missing: functions that need the cache of constants, %, subnormal intermediate values."
  },
  {
   "property": "C81",
   "status": "partial",
   "theorems": [
    "AF.C81_normal_partial",
    "AF.C81_reached",
    "AF.C81_rejects",
    "AF.C81_zero_refuted",
    "AF.C81_no_words_refuted",
    "AF.C81_inclusive_refuted",
    "AF.C81_abs_refuted"
   ],
   "note": "The claim is false in the code: zero for an all-zero draw or p = 0, the exponent exp_to is never chosen, and the smallest isize panics or leaves the range (C81_*_refuted). C81_normal_partial proves it for all other draws with exp_to excluded; C81_reached proves the converse."
  },
  {
   "property": "C82",
   "status": "partial",
   "theorems": [
    "AF.C82_from_partial",
    "AF.C82_from_ext_partial",
    "AF.C82_inf_nan",
    "AF.C82_overflow_refuted",
    "AF.C82_subnormal_refuted"
   ],
   "note": "False for subnormal f64 values (halved, as C22) and for BigFloat arguments whose rounding overflows (NaN); proved for every other finite value of every primitive type, all precisions and modes."
  },
  {
   "property": "C83",
   "status": "partial",
   "theorems": [
    "AF.C83_unsigned",
    "AF.C83_float_partial",
    "AF.C83_rejects",
    "AF.C83_text",
    "AF.C83_special",
    "AF.C83_negative_refuted",
    "AF.C83_subnormal_refuted",
    "AF.C83_round_trip_refuted",
    "AF.C83_garbage_is_nan"
   ],
   "note": "False for negative integers (no visit_i64), subnormal f64 values and the text round trip of numbers; proved for unsigned integers, f32, normal f64, infinities, NaN, and texts (what from_str gives)."
  }
 ]
}