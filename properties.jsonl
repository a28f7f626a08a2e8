{"id": "C01", "title": "Addition and subtraction are correctly rounded", "statement": "For finite x and y, x.add(y,p,rm) and x.sub(y,p,rm) equal the exact sum or difference rounded once, in the direction rm, to 64*ceil(p/64) significant bits, whenever the exponent of the result stays in the normal range.", "quantifier": "all finite x, y of any mantissa lengths and exponents (subnormal included), all p from 1 to the precision limit, all seven rounding modes", "why_tests_cant": "the input space (two arbitrarily long mantissas, 2^32 exponents each, every alignment and cancellation pattern) cannot be enumerated, and rounding errors show up only on rare bit patterns", "anchors": ["astro-float-num/src/num.rs:add", "astro-float-num/src/num.rs:sub", "astro-float-num/src/num.rs:add_sub", "astro-float-num/src/mantissa/mantissa.rs:abs_add", "astro-float-num/src/mantissa/mantissa.rs:abs_sub", "astro-float-num/src/mantissa/mantissa.rs:round_mantissa"]}
{"id": "C02", "title": "Multiplication is correctly rounded", "statement": "For finite x and y, x.mul(y,p,rm) equals the exact product rounded once in direction rm to 64*ceil(p/64) significant bits whenever the result exponent stays in the normal range.", "quantifier": "all finite x, y of any mantissa lengths, all p from 1 to the precision limit, all rounding modes", "why_tests_cant": "random tests hit ties and near-ties with probability about 2^-64 per extra word; mantissa length is unbounded", "anchors": ["astro-float-num/src/num.rs:mul", "astro-float-num/src/num.rs:mul_general_case", "astro-float-num/src/mantissa/mantissa.rs:mul", "astro-float-num/src/mantissa/mantissa.rs:round_mantissa"]}
{"id": "C03", "title": "Division is correctly rounded", "statement": "For finite x and nonzero finite y, x.div(y,p,rm) equals the exact quotient rounded once in direction rm to 64*ceil(p/64) significant bits whenever the result exponent stays in the normal range.", "quantifier": "all finite x, nonzero finite y, all p from 1 to the precision limit, all rounding modes", "why_tests_cant": "the quotient is normally not representable, so the sticky-bit logic must be right for every remainder and every digit string", "anchors": ["astro-float-num/src/num.rs:div", "astro-float-num/src/mantissa/mantissa.rs:div", "astro-float-num/src/mantissa/mantissa.rs:div_unbalanced"]}
{"id": "C04", "title": "Square root is correctly rounded", "statement": "For finite nonnegative x, x.sqrt(p,rm) equals the real square root of x rounded once in direction rm to 64*ceil(p/64) significant bits; sqrt of a negative nonzero number is NaN and sqrt(0) is 0.", "quantifier": "all finite x, all p from 1 to the precision limit, all rounding modes", "why_tests_cant": "the root is irrational in general: testing compares against another approximation, not against the exact root", "anchors": ["astro-float-num/src/ops/sqrt.rs:sqrt", "astro-float-num/src/mantissa/mantissa.rs:sqrt", "astro-float-num/src/mantissa/sqrt.rs:sqrt_rem"]}
{"id": "C05", "title": "Cube root is correctly rounded", "statement": "For finite x, x.cbrt(p,rm) equals the real cube root of x rounded once in direction rm to 64*ceil(p/64) significant bits, with the sign of x.", "quantifier": "all finite x, all p from 1 to the precision limit, all rounding modes", "why_tests_cant": "the root is irrational in general and depends on the exponent modulo 3 in both signs", "anchors": ["astro-float-num/src/ops/cbrt.rs:cbrt", "astro-float-num/src/mantissa/mantissa.rs:cbrt", "astro-float-num/src/mantissa/cbrt.rs:cbrt_rem"]}
{"id": "C06", "title": "Remainder is exact", "statement": "For finite x and nonzero finite y, x.rem(y) is exactly x - y*trunc(x/y): it has the sign of x, magnitude below |y|, and differs from x by an integer multiple of y.", "quantifier": "all finite x and nonzero finite y, including exponent gaps up to 2^32", "why_tests_cant": "the modular-exponentiation path for large exponent gaps has unboundedly many inputs; the exact quotient can have billions of bits and cannot be tested directly", "anchors": ["astro-float-num/src/num.rs:rem", "astro-float-num/src/mantissa/mantissa.rs:pow_mod", "astro-float-num/src/mantissa/mantissa.rs:mul_mod", "astro-float-num/src/mantissa/mantissa.rs:rem"]}
{"id": "C07", "title": "Changing precision rounds correctly", "statement": "x.set_precision(p,rm) leaves a number equal to x rounded in direction rm to p bits (for RoundingMode::None: truncated to 64*ceil(p/64) bits); widening never changes the value; the sign is kept.", "quantifier": "all finite x, all p from 1 to the precision limit, all rounding modes", "why_tests_cant": "p is an arbitrary bit position, so every alignment of the rounding position inside a word and every carry chain must work", "anchors": ["astro-float-num/src/num.rs:set_precision", "astro-float-num/src/num.rs:set_precision_internal", "astro-float-num/src/mantissa/mantissa.rs:round_mantissa", "astro-float-num/src/mantissa/mantissa.rs:set_length"]}
{"id": "C08", "title": "Reciprocal is correctly rounded", "statement": "For finite nonzero x, x.reciprocal(p,rm) is 1/x rounded once in direction rm to 64*ceil(p/64) bits; the reciprocal of a zero is an infinity with the sign of the zero.", "quantifier": "all finite x, all p from 1 to the precision limit, all rounding modes", "why_tests_cant": "same as division: never-terminating quotients for almost every input", "anchors": ["astro-float-num/src/num.rs:reciprocal", "astro-float-num/src/ext.rs:reciprocal"]}
{"id": "C09", "title": "Full-precision operations are exact", "statement": "x.add_full_prec(y), x.sub_full_prec(y) and x.mul_full_prec(y) return the exact sum, difference and product.", "quantifier": "all finite x and y whose exact result is in the exponent range", "why_tests_cant": "exactness must hold for every exponent gap and every cancellation; unit tests only use equal exponents and nonzero operands", "anchors": ["astro-float-num/src/num.rs:add_full_prec", "astro-float-num/src/num.rs:sub_full_prec", "astro-float-num/src/num.rs:mul_full_prec", "astro-float-num/src/num.rs:add_sub"]}
{"id": "C10", "title": "Gradual underflow rounds correctly", "statement": "When the exact result of add, sub, mul or div lies below the normal range, the returned subnormal (or zero) is the exact result rounded once in direction rm to the subnormal grid of the result precision.", "quantifier": "all finite operands whose exact result is below 2^(EXPONENT_MIN-1), all p, all rounding modes", "why_tests_cant": "needs exponents near -2^31 and bit patterns that expose double rounding", "anchors": ["astro-float-num/src/num.rs:subnormalize", "astro-float-num/src/num.rs:mul_general_case", "astro-float-num/src/num.rs:div", "astro-float-num/src/num.rs:add_sub"]}
{"id": "C11", "title": "Overflow goes to the infinity of the right sign, and only on overflow", "statement": "add, sub, mul and div return an infinity for finite operands (nonzero divisor) only if the exact result rounded to the requested precision has an exponent above EXPONENT_MAX, and the infinity then has the sign of the exact result; otherwise a finite number is returned.", "quantifier": "all finite operands, all p from 1 to the precision limit, all rounding modes", "why_tests_cant": "the boundary depends on a rounding carry out of an arbitrarily long mantissa", "anchors": ["astro-float-num/src/num.rs:add_sub", "astro-float-num/src/num.rs:mul_general_case", "astro-float-num/src/num.rs:div", "astro-float-num/src/ext.rs:result_to_ext"]}
{"id": "C12", "title": "Ordering of finite numbers agrees with their values", "statement": "For finite x and y, x.cmp(y) is negative, zero or positive exactly when the value of x is less than, equal to or greater than the value of y, whatever their precisions.", "quantifier": "all pairs of finite numbers, zero and subnormals included, mantissas of different lengths", "why_tests_cant": "pairs of different precision and subnormal alignments form an unbounded set", "anchors": ["astro-float-num/src/num.rs:cmp", "astro-float-num/src/num.rs:abs_cmp", "astro-float-num/src/mantissa/mantissa.rs:abs_cmp", "astro-float-num/src/mantissa/util.rs:NormalizedView"]}
{"id": "C13", "title": "Equality is an equivalence on non-NaN numbers and means equal value", "statement": "For finite x and y, x == y holds exactly when they denote the same value (so 0 == -0 and precision is ignored); == is reflexive, symmetric and transitive on non-NaN numbers and false whenever a NaN is involved.", "quantifier": "all pairs and triples of BigFloat values", "why_tests_cant": "transitivity and cross-precision equality range over triples of unbounded mantissas", "anchors": ["astro-float-num/src/ext.rs:PartialEq", "astro-float-num/src/ext.rs:cmp", "astro-float-num/src/num.rs:cmp"]}
{"id": "C14", "title": "abs_cmp compares absolute values", "statement": "For finite x and y, x.abs_cmp(y) has the sign of |x| - |y|.", "quantifier": "all pairs of finite numbers", "why_tests_cant": "a test with positive operands only cannot see a missing absolute value", "anchors": ["astro-float-num/src/ext.rs:abs_cmp", "astro-float-num/src/num.rs:abs_cmp"]}
{"id": "C15", "title": "Infinities and NaN order as on the extended real line", "statement": "cmp and partial_cmp return None exactly when an argument is NaN; -Inf is below and +Inf is above every finite number, equal infinities compare equal; the order is transitive.", "quantifier": "all triples of BigFloat values with at least one infinity or NaN", "why_tests_cant": "the claim is about all finite numbers at once and about triples", "anchors": ["astro-float-num/src/ext.rs:cmp", "astro-float-num/src/ext.rs:PartialOrd"]}
{"id": "C16", "title": "Infinity and NaN arithmetic follows the extended-real rules", "statement": "add, sub, mul, div and rem with an infinite or NaN argument return what extended-real arithmetic prescribes: NaN propagates, Inf-Inf, 0*Inf, Inf/Inf and 0/0 are NaN, x/0 is a signed infinity, x/Inf is a zero, and the sign of an infinite result is the product or sum sign.", "quantifier": "all pairs of BigFloat values where at least one is NaN or infinite or the divisor is zero", "why_tests_cant": "the table must hold for every finite partner value and for every error payload", "anchors": ["astro-float-num/src/ext.rs:add_op", "astro-float-num/src/ext.rs:sub_op", "astro-float-num/src/ext.rs:mul_op", "astro-float-num/src/ext.rs:div", "astro-float-num/src/ext.rs:rem"]}
{"id": "C17", "title": "Negation, abs and sign operations are exact and consistent", "statement": "neg is an involution that negates the value, abs gives the absolute value, set_sign and inv_sign change only the sign, and x.sub(y,p,rm) returns the same number as x.add(y.neg(),p,rm).", "quantifier": "all finite x and y, all p, all rounding modes", "why_tests_cant": "the identity of sub and add of the negated operand relates two code paths over all operand pairs", "anchors": ["astro-float-num/src/num.rs:neg", "astro-float-num/src/num.rs:abs", "astro-float-num/src/num.rs:inv_sign", "astro-float-num/src/num.rs:add_sub", "astro-float-num/src/ext.rs:neg"]}
{"id": "C18", "title": "Addition and multiplication are commutative", "statement": "x.add(y,p,rm) and y.add(x,p,rm) return the same number, and likewise mul, for finite operands (same value, sign, precision and inexact flag).", "quantifier": "all pairs of finite numbers, all p, all rounding modes", "why_tests_cant": "operands take different code paths depending on which is longer or larger; all pairs are needed", "anchors": ["astro-float-num/src/num.rs:add", "astro-float-num/src/num.rs:mul", "astro-float-num/src/mantissa/mantissa.rs:mul_unbalanced"]}
{"id": "C19", "title": "int, fract, floor and ceil are the mathematical functions", "statement": "x.int() is x truncated toward zero, x.int() plus x.fract() equals x exactly with |fract| < 1, x.floor() is the largest integer not above x and x.ceil() the smallest integer not below x.", "quantifier": "all finite x with mantissa shorter than 2^31 bits", "why_tests_cant": "integer/fraction boundary may fall at any bit of an arbitrarily long mantissa; carries may cascade through all words", "anchors": ["astro-float-num/src/num.rs:int", "astro-float-num/src/num.rs:fract", "astro-float-num/src/num.rs:floor", "astro-float-num/src/num.rs:ceil"]}
{"id": "C20", "title": "round(n) rounds to n fractional binary digits", "statement": "x.round(n,rm) is the multiple of 2^-n obtained by rounding x once in direction rm.", "quantifier": "all finite x, all n, all rounding modes except None", "why_tests_cant": "rounding position may be anywhere including above the leading bit; ties happen on a measure-zero set of inputs", "anchors": ["astro-float-num/src/num.rs:round", "astro-float-num/src/mantissa/mantissa.rs:round_mantissa"]}
{"id": "C21", "title": "Integer conversions are exact", "statement": "from_u8..from_u128, from_i8..from_i128 and from_word return a number whose value is exactly the given integer whenever the precision is at least the width of the integer type, and otherwise report InvalidArgument.", "quantifier": "all machine integers of each width and all precisions", "why_tests_cant": "2^128 inputs times all precisions", "anchors": ["astro-float-num/src/num.rs:from_word", "astro-float-num/src/num.rs:from_u128", "astro-float-num/src/num.rs:from_i128", "astro-float-num/src/num.rs:impl_int_conv"]}
{"id": "C22", "title": "Conversion from f64 is exact", "statement": "from_f64(f,p) with p at least 64 returns a number whose value is exactly the value of f for every finite f; infinities give infinities of the same sign and NaN gives NaN.", "quantifier": "all 2^64 bit patterns of f64 and all precisions", "why_tests_cant": "subnormal and zero patterns are easily missed; 2^64 inputs", "anchors": ["astro-float-num/src/num.rs:from_f64", "astro-float-num/src/mantissa/mantissa.rs:from_u64"]}
{"id": "C23", "title": "Raw-part and word constructors are faithful", "statement": "from_raw_parts(as_raw_parts(x)) is x for every number shorter than the precision limit (the exponent of a zero is reset to 0); from_raw_parts rejects exactly the inconsistent descriptions; from_words(m,s,e) has the value s * 0.m * 2^e.", "quantifier": "all finite numbers, and all word slices, bit counts, signs and exponents", "why_tests_cant": "arbitrary word slices and exponents near the lower limit", "anchors": ["astro-float-num/src/num.rs:from_raw_parts", "astro-float-num/src/num.rs:from_words", "astro-float-num/src/num.rs:as_raw_parts", "astro-float-num/src/mantissa/mantissa.rs:from_words"]}
{"id": "C24", "title": "set_exponent scales by a power of two", "statement": "For nonzero x with exponent e0, x.set_exponent(e) multiplies the value of x by 2^(e-e0) exactly, subnormals included, and never changes zero.", "quantifier": "all finite x and all exponents in range", "why_tests_cant": "subnormals shift the mantissa by a data-dependent amount", "anchors": ["astro-float-num/src/num.rs:set_exponent"]}
{"id": "C25", "title": "Results are well formed", "statement": "Every number returned by add, sub, mul, div, sqrt, cbrt, set_precision (p>0), the integer conversions, from_words and from_raw_parts satisfies the representation invariant: words in range, recorded bit length equal to the true bit length, normalised unless the exponent is EXPONENT_MIN, exponent in range.", "quantifier": "all well-formed inputs, all p from 1 to the precision limit, all rounding modes; by induction all reachable numbers", "why_tests_cant": "an invariant of all reachable states over arbitrary operation histories", "anchors": ["astro-float-num/src/num.rs:BigFloatNumber", "astro-float-num/src/mantissa/mantissa.rs:Mantissa", "astro-float-num/src/num.rs:from_raw_parts"]}
{"id": "C26", "title": "The inexact flag tells the truth", "statement": "If the operands of add, sub, mul, div or set_precision are exact (flag clear), the result's inexact flag is clear exactly when the result equals the exact mathematical result; an inexact operand makes the result inexact.", "quantifier": "all finite operands with a normal-range result, all p, all rounding modes", "why_tests_cant": "both directions of an equivalence over all inputs, including rare exact quotients", "anchors": ["astro-float-num/src/num.rs:inexact", "astro-float-num/src/mantissa/mantissa.rs:round_mantissa", "astro-float-num/src/mantissa/mantissa.rs:div", "astro-float-num/src/mantissa/mantissa.rs:abs_add", "astro-float-num/src/mantissa/mantissa.rs:abs_sub"]}
{"id": "C27", "title": "Precision argument contract", "statement": "For p at least 1 and within the limit, a numeric result of add, sub, mul, div, sqrt, cbrt has a mantissa of exactly 64*ceil(p/64) bits; a precision at or above the limit yields NaN with InvalidArgument and never a number.", "quantifier": "all operands, all p in usize, all rounding modes", "why_tests_cant": "the set of precisions is 2^64 and the contract must hold on every path", "anchors": ["astro-float-num/src/num.rs:p_assertion", "astro-float-num/src/common/util.rs:round_p", "astro-float-num/src/num.rs:add_sub", "astro-float-num/src/num.rs:mul_general_case", "astro-float-num/src/num.rs:div"]}
{"id": "C28", "title": "Word-level multiplication is exact for all operand sizes", "statement": "The mantissa product is the exact integer product whatever algorithm (schoolbook, Toom-2, Toom-3, or splitting of unbalanced operands) the operand sizes select, so results do not depend on the size thresholds.", "quantifier": "all pairs of word slices, all lengths (FFT lengths, above 5400 words, separately)", "why_tests_cant": "carries and thresholds interact in ways visible only for special words of special lengths", "anchors": ["astro-float-num/src/mantissa/mul.rs:mul_unbalanced", "astro-float-num/src/mantissa/mul.rs:mul_basic", "astro-float-num/src/mantissa/toom2.rs:toom2", "astro-float-num/src/mantissa/toom3.rs:toom3"]}
{"id": "C29", "title": "Word-level division is exact for all operand sizes", "statement": "The mantissa division returns the integer quotient and remainder (a = q*b + r, r < b) for every normalised divisor and every dividend, whatever algorithm the sizes select.", "quantifier": "all dividends and all divisors whose top bit is set, all lengths", "why_tests_cant": "the quotient-digit overestimate correction in Knuth's algorithm is taken with probability about 2^-63, so tests do not reach it", "anchors": ["astro-float-num/src/mantissa/div.rs:div_basic", "astro-float-num/src/mantissa/div.rs:div_recursive", "astro-float-num/src/mantissa/div.rs:div_unbalanced"]}
{"id": "C30", "title": "Integer square and cube roots are exact floors", "statement": "The integer root routines used by sqrt and cbrt return floor(n^(1/2)) or floor(n^(1/3)) together with the exact remainder information, for every integer.", "quantifier": "all word slices with a nonzero top word, as the callers pass them; for the cube root with a length not congruent to 2 modulo 3 (the caller always passes a multiple of 3)", "why_tests_cant": "Newton iteration termination and off-by-one at perfect powers depend on every input", "anchors": ["astro-float-num/src/mantissa/sqrt.rs:sqrt_rem", "astro-float-num/src/mantissa/sqrt.rs:sqrt_rem_basic", "astro-float-num/src/mantissa/cbrt.rs:cbrt_rem"]}
{"id": "C31", "title": "Binary, octal and hexadecimal digit conversion is lossless", "statement": "For finite x, converting to digits in radix 2, 8 or 16 and evaluating the digits gives exactly x; converting the digits back with p = usize::MAX (or with the precision of x) gives a number equal to x.", "quantifier": "all finite x (subnormal included), radices 2, 8, 16", "why_tests_cant": "digit groups straddle word boundaries for radix 8 at every alignment", "anchors": ["astro-float-num/src/conv.rs:convert_to_radix", "astro-float-num/src/conv.rs:convert_from_radix", "astro-float-num/src/conv.rs:conv_to_commensurable", "astro-float-num/src/conv.rs:conv_from_commensurable"]}
{"id": "C32", "title": "Parsing a power-of-two radix literal gives the correctly rounded value", "statement": "convert_from_radix with radix 2, 8 or 16 returns the value 0.d1d2d3... * radix^e rounded to p in direction rm, or InvalidArgument when a digit is out of range.", "quantifier": "all digit strings, all exponents, all p from 1 to the limit, all rounding modes", "why_tests_cant": "unbounded digit strings", "anchors": ["astro-float-num/src/conv.rs:conv_from_binary", "astro-float-num/src/conv.rs:conv_from_commensurable"]}
{"id": "C33", "title": "Decimal integer conversion is exact", "statement": "Converting a mantissa integer to decimal digits and evaluating the digits returns the integer; converting decimal digits to a mantissa integer returns the value of the digits, whatever the length.", "quantifier": "all mantissa integers and all decimal digit strings", "why_tests_cant": "divide-and-conquer splits depend on length and value; leading and inner zeros must be kept for every input", "anchors": ["astro-float-num/src/mantissa/conv.rs:conv_to_dec", "astro-float-num/src/mantissa/conv.rs:conv_from_dec"]}
{"id": "C34", "title": "The power-of-ten cache does not influence results", "statement": "The cached powers of ten are exact, and a conversion that uses the constants cache gives the same result whatever sequence of requests filled the cache before.", "quantifier": "all request histories and all conversions", "why_tests_cant": "ranges over all histories of cache use", "anchors": ["astro-float-num/src/ops/consts/mod.rs:tenpowers", "astro-float-num/src/mantissa/conv.rs:compute_tenpowers"]}
{"id": "C35", "title": "The number parser reads the literal that is written", "statement": "For an input that matches the documented number syntax in a radix, the parser returns the sign, the digits (with leading zeros dropped) and the exponent denoting the same value as the literal; Inf and NaN spellings give Inf and NaN.", "quantifier": "all strings over the documented grammar, all four radices", "why_tests_cant": "unbounded strings; the point, leading zeros and the exponent interact", "anchors": ["astro-float-num/src/parser.rs:parse", "astro-float-num/src/parser.rs:parse_num", "astro-float-num/src/parser.rs:parse_digits", "astro-float-num/src/parser.rs:parse_exp"]}
{"id": "C36", "title": "Malformed number strings are rejected", "statement": "A string that is not a number in the documented syntax is parsed to NaN.", "quantifier": "all strings", "why_tests_cant": "the complement of a grammar is infinite", "anchors": ["astro-float-num/src/parser.rs:parse", "astro-float-num/src/parser.rs:parse_num"]}
{"id": "C37", "title": "Text round trip in power-of-two radices", "statement": "Formatting a finite number in radix 2, 8 or 16 and parsing the text with the same radix and the precision of the number returns an equal number with the same sign.", "quantifier": "all finite numbers, radices 2, 8, 16", "why_tests_cant": "all mantissa lengths and exponents, including subnormals which are formatted differently", "anchors": ["astro-float-num/src/strop.rs:format", "astro-float-num/src/parser.rs:parse", "astro-float-num/src/conv.rs:convert_from_radix"]}
{"id": "C38", "title": "min, max and clamp obey their contracts", "statement": "For non-NaN arguments, x.max(y) and x.min(y) return one of the two arguments and bound both; clamp(lo,hi) with lo <= hi returns a number between lo and hi which is x itself when x is already inside; NaN arguments or lo > hi give NaN.", "quantifier": "all triples of BigFloat values", "why_tests_cant": "triples including infinities, zeros of both signs and different precisions", "anchors": ["astro-float-num/src/ext.rs:max", "astro-float-num/src/ext.rs:min", "astro-float-num/src/ext.rs:clamp"]}
{"id": "C39", "title": "signum and classification partition the numbers", "statement": "signum returns -1, 0 or 1 according to the sign of the value and NaN for NaN; classify returns Zero exactly for zeros, Subnormal exactly for nonzero numbers below the normal range, Normal, Infinite and Nan otherwise, and agrees with is_zero, is_subnormal, is_inf, is_nan.", "quantifier": "all BigFloat values", "why_tests_cant": "a partition claim over all values", "anchors": ["astro-float-num/src/ext.rs:signum", "astro-float-num/src/ext.rs:classify", "astro-float-num/src/ext.rs:is_subnormal"]}
{"id": "C40", "title": "Directed rounding encloses the exact result", "statement": "For finite operands, the Down result of add, sub, mul or div is at most, and the Up result at least, the exact result; ToZero never increases and FromZero never decreases the magnitude - including results in the subnormal range.", "quantifier": "all finite operands (nonzero divisor), all p from 1 to the limit", "why_tests_cant": "soundness of interval arithmetic must hold for all inputs; underflow and overflow included", "anchors": ["astro-float-num/src/num.rs:add_sub", "astro-float-num/src/num.rs:mul_general_case", "astro-float-num/src/num.rs:div", "astro-float-num/src/num.rs:subnormalize", "astro-float-num/src/mantissa/mantissa.rs:round_mantissa"]}
{"id": "C41", "title": "Rounded arithmetic is monotone", "statement": "If x <= y (as values) then x+z <= y+z after rounding, and x*z <= y*z for z >= 0, at the same p and rm, whenever the results are in the normal range.", "quantifier": "all triples of finite numbers, all p, all rounding modes", "why_tests_cant": "a relational property over triples", "anchors": ["astro-float-num/src/num.rs:add", "astro-float-num/src/num.rs:mul"]}
{"id": "C42", "title": "Arithmetic identities", "statement": "At a precision not below that of x: x+0, x-0, x*1 and x/1 equal x; x-x is zero; x/x is 1 for nonzero x; x.sqrt of an exact square that fits returns the exact root.", "quantifier": "all finite x and all p at least the precision of x, all rounding modes", "why_tests_cant": "universal identities over all numbers", "anchors": ["astro-float-num/src/num.rs:add", "astro-float-num/src/num.rs:sub", "astro-float-num/src/num.rs:mul", "astro-float-num/src/num.rs:div"]}
{"id": "C43", "title": "try_set_precision only accepts roundable approximations", "statement": "If try_set_precision(p,rm,s) returns true for an inexact number x, then every real number that agrees with x to s correct bits rounds (at p, rm) to the number left in x.", "quantifier": "all finite inexact x, all p < s, all rounding modes", "why_tests_cant": "the Table Maker's Dilemma cases it must reject are exponentially rare", "anchors": ["astro-float-num/src/ext.rs:try_set_precision", "astro-float-num/src/num.rs:set_precision_internal", "astro-float-num/src/mantissa/mantissa.rs:round_mantissa"]}
{"id": "C44", "title": "powi special cases", "statement": "x.powi(0,p,rm) is 1, x.powi(1,p,rm) is x rounded to p; powers of infinities follow the parity rule; powi of NaN is NaN.", "quantifier": "all x, all p from 1 to the limit, all rounding modes, all exponents for infinities", "why_tests_cant": "all values of x", "anchors": ["astro-float-num/src/ext.rs:powi", "astro-float-num/src/ops/pow.rs:powi"]}
{"id": "C45", "title": "pow at infinity follows the limits", "statement": "pow(x, +Inf) is +Inf for |x| > 1 and 0 for |x| < 1; pow(x, -Inf) is 0 for |x| > 1 and +Inf for |x| < 1; pow(1, +-Inf) is 1.", "quantifier": "all finite x", "why_tests_cant": "a claim about all finite bases", "anchors": ["astro-float-num/src/ext.rs:pow"]}
{"id": "C46", "title": "Elementary functions at infinities and NaN", "statement": "exp, ln, log2, log10, sin, cos, tan, asin, acos, sinh, cosh, tanh, asinh, acosh, atanh, sqrt, cbrt return the limit value or NaN at infinities (as documented) and propagate NaN with its error.", "quantifier": "both infinities and all NaN payloads, all p and rounding modes", "why_tests_cant": "all error payloads and precisions", "anchors": ["astro-float-num/src/ext.rs:gen_wrapper_arg_rm_cc", "astro-float-num/src/ext.rs:gen_wrapper_log", "astro-float-num/src/ext.rs:tanh"]}
{"id": "C47", "title": "Context exponent bounds", "statement": "A Context keeps its exponent limits inside the supported range: emin is clamped into [EXPONENT_MIN, 0] and emax into [0, EXPONENT_MAX], and cloning a context preserves precision, rounding mode and limits.", "quantifier": "all contexts and all settings, all sequences of setter calls", "why_tests_cant": "all sequences of setter calls", "anchors": ["astro-float-num/src/ctx.rs:Context", "astro-float-num/src/ctx.rs:set_emin", "astro-float-num/src/ctx.rs:set_emax"]}
{"id": "C48", "title": "Half-ulp error bound", "statement": "With ToEven or ToOdd, the result of add, sub, mul, div differs from the exact result by at most half a unit in the last place of the result precision.", "quantifier": "all finite operands with a normal-range result, all p from 1 to the limit", "why_tests_cant": "an error bound over all inputs", "anchors": ["astro-float-num/src/num.rs:add", "astro-float-num/src/num.rs:sub", "astro-float-num/src/num.rs:mul", "astro-float-num/src/num.rs:div"]}
{"id": "C49", "title": "Decimal text round trip", "statement": "Formatting a finite number in decimal and parsing the text at the precision of the number returns an equal number.", "quantifier": "all finite numbers", "why_tests_cant": "requires all values; sampled tests use a tolerance instead of equality", "anchors": ["astro-float-num/src/strop.rs:format", "astro-float-num/src/conv.rs:conv_to_dec", "astro-float-num/src/conv.rs:conv_from_dec"]}
{"id": "C50", "title": "Integer predicates agree with the value", "statement": "x.is_int() holds exactly when the value of x is an integer; is_zero holds exactly when the value is 0; is_positive and is_negative report the sign.", "quantifier": "all finite x", "why_tests_cant": "integer boundary can be at any bit", "anchors": ["astro-float-num/src/num.rs:is_int", "astro-float-num/src/num.rs:is_zero", "astro-float-num/src/ext.rs:is_int"]}
{"id": "C51", "title": "Exponent range of the expr macro", "statement": "check_exponent_range(x, emin, emax) returns an infinity of the sign of x when |x| >= 2^emax, a zero of the sign of x when |x| < 2^(emin-1), and x itself otherwise; NaN and infinities pass unchanged.", "quantifier": "all x, all limits EXPONENT_MIN <= emin <= 0 <= emax <= EXPONENT_MAX", "why_tests_cant": "a claim about every value at the limit and every pair of limits", "anchors": ["astro-float-num/src/macro_util.rs:check_exponent_range"]}
{"id": "C52", "title": "pow at finite special arguments", "statement": "x^0 is 1; 0^n is a zero for n > 0 and an infinity for n < 0, negative only for a negative zero and odd n; 1^n is 1, (-1)^n is 1 or -1 by parity; a negative base with a non-integer exponent is NaN; x^1 is x rounded to p and x^-1 is the rounded reciprocal.", "quantifier": "all finite x and n, all p from 1 to the limit, all rounding modes", "why_tests_cant": "all bases and all integer exponents, parity at any bit position", "anchors": ["astro-float-num/src/ops/pow.rs:pow", "astro-float-num/src/ext.rs:pow"]}
{"id": "C53", "title": "log at special arguments", "statement": "log(x, b) agrees with ln(x)/ln(b) in extended-real arithmetic where an argument is zero, negative, infinite or NaN: log(+Inf, b) is +Inf for b > 1 and -Inf for 0 < b < 1, log(x, +Inf) is 0 for finite x > 0, negative arguments give NaN, log(0, b) is -Inf for b > 1.", "quantifier": "all x and b with at least one of them zero, negative, infinite or NaN, all p from 1 to the limit, all rounding modes", "why_tests_cant": "all partner values of the special argument", "anchors": ["astro-float-num/src/ext.rs:log", "astro-float-num/src/ops/log.rs:log"]}
{"id": "C54", "title": "Decimal text is close to the number", "statement": "The decimal text of a finite number, read as a number, differs from it by at most one unit of the last written digit.", "quantifier": "all finite numbers, all rounding modes", "why_tests_cant": "the divide-and-conquer conversion has value-dependent branches; a wrong one is hit by numbers with long runs of zero digits only", "anchors": ["astro-float-num/src/conv.rs:conv_to_dec", "astro-float-num/src/mantissa/conv.rs:conv_to_dec", "astro-float-num/src/strop.rs:format"]}
{"id": "C55", "title": "powi is correctly rounded", "statement": "x.powi(n, p, rm) for a finite x and n >= 2 is x^n correctly rounded to p bits (rounded up to words) in mode rm; the inexact flag is set exactly when the base was inexact or the result differs from x^n; an infinity is returned on overflow only and NaN never.", "quantifier": "all finite x, all n >= 2, all valid precisions, all rounding modes", "why_tests_cant": "the result is accepted by a roundability check on bits of an intermediate result; a wrong acceptance needs a run of 60 and more equal bits behind the rounding position", "anchors": ["astro-float-num/src/ops/pow.rs:powi_internal", "astro-float-num/src/num.rs:try_set_precision", "astro-float-num/src/mantissa/mantissa.rs:round_mantissa"]}
{"id": "C56", "title": "Decimal input is converted to the correctly rounded number", "statement": "Decimal digits with an exponent given to convert_from_radix, and the text of a decimal literal given to parse, yield the denoted number correctly rounded to p bits (rounded up to words; for p = usize::MAX the precision follows from the number of digits) in mode rm, with the inexact flag set exactly when the result differs from the denoted number; NaN is never returned for a number in range.", "quantifier": "all digit sequences and exponents, all valid precisions, all rounding modes, all histories of the power-of-ten cache", "why_tests_cant": "the result is accepted by a roundability check on bits of an intermediate result after scaling by approximate powers of ten; a wrong acceptance or an endless rejection needs inputs next to a rounding boundary", "anchors": ["astro-float-num/src/conv.rs:conv_from_dec", "astro-float-num/src/num.rs:try_set_precision", "astro-float-num/src/ops/pow.rs:powi_internal", "astro-float-num/src/ext.rs:parse"]}
{"id": "C57", "title": "The product computed with the fast Fourier transform is exact", "statement": "For operands in the range of the transform (both longer than 220 words, one longer than 5400 words) fft_mul writes exactly the product of the two operands, whatever their words and lengths; the products of parts are shorter than the operands.", "quantifier": "all word slices of all lengths", "why_tests_cant": "the choice of parameters, the decomposition into bit fields, the reduction modulo 2^n+1 with signed residues and the carry into the top word are right or wrong depending on the length and on rare word patterns; the sizes at which the parameters go wrong are out of reach of tests", "anchors": ["astro-float-num/src/mantissa/fft.rs:fft_mul", "astro-float-num/src/mantissa/fft.rs:fft_params", "astro-float-num/src/mantissa/fft.rs:fft_decompose", "astro-float-num/src/mantissa/mul.rs:mul_slices"]}
{"id": "C58", "title": "The constant e is correctly rounded", "statement": "Consts::e(p, rm) returns Euler's number correctly rounded to p bits (rounded up to words) in mode rm, marked inexact, and the result does not depend on which precisions were asked of the cache before.", "quantifier": "all valid precisions, all rounding modes, all histories of the cache", "why_tests_cant": "the number of terms needed grows with the precision and the result is accepted by a check of the bits at hand; tests compare a few precisions with stored digits, and large precisions or long runs of equal bits are out of their reach", "anchors": ["astro-float-num/src/ops/consts/e.rs:for_prec", "astro-float-num/src/ops/consts/e.rs:b_factor", "astro-float-num/src/ops/consts/mod.rs:e"]}
{"id": "C59", "title": "The constant ln 2 is correctly rounded", "statement": "Consts::ln_2(p, rm) returns the natural logarithm of 2 correctly rounded to p bits (rounded up to words) in mode rm, marked inexact, and the result does not depend on which precisions were asked of the cache before.", "quantifier": "all valid precisions, all rounding modes, all histories of the cache", "why_tests_cant": "the number of terms needed grows with the precision and the result is accepted by a check of the bits at hand; tests compare a few precisions with stored digits, and large precisions or long runs of equal bits are out of their reach", "anchors": ["astro-float-num/src/ops/consts/ln2.rs:for_prec", "astro-float-num/src/ops/consts/ln2.rs:pqr", "astro-float-num/src/ops/consts/mod.rs:ln_2"]}
{"id": "C60", "title": "The constant ln 10 is correctly rounded", "statement": "Consts::ln_10(p, rm) returns the natural logarithm of 10 correctly rounded to p bits (rounded up to words) in mode rm, marked inexact, and the result does not depend on which precisions were asked of the cache before.", "quantifier": "all valid precisions, all rounding modes, all histories of the cache", "why_tests_cant": "the number of terms needed grows with the precision and the result is accepted by a check of the bits at hand; tests compare a few precisions with stored digits, and large precisions or long runs of equal bits are out of their reach", "anchors": ["astro-float-num/src/ops/consts/ln10.rs:for_prec", "astro-float-num/src/ops/consts/ln10.rs:calc_ln10", "astro-float-num/src/ops/consts/mod.rs:ln_10"]}
{"id": "C61", "title": "The exponential function is correctly rounded", "statement": "BigFloat::exp(p, rm, cc) returns e^x correctly rounded to p bits (rounded up to words) in mode rm, marked inexact unless x is zero, +Inf when the result is too large, a result rounded in the direction of rm when it is too small, and the result does not depend on which precisions were asked of the cache before.", "quantifier": "all finite arguments, all valid precisions, all rounding modes, all histories of the cache", "why_tests_cant": "the argument is split into an integer part (a power of a cached e) and a fraction (sinh series with a data dependent reduction), and the value is accepted by looking at the bits at hand; tests compare random arguments of a few hundred words with stored digits and never reach the ends of the exponent range or the precisions at which the cached e overflows", "anchors": ["astro-float-num/src/ops/exp.rs:exp", "astro-float-num/src/ops/exp.rs:expf", "astro-float-num/src/ops/exp.rs:exp_int", "astro-float-num/src/ops/series.rs:series_run", "astro-float-num/src/ops/sinh.rs:sinh_series"]}
{"id": "C62", "title": "The hyperbolic cosine is correctly rounded", "statement": "BigFloat::cosh(p, rm, cc) returns cosh x correctly rounded to p bits (rounded up to words) in mode rm, marked inexact unless x is zero, +Inf when the result is too large, and the result does not depend on which precisions were asked of the cache before or on the sign of x.", "quantifier": "all finite arguments, all valid precisions, all rounding modes, all histories of the cache", "why_tests_cant": "the value is accepted by looking at the bits at hand and the error of the composed operations (exp, reciprocal, difference, quotient) decides whether those bits are right; tests compare random arguments with stored digits and never reach the ends of the exponent range, runs of equal bits or the precisions at which the cached e overflows", "anchors": ["astro-float-num/src/ops/cosh.rs:cosh", "astro-float-num/src/ext.rs:cosh"]}
{"id": "C63", "title": "The hyperbolic sine is correctly rounded", "statement": "BigFloat::sinh(p, rm, cc) returns sinh x correctly rounded to p bits (rounded up to words) in mode rm, with the sign of x, marked inexact unless x is zero, the infinity with the sign of x when the result is too large, and the result does not depend on which precisions were asked of the cache before.", "quantifier": "all finite arguments, all valid precisions, all rounding modes, all histories of the cache", "why_tests_cant": "the value is accepted by looking at the bits at hand and the error of the composed operations (exp, reciprocal, difference, quotient) decides whether those bits are right; tests compare random arguments with stored digits and never reach the ends of the exponent range, runs of equal bits or the precisions at which the cached e overflows", "anchors": ["astro-float-num/src/ops/sinh.rs:sinh", "astro-float-num/src/ops/sinh.rs:sinh_series", "astro-float-num/src/ext.rs:sinh"]}
{"id": "C64", "title": "The hyperbolic tangent is correctly rounded and at most one", "statement": "BigFloat::tanh(p, rm, cc) returns tanh x correctly rounded to p bits (rounded up to words) in mode rm, with the sign of x and at most 1 in magnitude, marked inexact unless x is zero; it is 1 with the sign of x for infinite x, and the result does not depend on which precisions were asked of the cache before.", "quantifier": "all arguments other than NaN, all valid precisions, all rounding modes, all histories of the cache", "why_tests_cant": "the value is accepted by looking at the bits at hand and the error of the composed operations (exp, reciprocal, difference, quotient) decides whether those bits are right; tests compare random arguments with stored digits and never reach the ends of the exponent range, runs of equal bits or the precisions at which the cached e overflows", "anchors": ["astro-float-num/src/ops/tanh.rs:tanh", "astro-float-num/src/ops/tanh.rs:process_large_exp", "astro-float-num/src/ext.rs:tanh"]}
{"id": "C65", "title": "The natural logarithm is correctly rounded", "statement": "BigFloat::ln(p, rm, cc) returns ln x correctly rounded to p bits (rounded up to words) in mode rm for every number x > 0, marked inexact unless x is 1; ln 1 is +0, ln 0 is -Inf, ln of +Inf is +Inf, negative arguments and -Inf give NaN; the result does not depend on which precisions were asked of the cache before or on the precision of x.", "quantifier": "all arguments, all valid precisions, all rounding modes, all histories of the cache", "why_tests_cant": "the value is accepted by looking at the bits at hand, and only the error of the whole computation (square roots, series, multiple of ln 2, cancellation next to 1) decides whether those bits are right; tests compare random arguments with stored digits and do not reach the arguments at which cancellation or runs of equal bits matter", "anchors": ["astro-float-num/src/ops/log.rs:ln", "astro-float-num/src/ops/log.rs:ln_series", "astro-float-num/src/ext.rs:ln"]}
{"id": "C66", "title": "The logarithm to base 2 is correctly rounded and exact on powers of two", "statement": "BigFloat::log2(p, rm, cc) returns log2 x correctly rounded to p bits (rounded up to words) in mode rm for every number x > 0, marked inexact unless x is a power of two; for a power of two, subnormal ones included, it is the exponent, which compares as its value does; log2 0 is -Inf, log2 of +Inf is +Inf, negative arguments and -Inf give NaN; the result does not depend on which precisions were asked of the cache before.", "quantifier": "all arguments, all valid precisions, all rounding modes, all histories of the cache", "why_tests_cant": "the value is accepted by looking at the bits at hand, and only the error of the whole computation (series, quotient by ln 2, sum with the exponent, cancellation next to 1) decides whether those bits are right; the zero returned for 1 looks right when printed, and its exponent only shows in comparisons", "anchors": ["astro-float-num/src/ops/log.rs:log2", "astro-float-num/src/num.rs:from_usize", "astro-float-num/src/ext.rs:log2"]}
{"id": "C67", "title": "The inverse hyperbolic tangent is correctly rounded", "statement": "BigFloat::atanh(p, rm, cc) returns artanh x correctly rounded to p bits (rounded up to words) in mode rm for every number -1 < x < 1, with the sign of x, marked inexact unless x is zero; atanh of a zero is the same zero, atanh(+-1) is the infinity of the same sign, other numbers and the infinities give NaN; the result grows with x, is odd, and does not depend on which precisions were asked of the cache before.", "quantifier": "all arguments, all valid precisions, all rounding modes, all histories of the cache", "why_tests_cant": "the value is accepted by looking at the bits at hand; only the error of the whole chain (two sums, a quotient, a logarithm close to 1) decides whether those bits are right, for every argument", "anchors": ["astro-float-num/src/ops/atanh.rs:atanh", "astro-float-num/src/ext.rs:atanh"]}
{"id": "C68", "title": "The inverse hyperbolic sine is correctly rounded", "statement": "BigFloat::asinh(p, rm, cc) returns arsinh x correctly rounded to p bits (rounded up to words) in mode rm for every number x, with the sign of x, marked inexact unless x is zero; zeros and infinities are returned unchanged; the result grows with x, is odd, and does not depend on which precisions were asked of the cache before.", "quantifier": "all arguments, all valid precisions, all rounding modes, all histories of the cache", "why_tests_cant": "the value is accepted by looking at the bits at hand; the switch between ln(2x) and ln(x + sqrt(x^2+1)) depends on the working precision, and the square overflows only at precisions and magnitudes no test reaches", "anchors": ["astro-float-num/src/ops/asinh.rs:asinh", "astro-float-num/src/ext.rs:asinh"]}
{"id": "C69", "title": "The inverse hyperbolic cosine is correctly rounded", "statement": "BigFloat::acosh(p, rm, cc) returns arcosh x correctly rounded to p bits (rounded up to words) in mode rm for every number x > 1, positive and marked inexact; acosh(1) is +0, acosh(+Inf) is +Inf, numbers below 1 and -Inf give NaN; the result grows with x and does not depend on which precisions were asked of the cache before.", "quantifier": "all arguments, all valid precisions, all rounding modes, all histories of the cache", "why_tests_cant": "the value is accepted by looking at the bits at hand; next to 1 the square minus one cancels, and only an error analysis shows that the extra digits taken are enough for every argument; the square overflows only at precisions and magnitudes no test reaches", "anchors": ["astro-float-num/src/ops/acosh.rs:acosh", "astro-float-num/src/ext.rs:acosh"]}
{"id": "C70", "title": "The general power is correctly rounded", "statement": "BigFloat::pow(n, p, rm, cc) returns x^n correctly rounded to p bits (rounded up to words) in mode rm for every positive x, and for every negative x and integer n; the loop ends; the result is marked inexact exactly if it differs from x^n; it grows with x > 0 for n > 0 and does not depend on the precisions of x and n or on which precisions were asked of the caches before.", "quantifier": "all bases, all exponents, all valid precisions, all rounding modes, all histories of the caches", "why_tests_cant": "the value is accepted by looking at the bits at hand; for a fractional exponent only an error analysis of exp(n ln x) shows that two extra bits are enough for every magnitude of n ln x; the loop ends for almost all arguments, so random tests do not meet the exact powers for which it does not", "anchors": ["astro-float-num/src/ops/pow.rs:pow", "astro-float-num/src/ext.rs:pow"]}
{"id": "C71", "title": "The logarithm to base 10 is correctly rounded", "statement": "BigFloat::log10(p, rm, cc) returns log10 x correctly rounded to p bits (rounded up to words) in mode rm for every x > 0; powers of ten give their exponent exactly and are not marked inexact; zero gives -Inf and negative arguments NaN; the result grows with x and does not depend on the precision of x or on which precisions were asked of the caches before.", "quantifier": "all numbers, all valid precisions, all rounding modes, all histories of the caches", "why_tests_cant": "the quotient of two logarithms is accepted by looking at its bits; a shortcut for powers of ten is taken whenever the approximate quotient happens to be an integer, and only an argument over all numbers shows that this is not taken for a number next to a power of ten; the constant ln 10 fails at precisions no test reaches", "anchors": ["astro-float-num/src/ops/log.rs:log10", "astro-float-num/src/ext.rs:log10"]}
{"id": "C72", "title": "The logarithm to any base is correctly rounded", "statement": "BigFloat::log(n, p, rm, cc) returns ln x / ln n correctly rounded to p bits (rounded up to words) in mode rm for all x > 0 and n > 0, n other than 1; the loop ends; the result is marked inexact exactly if it differs from ln x / ln n; it grows with x for n > 1 and does not depend on the precisions of x and n or on which precisions were asked of the caches before.", "quantifier": "all arguments, all bases, all valid precisions, all rounding modes, all histories of the caches", "why_tests_cant": "the quotient of two truncated logarithms is accepted by looking at its bits, or if the rounded base raised to it compares equal to the argument; only an error analysis of both logarithms shows how far the returned number can be from ln x / ln n, for every pair of magnitudes", "anchors": ["astro-float-num/src/ops/log.rs:log", "astro-float-num/src/ext.rs:log"]}
{"id": "C73", "title": "The constant pi is correctly rounded", "statement": "Consts::pi(p, rm) returns the number pi correctly rounded to p bits (rounded up to words) in mode rm, marked inexact, and the result does not depend on which precisions were asked of the cache before.", "quantifier": "all valid precisions, all rounding modes, all histories of the cache", "why_tests_cant": "the number of terms needed grows with the precision and the result is accepted by a check of the bits at hand; tests compare a few precisions with stored digits, and large precisions or long runs of equal bits are out of their reach", "anchors": ["astro-float-num/src/ops/consts/pi.rs:for_prec", "astro-float-num/src/ops/consts/pi.rs:pqr", "astro-float-num/src/ops/consts/pi.rs:calc_pi", "astro-float-num/src/ops/consts/mod.rs:pi"]}
{"id": "C74", "title": "The arctangent is correctly rounded", "statement": "atan(x, p, rm) returns the arctangent of x correctly rounded to p bits (rounded up to words) in mode rm with the sign of x, marked inexact unless x is zero; at the infinities it returns pi/2 and -pi/2 correctly rounded; the call ends for every number and the result does not depend on the history of the cache.", "quantifier": "all numbers of any exponent and precision, both infinities, all valid precisions, all rounding modes, all histories of the cache", "why_tests_cant": "the working precision, the number of argument reductions and the length of the series depend on the exponent of the argument; the failing exponents lie near 2^31/3, and the direction of rounding at minus infinity is visible only in the last bit of two modes", "anchors": ["astro-float-num/src/ops/atan.rs:atan", "astro-float-num/src/ops/atan.rs:atan_series", "astro-float-num/src/ops/atan.rs:atan_arg_reduce", "astro-float-num/src/ops/series.rs:series_linear", "astro-float-num/src/ext.rs:atan", "astro-float-num/src/ext.rs:half_pi"]}
{"id": "C75", "title": "The arcsine is correctly rounded", "statement": "asin(x, p, rm) returns the arcsine of x correctly rounded to p bits (rounded up to words) in mode rm with the sign of x, marked inexact unless x is zero, for every x from -1 to 1 with both ends; it is an invalid argument beyond and NaN at the infinities; the result does not depend on the history of the cache.", "quantifier": "all numbers of any exponent and precision, all valid precisions, all rounding modes, all histories of the cache", "why_tests_cant": "next to one the argument of the inner arctangent is ill-conditioned and the extra precision depends on the number of leading ones of the mantissa; the inner call rounds in the mode of the caller, which shows only in rare last bits", "anchors": ["astro-float-num/src/ops/asin.rs:asin", "astro-float-num/src/ops/atan.rs:atan", "astro-float-num/src/ext.rs:asin"]}
{"id": "C76", "title": "The arccosine is correctly rounded", "statement": "acos(x, p, rm) returns the arccosine of x correctly rounded to p bits (rounded up to words) in mode rm, never negative, marked inexact unless x is one where it is zero, for every x from -1 to 1 with both ends; it is an invalid argument above one in magnitude and NaN at the infinities; it falls when x grows and does not depend on the history of the cache.", "quantifier": "all numbers of any exponent and precision, all valid precisions, all rounding modes, all histories of the cache", "why_tests_cant": "the value is a difference of pi/2 and an arcsine which cancel next to one, so the number of lost bits has no bound over the inputs; the loop restarts with a larger precision only when the loss is seen", "anchors": ["astro-float-num/src/ops/acos.rs:acos", "astro-float-num/src/ops/asin.rs:asin", "astro-float-num/src/ext.rs:acos"]}
{"id": "C77", "title": "The sine is correctly rounded", "statement": "sin(x, p, rm) returns the sine of x correctly rounded to p bits (rounded up to words) in mode rm, between -1 and 1, marked inexact unless x is zero, for every number x however large; it is NaN at the infinities; it is odd and does not depend on the history of the cache.", "quantifier": "all numbers of any exponent and precision, all valid precisions, all rounding modes, all histories of the cache", "why_tests_cant": "a large argument is reduced modulo 2 pi with a constant whose precision depends on the exponent, and next to a multiple of pi leading bits of the result cancel; the extra precision must cover every such argument", "anchors": ["astro-float-num/src/ops/sin.rs:sin", "astro-float-num/src/ops/sin.rs:sin_series", "astro-float-num/src/ops/util.rs:reduce_trig_arg", "astro-float-num/src/ops/util.rs:trig_arg_pi_proximity", "astro-float-num/src/ext.rs:sin"]}
{"id": "C78", "title": "The cosine is correctly rounded", "statement": "cos(x, p, rm) returns the cosine of x correctly rounded to p bits (rounded up to words) in mode rm, between -1 and 1, marked inexact unless x is zero where it is one, for every number x however small or large; it is NaN at the infinities; it is even and does not depend on the history of the cache.", "quantifier": "all numbers of any exponent and precision, all valid precisions, all rounding modes, all histories of the cache", "why_tests_cant": "the argument is halved n times and the cosine restored by doublings that each make the error four times as large; whether the extra precision covers the growth depends on n, which a cost estimate chooses from precision and exponent; next to odd multiples of half pi leading bits cancel", "anchors": ["astro-float-num/src/ops/cos.rs:cos", "astro-float-num/src/ops/cos.rs:cos_series", "astro-float-num/src/ops/cos.rs:cos_arg_restore", "astro-float-num/src/ops/util.rs:trig_arg_pi_proximity", "astro-float-num/src/ext.rs:cos"]}
{"id": "C79", "title": "The tangent is correctly rounded", "statement": "tan(x, p, rm) returns the tangent of x correctly rounded to p bits (rounded up to words) in mode rm, with the sign of tan x, marked inexact unless x is zero where it is that zero, for every number x however small or large; it is NaN at the infinities; it is odd and does not depend on the history of the cache.", "quantifier": "all numbers of any exponent and precision, all valid precisions, all rounding modes, all histories of the cache", "why_tests_cant": "numerator and denominator of the tangent are built by one loop as unnormalised numbers whose exponents grow with factorials, the angle is halved n times and restored by 2t/(1-t^2), which is ill-conditioned wherever a partial angle passes next to an odd multiple of a quarter or half pi; n comes from a cost estimate and the arguments next to multiples of half pi are rare", "anchors": ["astro-float-num/src/ops/tan.rs:tan", "astro-float-num/src/ops/tan.rs:tan_series", "astro-float-num/src/ops/tan.rs:tan_series_run", "astro-float-num/src/ops/tan.rs:tan_arg_restore", "astro-float-num/src/ops/util.rs:trig_arg_pi_proximity", "astro-float-num/src/ext.rs:tan"]}
{"id": "C80", "title": "The macro expr! compensates the errors of an expression", "statement": "expr!(e, ctx) ends and returns the value of the expression e, whose arguments are exact, with the precision of the context: errors of intermediate results and of cancellations are compensated by a larger working precision, which is limited by the exponent range of the context; the relative error of the result is little more than that of one rounding.", "quantifier": "all expressions of arguments, literals and operators, all arguments of any precision and exponent, all contexts", "why_tests_cant": "the working precision is raised by a loop that looks at exponents of rounded intermediate values after each addition and subtraction; whether the entries of its error array cover the growth of the error through the whole tree, and whether the loop ends, depends on the shape of the expression and on cancellations at arbitrary depth", "anchors": ["astro-float-macro/src/lib.rs:traverse_binary", "astro-float-macro/src/lib.rs:one_arg_fun", "astro-float-macro/src/lib.rs:traverse_path", "astro-float-macro/src/lib.rs:expr", "astro-float-macro/src/util.rs:str_to_bigfloat_expr", "astro-float-num/src/macro_util.rs:check_exponent_range", "src/lib.rs:expr"]}
{"id": "C81", "title": "Random numbers are normal numbers of the requested precision and exponent range", "statement": "random_normal(p, exp_from, exp_to) returns, for every state of the random generator, a normal number (zero excluded) whose precision is p rounded up to words and whose exponent lies from exp_from to exp_to inclusive; a precision out of range is rejected; every such number can be returned.", "quantifier": "all precisions, all exponent ranges, all values drawn from the generator, builds with and without overflow checks", "why_tests_cant": "the failing draws (all words zero, the smallest isize) have a probability of about 2^-64, and a test that looks for the inclusive upper end of the range would have to show that no draw gives it", "anchors": ["astro-float-num/src/num.rs:random_normal", "astro-float-num/src/mantissa/mantissa.rs:random_normal", "astro-float-num/src/ext.rs:random_normal"]}
{"id": "C82", "title": "From and from_ext round the primitive value to the requested precision", "statement": "BigFloat::from(v) is the exact value of v for every primitive number type; from_ext(v, p, rm) is the value of v rounded to p bits in the mode rm and marked inexact exactly when rounding changed it; infinities and NaN are kept; overflow of a BigFloat argument gives the infinity.", "quantifier": "all finite values of f32, f64, i8..i128, u8..u128, all precisions, all rounding modes", "why_tests_cant": "the domains are all bit patterns of the types times all precisions and modes; defects sit at single patterns such as the subnormal ones", "anchors": ["astro-float-num/src/ext.rs:impl_from", "astro-float-num/src/ext.rs:from_ext", "astro-float-num/src/ext.rs:from_f32", "astro-float-num/src/num.rs:from_f64"]}
{"id": "C83", "title": "serde reads the number that the data holds and reads back what it has written", "statement": "Deserialising an integer or a finite floating-point value gives exactly that number; deserialising a text gives what from_str gives; a value that has been serialised is read back.", "quantifier": "all integer and floating-point values of the serde data model, all texts, all numbers, all states of the cache of powers of ten", "why_tests_cant": "the claim ranges over all 64-bit integers and bit patterns and over all numbers; a visitor method that is missing shows only for the values handed to it", "anchors": ["astro-float-num/src/for_3rd/de.rs:visit_u64", "astro-float-num/src/for_3rd/de.rs:visit_f32", "astro-float-num/src/for_3rd/de.rs:visit_f64", "astro-float-num/src/for_3rd/de.rs:visit_str", "astro-float-num/src/for_3rd/ser.rs:serialize"]}
