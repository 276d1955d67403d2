{
 "claims": [
  {
   "property": "C01",
   "status": "proved",
   "theorems": [
    "RMath.C01_add",
    "RMath.C01_add_assign",
    "RMath.C01_add_any"
   ],
   "note": "sum and canonical form, for + and +=, any lengths"
  },
  {
   "property": "C02",
   "status": "proved",
   "theorems": [
    "RMath.C02_sub_assign_with_sign",
    "RMath.C02_sub",
    "RMath.C02_sub_assign",
    "RMath.C02_sub_with_sign"
   ],
   "note": "absolute difference, canonical form, sign flag"
  },
  {
   "property": "C03",
   "status": "proved",
   "theorems": [
    "RMath.C03_mul",
    "RMath.C03_mul_assign",
    "RMath.C03_mul_generic"
   ],
   "note": "vectorised and portable multiplication"
  },
  {
   "property": "C04",
   "status": "proved",
   "theorems": [
    "RMath.C04_div_rem",
    "RMath.C04_div_rem_assign",
    "RMath.C04_div_zero"
   ],
   "note": "quotient and remainder, termination, panic for zero divisor"
  },
  {
   "property": "C05",
   "status": "partial",
   "theorems": [
    "RMath.C05_canon_iff",
    "RMath.C05_shl_val",
    "RMath.C05_shl_canon_partial",
    "RMath.C05_shl_zero_not_canonical"
   ],
   "note": "value proved for all inputs; canonical form fails exactly for 0 << s with s >= 32 (iff)"
  },
  {
   "property": "C06",
   "status": "partial",
   "theorems": [
    "RMath.C06_shr_partial",
    "RMath.C06_shr_words",
    "RMath.C06_described",
    "RMath.C06_shr_wrong"
   ],
   "note": "false for the code for many shifts >= 32 (witness, and C06_described says what number every shift gives); proved for s < 32, for shifts of all words out, and where the top word does not vanish"
  },
  {
   "property": "C07",
   "status": "proved",
   "theorems": [
    "RMath.C07_and",
    "RMath.C07_or",
    "RMath.C07_xor",
    "RMath.C07_assign"
   ],
   "note": "bit by bit, canonical"
  },
  {
   "property": "C08",
   "status": "proved",
   "theorems": [
    "RMath.C08_and_not"
   ],
   "note": "bit by bit, canonical"
  },
  {
   "property": "C09",
   "status": "proved",
   "theorems": [
    "RMath.C09_not"
   ],
   "note": "2^L-1-a"
  },
  {
   "property": "C10",
   "status": "proved",
   "theorems": [
    "RMath.C10_partial_cmp",
    "RMath.C10_eq",
    "RMath.C10_total"
   ],
   "note": "order and equality of values"
  },
  {
   "property": "C11",
   "status": "proved",
   "theorems": [
    "RMath.C11_nan",
    "RMath.C11_and_not_ignores_nan"
   ],
   "note": "all operators; and_not, a method, ignores a NaN argument (recorded)"
  },
  {
   "property": "C12",
   "status": "partial",
   "theorems": [
    "RMath.C12_mul_iff",
    "RMath.C12_sub_iff",
    "RMath.C12_add_div_rem",
    "RMath.C12_sub_mul_val_partial",
    "RMath.C12_not_equal",
    "RMath.C12_mul_not_canonical"
   ],
   "note": "+ / % proved equal; - and * with a u32 have the right value but a non-canonical vector, so == fails; C12_mul_iff and C12_sub_iff say exactly when"
  },
  {
   "property": "C13",
   "status": "partial",
   "theorems": [
    "RMath.C13_closure_partial",
    "RMath.C13_eq_partial"
   ],
   "note": "all operators except * u32, - u32 and shifts by >= 32, which are shown to break canonical form"
  },
  {
   "property": "C14",
   "status": "proved",
   "theorems": [
    "RMath.C14_backends_agree",
    "RMath.C14_backends_agree_word",
    "RMath.C14_sub_word_differs"
   ],
   "note": "identical vectors for + - * and signed subtraction; word subtraction agrees in value only"
  },
  {
   "property": "C15",
   "status": "proved",
   "theorems": [
    "RMath.C15_pow",
    "RMath.C15_pow_nan"
   ],
   "note": "value, 0^0, canonical form, NaN"
  },
  {
   "property": "C16",
   "status": "proved",
   "theorems": [
    "RMath.C16_pow_mod",
    "RMath.C16_pow_mod_nan"
   ],
   "note": "value for n > 0 and n = 0, canonical form, NaN"
  },
  {
   "property": "C17",
   "status": "partial",
   "theorems": [
    "RMath.C17_exp_release",
    "RMath.C17_exp_debug_partial",
    "RMath.C17_exp_debug_panics",
    "RMath.C17_exp_debug_panic_witness",
    "RMath.C17_exp_nan",
    "RMath.C17_exp_eq_pow_mod"
   ],
   "note": "release build proved for all inputs and paths; a build with overflow checks panics exactly for the exponents described by C17_exp_debug_panics, proved for all others"
  },
  {
   "property": "C18",
   "status": "proved",
   "theorems": [
    "RMath.C18_montgomery",
    "RMath.C18_neg_inverse"
   ],
   "note": "including the computation of k"
  },
  {
   "property": "C19",
   "status": "proved",
   "theorems": [
    "RMath.C19_sqrt",
    "RMath.C19_sqrt_nan"
   ],
   "note": "termination of the Newton iteration and the two bounds"
  },
  {
   "property": "C20",
   "status": "proved",
   "theorems": [
    "RMath.C20_mul_karatsuba",
    "RMath.C20_mul_karatsuba_any"
   ],
   "note": "also for non-canonical operands"
  },
  {
   "property": "C21",
   "status": "proved",
   "theorems": [
    "RMath.C21_sqr",
    "RMath.C21_sqr_any"
   ],
   "note": "also for non-canonical operands"
  },
  {
   "property": "C22",
   "status": "proved",
   "theorems": [
    "RMath.C22_bytes_round_trip",
    "RMath.C22_bytes_reverse"
   ],
   "note": "both byte orders, NaN included"
  },
  {
   "property": "C23",
   "status": "proved",
   "theorems": [
    "RMath.C23_from_bytes",
    "RMath.C23_from_bytes_empty",
    "RMath.C23_leading_zeros"
   ],
   "note": "three import functions"
  },
  {
   "property": "C24",
   "status": "proved",
   "theorems": [
    "RMath.C24_to_bytes_minimal",
    "RMath.C24_top_byte",
    "RMath.C24_bits"
   ],
   "note": "length formula and non-zero top byte"
  },
  {
   "property": "C25",
   "status": "partial",
   "theorems": [
    "RMath.C25_parse_never_panics",
    "RMath.C25_parse_partial",
    "RMath.C25_no_digit_is_error",
    "RMath.C25_bare_prefix_is_nan",
    "RMath.C25_leading_zero_rejected"
   ],
   "note": "exact set of accepted strings, their values and absence of panics proved for all strings; a bare base prefix yields NaN and leading zeros are refused, contrary to the English claim (witnesses)"
  },
  {
   "property": "C26",
   "status": "proved",
   "theorems": [
    "RMath.C26_display",
    "RMath.C26_prefixed",
    "RMath.C26_binary",
    "RMath.C26_lower_hex",
    "RMath.C26_upper_hex",
    "RMath.C26_octal",
    "RMath.C26_nan"
   ],
   "note": "five formats, value of the printed numeral and round trip"
  },
  {
   "property": "C27",
   "status": "proved",
   "theorems": [
    "RMath.C27_bits_len",
    "RMath.C27_is_set_bit",
    "RMath.C27_trailing_zeros"
   ],
   "note": ""
  },
  {
   "property": "C28",
   "status": "proved",
   "theorems": [
    "RMath.C28_clear_canon_iff",
    "RMath.C28_sticky",
    "RMath.C28_set_bits",
    "RMath.C28_set_bits_canon",
    "RMath.C28_clear_not_canonical"
   ],
   "note": "clearing a bit is right in value but may leave a non-canonical vector (C28_clear_canon_iff says exactly when)"
  },
  {
   "property": "C29",
   "status": "partial",
   "theorems": [
    "RMath.C29_random_partial",
    "RMath.C29_random_terminates",
    "RMath.C29_random_zero",
    "RMath.C29_not_canonical"
   ],
   "note": "range, provenance of the bits and progress proved; canonical form is false for the code (witness)"
  },
  {
   "property": "C30",
   "status": "partial",
   "theorems": [
    "RMath.C30_mul_range_signed",
    "RMath.C30_mul_range_signed_debug_partial",
    "RMath.C30_mul_range"
   ],
   "note": "unsigned version and signed release build proved for all arguments; a debug build panics for ranges of negative numbers starting at i64::MIN, proved to be exactly those"
  },
  {
   "property": "C31",
   "status": "partial",
   "theorems": [
    "RMath.C31_small",
    "RMath.C31_nan",
    "RMath.C31_prime_partial",
    "RMath.C31_below_partial",
    "RMath.C31_base_zero",
    "RMath.C31_rejects_prime",
    "RMath.C31_lucas_rejects_prime",
    "RMath.C31_rejected",
    "RMath.C31_rejected_exist",
    "RMath.C31_exact",
    "RMath.C31_mersenne"
   ],
   "note": "proved for every prime whose neighbours' odd parts C06 does not spoil (2^32 dividing neither p-1 nor p+1 is enough; all Mersenne primes qualify: C31_mersenne) and with a quadratic non-residue up to 10000 (all primes below 10^8 qualify), as long as no drawn base is zero; C31_exact: for the primes of the first kind these are exactly the accepted ones; each condition is needed: witness primes that are rejected, infinitely many of them without a small non-residue (C31_rejected_exist)"
  },
  {
   "property": "C32",
   "status": "proved",
   "theorems": [
    "RMath.C32_generate_prime",
    "RMath.C32_too_short",
    "RMath.C32_no_cutoff",
    "RMath.C32_panics"
   ],
   "note": "length, parity, two top bits and the test; error for short requests; the panic on a failing source is recorded"
  },
  {
   "property": "C33",
   "status": "proved",
   "theorems": [
    "RMath.C33_operands_unchanged",
    "RMath.C33_result",
    "RMath.C33_bigint",
    "RMath.C33_word"
   ],
   "note": "all operators, Nat and BigInt, all sharing patterns, word by word on a heap of buffers"
  },
  {
   "property": "C34",
   "status": "partial",
   "theorems": [
    "RMath.C34_unshared",
    "RMath.C34_shared_partial",
    "RMath.C34_shared_value_partial",
    "RMath.C34_nan",
    "RMath.C34_rem_panics",
    "RMath.C34_rem_hangs"
   ],
   "note": "proved for all operators but %=; a %= a.clone() panics for every a >= 2 and does not end for a = 1 (theorems)"
  },
  {
   "property": "C35",
   "status": "proved",
   "theorems": [
    "RMath.C35_clone_shares",
    "RMath.C35_clone_visible",
    "RMath.C35_frame",
    "RMath.C35_deep_clone_keeps_others",
    "RMath.C35_deep_clone_isolates",
    "RMath.C35_wf"
   ],
   "note": "for all programs of clones, operators and assignments"
  },
  {
   "property": "C36",
   "status": "proved",
   "theorems": [
    "RMath.C36_add",
    "RMath.C36_sub",
    "RMath.C36_mul",
    "RMath.C36_minus_zero",
    "RMath.C36_neg",
    "RMath.C36_signnum"
   ],
   "note": "values and canonical form, also with the minus zero that division can produce; neg, abs, signnum"
  },
  {
   "property": "C37",
   "status": "partial",
   "theorems": [
    "RMath.C37_div_rem_partial",
    "RMath.C37_identity",
    "RMath.C37_div_by_zero",
    "RMath.C37_minus_zero",
    "RMath.C37_canon_iff"
   ],
   "note": "values proved for all operands, identity, panic; the results are not canonical for negative multiples and zero quotients of mixed sign (minus zero), so == with a constant fails exactly there (iff, witness)"
  },
  {
   "property": "C38",
   "status": "partial",
   "theorems": [
    "RMath.C38_euclid_partial",
    "RMath.C38_wrong_on_negative_multiples",
    "RMath.C38_witness",
    "RMath.C38_canon_iff"
   ],
   "note": "proved except for negative multiples, where the code is wrong (exact description and witness)"
  },
  {
   "property": "C39",
   "status": "partial",
   "theorems": [
    "RMath.C39_and",
    "RMath.C39_xor",
    "RMath.C39_or_partial",
    "RMath.C39_or_wrong_on_mixed_signs",
    "RMath.C39_or_witness",
    "RMath.C39_and_not_partial",
    "RMath.C39_and_not_wrong_on_negatives",
    "RMath.C39_and_not_witness",
    "RMath.C39_not",
    "RMath.C39_not_not_canonical",
    "RMath.C39_not_canon_iff"
   ],
   "note": "&, ^, ! proved for all operands; | only for equal signs and and_not except for two negatives, with exact descriptions of the wrong results"
  },
  {
   "property": "C40",
   "status": "partial",
   "theorems": [
    "RMath.C40_shl",
    "RMath.C40_shr_partial",
    "RMath.C40_shr_described",
    "RMath.C40_shr_wrong",
    "RMath.C40_shl_canon_iff"
   ],
   "note": "<< proved; >> inherits the defects of the Nat shift (C06); C40_shr_described says what number every shift gives"
  },
  {
   "property": "C41",
   "status": "proved",
   "theorems": [
    "RMath.C41_cmp",
    "RMath.C41_eq",
    "RMath.C41_lt",
    "RMath.C41_nan"
   ],
   "note": ""
  },
  {
   "property": "C42",
   "status": "proved",
   "theorems": [
    "RMath.C42_gcd",
    "RMath.C42_nan"
   ],
   "note": "including termination and NaN"
  },
  {
   "property": "C43",
   "status": "proved",
   "theorems": [
    "RMath.C43_mod_inverse",
    "RMath.C43_not_coprime",
    "RMath.C43_zero_modulus"
   ],
   "note": "any non-zero modulus; also what is returned without an inverse and modulo zero"
  },
  {
   "property": "C44",
   "status": "partial",
   "theorems": [
    "RMath.C44_solve_partial",
    "RMath.C44_negative_is_none",
    "RMath.C44_witness",
    "RMath.C44_negative_modulus",
    "RMath.C44_zero_modulus"
   ],
   "note": "proved for b >= 0; None for every b < 0, which is wrong when solutions exist (witness); a negative modulus counts as its absolute value, modulo zero is described exactly"
  },
  {
   "property": "C45",
   "status": "partial",
   "theorems": [
    "RMath.C45_exp",
    "RMath.C45_exp_debug_partial",
    "RMath.C45_exp_negative_partial",
    "RMath.C45_exp_negative_odd",
    "RMath.C45_exp_negative_never_nan",
    "RMath.C45_negative_exponent_wrong",
    "RMath.C45_not_coprime_is_not_nan"
   ],
   "note": "b >= 0 proved in release builds, debug builds except the panics of C17; b < 0 proved for a >= 0 or even exponent; otherwise the answer is exactly minus the right one (C45_exp_negative_odd); the documented NaN is never returned (C45_exp_negative_never_nan)"
  },
  {
   "property": "C46",
   "status": "partial",
   "theorems": [
    "RMath.C46_jacobi_hangs",
    "RMath.C46_jacobi_partial",
    "RMath.C46_jacobi_word_partial",
    "RMath.C46_jacobi_small_partial",
    "RMath.C46_jacobi_negative_partial",
    "RMath.C46_jacobi_none",
    "RMath.C46_jacobi_panics",
    "RMath.C46_jacobi_even",
    "RMath.C46_jacobi_even_violated"
   ],
   "note": "proved for every a when b < 2^32, for 0 <= a < 2^32 and every odd b, and, for larger b, when the shifts that remove the factors of two from the remainders of Euclid's algorithm are not spoiled by C06; otherwise the code panics or errs (witness theorem); for even b of one word, where no symbol is defined, what the code answers is described exactly"
  },
  {
   "property": "C47",
   "status": "partial",
   "theorems": [
    "RMath.C47_mod_sqrt_checked_partial",
    "RMath.C47_mod_sqrt_hangs",
    "RMath.C47_mod_sqrt_partial",
    "RMath.C47_mod_sqrt_word_partial",
    "RMath.C47_mod_sqrt_panics"
   ],
   "note": "all three algorithms proved for every odd prime below 2^32 and, for larger primes, away from the shifts that C06 spoils (witness theorem for the panic); release build, and in a build with overflow checks up to panics (C47_mod_sqrt_checked_partial)"
  },
  {
   "property": "C48",
   "status": "proved",
   "theorems": [
    "RMath.C48_parse_never_panics",
    "RMath.C48_parse",
    "RMath.C48_display",
    "RMath.C48_radix",
    "RMath.C48_radix_text",
    "RMath.C48_from_machine"
   ],
   "note": "accepted strings, printing in all formats, round trips, all signed machine types including MIN"
  },
  {
   "property": "C49",
   "status": "proved",
   "theorems": [
    "RMath.C49_sqrt",
    "RMath.C49_not_ceiling",
    "RMath.C49_sqrt_negative",
    "RMath.C49_sqr"
   ],
   "note": ""
  },
  {
   "property": "C50",
   "status": "partial",
   "theorems": [
    "RMath.C50_binomial_partial",
    "RMath.C50_max",
    "RMath.C50_negative_k",
    "RMath.C50_below",
    "RMath.C50_negative_n",
    "RMath.C50_debug_panics",
    "RMath.C50_release_overflow"
   ],
   "note": "proved for n, k >= 0 except n = i64::MAX with k = 0 or n (witnesses); negative k gives 1, negative n the generalised coefficient, and the overflows are described exactly for both build modes"
  },
  {
   "property": "C51",
   "status": "partial",
   "theorems": [
    "RMath.C51_add_partial",
    "RMath.C51_sub_partial",
    "RMath.C51_mul_partial",
    "RMath.C51_div_partial",
    "RMath.C51_assign",
    "RMath.C51_zero_not_reduced",
    "RMath.C51_zero_denominator_negative",
    "RMath.C51_zero_denominator",
    "RMath.C51_nan"
   ],
   "note": "values proved for all operands, with panic exactly on division by zero, NaN and assigning forms; lowest terms for every result but zero, whose denominator is left as computed (witnesses: 0/4, and 0 over a negative denominator)"
  },
  {
   "property": "C52",
   "status": "partial",
   "theorems": [
    "RMath.C52_cmp_partial",
    "RMath.C52_eq_partial",
    "RMath.C52_nan",
    "RMath.C52_minus_zero"
   ],
   "note": "proved for all pairs whose numerator is not minus zero; text like 0/-5 produces minus zero, which is less than zero (witness)"
  },
  {
   "property": "C53",
   "status": "partial",
   "theorems": [
    "RMath.C53_debug_panics",
    "RMath.C53_release_overflow",
    "RMath.C53_zero_kept",
    "RMath.C53_from_frac_bigint_partial",
    "RMath.C53_from_frac_partial",
    "RMath.C53_from_frac_overflow",
    "RMath.C53_zero_not_reduced"
   ],
   "note": "proved except where negating isize::MIN overflows (debug panics exactly there, a release build gets the sign wrong) and that zero is not reduced (C53_zero_kept)"
  },
  {
   "property": "C54",
   "status": "partial",
   "theorems": [
    "RMath.C54_from_f64_partial",
    "RMath.C54_from_f64_large_wrong",
    "RMath.C54_from_f64_witness",
    "RMath.C54_not_finite"
   ],
   "note": "proved for every finite double below 2^53 in magnitude; from 2^53 on the result is wrong for every double (theorem)"
  },
  {
   "property": "C55",
   "status": "partial",
   "theorems": [
    "RMath.C55_trim",
    "RMath.C55_parse",
    "RMath.C55_parse_never_panics",
    "RMath.C55_parse_value",
    "RMath.C55_display_partial",
    "RMath.C55_radix_partial",
    "RMath.C55_negative_denominator",
    "RMath.C55_not_reduced",
    "RMath.C55_nan"
   ],
   "note": "accepted strings, no panic, round trip in five formats; a zero with negative denominator does not come back equal and text is not reduced (witnesses); text with a decimal point is C109"
  },
  {
   "property": "C56",
   "status": "proved",
   "theorems": [
    "RMath.C56_set_precision",
    "RMath.C56_set_precision_zero",
    "RMath.C56_set_precision_special",
    "RMath.C56_rounding_unique",
    "RMath.C56_rounding_error"
   ],
   "note": "all six modes; uniqueness, error bound and direction of the specification's rounding proved too"
  },
  {
   "property": "C57",
   "status": "proved",
   "theorems": [
    "RMath.C57_mul",
    "RMath.C57_mul_special",
    "RMath.C57_nan",
    "RMath.C57_assign"
   ],
   "note": "finite operands, table of special cases, NaN, assigning forms"
  },
  {
   "property": "C58",
   "status": "partial",
   "theorems": [
    "RMath.C58_zero_zero",
    "RMath.C58_add_actual",
    "RMath.C58_sub_actual",
    "RMath.C58_add_partial",
    "RMath.C58_sub_partial",
    "RMath.C58_violated_precision",
    "RMath.C58_zero_add",
    "RMath.C58_add_sub_zero",
    "RMath.C58_violated_stale_flag",
    "RMath.C58_violated_zero_sub",
    "RMath.C58_violated_sub_inf",
    "RMath.C58_add_inf"
   ],
   "note": "the delivered value is the exact sum or difference, correctly rounded, for all finite operands, but with the precision and mode of y when the signs cancel and |x| <= |y| (exact description, witness); 0 - y gives y, x - Inf gives Inf and x + 0 keeps the old flag (theorems); the signs of sums of zeros are described"
  },
  {
   "property": "C59",
   "status": "proved",
   "theorems": [
    "RMath.C59_compare",
    "RMath.C59_nan",
    "RMath.C59_eq"
   ],
   "note": ""
  },
  {
   "property": "C60",
   "status": "partial",
   "theorems": [
    "RMath.C60_violated",
    "RMath.C60_six_halves",
    "RMath.C60_breaks_invariant",
    "RMath.C60_described",
    "RMath.C60_described_small",
    "RMath.C60_special_partial",
    "RMath.C60_violated_inf"
   ],
   "note": "false for every pair of finite operands with quotient in range (theorem); what the quotient is instead is described exactly (C60_described, C60_described_small); special cases proved except infinite dividends, which give NaN (theorem)"
  },
  {
   "property": "C61",
   "status": "proved",
   "theorems": [
    "RMath.C61_truncate_to_u64",
    "RMath.C61_truncate_to_i64"
   ],
   "note": ""
  },
  {
   "property": "C62",
   "status": "partial",
   "theorems": [
    "RMath.C62_from_u64",
    "RMath.C62_from_i64_partial",
    "RMath.C62_from_i64_min",
    "RMath.C62_from_i64_wrapping",
    "RMath.C62_from_nat",
    "RMath.C62_from_bigint",
    "RMath.C62_from_nat_overflow",
    "RMath.C62_from_f64",
    "RMath.C62_from_f64_special"
   ],
   "note": "u64, Nat, BigInt, f64 proved; i64 except MIN in a build with overflow checks, where the call panics (theorem)"
  },
  {
   "property": "C63",
   "status": "partial",
   "theorems": [
    "RMath.C63_lcg_wrapping",
    "RMath.C63_lcg_partial",
    "RMath.C63_minstd0_wrapping",
    "RMath.C63_minstd_wrapping",
    "RMath.C63_minstd0_wrong",
    "RMath.C63_minstd_wrong",
    "RMath.C63_violated"
   ],
   "note": "the recurrence with the product reduced modulo 2^b first is proved for all parameters, seeds and positions; it is the documented one if no product overflows (_partial); minstd_rand0! and minstd_rand! are wrong at every word above 255546 (theorems)"
  },
  {
   "property": "C64",
   "status": "partial",
   "theorems": [
    "RMath.C64_lcg",
    "RMath.C64_lcg_zero",
    "RMath.C64_lfr_partial",
    "RMath.C64_lfr_violated",
    "RMath.C64_mt"
   ],
   "note": "all histories: linear congruential and Mersenne twister for all parameters; lagged Fibonacci except with overflow checks for words as long as the type, where it panics (witness)"
  },
  {
   "property": "C65",
   "status": "proved",
   "theorems": [
    "RMath.C65_lcg",
    "RMath.C65_lfr",
    "RMath.C65_mt"
   ],
   "note": "three generators, all histories before and after the reset, including failing seed sources"
  },
  {
   "property": "C66",
   "status": "partial",
   "theorems": [
    "RMath.C66_lfr_partial",
    "RMath.C66_full_size",
    "RMath.C66_full_size_partial",
    "RMath.C66_violated"
   ],
   "note": "whole stream for every word size below that of the type; for the full size the stream is described exactly (C66_full_size): the carry is lost whenever the greatest word meets a carry, and with overflow checks that draw panics (C66_full_size_partial)"
  },
  {
   "property": "C67",
   "status": "partial",
   "theorems": [
    "RMath.C67_mt_wrapped",
    "RMath.C67_mt_partial"
   ],
   "note": "whole stream for m < n; for m = n, where the documented recurrence is circular, what the code does (C67_mt_wrapped)"
  },
  {
   "property": "C68",
   "status": "proved",
   "theorems": [
    "RMath.C68_latched",
    "RMath.C68_delivers",
    "RMath.C68_cleared",
    "RMath.C68_history"
   ],
   "note": "arbitrary sources"
  },
  {
   "property": "C69",
   "status": "proved",
   "theorems": [
    "RMath.C69_random_bytes",
    "RMath.C69_succeeds",
    "RMath.C69_crypto"
   ],
   "note": "arbitrary results of the system call; Linux back end"
  },
  {
   "property": "C70",
   "status": "partial",
   "theorems": [
    "RMath.C70_is_set_bit_partial",
    "RMath.C70_witness",
    "RMath.C70_set_bits"
   ],
   "note": "every returned bit is right; a negative power of two reports its top bit as absent (witness)"
  },
  {
   "property": "C71",
   "status": "partial",
   "theorems": [
    "RMath.C71_random_partial",
    "RMath.C71_random_zero",
    "RMath.C71_minus_zero"
   ],
   "note": "range and NaN proved; the result need not be canonical (witness)"
  },
  {
   "property": "C72",
   "status": "partial",
   "theorems": [
    "RMath.C72_accepted_partial",
    "RMath.C72_described",
    "RMath.C72_lucas_blind",
    "RMath.C72_violated",
    "RMath.C72_exact_partial"
   ],
   "note": "C72_described: for every number of at least 128, the test returns and accepts exactly the numbers that pass trial division, the strong test to every base and the Lucas test with the exponents that the shift of C06 leaves; these are the textbook tests unless C06 spoils the odd part of n-1 or n+1 (C72_exact_partial); where it does the property is false (C72_violated: a composite that fails the Lucas test is accepted; C72_lucas_blind: a whole family passes that part)"
  },
  {
   "property": "C73",
   "status": "partial",
   "theorems": [
    "RMath.C73_arith",
    "RMath.C73_clone_half_updated",
    "RMath.C73_bits_shared",
    "RMath.C73_bits_shared_wrong",
    "RMath.C73_bits_shared_partial",
    "RMath.C73_div_rem_shared"
   ],
   "note": "+ - * / and the bit operations on non-negative numbers proved; a clone of x shows the negated result when -= changes the sign, and &= |= ^= with a clone of a negative x are wrong (theorems)"
  },
  {
   "property": "C74",
   "status": "partial",
   "theorems": [
    "RMath.C74_neg_abs",
    "RMath.C74_from_bigint",
    "RMath.C74_inv",
    "RMath.C74_nan",
    "RMath.C74_signnum_partial",
    "RMath.C74_signnum_minus_zero",
    "RMath.C74_is_integer_partial"
   ],
   "note": "neg, abs, inv, conversion from integers proved for all; signnum except minus zero, is_integer except unreduced fractions (witnesses)"
  },
  {
   "property": "C75",
   "status": "partial",
   "theorems": [
    "RMath.C75_to_f64",
    "RMath.C75_to_f32_partial",
    "RMath.C75_to_f64_flag_partial",
    "RMath.C75_to_f32_flag_partial",
    "RMath.C75_to_f32_zero_panics",
    "RMath.C75_flag_wrong",
    "RMath.C75_flag_tiny",
    "RMath.C75_nan",
    "RMath.C75_nearest_unique"
   ],
   "note": "nearest, ties to even, proved for every fraction (to_f64) and every non-zero one (to_f32, which panics on zero: theorem); the flag is proved from half the smallest positive number on; below that it is true exactly for the fractions with at most 53 (24) significant digits, although zero is returned (C75_flag_tiny)"
  },
  {
   "property": "C76",
   "status": "partial",
   "theorems": [
    "RMath.C76_to_f64_partial",
    "RMath.C76_to_f32_partial",
    "RMath.C76_gap",
    "RMath.C76_violated_f64",
    "RMath.C76_violated_f32",
    "RMath.C76_special"
   ],
   "note": "proved except strictly between half the least positive machine number and that number, where the code returns the least normal number, without the sign in to_f64 (C76_gap, for every number there)"
  },
  {
   "property": "C77",
   "status": "proved",
   "theorems": [
    "RMath.C77_set_mant_exp",
    "RMath.C77_mant_exp"
   ],
   "note": ""
  },
  {
   "property": "C78",
   "status": "proved",
   "theorems": [
    "RMath.C78_is_integer",
    "RMath.C78_required_min_precision"
   ],
   "note": ""
  },
  {
   "property": "C79",
   "status": "proved",
   "theorems": [
    "RMath.C79_neg_abs",
    "RMath.C79_signnum",
    "RMath.C79_is_negative_infinite"
   ],
   "note": ""
  },
  {
   "property": "C80",
   "status": "partial",
   "theorems": [
    "RMath.C80_from_integer_rat",
    "RMath.C80_nan",
    "RMath.C80_violated"
   ],
   "note": "integers and NaN proved; every other fraction is converted wrongly, since the division is wrong (theorem)"
  },
  {
   "property": "C81",
   "status": "partial",
   "theorems": [
    "RMath.C81_ranlux24_partial",
    "RMath.C81_ranlux48_partial",
    "RMath.C81_ranlux24_violated",
    "RMath.C81_mt19937_violated",
    "RMath.C81_mt19937_64_violated",
    "RMath.C81_mt19937_partial",
    "RMath.C81_mt19937_64_partial"
   ],
   "note": "ranlux24_base! and ranlux48_base! on 64-bit words proved; ranlux24_base! on 32-bit words, minstd (see C63), mt19937! and mt19937_64! (tempering shifts the wrong way) differ from the published streams (witnesses); both twister presets draw the published stream up to one fixed translation of the words, for every seed"
  },
  {
   "property": "C82",
   "status": "partial",
   "theorems": [
    "RMath.C82_exp_partial",
    "RMath.C82_special",
    "RMath.C82_violated",
    "RMath.C82_described",
    "RMath.C82_blanked_iff",
    "RMath.C82_blanked_le",
    "RMath.C82_low_words"
   ],
   "note": "all precisions and numbers whose numerator has no inner zeros and whose trailing zero bits are not removed in whole words; inner zeros lose digits and whole words are lost (witnesses); C82_described says exactly what is printed for every finite number"
  },
  {
   "property": "C83",
   "status": "partial",
   "theorems": [
    "RMath.C83_display_partial",
    "RMath.C83_display_digits_partial",
    "RMath.C83_display_int_partial",
    "RMath.C83_special",
    "RMath.C83_violated",
    "RMath.C83_described"
   ],
   "note": "guards of C82; the number is first rounded to prec + 1 significant digits (exact description proved); builds with overflow checks panic below 1/10 (described and witnessed); the non-finite kinds; C83_described says exactly what is printed for every finite number"
  },
  {
   "property": "C84",
   "status": "partial",
   "theorems": [
    "RMath.C84_integer_text_partial",
    "RMath.C84_integral_partial",
    "RMath.C84_violated",
    "RMath.C84_violated_rejects",
    "RMath.C84_rejects_zeros",
    "RMath.C84_violated_witness"
   ],
   "note": "exact for integers and for texts with an integral value and digits behind the point; every accepted text with a value that is not an integer is read wrongly, and texts whose last digit is not behind the point, or with a zero in front, are rejected (theorems)"
  },
  {
   "property": "C85",
   "status": "partial",
   "theorems": [
    "RMath.C85_round_trip_int_partial",
    "RMath.C85_violated",
    "RMath.C85_round_trip_iff",
    "RMath.C85_no_fraction"
   ],
   "note": "C85_round_trip_iff: exactly the integers that are printed exactly come back, for every finite number whose digits fit the range; no fraction does (C85_no_fraction, witnesses in C85_violated)"
  },
  {
   "property": "C86",
   "status": "proved",
   "theorems": [
    "RMath.C86_value_operators",
    "RMath.C86_panics_iff"
   ],
   "note": ""
  },
  {
   "property": "C87",
   "status": "partial",
   "theorems": [
    "RMath.C87_unshared",
    "RMath.C87_own_clone",
    "RMath.C87_shared_partial",
    "RMath.C87_violated",
    "RMath.C87_violated_zero"
   ],
   "note": "operands with buffers of their own, the receiver's own clone, and clones that differ under an exact guard on the exponents; violated otherwise (two witnesses)"
  },
  {
   "property": "C88",
   "status": "partial",
   "theorems": [
    "RMath.C88_clone_sees",
    "RMath.C88_clone_sees_precision",
    "RMath.C88_violated",
    "RMath.C88_independent_partial"
   ],
   "note": "violated (set_precision on the original changes the clone); proved: programs without shallow clones behave as values, and an exact description of what a clone shows"
  },
  {
   "property": "C89",
   "status": "partial",
   "theorems": [
    "RMath.C89_unshared_partial",
    "RMath.C89_violated"
   ],
   "note": "proved for operands with different buffers; violated for every finite receiver handed to itself"
  },
  {
   "property": "C90",
   "status": "partial",
   "theorems": [
    "RMath.C90_mul_words",
    "RMath.C90_add_sub_vectors",
    "RMath.C90_add_sub_word",
    "RMath.C90_large_variants",
    "RMath.C90_mul_vectors",
    "RMath.C90_shl",
    "RMath.C90_shr",
    "RMath.C90_div_words",
    "RMath.C90_div_vector_partial",
    "RMath.C90_div_violated",
    "RMath.C90_shl_slice_violated"
   ],
   "note": "all kernels but two: div_wvw is correct only for vectors with the most significant word first, and shl_vu returns the wrong word (witnesses)"
  },
  {
   "property": "C91",
   "status": "partial",
   "theorems": [
    "RMath.C91_agree",
    "RMath.C91_agree_word_partial",
    "RMath.C91_empty_differs",
    "RMath.C91_violated",
    "RMath.C91_add_mul_described",
    "RMath.C91_violated_witness"
   ],
   "note": "add_vv, sub_vv, mul_ww for all arguments, the kernels with one word for vectors that are not empty; mul_add_www of arith_amd64.rs returns the addend for all arguments, and everything built on it fails (theorem)"
  },
  {
   "property": "C92",
   "status": "partial",
   "theorems": [
    "RMath.C92_value_operators",
    "RMath.C92_value_operators_panic",
    "RMath.C92_assign_partial",
    "RMath.C92_violated"
   ],
   "note": "value operators for all sharing patterns; assigning operators unless NaN is involved, in which case clones of the receiver become NaN (witness)"
  },
  {
   "property": "C93",
   "status": "partial",
   "theorems": [
    "RMath.C93_unshared_partial",
    "RMath.C93_clones_partial"
   ],
   "note": "all programs without shallow clones, and all programs with clones in which no assigning operator meets NaN"
  },
  {
   "property": "C94",
   "status": "partial",
   "theorems": [
    "RMath.C94_own_partial",
    "RMath.C94_value_operators",
    "RMath.C94_violated"
   ],
   "note": "operators that return a new number, and numbers with a buffer of their own; violated for a clone of the numerator (witness)"
  },
  {
   "property": "C95",
   "status": "proved",
   "theorems": [
    "RMath.C95_from_words",
    "RMath.C95_from_words_empty",
    "RMath.C95_leading_zero_words",
    "RMath.C95_from_bytes",
    "RMath.C95_to_bytes",
    "RMath.C95_bytes_round_trip"
   ],
   "note": ""
  },
  {
   "property": "C96",
   "status": "proved",
   "theorems": [
    "RMath.C96_functions",
    "RMath.C96_functions_panic",
    "RMath.C96_assign"
   ],
   "note": "assigning forms with operands that do not share; C73 has the rest"
  },
  {
   "property": "C97",
   "status": "partial",
   "theorems": [
    "RMath.C97_programs_partial",
    "RMath.C97_no_clones_partial",
    "RMath.C97_violated"
   ],
   "note": "violated: changing a variable in place changes its clones (witness); proved: every program in which the variables changed in place share with no other variable, a condition on the text of the program"
  },
  {
   "property": "C98",
   "status": "partial",
   "theorems": [
    "RMath.C98_no_clones_partial",
    "RMath.C98_no_short_reads_partial",
    "RMath.C98_violated",
    "RMath.C98_reset_keeps_bytes"
   ],
   "note": "violated: after a short read a clone hands out the buffered bytes again (witness); proved: programs without clones, and programs without short reads"
  },
  {
   "property": "C99",
   "status": "proved",
   "theorems": [
    "RMath.C99_default",
    "RMath.C99_default_count",
    "RMath.C99_failing_seed",
    "RMath.C99_hardware"
   ],
   "note": "clock, hasher and instruction are oracles"
  },
  {
   "property": "C100",
   "status": "partial",
   "theorems": [
    "RMath.C100_programs_partial",
    "RMath.C100_comparisons_partial"
   ],
   "note": "all sharing patterns; missing are the statements the code gets wrong: x %= clone of x, a difference with a word that loses a word, shifts of zero and right shifts by 32 or more (C05, C06, C12, C34)"
  },
  {
   "property": "C101",
   "status": "partial",
   "theorems": [
    "RMath.C101_programs_partial",
    "RMath.C101_comparisons_partial"
   ],
   "note": "programs that change only unshared variables in place; missing are the statements the code gets wrong or answers with minus zero (C37-C40, C97), and texts other than plain decimal numerals (C48)"
  },
  {
   "property": "C102",
   "status": "partial",
   "theorems": [
    "RMath.C102_programs_partial",
    "RMath.C102_comparisons_partial"
   ],
   "note": "all programs and all sharing patterns; missing are the constants that from_frac and From<f64> get wrong (C53, C54)"
  },
  {
   "property": "C103",
   "status": "proved",
   "theorems": [
    "RMath.C103_pow",
    "RMath.C103_pow_mod",
    "RMath.C103_sqrt",
    "RMath.C103_nan",
    "RMath.C103_gcd",
    "RMath.C103_mod_inverse",
    "RMath.C103_solve",
    "RMath.C103_solve_solutions",
    "RMath.C103_solve_none",
    "RMath.C103_panic"
   ],
   "note": ""
  },
  {
   "property": "C104",
   "status": "partial",
   "theorems": [
    "RMath.C104_invariant_partial",
    "RMath.C104_violated_division",
    "RMath.C104_rounded_partial",
    "RMath.C104_rounding_exists",
    "RMath.C104_extended_partial",
    "RMath.C104_extended_rounding"
   ],
   "note": "Proved for programs without shallow clones, without division and without the cancelling sums of operands of different format on which the code is wrong; overflow, underflow, infinities and NaN are included (C104_extended_partial), except a number minus an infinity and an infinity divided, where the code is wrong."
  },
  {
   "property": "C105",
   "status": "proved",
   "theorems": [
    "RMath.C105_uniform",
    "RMath.C105_unbiased",
    "RMath.C105_running",
    "RMath.C105_failures",
    "RMath.C105_bigint"
   ],
   "note": "Counts over sequences of 32-bit words; that the source itself is uniform is not claimed. The form of the result is C29 and C71."
  },
  {
   "property": "C106",
   "status": "partial",
   "theorems": [
    "RMath.C106_bases_partial",
    "RMath.C106_bound_partial",
    "RMath.C106_accepts_all",
    "RMath.C106_violated",
    "RMath.C106_rounds_useless"
   ],
   "note": "Proved for all numbers whose odd part of n-1 the code computes, with the bound 4^-(n+1) of Rabin and Monier, which is less than the documented 2^-n. The documented bound is false of the Miller-Rabin part (C106_accepts_all): for n = q*2^(32j)+1, q odd and below 2^32, it accepts every base."
  },
  {
   "property": "C107",
   "status": "partial",
   "theorems": [
    "RMath.C107_nat_text",
    "RMath.C107_bigint_text",
    "RMath.C107_rat_text",
    "RMath.C107_nat",
    "RMath.C107_bigint",
    "RMath.C107_rat_injective",
    "RMath.C107_rat_partial",
    "RMath.C107_rat_violated",
    "RMath.C107_nan",
    "RMath.C107_bytes"
   ],
   "note": "Proved for Nat, BigInt and the Rats in lowest terms; 0/25, which subtraction delivers, equals 0/1 and is printed differently (C107_rat_violated)."
  },
  {
   "property": "C108",
   "status": "proved",
   "theorems": [
    "RMath.C108_nat_exp",
    "RMath.C108_int_exp",
    "RMath.C108_products",
    "RMath.C108_from_frac",
    "RMath.C108_mod_sqrt",
    "RMath.C108_prime_test",
    "RMath.C108_generate_prime",
    "RMath.C108_float_display",
    "RMath.C108_generators"
   ],
   "note": "The functions of the model that take the build as a parameter; the other functions have no arithmetic whose overflow depends on the build, or their model notes the one case left out."
  },
  {
   "property": "C109",
   "status": "partial",
   "theorems": [
    "RMath.C109_delegates",
    "RMath.C109_nearest_partial",
    "RMath.C109_exact_iff",
    "RMath.C109_violated"
   ],
   "note": "From what the standard library documents about f64::from_str (an assumption of the theorems, shown consistent by stdReads_exists): the number read is the nearest double for numbers below 2^53 - 1, and exactly the numbers that are doubles below 2^53 are read exactly (C109_exact_iff). 0.1 is not (C109_violated)."
  },
  {
   "property": "C110",
   "status": "partial",
   "theorems": [
    "RMath.C110_nat",
    "RMath.C110_bigint_partial",
    "RMath.C110_rat_partial",
    "RMath.C110_violated"
   ],
   "note": "Proved for Nat in all formats, and for BigInt and Rat but for the prefix: {:b} of a BigInt or Rat prints 0b without being asked for (C110_violated), and {:#?} of a Rat prints none."
  },
  {
   "property": "C111",
   "status": "proved",
   "theorems": [
    "RMath.C111_behaviour",
    "RMath.C111_handles"
   ],
   "note": "The handles, status codes and bytes that the system returns are arguments of the statements."
  },
  {
   "property": "C112",
   "status": "proved",
   "theorems": [
    "RMath.C112_nat",
    "RMath.C112_nat_laws",
    "RMath.C112_int",
    "RMath.C112_int_laws",
    "RMath.C112_rat"
   ],
   "note": "The variables are numbers in canonical form (Rats in any terms, not minus zero)."
  },
  {
   "property": "C113",
   "status": "partial",
   "theorems": [
    "RMath.C113_commutative",
    "RMath.C113_monotone",
    "RMath.C113_le",
    "RMath.C113_negation",
    "RMath.C113_exact",
    "RMath.C113_exact_difference_partial",
    "RMath.C113_monotone_difference_partial",
    "RMath.C113_sterbenz",
    "RMath.C113_not_associative",
    "RMath.C113_zero_minus_violated"
   ],
   "note": "Proved but for x - y with x zero: 0 - 0.5 is 0.5 (C113_zero_minus_violated). That + is not associative is C113_not_associative."
  },
  {
   "property": "C114",
   "status": "partial",
   "theorems": [
    "RMath.C114_three_mod_four",
    "RMath.C114_five_mod_eight",
    "RMath.C114_even",
    "RMath.C114_square_never_ends",
    "RMath.C114_order_never_ends",
    "RMath.C114_violated",
    "RMath.C114_one_mod_eight"
   ],
   "note": "False for the code (C114_violated). What it does instead is described: moduli that are 3 mod 4 or 5 mod 8 return the number of the formula for primes, even ones None or 0, odd squares never end (C114_square_never_ends), nor do moduli that are 1 mod 8 for which no x^(s 2^k) is 1 (C114_order_never_ends). For one-word moduli that are 1 mod 8 whatever is returned for symbol 1 is a root (C114_one_mod_eight). Not described: for which of the remaining x (1 mod 8, no square, some x^(s 2^k) = 1) it ends."
  },
  {
   "property": "C115",
   "status": "partial",
   "theorems": [
    "RMath.C115_double_partial",
    "RMath.C115_single_partial",
    "RMath.C115_from_f64_partial",
    "RMath.C115_low_product_wrong",
    "RMath.C115_violated"
   ],
   "note": "Proved for sums, products and differences, for sums and differences of doubles also below the normal range. False for quotients and 0 - y (C115_violated). Below the normal range products are rounded twice (C115_low_product_wrong), which the property excludes. The sign of a zero result is not part of the statement."
  },
  {
   "property": "C116",
   "status": "proved",
   "theorems": [
    "RMath.C116_nat",
    "RMath.C116_bigint",
    "RMath.C116_rat",
    "RMath.C116_float",
    "RMath.C116_float_trim"
   ],
   "note": "For Rat and Float about the text without the white space around it (which C116_rat and C116_float_trim show to be irrelevant). That an error is returned exactly if the parser of C25, C48, C55 or C85 refuses the text is part of the theorems. The exponent is checked before the digits, so that a text can have both faults."
  },
  {
   "property": "C117",
   "status": "partial",
   "theorems": [
    "RMath.C117_ends_partial",
    "RMath.C117_rem_by_shifted_zero",
    "RMath.C117_div_by_shifted_zero",
    "RMath.C117_all"
   ],
   "note": "Proved for operands in canonical form (C117_ends_partial); C117_all says for every pair of operands whether the division ends, panics or returns, and what. False for the code: 0 << s with s >= 32 is not seen to be zero, and dividing by it never ends, or returns 0 and a (C117_rem_by_shifted_zero, C117_div_by_shifted_zero, for all a and s). jacobi and mod_sqrt inherit it (C46_jacobi_hangs, C47_mod_sqrt_hangs)."
  },
  {
   "property": "C118",
   "status": "partial",
   "theorems": [
    "RMath.C118_left",
    "RMath.C118_values_partial",
    "RMath.C118_sub",
    "RMath.C118_violated",
    "RMath.C118_sub_product",
    "RMath.C118_compare",
    "RMath.C118_shifted_zero"
   ],
   "note": "True for the left operand of every operator (C118_left), and for both operands of +, *, &, |, ^ and << (C118_values_partial). False for the right operand of -, /, % and for comparisons: 10 - 3 * 1u32 is 2^64 - 7 (C118_violated). C118_sub, C118_compare and C117_all say what they return for every pair of operands, C118_sub_product for all products with a machine word, C118_shifted_zero for Nat and BigInt minus 0 << s."
  },
  {
   "property": "C119",
   "status": "partial",
   "theorems": [
    "RMath.C119_sqrt_partial",
    "RMath.C119_sqrt_zero_panics",
    "RMath.C119_sqrt_shifted_zero",
    "RMath.C119_bits",
    "RMath.C119_bytes",
    "RMath.C119_not",
    "RMath.C119_text_partial",
    "RMath.C119_text_zeros",
    "RMath.C119_pow",
    "RMath.C119_pow_mod_partial",
    "RMath.C119_pow_mod_wrong"
   ],
   "note": "For numbers stored with leading zero words: {} and {:o} (C119_text_partial), sqr (C21_sqr_any), sqrt of every number but zero (C119_sqrt_partial) and pow but for 0 to the power 0 (C119_pow, exact) are right. False for the rest, with exact descriptions: the root of such a zero panics (C119_sqrt_zero_panics), pow_mod is not reduced (C119_pow_mod_partial, C119_pow_mod_wrong), ! complements all words (C119_not), bits_len, bytes and the other texts count the superfluous zeros (C119_bits, C119_bytes, C119_text_zeros)."
  },
  {
   "property": "C120",
   "status": "proved",
   "theorems": [
    "RMath.C120_signs",
    "RMath.C120_nan"
   ],
   "note": "for every integer in the form all constructors deliver, and for NaN"
  },
  {
   "property": "C121",
   "status": "partial",
   "theorems": [
    "RMath.C121_exp",
    "RMath.C121_exp_no_modulus",
    "RMath.C121_exp_checks",
    "RMath.C121_violated"
   ],
   "note": "For arguments stored with leading zero words, without overflow checks and with a modulus that is not zero, exp is congruent to x^b, except for 0 to the power 0; it is reduced only if the modulus has no leading zero words (C121_exp). Without modulus the exponent must have no leading zero words: otherwise 2^32 - 1 squarings too many are done (C121_exp_no_modulus). With overflow checks exp panics in the cases C121_exp_checks lists. Missing: moduli that are zeros of several words, where the division by such a zero (C117_all) may never end."
  },
  {
   "property": "C122",
   "status": "partial",
   "theorems": [
    "RMath.C122_add",
    "RMath.C122_sub",
    "RMath.C122_mul_partial",
    "RMath.C122_determined",
    "RMath.C122_violated",
    "RMath.C122_mul_low",
    "RMath.C122_low_violated"
   ],
   "note": "All three operations are described for all pairs of bit patterns: they are those of IEEE 754, except -0 + 0 (which is -0), 0 - y for a number y and number - infinity (which are y), and some products below the normal range, which are rounded twice (C122_mul_low says exactly which are wrong, and what they are)."
  },
  {
   "property": "C123",
   "status": "partial",
   "theorems": [
    "RMath.C123_add",
    "RMath.C123_sub",
    "RMath.C123_mul",
    "RMath.C123_violated"
   ],
   "note": "All three operations are described for all pairs of bit patterns. They are those of IEEE 754, except -0 + 0, 0 - y, number - infinity (as for f64), and products between half the least positive f32 and that number, which become 2^-126 (the defect of to_f32, C76_gap). Rounding twice makes no difference for singles, this is part of the proof."
  },
  {
   "property": "C124",
   "status": "partial",
   "theorems": [
    "RMath.C124_from_unsigned",
    "RMath.C124_from_integers",
    "RMath.C124_compare_partial",
    "RMath.C124_bigint_eq_partial",
    "RMath.C124_nan",
    "RMath.C124_padded",
    "RMath.C124_violated"
   ],
   "note": "The conversions hold for all values. Comparisons hold for numbers in canonical form. A number with leading zero words, such as Nat::from(3u32) * 1u32, equals no machine integer and is greater than every u32 (C124_padded)."
  },
  {
   "property": "C125",
   "status": "partial",
   "theorems": [
    "RMath.C125_order64",
    "RMath.C125_order32",
    "RMath.C125_back64",
    "RMath.C125_back32",
    "RMath.C125_widen",
    "RMath.C125_narrow",
    "RMath.C125_determined",
    "RMath.C125_violated"
   ],
   "note": "Everything holds for all bit patterns, except that to_f32 of an f64 with 2^-150 < |x| < 2^-149 is 2^-126 with the sign of x instead of 2^-149 (C125_narrow says so exactly)."
  },
  {
   "property": "C126",
   "status": "partial",
   "theorems": [
    "RMath.C126_values",
    "RMath.C126_add_sub",
    "RMath.C126_compare",
    "RMath.C126_div",
    "RMath.C126_bits_partial",
    "RMath.C126_shr",
    "RMath.C126_violated"
   ],
   "note": "Products, left shifts, -x and abs are right for all operands. Sums and differences are right except where the second magnitude has more words than it needs and the first is greater (C126_add_sub says exactly when, and what the wrong result is). Comparison uses signs and numbers of words first (C126_compare). Division satisfies x = q*y + r for every divisor that is not zero; panics and endless loops are described exactly (C126_div). The bit operations and shifts are value-only except for a zero with the sign set."
  },
  {
   "property": "C127",
   "status": "partial",
   "theorems": [
    "RMath.C127_euclid",
    "RMath.C127_gcd",
    "RMath.C127_mod_inverse",
    "RMath.C127_solve",
    "RMath.C127_jacobi",
    "RMath.C127_exp",
    "RMath.C127_rest",
    "RMath.C127_violated",
    "RMath.C127_mod_sqrt"
   ],
   "note": "True for gcd, for exp in release builds but for a negative exponent with the negative zero as modulus, for mod_inverse but modulo zero, and for sqr. False for the rest, with exact descriptions: rem_euclid(-0, n) is |n|, the congruence a*x = -0 has no solution, jacobi(x, -0) panics, sqrt(-0) is NaN (C127_violated). mod_sqrt(-0, p) is mod_sqrt(0, p) except for p = -1, mod_sqrt(x, -0) panics for x != 0 (C127_mod_sqrt)."
  },
  {
   "property": "C128",
   "status": "partial",
   "theorems": [
    "RMath.C128_kinds",
    "RMath.C128_begin",
    "RMath.C128_decimal",
    "RMath.C128_prefixed",
    "RMath.C128_bigint",
    "RMath.C128_rat",
    "RMath.C128_float",
    "RMath.C128_violated"
   ],
   "note": "True for decimal numerals and for texts without numeral. Behind a prefix the digits are read from the right, so the last wrong character is named (C128_prefixed). Rat passes on the message of the numerator, else of the denominator; Float that of the digits without the point, and calls a text with an exponent of at least 0 empty (C128_float, C128_violated)."
  },
  {
   "property": "C129",
   "status": "partial",
   "theorems": [
    "RMath.C129_results",
    "RMath.C129_lcg",
    "RMath.C129_lfr",
    "RMath.C129_mt",
    "RMath.C129_violated"
   ],
   "note": "The message is that of the first condition that fails (C129_lfr, C129_mt give the list of conditions). The conditions are not the documented ones: l = 0 is refused, u, s, t, d, b, c may be 0 one at a time, and the message about the word size speaks of m (C129_violated)."
  },
  {
   "property": "C130",
   "status": "partial",
   "theorems": [
    "RMath.C130_partial",
    "RMath.C130_finite",
    "RMath.C130_zero",
    "RMath.C130_not_finite",
    "RMath.C130_violated",
    "RMath.C130_singles_partial",
    "RMath.C130_singles_violated"
   ],
   "note": "IEEE results for all doubles below 2^53 in magnitude up to the signs of zeros (C130_partial). What happens otherwise is described for all bit patterns: from 2^53 on Rat::from divides by the power of two instead of multiplying (ReadAs, C130_finite), zeros are +0 and division by zero panics (C130_zero), infinities become NaN (C130_not_finite). Singles: a zero result panics (C130_singles_partial)."
  },
  {
   "property": "C131",
   "status": "partial",
   "theorems": [
    "RMath.C131_rsa",
    "RMath.C131_rsa_conditions",
    "RMath.C131_rsa_checked_panics",
    "RMath.C131_exchange",
    "RMath.C131_exchange_partial",
    "RMath.C131_exchange_violated",
    "RMath.C131_elgamal",
    "RMath.C131_fermat",
    "RMath.C131_euler_partial"
   ],
   "note": "RSA, ElGamal, Fermat: as stated. Diffie-Hellman: all exponents >= 0 and all moduli (C131_exchange); negative exponents only for g >= 0 coprime to p (C131_exchange_partial, C131_exchange_violated: the sign error of exp for negative odd exponents and negative bases). Euler: primes of one word, since jacobi may not return for larger ones. With overflow checks RSA may panic for m <= 1 (C131_rsa_checked_panics)."
  },
  {
   "property": "C132",
   "status": "partial",
   "theorems": [
    "RMath.C132_windows_text",
    "RMath.C132_windows_explained",
    "RMath.C132_windows",
    "RMath.C132_linux",
    "RMath.C132_linux_partial",
    "RMath.C132_linux_violated",
    "RMath.C132_debug",
    "RMath.C132_display_violated",
    "RMath.C132_processor"
   ],
   "note": "Windows and {:?}: proved. Linux: bytes left from earlier calls are counted too, so the number is right exactly if nothing was buffered (C132_linux_partial, an iff; witness C132_linux_violated). With {} the errors NoNewRandNumberGen, NoNewRandSeedGen and DivisorIsZero all print nothing (C132_display_violated)."
  },
  {
   "property": "C133",
   "status": "partial",
   "theorems": [
    "RMath.C133_period_partial",
    "RMath.C133_words_of_64_bits_partial",
    "RMath.C133_violated",
    "RMath.C133_stuck",
    "RMath.C133_stuck_minstd"
   ],
   "note": "Proved if no product overflows a word, e.g. for both multipliers with words of 64 bits (both are shown to be primitive roots modulo the prime 2^31 - 1). The presets have words of 32 bits, whose products wrap: with the seed 1 they deliver exactly 38041 and 75030 different words and then go round in cycles of 21729 and 31396 (C133_violated). C133_stuck, C133_stuck_minstd: once 0, always 0; the seeds whose first word is 0; no other word repeats at once."
  },
  {
   "property": "C134",
   "status": "partial",
   "theorems": [
    "RMath.C134_temper",
    "RMath.C134_periodic_partial",
    "RMath.C134_no_zeros_partial",
    "RMath.C134_seeds_partial",
    "RMath.C134_window_partial",
    "RMath.C134_presets",
    "RMath.C134_violated",
    "RMath.C134_dies",
    "RMath.C134_two_words",
    "RMath.C134_one_word",
    "RMath.C134_one_word_keeps",
    "RMath.C134_one_word_dies"
   ],
   "note": "Tempering: injective exactly if u, s and t are not 0 (C134_temper). The rest needs n >= 2 and either a with its top bit set or m = n, and, except for the period, u, s, t not 0; no zeros needs n >= 3; different seeds need in addition an odd f and w >= 3, or m = n. Both presets satisfy all of this (C134_presets). new accepts parameters without, and the statements fail: with u = 0 and d all ones every word is 0, with f = 2^31 two seeds give the same stream (C134_violated), with a without top bit a stream runs into zeros (C134_dies), and so for n = 2 (C134_two_words). For n = 1 seeds are kept apart and words repeat if a has an even number of ones (C134_one_word_keeps); otherwise some seed gives zeros only (C134_one_word_dies). The length of the period of both presets is C136."
  },
  {
   "property": "C135",
   "status": "partial",
   "theorems": [
    "RMath.C135_congruential_partial",
    "RMath.C135_window_partial",
    "RMath.C135_period_partial",
    "RMath.C135_prime_partial",
    "RMath.C135_ranlux24",
    "RMath.C135_ranlux48",
    "RMath.C135_violated"
   ],
   "note": "Proved for words shorter than the type (ranlux24_base! on u32 and u64, ranlux48_base! on u64), every seed: which number the sequence behind starts with, which numbers are periods, and the exact period of both presets, whose modulus is shown to be prime with the orders of 2^24 and 2^48. False for words as long as the type, where carries are lost (C135_violated; C66_full_size says what the words are)."
  },
  {
   "property": "C136",
   "status": "proved",
   "theorems": [
    "RMath.C136_mt19937",
    "RMath.C136_mt19937_64",
    "RMath.C136_occurs"
   ],
   "note": "For the tempering as written, which shifts to the right throughout; the claims hold all the same since it is a bijection of words (C134)."
  },
  {
   "property": "C137",
   "status": "proved",
   "theorems": [
    "RMath.C137_remainder",
    "RMath.C137_next_candidate",
    "RMath.C137_generated"
   ],
   "note": "The draws are a list of outcomes of the random source, as for C32."
  },
  {
   "property": "C138",
   "status": "proved",
   "theorems": [
    "RMath.C138_power_of_two",
    "RMath.C138_no_overflow",
    "RMath.C138_power_of_two_iff",
    "RMath.C138_low_digits"
   ],
   "note": "For moduli that are powers of two whatever overflows; for other moduli as long as a * (m - 1) + c and a * seed + c fit the word. Overflow with other moduli gives another sequence (C63_lcg_wrapping, C63_violated)."
  },
  {
   "property": "C139",
   "status": "partial",
   "theorems": [
    "RMath.C139_possible",
    "RMath.C139_primes_partial",
    "RMath.C139_primes_below",
    "RMath.C139_never",
    "RMath.C139_composite"
   ],
   "note": "C139_possible says exactly which numbers can be returned: primes below 128, and numbers of the right shape that pass trial division and the Lucas part as the code computes it. These include all primes below 10^8 and all primes p with 2^32 dividing neither p - 1 nor p + 1 that have a quadratic non-residue up to 10000. False otherwise: primes without such a non-residue are never returned (C139_never), and 59*2^32 - 1 = 19927 * 12716569 can be (C139_composite), since the shift of C06 leaves the exponent 0 in the Lucas part."
  },
  {
   "property": "C140",
   "status": "partial",
   "theorems": [
    "RMath.C140_rounds_partial",
    "RMath.C140_small",
    "RMath.C140_top",
    "RMath.C140_top_checked",
    "RMath.C140_top_primes",
    "RMath.C140_violated",
    "RMath.C140_generate_partial",
    "RMath.C140_generate_checked",
    "RMath.C140_generate_top",
    "RMath.C140_generate_violated"
   ],
   "note": "Proved for every n but usize::MAX (64-bit machine). For usize::MAX n + 1 overflows: without overflow checks no base is drawn, and exactly the numbers that pass trial division and the Lucas part are accepted, a composite among them (C140_top, C140_violated); with overflow checks every number of at least 128 that passes trial division panics, in particular every prime (C140_top_checked, C140_top_primes). generate_prime(bits, usize::MAX) likewise: with overflow checks it never returns from 8 bits on (C140_generate_checked), without it returns what passes trial division and the Lucas part, composites included (C140_generate_top, C140_generate_violated)."
  },
  {
   "property": "C141",
   "status": "partial",
   "theorems": [
    "RMath.C141_new",
    "RMath.C141_algorithm",
    "RMath.C141_platform",
    "RMath.C141_violated",
    "RMath.C141_filled_partial",
    "RMath.C141_long"
   ],
   "note": "Proved for everything that CryptoRand uses (C141_new, C141_filled_partial for buffers below 4 GiB). False for ms_platform_crypto_provider, which nothing in the crate calls: its name has no zero at the end, so the system reads on in memory that does not belong to it (C141_platform, exact; C141_violated). False for buffers of 4 GiB and more: the length is cut to 32 bits and the rest is left as it was although the call succeeds (C141_long)."
  }
 ]
}