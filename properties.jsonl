{"id": "C01", "title": "Nat addition is exact", "statement": "a + b (and a += b) denotes the mathematical sum of the values denoted by a and b, for operands of any lengths, with the result in canonical form (no leading zero word).", "quantifier": "all pairs of non-NaN naturals of any length", "why_tests_cant": "The operands are unbounded; a test suite samples finitely many lengths and carry patterns. Carries can ripple through any number of words.", "anchors": ["src/bigint/nat_amd64.rs: add_inner, add_inner_by_adcx", "src/bigint/nat_generic.rs: add_inner", "src/bigint/nat.rs: impl Add/AddAssign for Nat"]}
{"id": "C02", "title": "Nat subtraction is the absolute difference with a correct sign", "statement": "a - b denotes |a - b| in canonical form; the variant that reports a sign says 'not negative' exactly when a >= b.", "quantifier": "all pairs of non-NaN naturals of any length", "why_tests_cant": "The operands are unbounded; a test suite samples finitely many lengths and carry patterns. Borrow chains and leading-zero trimming depend on all words.", "anchors": ["src/bigint/nat_amd64.rs: sub_inner_with_sign, sub_inner_by_sbb", "src/bigint/nat_generic.rs: sub_inner_with_sign", "src/bigint/nat.rs: sub_inner, sub_with_sign"]}
{"id": "C03", "title": "Nat multiplication is exact", "statement": "a * b denotes the product of the values, in canonical form, for the vectorised backend as well as for the portable one.", "quantifier": "all pairs of non-NaN naturals of any length (length below 2^32 words for the vectorised backend)", "why_tests_cant": "The operands are unbounded; a test suite samples finitely many lengths and carry patterns. The column accumulators and their carry counters can only overflow for operands longer than any test.", "anchors": ["src/bigint/nat_avx2.rs: mul_inner, mul_manuual_by_avx2", "src/bigint/nat_generic.rs: mul_inner"]}
{"id": "C04", "title": "Nat division and remainder satisfy the Euclidean identity", "statement": "For b != 0, a / b and a % b terminate without panic and return the unique q, r with a = q*b + r and r < b, both canonical; a zero divisor panics.", "quantifier": "all pairs of naturals with non-zero divisor, any lengths", "why_tests_cant": "The shift-subtract loop runs a data dependent number of times; termination and the invariant hold only by induction.", "anchors": ["src/bigint/nat.rs: div_inner, rem_inner"]}
{"id": "C05", "title": "Nat left shift multiplies by a power of two", "statement": "a << s denotes a * 2^s in canonical form.", "quantifier": "all naturals a and shift counts s", "why_tests_cant": "The operands are unbounded; a test suite samples finitely many lengths and carry patterns. Word and bit offsets combine in every way.", "anchors": ["src/bigint/nat.rs: shl_inner"]}
{"id": "C06", "title": "Nat right shift divides by a power of two", "statement": "a >> s denotes floor(a / 2^s) in canonical form.", "quantifier": "all naturals a and shift counts s", "why_tests_cant": "The tests only shift by 0, 1, 4, 30 and by more than the length; word-multiple shifts and empty top words are other code paths.", "anchors": ["src/bigint/nat.rs: shr_inner"]}
{"id": "C07", "title": "Nat bitwise and, or, xor act bit by bit", "statement": "bit i of a & b, a | b, a ^ b is the Boolean and/or/xor of bit i of a and of b, for operands of different lengths, and the results are canonical.", "quantifier": "all pairs of naturals, all bit positions", "why_tests_cant": "The operands are unbounded; a test suite samples finitely many lengths and carry patterns.", "anchors": ["src/bigint/nat.rs: bitand_inner, bitor_inner, bitxor_inner"]}
{"id": "C08", "title": "Nat and_not clears exactly the bits of the argument", "statement": "bit i of a.and_not(b) is set iff it is set in a and not in b; the result is canonical.", "quantifier": "all pairs of naturals, all bit positions", "why_tests_cant": "The operands are unbounded; a test suite samples finitely many lengths and carry patterns.", "anchors": ["src/bigint/nat.rs: and_not"]}
{"id": "C09", "title": "Nat bitwise complement stays within the bit length", "statement": "!a denotes 2^L - 1 - a where L is the bit length of a (1 for zero), in canonical form.", "quantifier": "all naturals", "why_tests_cant": "The operands are unbounded; a test suite samples finitely many lengths and carry patterns. The partially filled top word is masked by a data dependent mask.", "anchors": ["src/bigint/nat.rs: not_inner, bits_len"]}
{"id": "C10", "title": "Nat comparison is the order of the denoted values", "statement": "a < b, a == b, a > b are decided exactly as for the denoted integers; the order is total on non-NaN values.", "quantifier": "all pairs of naturals", "why_tests_cant": "Agreement with the integers must hold for every pair, including those that differ only in one word.", "anchors": ["src/bigint/nat.rs: partial_cmp_inner, PartialEq, PartialOrd"]}
{"id": "C11", "title": "NaN propagates and is unordered", "statement": "Every binary operator with a NaN operand gives NaN; NaN is not equal to anything (itself included) and not ordered against anything.", "quantifier": "all operators, all operands", "why_tests_cant": "Quantifies over all operands.", "anchors": ["src/bigint/nat_macro.rs: nat_arith_ops1!, nat_eq_basic!, nat_ord_basic!", "src/bigint/nat.rs: PartialEq, PartialOrd"]}
{"id": "C12", "title": "Mixed Nat/u32 arithmetic agrees with Nat/Nat arithmetic", "statement": "a op u for a machine word u gives a Nat equal (==) to a op Nat::from(u), for op in + - * / %.", "quantifier": "all naturals a, all u32 values u", "why_tests_cant": "Equality is on representations; only particular word patterns leave a spurious zero word.", "anchors": ["src/bigint/nat.rs: mul_inner_basic, div_inner_basic, rem_inner_basic", "src/bigint/nat_amd64.rs: add_inner_basic, sub_inner_basic", "src/bigint/nat_generic.rs: add_inner_basic, sub_inner_basic"]}
{"id": "C13", "title": "Every Nat operator preserves canonical form", "statement": "If the inputs have no leading zero word, neither has the result, so that == on results coincides with equality of numbers; holds along any sequence of operations.", "quantifier": "all finite sequences of operations", "why_tests_cant": "It is an invariant of all histories.", "anchors": ["src/bigint/nat.rs: trim_head_zero_, all operator bodies"]}
{"id": "C14", "title": "Both arithmetic backends give the same results", "statement": "The x86-64 backend and the portable backend return identical vectors for +, -, * and sign-reporting subtraction on the same canonical operands.", "quantifier": "all pairs of naturals", "why_tests_cant": "A build contains only one backend, so no test compares them.", "anchors": ["src/bigint/nat_amd64.rs", "src/bigint/nat_avx2.rs", "src/bigint/nat_generic.rs"]}
{"id": "C15", "title": "Nat::pow is exact exponentiation", "statement": "a.pow(b) denotes a^b, with 0^0 = 1, canonical.", "quantifier": "all naturals a, b", "why_tests_cant": "Square-and-multiply runs over every bit of an unbounded exponent.", "anchors": ["src/bigint/nat.rs: pow, pow_inner"]}
{"id": "C16", "title": "Nat::pow_mod is exact modular exponentiation", "statement": "a.pow_mod(b, n) denotes a^b mod n, and a^b when n = 0.", "quantifier": "all naturals a, b, n", "why_tests_cant": "The operands are unbounded; a test suite samples finitely many lengths and carry patterns.", "anchors": ["src/bigint/nat.rs: pow_mod, pow_mod_inner"]}
{"id": "C17", "title": "Montgomery/windowed exponentiation agrees with a^b mod n", "statement": "a.exp(b, n) denotes a^b mod n for n > 0 (a^b when n = 0), whichever of the direct, windowed or Montgomery code paths is taken, without panicking.", "quantifier": "all naturals a, b, n", "why_tests_cant": "The code path and the reduction steps depend on lengths and parity; Montgomery reduction errors appear for rare carries (cf. golang issue 13907).", "anchors": ["src/bigint/nat.rs: exp, exp_windowed, exp_montogomery, montgomery"]}
{"id": "C18", "title": "Montgomery step is a correct reduction", "statement": "One Montgomery multiplication of n-word operands by the odd modulus m with k = -m^-1 mod 2^32 yields an n-word z with z * 2^(32 n) congruent to x * y mod m.", "quantifier": "all word vectors of equal length n, all odd moduli", "why_tests_cant": "The carry out of the top word is data dependent and rare.", "anchors": ["src/bigint/nat.rs: montgomery", "src/bigint/arith_generic.rs: add_mul_vvw_inner, sub_vv_inner"]}
{"id": "C19", "title": "Nat::sqrt is the integer square root", "statement": "a.sqrt() terminates and returns the canonical r with r^2 <= a < (r+1)^2.", "quantifier": "all naturals a", "why_tests_cant": "Newton iteration: termination and the final inequality are inductive facts.", "anchors": ["src/bigint/nat.rs: sqrt"]}
{"id": "C20", "title": "Karatsuba multiplication equals schoolbook multiplication", "statement": "a.mul_karatsuba(b) denotes a*b, for any threshold-induced recursion depth and operand imbalance.", "quantifier": "all pairs of naturals of any length", "why_tests_cant": "Recursion depth and the chunking of the longer operand are unbounded.", "anchors": ["src/bigint/nat.rs: mul_karatsuba, mul_by_karatsuba, karatsuba, karatsuba_add, karatsuba_sub, karatsuba_len, add_at"]}
{"id": "C21", "title": "Squaring equals multiplication by itself", "statement": "a.sqr() denotes a*a for every length, through the schoolbook, doubled-triangle and Karatsuba squaring paths.", "quantifier": "all naturals of any length", "why_tests_cant": "Path depends on length thresholds (20, 260 words) and recursion depth is unbounded.", "anchors": ["src/bigint/nat.rs: sqr, sqr_v, basic_sqr, karatsuba_sqr"]}
{"id": "C22", "title": "Byte export/import round-trips", "statement": "from_le_bytes(to_le_bytes(a)) == a and from_be_bytes(to_be_bytes(a)) == a, and the two encodings are reverses of each other.", "quantifier": "all naturals (and NaN)", "why_tests_cant": "The operands are unbounded; a test suite samples finitely many lengths and carry patterns.", "anchors": ["src/bigint/nat.rs: to_le_bytes, to_be_bytes, copy_to_le, copy_to_be, from_le_or_be_bytes"]}
{"id": "C23", "title": "Byte import denotes the positional value", "statement": "from_le_bytes(bs) denotes sum bs[i]*256^i and from_be_bytes the same with the bytes reversed; empty input gives NaN; leading zero bytes do not matter.", "quantifier": "all byte strings", "why_tests_cant": "Unbounded byte strings with any alignment to word boundaries.", "anchors": ["src/bigint/nat.rs: from_le_bytes, from_be_bytes, From<&[u8]>"]}
{"id": "C24", "title": "Byte export is minimal", "statement": "to_le_bytes gives ceil(bits/8) bytes (one byte for zero) and no superfluous leading zero byte.", "quantifier": "all naturals", "why_tests_cant": "The operands are unbounded; a test suite samples finitely many lengths and carry patterns.", "anchors": ["src/bigint/nat.rs: copy_to_le, copy_to_be"]}
{"id": "C25", "title": "Numeral parsing denotes the numeral's value", "statement": "Parsing a decimal, 0x, 0o or 0b numeral yields the canonical Nat of its value; an illegal character or an empty string yields an error; parsing never panics.", "quantifier": "all character strings", "why_tests_cant": "Quantifies over all strings; word boundaries fall inside octal digits.", "anchors": ["src/bigint/nat.rs: check_base, from_dec_str, from_bin_str, from_oct_str, from_hex_str, FromStr"]}
{"id": "C26", "title": "Printing then parsing returns the same Nat", "statement": "Parsing the output of {}, {:#b}, {:#o}, {:#x}, {:#X} gives back an equal Nat.", "quantifier": "all naturals, five formats", "why_tests_cant": "The operands are unbounded; a test suite samples finitely many lengths and carry patterns. Octal digits straddle word boundaries with period three.", "anchors": ["src/bigint/nat.rs: Display, Octal, nat_fmt!, FromStr", "src/bigint/nat_macro.rs: nat_fmt!"]}
{"id": "C27", "title": "Nat bit queries agree with the binary expansion", "statement": "bits_len is the length of the binary expansion (1 for zero), is_set_bit(i) reads bit i, trailling_zeros is the 2-adic valuation of a non-zero number.", "quantifier": "all naturals, all positions", "why_tests_cant": "The operands are unbounded; a test suite samples finitely many lengths and carry patterns.", "anchors": ["src/bigint/nat.rs: bits_len, is_set_bit, trailling_zeros"]}
{"id": "C28", "title": "sticky reports whether low bits are lost", "statement": "sticky(k) is 1 exactly when some bit below position k is set; set_bits(i, b) changes bit i to b and no other bit.", "quantifier": "all naturals, all positions", "why_tests_cant": "The operands are unbounded; a test suite samples finitely many lengths and carry patterns.", "anchors": ["src/bigint/nat.rs: sticky, set_bits"]}
{"id": "C29", "title": "Nat::random is in range", "statement": "Whatever the random source delivers, a value returned by n.random(rng) is smaller than n and canonical; failed draws of the source are skipped and never contribute to the value.", "quantifier": "all naturals n and all (infinite) outputs of the source", "why_tests_cant": "Quantifies over all behaviours of the random source.", "anchors": ["src/bigint/nat.rs: random, random_inner"]}
{"id": "C30", "title": "Range product", "statement": "mul_range(a, b) is the product of all integers in [a, b] (1 if a > b, 0 if the range contains 0).", "quantifier": "all pairs of machine integers", "why_tests_cant": "The domain has 2^128 elements and products of unbounded length.", "anchors": ["src/bigint/nat.rs: mul_range", "src/bigint/bigint.rs: mul_range, binomial"]}
{"id": "C31", "title": "The primality test never rejects a prime", "statement": "probably_prime_test(k) returns true for every prime, for every k and every random source output.", "quantifier": "all primes, all k, all source outputs", "why_tests_cant": "Universal over primes and over the randomness.", "anchors": ["src/bigint/nat.rs: probably_prime_test, prime_validate_by_miller_rabin, miller_rabin_witness, prime_validate_by_lucas, rem_inner_u32, rem_inner_u64"]}
{"id": "C32", "title": "generate_prime returns a number of the requested shape", "statement": "A number returned by generate_prime(bits) has exactly the requested bit length, is odd, and has passed the primality test.", "quantifier": "all bit lengths and all source outputs", "why_tests_cant": "Quantifies over all behaviours of the random source.", "anchors": ["src/bigint/nat.rs: generate_prime"]}
{"id": "C33", "title": "Value operators do not modify their operands", "statement": "a op b leaves the buffers of a and b, and hence of all their clones, unchanged.", "quantifier": "all operands, all sharing patterns of the buffers", "why_tests_cant": "Clones share a buffer; every sharing pattern has to be considered.", "anchors": ["src/bigint/nat.rs: Clone, deep_clone", "src/bigint/nat_macro.rs: nat_arith_ops1!"]}
{"id": "C34", "title": "Assigning operators are correct when the right operand shares the buffer", "statement": "a op= a.clone() gives the same result as a op= with an unshared copy, for every assigning operator, and does not panic.", "quantifier": "all naturals, all assigning operators", "why_tests_cant": "Aliasing is invisible in the types; the effect depends on the loop reading a buffer it writes.", "anchors": ["src/bigint/nat.rs: rem_inner, div_inner, add_inner, sub_inner", "src/bigint/nat_macro.rs: nat_arith_ops1!"]}
{"id": "C35", "title": "deep_clone isolates, clone shares", "statement": "After b = a.clone() an assigning operator on a is visible through b; after b = a.deep_clone() it is not.", "quantifier": "all later sequences of operations", "why_tests_cant": "It is a property of all later histories.", "anchors": ["src/bigint/nat.rs: clone, deep_clone"]}
{"id": "C36", "title": "BigInt +, -, * are the integer operations", "statement": "The result denotes the sum, difference, product of the denoted integers, and zero results carry the non-negative sign.", "quantifier": "all pairs of integers", "why_tests_cant": "The operands are unbounded; a test suite samples finitely many lengths and carry patterns.", "anchors": ["src/bigint/bigint.rs: add_inner, sub_inner, mul_inner"]}
{"id": "C37", "title": "BigInt / and % are truncated division", "statement": "For b != 0, a / b is the quotient rounded toward zero and a % b the remainder with a = (a/b)*b + a%b; results are equal (==) to the corresponding BigInt constants.", "quantifier": "all pairs of integers with non-zero divisor", "why_tests_cant": "The operands are unbounded; a test suite samples finitely many lengths and carry patterns. Exact multiples with a negative dividend are a separate case.", "anchors": ["src/bigint/bigint.rs: div_inner, rem_inner"]}
{"id": "C38", "title": "Euclidean remainder lies in [0, |n|)", "statement": "rem_euclid returns r with 0 <= r < |n| and a = n * div_euclid + r.", "quantifier": "all pairs of integers with non-zero n", "why_tests_cant": "Exact multiples with a negative dividend are a separate case.", "anchors": ["src/bigint/bigint.rs: rem_euclid, rem_euclid_inner, div_euclid, div_euclid_inner"]}
{"id": "C39", "title": "BigInt bitwise operators are two's complement", "statement": "a & b, a | b, a ^ b, !a and and_not act on the infinite two's complement expansions.", "quantifier": "all pairs of integers of all sign combinations, all bit positions", "why_tests_cant": "Four sign combinations with unbounded operands.", "anchors": ["src/bigint/bigint.rs: bitand_inner, bitor_inner, bitxor_inner, and_not_inner, Not"]}
{"id": "C40", "title": "BigInt shifts are arithmetic shifts", "statement": "a << s denotes a*2^s and a >> s denotes floor(a/2^s), also for negative a.", "quantifier": "all integers, all shift counts", "why_tests_cant": "The operands are unbounded; a test suite samples finitely many lengths and carry patterns.", "anchors": ["src/bigint/bigint.rs: shl_inner, shr_inner"]}
{"id": "C41", "title": "BigInt comparison is the integer order", "statement": "PartialOrd and PartialEq agree with the order of the denoted integers.", "quantifier": "all pairs of integers", "why_tests_cant": "The operands are unbounded; a test suite samples finitely many lengths and carry patterns.", "anchors": ["src/bigint/bigint.rs: PartialEq, PartialOrd"]}
{"id": "C42", "title": "gcd returns the greatest common divisor and Bezout coefficients", "statement": "gcd(a, b) returns (d, x, y) with d = gcd(|a|,|b|) and a*x + b*y = d.", "quantifier": "all pairs of integers", "why_tests_cant": "Recursion depth is unbounded.", "anchors": ["src/bigint/bigint.rs: gcd, gcd_extend"]}
{"id": "C43", "title": "mod_inverse returns the inverse", "statement": "For n > 1 and gcd(a, n) = 1, mod_inverse(a, n) returns x in [0, n) with a*x = 1 mod n.", "quantifier": "all a, n with gcd(a, n) = 1", "why_tests_cant": "Needs the size bound of Bezout coefficients, an inductive fact.", "anchors": ["src/bigint/bigint.rs: mod_inverse"]}
{"id": "C44", "title": "Linear congruences are solved completely", "statement": "solve_mod_linear_equation(a, b, n) returns exactly the residues x in [0, n) with a*x = b mod n: gcd(a, n) of them if gcd(a, n) divides b, otherwise none.", "quantifier": "all a, b and n > 0", "why_tests_cant": "Completeness quantifies over all residues.", "anchors": ["src/bigint/bigint.rs: solve_mod_linear_equation"]}
{"id": "C45", "title": "BigInt::exp is modular exponentiation", "statement": "exp(a, b, n) denotes a^b mod |n| in [0, |n|) for n != 0 and b >= 0; for b < 0 it denotes the power of the inverse.", "quantifier": "all integers a, b, n", "why_tests_cant": "The operands are unbounded; a test suite samples finitely many lengths and carry patterns.", "anchors": ["src/bigint/bigint.rs: exp"]}
{"id": "C46", "title": "jacobi computes the Jacobi symbol", "statement": "jacobi(a, b) equals the Jacobi symbol (a/b) for odd positive b, and never panics.", "quantifier": "all a, all odd b > 0", "why_tests_cant": "Correctness rests on quadratic reciprocity and an unbounded loop.", "anchors": ["src/bigint/bigint.rs: jacobi"]}
{"id": "C47", "title": "Modular square roots square back", "statement": "For a prime p and a, mod_sqrt(a, p) = Some(y) implies y^2 = a mod p, and None implies that a is a non-residue.", "quantifier": "all odd primes p, all a", "why_tests_cant": "Number theoretic identity over all primes.", "anchors": ["src/bigint/bigint.rs: mod_sqrt, mod_sqrt_3mod4, mod_sqrt_5mod8, tonelli_shanks"]}
{"id": "C48", "title": "BigInt text and byte round-trips", "statement": "Parsing the printed form (decimal, #b, #o, #x) gives back an equal BigInt; conversions from machine integers denote the same number, including the minimum value.", "quantifier": "all integers; all machine integers", "why_tests_cant": "The operands are unbounded; a test suite samples finitely many lengths and carry patterns.", "anchors": ["src/bigint/bigint.rs: FromStr, Display, nat_fmt", "src/bigint/bigint_macro.rs"]}
{"id": "C49", "title": "Integer square root and square of BigInt", "statement": "sqrt of a non-negative BigInt is the integer square root and sqr the square.", "quantifier": "all integers", "why_tests_cant": "The operands are unbounded; a test suite samples finitely many lengths and carry patterns.", "anchors": ["src/bigint/bigint.rs: sqrt, sqr"]}
{"id": "C50", "title": "binomial computes binomial coefficients", "statement": "binomial(n, k) is n choose k for 0 <= k <= n, and is 0 or 1 for the documented degenerate arguments.", "quantifier": "all machine integers n, k", "why_tests_cant": "The domain is too large; exactness of the division is an arithmetic theorem.", "anchors": ["src/bigint/bigint.rs: binomial, mul_range"]}
{"id": "C51", "title": "Rat arithmetic is the field of rationals", "statement": "+, -, *, / on Rat denote the rational operations and keep the fraction in lowest terms with a positive denominator.", "quantifier": "all pairs of rationals (non-zero divisor for /)", "why_tests_cant": "Requires gcd reduction to be right for all numerators and denominators.", "anchors": ["src/bigint/rat.rs: add_inner, sub_inner, mul_inner, div_inner, norm, scale_denom, mul_denom"]}
{"id": "C52", "title": "Rat comparison is the order of the rationals", "statement": "cmp decides by cross multiplication exactly as the denoted rationals compare.", "quantifier": "all pairs of rationals", "why_tests_cant": "The operands are unbounded; a test suite samples finitely many lengths and carry patterns.", "anchors": ["src/bigint/rat.rs: cmp_inner, PartialEq, PartialOrd"]}
{"id": "C53", "title": "from_frac reduces to lowest terms", "statement": "from_frac(a, b) with b != 0 denotes a/b in lowest terms with positive denominator.", "quantifier": "all numerators and non-zero denominators", "why_tests_cant": "The operands are unbounded; a test suite samples finitely many lengths and carry patterns.", "anchors": ["src/bigint/rat.rs: from_frac, from_frac_bigint, norm"]}
{"id": "C54", "title": "Rat::from_f64 is exact", "statement": "from_f64(f) for finite f denotes exactly the real number f.", "quantifier": "all 2^64 - 2^53 finite doubles", "why_tests_cant": "The domain is not enumerable in a test; tests use magnitudes below 2^53.", "anchors": ["src/bigint/rat.rs: from_f64"]}
{"id": "C55", "title": "Rat text round-trip", "statement": "Parsing the printed form of a Rat gives back an equal Rat in lowest terms.", "quantifier": "all rationals", "why_tests_cant": "The operands are unbounded; a test suite samples finitely many lengths and carry patterns.", "anchors": ["src/bigint/rat.rs: FromStr, Display"]}
{"id": "C56", "title": "Float rounding is correct in all modes", "statement": "Rounding to precision p returns, for each of the six rounding modes, the neighbour required by the mode, with an exact accuracy flag, and an error below one unit in the last place.", "quantifier": "all mantissas, exponents, signs, target precisions, modes", "why_tests_cant": "Unbounded mantissas; ties and carries out of the top bit are rare.", "anchors": ["src/bigint/float.rs: round, set_precision"]}
{"id": "C57", "title": "Float multiplication is correctly rounded", "statement": "x * y is the exact product rounded to the precision and mode of x.", "quantifier": "all finite floats", "why_tests_cant": "The operands are unbounded; a test suite samples finitely many lengths and carry patterns.", "anchors": ["src/bigint/float.rs: umul, mul_inner"]}
{"id": "C58", "title": "Float addition and subtraction are correctly rounded", "statement": "x + y and x - y are the exact sum and difference rounded to the precision and mode of x.", "quantifier": "all finite floats", "why_tests_cant": "Exponent differences and cancellation are unbounded.", "anchors": ["src/bigint/float.rs: uadd, usub, add_inner, sub_inner"]}
{"id": "C59", "title": "Float comparison is the order of the denoted reals", "statement": "cmp agrees with the order of the denoted values, with -0 = +0 and infinities at the ends, NaN unordered.", "quantifier": "all pairs of floats", "why_tests_cant": "The operands are unbounded; a test suite samples finitely many lengths and carry patterns.", "anchors": ["src/bigint/float.rs: ucmp, ord, cmp_inner"]}
{"id": "C60", "title": "Float division is correctly rounded", "statement": "x / y is the exact quotient rounded to the precision and mode of x; Inf / finite is Inf.", "quantifier": "all finite floats with non-zero divisor", "why_tests_cant": "The operands are unbounded; a test suite samples finitely many lengths and carry patterns.", "anchors": ["src/bigint/float.rs: uquo, div_inner"]}
{"id": "C61", "title": "Float truncation to machine integers saturates", "statement": "truncate_to_u64 / truncate_to_i64 return the value truncated toward zero, saturated at the type's range, and the accuracy flag tells the direction of the error.", "quantifier": "all floats", "why_tests_cant": "The operands are unbounded; a test suite samples finitely many lengths and carry patterns.", "anchors": ["src/bigint/float.rs: truncate_to_u64, truncate_to_i64"]}
{"id": "C62", "title": "Float from an integer is exact", "statement": "A Float made from a machine integer, from a Nat or from a finite f64 denotes exactly that number.", "quantifier": "all naturals, all u64, all finite f64", "why_tests_cant": "The operands are unbounded; a test suite samples finitely many lengths and carry patterns.", "anchors": ["src/bigint/float.rs: set_bits, set_nat, set_f64, fnorm"]}
{"id": "C63", "title": "Linear congruential outputs follow the documented recurrence", "statement": "Output n+1 is (a * output n + c) mod m.", "quantifier": "all parameters a, c, m, all seeds, all positions in the stream", "why_tests_cant": "The stream is infinite and the parameter space is 2^256.", "anchors": ["src/rand/linear_congruential_rand.rs: gen, new, reset"]}
{"id": "C64", "title": "Generator outputs stay within the word size", "statement": "All values delivered by the lagged Fibonacci and Mersenne Twister generators are below 2^w, and by the linear congruential generator below m, and no call panics.", "quantifier": "all valid parameters, all seeds, all positions", "why_tests_cant": "Invariant over unbounded histories.", "anchors": ["src/rand/lagged_fibonacci_rand.rs: gen", "src/rand/mersenne_twister_rand.rs: gen", "src/rand/linear_congruential_rand.rs: gen"]}
{"id": "C65", "title": "Resetting a generator replays the stream", "statement": "After reset(s), whatever was drawn before, the generator delivers the same stream as a new generator with the same parameters and seed s.", "quantifier": "all parameters, seeds, histories", "why_tests_cant": "Quantifies over all histories.", "anchors": ["src/rand/*.rs: reset, check_init, gen"]}
{"id": "C66", "title": "Subtract-with-carry recurrence", "statement": "The lagged Fibonacci stream satisfies x_i = (x_{i-s} - x_{i-r} - c_{i-1}) mod 2^w with the carry of the textbook generator, for the whole stream.", "quantifier": "all valid lags, seeds, positions", "why_tests_cant": "The circular buffer must realise the recurrence at every position.", "anchors": ["src/rand/lagged_fibonacci_rand.rs: gen"]}
{"id": "C67", "title": "Mersenne twister recurrence", "statement": "The state words delivered between temperings satisfy x_{k+n} = x_{k+m} xor twist(upper(x_k) | lower(x_{k+1})), for the whole stream.", "quantifier": "all valid parameters, seeds, positions", "why_tests_cant": "Blockwise regeneration in place must realise the recurrence at every position.", "anchors": ["src/rand/mersenne_twister_rand.rs: gen_rand, gen"]}
{"id": "C68", "title": "Random iterators latch errors", "statement": "Once the source has failed, an iterator over it delivers nothing and does not touch the source until the error is cleared.", "quantifier": "all sources and all call sequences", "why_tests_cant": "Property of all histories.", "anchors": ["src/rand/iter.rs: Iter"]}
{"id": "C69", "title": "Operating-system randomness is consumed once, in order", "statement": "The bytes handed out by gen_random over any sequence of requests, followed by the bytes still buffered, are exactly the bytes obtained from the system, in order.", "quantifier": "all request sequences and all partial reads", "why_tests_cant": "Property of all histories and all system call results.", "anchors": ["src/os/linux/mod.rs: BCrypt::gen_random"]}
{"id": "C70", "title": "Bits of a BigInt are those of two's complement", "statement": "is_set_bit(i) on a BigInt returns bit i of the infinite two's complement representation for i below bits_len, and None from there on; setting bit i changes that bit of the representation and no other.", "quantifier": "all integers, all bit positions", "why_tests_cant": "Unbounded operands; the interesting cases are negative powers of two.", "anchors": ["src/bigint/bigint.rs: is_set_bit, bits_len"]}
{"id": "C71", "title": "Random BigInts stay in range", "statement": "n.random(rng) lies in [0, n) for n > 0 and in (n, 0] for n < 0, whatever the source delivers, and 0 or NaN gives NaN.", "quantifier": "all n, all sources", "why_tests_cant": "All random streams.", "anchors": ["src/bigint/bigint.rs: random"]}
{"id": "C72", "title": "Accepted numbers pass every test", "statement": "A number of at least 128 that probably_prime_test(k) accepts is odd, has no prime factor up to 53, is a strong probable prime to each of the k + 1 drawn bases and passes the extra strong Lucas test; and the test returns without panic.", "quantifier": "all naturals, all k, all source outputs", "why_tests_cant": "Universal over numbers and over the randomness; a test suite cannot see a composite that slips through because a step is skipped.", "anchors": ["src/bigint/nat.rs: probably_prime_test, prime_validate_by_miller_rabin, miller_rabin_witness, prime_validate_by_lucas, rem_inner_u32"]}
{"id": "C73", "title": "BigInt clones that share a magnitude stay consistent", "statement": "x op= y.clone() on BigInts gives x op y when x and y are clones of each other, and a clone of x shows either the old or the new number.", "quantifier": "all integers, all assigning operators, all sharing patterns", "why_tests_cant": "Sharing is invisible in the types, and sign and magnitude are stored separately.", "anchors": ["src/bigint/bigint.rs: add_inner, sub_inner, bitand_inner, bitor_inner, bitxor_inner, Clone", "src/bigint/nat.rs: Clone"]}
{"id": "C74", "title": "Unary operations on Rat", "statement": "-x, abs, inv, signnum, is_integer and the conversion from integers denote the operations on the rational: the negation, the absolute value, the reciprocal (an error for zero only), the sign, whether the number is an integer, and the integer itself in lowest terms; NaN stays NaN.", "quantifier": "all rationals", "why_tests_cant": "The operands are unbounded; a test suite samples finitely many lengths and carry patterns.", "anchors": ["src/bigint/rat.rs: neg, abs, inv, signnum, is_integer, From"]}
{"id": "C75", "title": "Rat to machine floats rounds to nearest", "statement": "to_f64 and to_f32 return the nearest machine number, ties to even, infinity beyond the range, with the sign of the fraction, and a flag that is true exactly if the result equals the fraction.", "quantifier": "all fractions", "why_tests_cant": "The fractions are unbounded; ties, denormal results and the edges of the range are rare.", "anchors": ["src/bigint/rat.rs: to_f64, to_f32, quo_to_f64, quo_to_f32", "src/bigint/util.rs: ldexp"]}
{"id": "C76", "title": "Float to machine floats rounds to nearest", "statement": "to_f64 and to_f32 return the nearest machine number, ties to even, infinity beyond the range, with the sign of the number, and a flag that tells the direction of the error; zeros, infinities and NaN keep their kind.", "quantifier": "all floats", "why_tests_cant": "Mantissas are unbounded; ties, denormal results and the edges of the range are rare.", "anchors": ["src/bigint/float.rs: to_f64, to_f32"]}
{"id": "C77", "title": "Splitting and joining mantissa and exponent", "statement": "mant_exp splits a finite number into a fraction in [1/2, 1) and an exponent whose product is the number; set_mant_exp(m, e) is m * 2^e for every e, zero or infinity beyond the exponent range, and joins what mant_exp split.", "quantifier": "all finite floats, all exponents", "why_tests_cant": "The exponents range over all machine integers, including those that overflow.", "anchors": ["src/bigint/float.rs: mant_exp, set_mant_exp, set_exp_and_round"]}
{"id": "C78", "title": "Integrality and required precision of a Float", "statement": "is_integer tells whether the number is an integer; required_min_precision is the least n such that the number is an n-bit integer times a power of two.", "quantifier": "all floats", "why_tests_cant": "Leastness quantifies over all representations.", "anchors": ["src/bigint/float.rs: is_integer, required_min_precision"]}
{"id": "C79", "title": "Sign operations on Float", "statement": "-x and abs denote the negation and the absolute value with precision unchanged, and signnum and is_negative give the sign of the number; is_infinite singles out the infinities, which get_inf makes; NaN answers nothing.", "quantifier": "all floats", "why_tests_cant": "Unbounded mantissas; three kinds of special values.", "anchors": ["src/bigint/float.rs: neg, abs, signnum, is_negative, is_infinite, get_inf"]}
{"id": "C80", "title": "Float from a fraction is correctly rounded", "statement": "Float::from(Rat) is the fraction rounded to the precision of the result; integers are exact.", "quantifier": "all fractions", "why_tests_cant": "Numerators and denominators are unbounded.", "anchors": ["src/bigint/float.rs: set_rat, From<Rat>"]}
{"id": "C81", "title": "Predefined generators deliver the published streams", "statement": "minstd_rand0!, minstd_rand!, ranlux24_base!, ranlux48_base! and mt19937! deliver the streams of the published generators of the same name.", "quantifier": "all seeds, all positions", "why_tests_cant": "The streams are infinite; a test compares a few words for a few seeds.", "anchors": ["src/rand/linear_congruential_rand.rs: minstd_rand0!, minstd_rand!", "src/rand/lagged_fibonacci_rand.rs: ranlux24_base!, ranlux48_base!", "src/rand/mersenne_twister_rand.rs: mt19937!"]}
{"id": "C82", "title": "Scientific notation of a Float is correctly rounded", "statement": "{:e} and {:E} print [-]d.ddd\u2026e[-]dd with the requested number of digits behind the point, and the number printed is the Float rounded to that many digits, ties to even; infinities, NaN and zero have fixed texts.", "quantifier": "all floats, all precisions", "why_tests_cant": "Mantissas, exponents and precisions are unbounded; ties and carries through nines are rare.", "anchors": ["src/bigint/float_fmt.rs: LowerExp, UpperExp, fmt_inner, fmt_for_exp", "src/bigint/decimal.rs: new, shr_inner, round"]}
{"id": "C83", "title": "Positional notation of a Float is correctly rounded", "statement": "{} and {:?} print the Float in positional notation, rounded once, ties to even, to as many digits behind the point as the precision has bits, and never panic.", "quantifier": "all floats", "why_tests_cant": "Mantissas and exponents are unbounded; double rounding and small numbers are rare.", "anchors": ["src/bigint/float_fmt.rs: Display, Debug, fmt_inner, fmt_for_display", "src/bigint/decimal.rs: new, shr_inner, round"]}
{"id": "C84", "title": "Parsing a Float gives the number written", "statement": "from_str accepts decimal numbers with optional sign, point and exponent, and the result is the number written, correctly rounded.", "quantifier": "all decimal texts", "why_tests_cant": "The texts are unbounded in length and exponent.", "anchors": ["src/bigint/float_fmt.rs: from_str", "src/bigint/float.rs: From<Rat>"]}
{"id": "C85", "title": "Printed Floats can be read again", "statement": "Parsing the positional text of a finite Float whose value fits in the digits printed gives an equal Float.", "quantifier": "all finite floats", "why_tests_cant": "Unbounded mantissas and exponents.", "anchors": ["src/bigint/float_fmt.rs: Display, from_str"]}
{"id": "C86", "title": "Float operators leave every other Float alone", "statement": "x op y for +, -, *, / on Floats changes neither operand nor any other Float, shares nothing with them, and its result depends only on the values of the operands.", "quantifier": "all Floats, all sharing patterns between clones", "why_tests_cant": "Sharing is invisible in the types: clones share a reference-counted mantissa.", "anchors": ["src/bigint/float.rs: add, sub, mul, div, deep_clone"]}
{"id": "C87", "title": "Assigning operators on Floats that share a mantissa", "statement": "x op= y gives the same result whether or not y is a clone that shares the mantissa of x, and changes no Float that does not share it.", "quantifier": "all Floats, all four operators, all sharing patterns", "why_tests_cant": "The operators shift and overwrite the mantissa while the other operand still refers to it.", "anchors": ["src/bigint/float.rs: uadd, usub, umul, uquo, set_float, add_inner, sub_inner"]}
{"id": "C88", "title": "A clone of a Float is an independent copy", "statement": "After let b = a.clone(), no later operation on a changes the number b shows, and vice versa; programs behave as if every variable held a value of its own.", "quantifier": "all programs of constructions, operators, assignments and setters", "why_tests_cant": "All histories of all programs.", "anchors": ["src/bigint/float.rs: Clone, deep_clone, set_precision, round"]}
{"id": "C89", "title": "set_mant_exp accepts the receiver as its argument", "statement": "z.set_mant_exp(mant, exp) sets z to mant * 2^exp and leaves mant alone, also if z and mant are the same number, as its documentation says.", "quantifier": "all Floats, all exponents, all sharing patterns", "why_tests_cant": "Sharing is invisible in the types.", "anchors": ["src/bigint/float.rs: set_mant_exp, set_float"]}
{"id": "C90", "title": "The word-vector kernels are exact", "statement": "The kernels add, subtract, multiply, shift and divide vectors of words exactly: the words stored and the word returned (carry, borrow, bits shifted out, remainder) together are the mathematical result.", "quantifier": "all vectors of all lengths, all words, all shifts below the word size", "why_tests_cant": "Vectors are unbounded in length; carries that run through every word are rare.", "anchors": ["src/bigint/arith_generic.rs: mul_ww, mul_add_www, add_vv, sub_vv, add_vw, sub_vw, add_vw_large, sub_vw_large, shl_vu, shr_vu, mul_add_vww, add_mul_vvw, div_ww, div_wvw", "src/bigint/nat_generic.rs"]}
{"id": "C91", "title": "The two kernel implementations agree", "statement": "The kernels written with x86 intrinsics return the same words and carries as the portable ones for all arguments, so that the build flag that selects them is not observable.", "quantifier": "all vectors, all words", "why_tests_cant": "Two implementations have to be compared on unboundedly many inputs; the flag is never set in a default build, so tests never run the second.", "anchors": ["src/bigint/arith_amd64.rs", "src/bigint/arith_generic.rs", "src/bigint/arith.rs"]}
{"id": "C92", "title": "Rat operators leave every other number alone", "statement": "x op y and x op= y for +, -, *, / on Rats give the result of the operation on values, whatever the operands share, and no other Rat or BigInt changes, also no clone of x or y.", "quantifier": "all Rats, all sharing patterns between clones", "why_tests_cant": "Sharing is invisible in the types: clones share reference-counted buffers.", "anchors": ["src/bigint/rat.rs: add_inner, sub_inner, mul_inner, div_inner, norm, clear, AddAssign, SubAssign, MulAssign, DivAssign"]}
{"id": "C93", "title": "Rat variables behave as values", "statement": "A program over Rat variables (constructions, clones, operators, assigning operators, abs, inv, negation) computes what it would compute if every variable held a value of its own.", "quantifier": "all programs", "why_tests_cant": "All histories of all programs.", "anchors": ["src/bigint/rat.rs: Clone, deep_clone, operators"]}
{"id": "C94", "title": "Numbers taken from a Rat are independent of it", "statement": "After let n = r.numerator().clone() (or denominator()), no operation on n changes r, and r stays in lowest terms.", "quantifier": "all Rats, all operators", "why_tests_cant": "Sharing is invisible in the types.", "anchors": ["src/bigint/rat.rs: numerator, denominator", "src/bigint/bigint.rs: Clone, AddAssign"]}
{"id": "C95", "title": "BigInt bytes and word imports", "statement": "to_le_bytes and to_be_bytes of a BigInt are the shortest positional representation of its absolute value; importing bytes or words gives the non-negative number they denote in lowest form, whatever zeros they begin with, and importing what was exported gives the absolute value; nothing imported is NaN.", "quantifier": "all integers, all vectors of bytes and words", "why_tests_cant": "The operands are unbounded; a test suite samples finitely many lengths and carry patterns.", "anchors": ["src/bigint/bigint.rs: to_le_bytes, to_be_bytes, from_le_bytes, from_be_bytes, From<Vec<u32>>, From<&[u8]>", "src/bigint/nat.rs: From<Vec<u32>>, sub_assign_with_sign"]}
{"id": "C96", "title": "BigInt functions leave every other number alone", "statement": "x op y, and_not, rem_euclid, div_euclid and the shifts return a number that shares nothing, change no operand and no other number, whatever is shared between them, and depend only on the values; the assigning forms change only the receiver and the numbers that share its magnitude.", "quantifier": "all integers, all sharing patterns between clones", "why_tests_cant": "Sharing is invisible in the types: clones share a reference-counted magnitude.", "anchors": ["src/bigint/bigint.rs: operators, and_not, rem_euclid, div_euclid, Shl, Shr"]}
{"id": "C97", "title": "BigInt variables behave as values", "statement": "A program over BigInt variables (constructions, clones, operators, assigning operators, shifts, sign setters) computes what it would compute if every variable held a value of its own.", "quantifier": "all programs", "why_tests_cant": "All histories of all programs.", "anchors": ["src/bigint/bigint.rs: Clone, deep_clone, operators, set_natural, set_negative"]}
{"id": "C98", "title": "Clones of the system generator share no randomness", "statement": "However many system generators are created, cloned, reset and used, no byte of the operating system is handed out more often than the system delivered it.", "quantifier": "all programs over system generators, all results of the system calls", "why_tests_cant": "Property of all histories; short reads of the system do not happen in tests.", "anchors": ["src/rand/crypto_rand.rs: new, gen, reset, Clone", "src/os/linux/mod.rs: BCrypt::gen_random, Clone"]}
{"id": "C99", "title": "The default generators", "statement": "The portable default generator delivers the seed of the last successful reset combined with the hashes of all draws since, never fails, and survives a failing seed source; the hardware generator delivers the word of the instruction exactly if the instruction succeeds.", "quantifier": "all histories of draws and resets, all clock readings", "why_tests_cant": "Property of all histories and of a clock that tests do not control.", "anchors": ["src/rand/default_rand.rs: new, gen, reset", "src/rand/default_seed.rs: seed", "src/rand/default_rand_amd64.rs: gen", "src/rand/default_seed_amd64.rs: seed", "src/rand/crypto_rand_amd64.rs: gen"]}
{"id": "C100", "title": "Nat programs compute natural numbers", "statement": "A program over Nat variables (constants, clones, deep clones, operators, assigning operators, shifts, operations with a word) panics exactly if it divides by zero, and otherwise every variable ends with the natural number that the same program computes in arithmetic, where clones are the same variable and everything else is separate; == and < at the end are those of the numbers.", "quantifier": "all programs, all starting states", "why_tests_cant": "All histories of all programs, with numbers of all sizes.", "anchors": ["src/bigint/nat.rs: Clone, deep_clone, operators, and_not_assign, Shl, Shr"]}
{"id": "C101", "title": "BigInt programs compute integers", "statement": "A program over BigInt variables panics exactly if it divides by zero, and otherwise every variable ends with the integer that the same program computes in arithmetic, in the unique form that ==, < and printing expect.", "quantifier": "all programs, all starting states", "why_tests_cant": "All histories of all programs, with numbers of all sizes.", "anchors": ["src/bigint/bigint.rs: conversions, from_str, Clone, deep_clone, operators, and_not, rem_euclid, div_euclid, Shl, Shr, Neg, Not, abs, set_natural, set_negative"]}
{"id": "C102", "title": "Rat programs compute rational numbers", "statement": "A program over Rat variables panics exactly if it divides by zero, and otherwise every variable ends with the rational number that the same program computes in arithmetic, whatever was cloned; == and < at the end are those of the numbers.", "quantifier": "all programs, all starting states", "why_tests_cant": "All histories of all programs, with numbers of all sizes.", "anchors": ["src/bigint/rat.rs: from_frac, From<f64>, Clone, deep_clone, operators, Neg, abs, inv, PartialOrd, PartialEq"]}
{"id": "C103", "title": "Functions leave their arguments alone", "statement": "pow, pow_mod, sqrt, gcd, mod_inverse and solve_mod_linear_equation return the number they compute whatever buffers their arguments share, change no number that exists before the call, and each number they return is in a buffer of its own.", "quantifier": "all numbers, all sharing patterns between clones", "why_tests_cant": "Sharing is invisible in the types, and the functions work in place on copies; a missing copy shows only for shared arguments.", "anchors": ["src/bigint/nat.rs: pow, pow_inner, pow_mod, pow_mod_inner, sqrt", "src/bigint/bigint.rs: gcd, gcd_extend, mod_inverse, solve_mod_linear_equation"]}
{"id": "C104", "title": "Float programs are sequences of correctly rounded operations", "statement": "A program over Float variables (constructions, operators, assigning operators, set_precision, set_mode, set_mant_exp) never panics and keeps every variable well-formed; every variable ends with the value obtained by rounding the exact result of each statement once, to the precision and mode of its receiver: an infinity of its sign if the rounded result is too large, zero if the exact result is too small, NaN if there is no value.", "quantifier": "all programs, all starting states", "why_tests_cant": "All histories of all programs, with all precisions, modes and exponents; a wrong rounding shows only in combinations of operands.", "anchors": ["src/bigint/float.rs: From<u64>, From<f64>, Clone, deep_clone, operators, set_precision, set_mode, set_mant_exp, abs, Neg"]}
{"id": "C105", "title": "Random numbers are unbiased", "statement": "n.random(rng) prefers no value: among the sequences of words a source can deliver, exactly as many make the call return a as make it return b, for all a and b below n, after every number of rounds; failed draws have no influence; and each round halves, at least, the share of sequences that leave the call without an answer.", "quantifier": "all n, all values below n, all sequences of draws", "why_tests_cant": "A bias is a statement about the number of sequences, of which there are 2^32 for the smallest n; the mask and the comparison decide it at the boundary values.", "anchors": ["src/bigint/nat.rs: random, random_inner", "src/bigint/bigint.rs: random"]}
{"id": "C106", "title": "Few sequences of draws make the primality test err", "statement": "For a number that is not prime, the share of the sequences of words a source can deliver that make probably_prime_test(n) answer true is at most 2^-n, as documented for its Miller-Rabin part.", "quantifier": "all composite numbers, all numbers of rounds, all lengths of sequences", "why_tests_cant": "The bound is a statement about all the bases below a number of any size and about the number of sequences of draws.", "anchors": ["src/bigint/nat.rs: probably_prime_test, prime_validate_by_miller_rabin, miller_rabin_witness, random_inner"]}
{"id": "C107", "title": "The text identifies the number", "statement": "In each format ({}, {:b}, {:o}, {:x}, {:X}, {:?}, with and without #), two numbers of one type are printed alike exactly if they are equal, no number is printed as NaN, and NaN always is; the same holds for the byte strings of a Nat.", "quantifier": "all pairs of numbers, all formats", "why_tests_cant": "All pairs of numbers of all sizes.", "anchors": ["src/bigint/nat.rs: Display, Binary, Octal, LowerHex, UpperHex, Debug, to_le_bytes, to_be_bytes", "src/bigint/bigint.rs: bigint_fmt_impl", "src/bigint/rat.rs: impl_rat_fmt_inner"]}
{"id": "C108", "title": "Debug and release builds agree", "statement": "A build with overflow checks never returns another answer than one without: for the same arguments and draws it returns the same, or it panics. This covers exp, mod_sqrt, mul_range, binomial, from_frac, the primality test, generate_prime, the text of a Float and all histories of the generators.", "quantifier": "all arguments, all sequences of draws, all histories", "why_tests_cant": "Tests run in one build; the two are to be compared on all inputs.", "anchors": ["src/bigint/nat.rs: exp, probably_prime_test, generate_prime", "src/bigint/bigint.rs: exp, mod_sqrt, mul_range, binomial", "src/bigint/rat.rs: from_frac", "src/bigint/float_fmt.rs: fmt_for_display", "src/rand/lagged_fibonacci_rand.rs: gen", "src/rand/mersenne_twister_rand.rs: gen"]}
{"id": "C109", "title": "Decimal text with a point denotes the Rat read", "statement": "from_str of a Rat on a decimal number with a point, optional sign and optional exponent gives the number written, in lowest terms; text that is no number is refused.", "quantifier": "all decimal texts with a point", "why_tests_cant": "The texts are unbounded in length and exponent.", "anchors": ["src/bigint/rat.rs: FromStr, From<f64>"]}
{"id": "C110", "title": "Numbers are printed like the integers of the standard library", "statement": "In each format the digits printed are those of the value in the base of the format, most significant first, without superfluous zeros, in lower case except for {:X}; the prefix of the base is printed exactly if # asks for it; a negative BigInt is printed as a minus sign and its absolute value, and a Rat as its numerator, a slash and its denominator.", "quantifier": "all numbers, all formats", "why_tests_cant": "The operands are unbounded; a test suite samples finitely many lengths and carry patterns.", "anchors": ["src/bigint/nat.rs: Display, Octal, nat_fmt!", "src/bigint/bigint.rs: bigint_fmt_impl", "src/bigint/rat.rs: impl_rat_fmt_inner"]}
{"id": "C111", "title": "System generators on Windows release their provider exactly once", "statement": "In every program that creates, clones, uses, resets and drops system generators on Windows, each successful creation opens one provider, a clone draws from the provider of its original, and a provider is closed exactly when the last generator that goes back to it is dropped; the system never sees a draw from or a closing of a handle that is not open, and none stays open when all generators are dropped. A draw gives the number whose little-endian bytes the system wrote, or an error if the system reports one.", "quantifier": "all programs, all handles, statuses and bytes the system returns", "why_tests_cant": "Property of all histories of creation, cloning and dropping; a handle closed too early shows only in a later draw.", "anchors": ["src/rand/crypto_rand.rs: new, gen, reset, Clone", "src/os/windows/bcrypt.rs: AlgorithmHandle, Drop, BCrypt::new, gen_random, Clone"]}
{"id": "C112", "title": "The laws of arithmetic hold for == and <", "statement": "Two formulas over Nats (with + and *), BigInts (with +, -, * and negation) or Rats (with +, -, * and /) that have the same value in arithmetic give results that are ==, and formulas with different values give results in the order of the values; in particular all laws of commutative semirings, rings, fields and their orders hold. A formula over Rats panics exactly if it divides by zero.", "quantifier": "all formulas of all sizes, all values of the variables", "why_tests_cant": "Laws quantify over unbounded numbers and over formulas of all sizes; an intermediate result that is not in canonical form shows only in a later ==.", "anchors": ["src/bigint/nat.rs: add, mul, PartialEq, PartialOrd", "src/bigint/bigint.rs: add, sub, mul, neg, PartialEq, PartialOrd", "src/bigint/rat.rs: add, sub, mul, div, PartialEq, PartialOrd"]}
{"id": "C113", "title": "The laws that rounding leaves hold for Floats", "statement": "For numbers of one precision and mode: x + y == y + x and x * y == y * x (also for infinities and NaN); x <= y implies x + c <= y + c, x - c <= y - c, c - y <= c - x and, for c not negative, x * c <= y * c; unless the mode is directed, (-x) + (-y) == -(x + y) and (-x) * y == -(x * y); a sum, difference or product that has at most as many significant digits as the precision and lies in the range of the exponents is exact, so x - y is exact if neither operand is more than twice the other.", "quantifier": "all Floats of one format", "why_tests_cant": "A law that fails by one unit in the last place fails for few of the unboundedly many operands.", "anchors": ["src/bigint/float.rs: Add, Sub, Mul, Neg, PartialEq, PartialOrd, round"]}
{"id": "C114", "title": "mod_sqrt refuses a modulus that is no odd prime", "statement": "a.mod_sqrt(p) panics, as documented, if p is not an odd prime; in no case does it run forever or return a number that is no root.", "quantifier": "all integers a, all moduli that are not odd primes", "why_tests_cant": "Whether a loop ends is no observation a test can make; the moduli are unbounded.", "anchors": ["src/bigint/bigint.rs: mod_sqrt, mod_sqrt_3mod4, mod_sqrt_5mod8, mod_sqrt_tonelli_shanks, jacobi"]}
{"id": "C115", "title": "Float arithmetic with 53 or 24 digits is IEEE 754 arithmetic", "statement": "As documented: for Floats of precision 53 (24) and mode ToNearestEven, to_f64 (to_f32) of x + y, x - y, x * y and x / y is the double (single) that IEEE 754 prescribes for the exact result, if that is zero or not below the normal range; in particular Float::from(x) op Float::from(y) for finite doubles x and y.", "quantifier": "all numbers of the format, all pairs of finite doubles", "why_tests_cant": "There are 2^128 pairs of doubles; a double rounding goes wrong for few of them.", "anchors": ["src/bigint/float.rs: Add, Sub, Mul, Div, From<f64>, to_f64, to_f32"]}
{"id": "C116", "title": "The kind of a parse error names the fault", "statement": "kind() of the error that from_str returns: for Nat, BeginWithIllegalChar exactly if no numeral begins after white space and signs, and IllegalCharEncounter exactly if one begins but an illegal character follows; for BigInt the same behind an optional minus sign; for Rat, DenominatorIsZero exactly if the text is two integers with a slash between them of which the second is zero, otherwise ParseStringWrong; for Float, ExponentUnderflow or ExponentOverflow exactly if the text behind the exponent letter is an integer below -2^31 or above 2^31 - 1, otherwise ParseStringWrong.", "quantifier": "all texts", "why_tests_cant": "There are infinitely many texts, and several faults can be in one text.", "anchors": ["src/bigint/nat.rs: FromStr, check_base, from_bin_str, from_oct_str, from_dec_str, from_hex_str", "src/bigint/bigint.rs: FromStr", "src/bigint/rat.rs: FromStr", "src/bigint/float_fmt.rs: FromStr", "src/bigint/parse_err.rs", "src/bigint/rat_err.rs", "src/bigint/float_err.rs"]}
{"id": "C117", "title": "Division and remainder end", "statement": "a / b and a % b return or panic, and they panic exactly if b is zero, for every b that operations of the library can deliver.", "quantifier": "all numbers a and b, also those that are results of other operations", "why_tests_cant": "Whether a loop ends is no observation a test can make; the numbers are unbounded.", "anchors": ["src/bigint/nat.rs: div_inner, rem_inner, shl_inner, shr_inner, bits_len", "src/bigint/bigint.rs: jacobi, mod_sqrt"]}
{"id": "C118", "title": "Operators see only the values of their operands", "statement": "The result of x + y, x - y, x * y, x / y, x % y, the bit operations, the shifts and the comparisons depends only on the numbers x and y denote, not on how these were computed.", "quantifier": "all numbers, also all results of other operations", "why_tests_cant": "Whether a number is stored with leading zeros depends on how it was computed; the ways are unbounded.", "anchors": ["src/bigint/nat.rs: add_inner, sub_inner, mul_inner, div_inner, rem_inner, cmp_inner, PartialEq, PartialOrd, mul_inner_basic"]}
{"id": "C119", "title": "Functions see only the values of their arguments", "statement": "sqrt, sqr, pow, pow_mod, !, bits_len, is_set_bit, to_le_bytes and the texts of a Nat depend only on the number it denotes, not on how it was computed.", "quantifier": "all numbers, also all results of other operations", "why_tests_cant": "Whether a number is stored with leading zeros depends on how it was computed; the ways are unbounded.", "anchors": ["src/bigint/nat.rs: sqrt, sqr, pow, pow_mod, Not, bits_len, is_set_bit, to_le_bytes, Display, Octal, nat_fmt!"]}
{"id": "C120", "title": "Signs of a BigInt", "statement": "is_negative, is_positive, is_natural and signnum tell the sign of the integer; set_natural makes it its absolute value and set_negative minus its absolute value, zero staying zero; NaN has no sign and stays NaN.", "quantifier": "all BigInts", "why_tests_cant": "The operands are unbounded; a test suite samples finitely many lengths and carry patterns.", "anchors": ["src/bigint/bigint.rs: is_nan, is_negative, is_positive, is_natural, signnum, set_natural, set_negative, abs"]}
{"id": "C121", "title": "Modular powers see only the values of their arguments", "statement": "x.exp(b, n) is x^b mod n (x^b if n is zero), whatever operations x, b and n result from; it depends on the numbers they denote only.", "quantifier": "all bases, exponents and moduli, also all results of other operations", "why_tests_cant": "Whether a number is stored with leading zeros depends on how it was computed; the ways are unbounded.", "anchors": ["src/bigint/nat.rs: exp, exp_montogomery, exp_windowed"]}
{"id": "C122", "title": "f64 arithmetic by way of Float is the machine's, bit for bit", "statement": "For all f64 x and y, (Float::from(x) + Float::from(y)).to_f64() has the bits of x + y (some NaN, if that is a NaN), and correspondingly for - and *: signs of zeros, infinities, overflow and subnormal results included.", "quantifier": "all pairs of bit patterns", "why_tests_cant": "There are 2^128 pairs of operands; a test suite samples finitely many of them, rarely the zeros, infinities and halfway cases.", "anchors": ["src/bigint/float.rs: From<f64>, Add, Sub, Mul, to_f64"]}
{"id": "C123", "title": "f32 arithmetic by way of Float is the machine's, bit for bit", "statement": "For all f32 x and y, (Float::from(x) + Float::from(y)).to_f32() has the bits of x + y (some NaN, if that is a NaN), and correspondingly for - and *, although Floats made of f32 have 53 digits.", "quantifier": "all pairs of bit patterns", "why_tests_cant": "There are 2^64 pairs of operands; a test suite samples finitely many of them, rarely the zeros, infinities and halfway cases.", "anchors": ["src/bigint/float.rs: From<f32>, Add, Sub, Mul, to_f32"]}
{"id": "C124", "title": "Machine integers convert exactly and compare as numbers", "statement": "Nat::from(u), BigInt::from(i) and Rat::from(i) denote the machine integer and are in canonical form, i8::MIN to i128::MIN included; n == u and n.partial_cmp(&u) for a Nat n and an unsigned machine integer u, and b == u for a BigInt b and a u32 u, compare the numbers; NaN is neither equal nor comparable to any.", "quantifier": "all values of all machine integer types; all Nats and BigInts", "why_tests_cant": "The conversions of the wide types go through byte slices and the signed ones have a special case; a test suite samples finitely many values and pairs.", "anchors": ["src/bigint/nat_macro.rs: nat_from_basic, nat_eq_basic, nat_ord_basic", "src/bigint/bigint_macro.rs: bigint_from_basic, bigint_from_basici", "src/bigint/bigint.rs: PartialEq<u32>", "src/bigint/rat.rs: rat_impl_from_basic"]}
{"id": "C125", "title": "Comparisons, signs and conversions of machine floats by way of Float are the machine's", "statement": "For all f64 (f32) x and y: Float::from(x) compares with Float::from(y) as x with y; Float::from(x), -Float::from(x) and Float::from(x).abs() made an f64 (f32) again have the bits of x, -x and x.abs() and are flagged exact (a NaN stays some NaN); Float::from(x).to_f32() of an f64 is x as f32, and Float::from(x).to_f64() of an f32 is x as f64.", "quantifier": "all bit patterns, all pairs of them", "why_tests_cant": "There are 2^64 operands and 2^128 pairs; a test suite samples finitely many, rarely subnormal ones.", "anchors": ["src/bigint/float.rs: From<f64>, From<f32>, PartialOrd, PartialEq, Neg, abs, to_f64, to_f32"]}
{"id": "C126", "title": "BigInts with leading zero words and the negative zero", "statement": "For every BigInt that is not NaN, also one whose magnitude is stored with leading zero words or that is a zero with the sign set: +, -, *, <<, >>, -x, abs, &, |, ^, and_not, ! depend on the values of the operands only and give the integer result; x = (x/y)*y + x%y with |x%y| < |y|; and the order is that of the integers.", "quantifier": "all pairs of BigInts, all word vectors, all shift counts", "why_tests_cant": "Which operands have leading zero words depends on how they were made; tests build operands from literals and compare results of single operations, and there are infinitely many operands.", "anchors": ["src/bigint/bigint.rs: add_inner, sub_inner, mul_inner, div_inner, rem_inner, shl_inner, shr_inner, bitand_inner, bitor_inner, bitxor_inner, and_not_assign, neg_inner, Not, PartialOrd, PartialEq"]}
{"id": "C127", "title": "The functions of BigInt take the negative zero for zero", "statement": "The zero with the sign set that / and % deliver (C37) is treated by rem_euclid, div_euclid, gcd, mod_inverse, solve_mod_linear_equation, jacobi, exp, sqrt, sqr, random, is_set_bit and Display as the number zero, in every argument.", "quantifier": "all values of the other arguments, all random sources, all bit indices", "why_tests_cant": "Tests call the functions with literals; a zero with the sign set arises only as the result of another operation, and the other arguments are unbounded.", "anchors": ["src/bigint/bigint.rs: rem_euclid, div_euclid, gcd, mod_inverse, solve_mod_linear_equation, jacobi, exp, sqrt, sqr, random, is_set_bit"]}
{"id": "C128", "title": "The message of a parse error names the first character that is wrong", "statement": "When from_str of Nat, BigInt, Rat or Float fails, the text of the error names the first character at which the text stops being a numeral; only an empty text is called empty, and an exponent that is out of range is quoted in decimal.", "quantifier": "all texts, all results of f64::from_str", "why_tests_cant": "Which character is named depends on the order in which a parser visits the characters, and the texts with several faults are unbounded; tests check only that there is an error.", "anchors": ["src/bigint/nat.rs:261-400 check_base, from_dec_str, from_bin_str, from_oct_str, from_hex_str", "src/bigint/bigint.rs: from_str", "src/bigint/rat.rs: from_str", "src/bigint/float_fmt.rs: from_str"]}
{"id": "C129", "title": "The constructors of the generators name a condition that fails", "statement": "new of LinearCongruentialRand, LaggedFibonacciRand and MersenneTwisterRand refuses exactly the parameters outside the documented ranges, and the message states a documented condition that the parameters violate: the first one in the order of the checks.", "quantifier": "all parameters of 32 and 64 bits, all seed sources", "why_tests_cant": "Thirteen parameters of 32 or 64 bits each, with thirteen conditions in a fixed order; tests use the presets, which are valid.", "anchors": ["src/rand/linear_congruential_rand.rs: new", "src/rand/lagged_fibonacci_rand.rs: new", "src/rand/mersenne_twister_rand.rs: new", "src/rand/rand_error.rs"]}
{"id": "C130", "title": "Arithmetic of machine floats by way of Rat is that of IEEE 754", "statement": "For f64 x and y, Rat::from both, one of + - * / of Rat, and to_f64 of the result is the sum, difference, product or quotient of IEEE 754 (nearest, ties to even), with the signs of zeros and with infinities and NaN; the same for f32 and to_f32.", "quantifier": "all pairs of bit patterns of f64, all pairs of f32", "why_tests_cant": "2^128 pairs of doubles; correct rounding depends on every bit of exact results with thousands of digits.", "anchors": ["src/bigint/rat.rs: from_f64, to_f64, to_f32, quo_to_f64, quo_to_f32, add, sub, mul, div"]}
{"id": "C131", "title": "exp, mod_inverse and jacobi make RSA, Diffie-Hellman and ElGamal work", "statement": "RSA with n = p * q and d = e.mod_inverse((p-1)*(q-1)): m.exp(e, n).exp(d, n) = m and m.exp(d, n).exp(e, n) = m for different primes p and q, e coprime to (p-1)(q-1) and 0 <= m < n. Diffie-Hellman: g.exp(a, p).exp(b, p) = g.exp(b, p).exp(a, p). ElGamal decryption recovers the message. a.exp(p - 2, p) = a.mod_inverse(p) for a prime p that does not divide a. Euler's criterion relates a.jacobi(p) and a.exp((p - 1) / 2, p).", "quantifier": "all primes p and q, all exponents and messages, of any number of words", "why_tests_cant": "Tests try a few keys; the statements hold for numbers of any size and use Fermat's theorem and the theorem of Euler.", "anchors": ["src/bigint/bigint.rs: exp, mod_inverse, jacobi, mul, sub, rem"]}
{"id": "C132", "title": "Errors of the random generators say what went wrong", "statement": "On Linux the number in `only read N bytes random bytes from the system` is the number of bytes that the system gave for this call. On Windows the text of an error tells the status and which system call failed. Different kinds of errors have different texts, with {} and with {:?}.", "quantifier": "all buffer contents, all results of the system call, all 2^32 status codes, all texts", "why_tests_cant": "The errors come from the operating system or the processor and cannot be provoked in a test.", "anchors": ["src/os/linux/mod.rs: gen_random", "src/os/windows/ntstatus.rs: NtError, NtErrorKind", "src/os/windows/bcrypt.rs: open_algorithm_provider, gen_random", "src/rand/rand_error.rs: RandError", "src/rand/crypto_rand.rs: new, gen", "src/rand/default_rand_amd64.rs: gen", "src/rand/default_seed_amd64.rs: seed"]}
{"id": "C133", "title": "minstd_rand0! and minstd_rand! have the period 2^31 - 2", "statement": "A linear congruential generator with increment 0, a prime modulus m and a primitive root as multiplier delivers every number from 1 to m - 1 exactly once in each period of m - 1 words, for every seed that is no multiple of m. In particular minstd_rand0! and minstd_rand! have the period 2^31 - 2.", "quantifier": "all word sizes, prime moduli, primitive roots and seeds", "why_tests_cant": "The period is two thousand million words long, for each of four thousand million seeds.", "anchors": ["src/rand/linear_congruential_rand.rs: new, gen, minstd_rand0!, minstd_rand!"]}
{"id": "C134", "title": "The Mersenne twister loses no information", "statement": "With parameters that `new` accepts, the tempering maps different words to different words, the stream is periodic from its first word on, never delivers as many zeros in a row as the state has words, differs for different seeds within the first n words, and any n words in a row determine all the others.", "quantifier": "all word sizes, parameters that the constructor accepts, and seeds", "why_tests_cant": "A test sees a few seeds and the beginning of their streams; collisions of seeds and the words before and after a window concern all of them.", "anchors": ["src/rand/mersenne_twister_rand.rs: new, check_init, gen_rand, gen, mt19937!, mt19937_64!"]}
{"id": "C135", "title": "The subtract-with-carry generators have the period of the congruential generator behind them", "statement": "The words of a LaggedFibonacciRand with words of w bits and lags s < r are the last base-2^w digits of the numbers of a multiplicative congruential generator modulo 2^(w r) - 2^(w s) + 1. The stream is periodic from its first word on, r words in a row determine all the others, and ranlux24_base! and ranlux48_base! have the periods (2^576 - 2^240)/48 and (2^576 - 2^240)/96 for every seed.", "quantifier": "all word sizes, lags and seeds that the constructor accepts, both build modes; for the presets all seeds", "why_tests_cant": "The period has 172 decimal digits; no test can run through it, and a repetition that starts late or for a few seeds only is invisible to any run.", "anchors": ["src/rand/lagged_fibonacci_rand.rs: new, check_init, gen, ranlux24_base!, ranlux48_base!"]}
{"id": "C136", "title": "The Mersenne twisters have period 2^19937 - 1 and are equidistributed", "statement": "For every seed the words delivered by mt19937! and by mt19937_64! repeat after 2^19937 - 1 words, and every eventual period is a multiple of that. Within one period every sequence of 623 words of 32 bits (311 words of 64 bits) occurs exactly 2 times (2^33 times), the sequence of zeros once less. The streams of any two seeds are translates of each other.", "quantifier": "all seeds, both presets; all sequences of 623 (311) words", "why_tests_cant": "The period cannot be reached by running the generator; distribution over a period of that length cannot be sampled.", "anchors": ["src/rand/mersenne_twister_rand.rs: check_init, gen_rand, gen, mt19937!, mt19937_64!"]}
{"id": "C137", "title": "The sieve of generate_prime finds the next candidate and ends", "statement": "The drawn candidate is moved up by the smallest even distance to a number that none of the primes 3 to 53 divides (or which, for at most six bits, is one of these primes); the distance is at most 596, so the search always ends. A number returned by generate_prime has no prime factor up to 53 if it has seven bits or more, whatever the number of rounds, and is prime if it has six bits or less. The remainder by a 64-bit number used for this is right for any number of words.", "quantifier": "all bit lengths, all draws, all numbers of rounds", "why_tests_cant": "Universal over all drawn numbers; the longest gap cannot be found by sampling.", "anchors": ["src/bigint/nat.rs: generate_prime, rem_inner_u64"]}
{"id": "C138", "title": "A linear congruential generator runs through all words below its modulus just under the conditions of Hull and Dobell", "statement": "The words of LinearCongruentialRand with multiplier a, increment c and modulus m have the period m, for one seed or for all, exactly if c is prime to m, every prime factor of m divides a - 1, and 4 divides a - 1 if it divides m; just then every number below m occurs exactly once among any m words in a row. If m is then a power of two, the last j bits have the period 2^j only.", "quantifier": "all seeds and parameters; m a power of two, or no overflow", "why_tests_cant": "Universal over parameters and seeds; periods up to 2^63 cannot be run through.", "anchors": ["src/rand/linear_congruential_rand.rs: new, gen"]}
{"id": "C139", "title": "generate_prime can return every prime of the requested length whose first two bits are set, and no other number", "statement": "For every odd prime with the requested number of bits and its first two bits set there is an outcome of the random source for which generate_prime returns it. A composite number is returned only if it passes trial division by the primes up to 53 and the Lucas test, whatever is drawn.", "quantifier": "all bit lengths, numbers of rounds and primes", "why_tests_cant": "That some draw exists for every prime, and none for any other number, cannot be sampled.", "anchors": ["src/bigint/nat.rs: generate_prime, probably_prime_test"]}
{"id": "C140", "title": "probably_prime_test(n) draws n + 1 bases for every usize n", "statement": "For every n of type usize, probably_prime_test(n) accepts a number of at least 128 only if it is a strong probable prime to n + 1 drawn bases, so that asking for more rounds never makes the test weaker, and it does not panic.", "quantifier": "all naturals, all n of type usize, all source outputs, both build modes", "why_tests_cant": "The exceptional n is one of 2^64, and for any other n near it no test would end.", "anchors": ["src/bigint/nat.rs: probably_prime_test, prime_validate_by_miller_rabin, generate_prime"]}
{"id": "C141", "title": "Windows: the system gets terminated names and fills the whole buffer", "statement": "The names of the algorithm and of the implementation that are handed to BCryptOpenAlgorithmProvider end with a zero unit inside the memory that holds them, so that the system reads the names that are meant whatever lies behind; if gen_random succeeds, every byte of the buffer comes from the system.", "quantifier": "all contents of the memory behind the names, all buffers, all answers of the system", "why_tests_cant": "What lies behind a vector is usually zero by luck, and no test has a buffer of 4 GiB.", "anchors": ["src/os/windows/bcrypt.rs: ms_primitive_provider, ms_platform_crypto_provider, auto_select_provider, open_algorithm_provider, gen_random", "src/rand/crypto_rand.rs: new"]}
