# Formal model of mengsuenyan/rmath in Lean 4

The code in `/repo` is modelled function by function in Lean 4 (`lean/Verif`), and the
properties of `properties.jsonl` are stated and proved about that model.

## Layout

* `Verif/Spec.lean` – the independent specification: `val` (value of a little-endian word
  vector), `Canon` (no leading zero word), `enc` (the canonical vector of a number).
* `Verif/SpecFun.lean` – the notions of number theory used in statements: strong and Lucas probable primes, and
  the side condition of the Jacobi symbol.
* `Verif/SpecRat.lean` – `Rat` objects, the rational they denote, lowest terms; the number denoted by the bits of a double.
* `Verif/SpecIeee.lean` – machine floating point formats: the number of a code, nearest with ties to even.
* `Verif/SpecFloat.lean` – `Float` objects, the number they denote, the representation invariant, correct rounding in six
  modes, the accuracy flag, what a correct result of an operation is.
* `Verif/SpecRand.lean` – the published random sequences.
* `Verif/SpecDec.lean` – decimal texts and the numbers they denote, decimal rounding.
* `Verif/SpecOps.lean` – what the binary operators mean.
* `Verif/SpecProg.lean` – variables that refer to cells with natural numbers.
* `Verif/Model/*.lean` – the model. One Lean definition per Rust function; every definition
  cites file and lines.
* `Verif/Lemmas/*.lean` – helper lemmas.
* `Verif/Props/*.lean` – the property theorems `Cxx_…`, with satisfiability examples.
* `Verif/Conform/*.lean` – the unit tests of the repository run on the model (tests, not proofs; see below).

## How the code is represented

* `u32` is `BitVec 32`, `u64` is `BitVec 64`; wrapping, overflow flags, shifts and masks are those
  of the machine types. `usize` lengths and indices are `ℕ`: the model assumes that a vector
  length times 32 fits in a `usize` (no real vector violates this); a subtraction on `usize`
  that could underflow is modelled as a panic.
* `Vec<u32>` is `List (BitVec 32)`, least significant word first. `NaN` is the empty list.
* A `&mut` parameter is a returned new value. Sharing of buffers between clones
  (`Rc<Cell<Vec<u32>>>`) is modelled separately by an explicit heap of buffers.
* Panics and loops that do not finish are explicit error values (`Err.panic`, `Err.hang`).
  Loops whose trip count depends on data carry a fuel argument; running out of fuel is
  `Err.hang`, so a theorem that says a function returns `ok` also says that the loop ends.
* Random sources and system calls are arbitrary functions from the call index to results.

## Plan per property

C01–C03, C14: model both backends (`nat_amd64.rs` + `nat_avx2.rs`, and `nat_generic.rs`) word by
word; prove by induction over the word lists that the value is the sum / absolute difference /
product and that the result is canonical; agreement of the backends follows from uniqueness
of canonical vectors.
C04: shift–subtract loops with fuel; loop invariant, termination because the bit length drops.
C05, C06: word/bit decomposition of the shift. C06 is false for the code (see Findings): the exact
region where it is right is proved, and a counterexample.
C07–C09: bit extensionality through `Nat.testBit` of `val`.
C10, C11: lexicographic comparison from the top word equals comparison of values.
C12, C13: mixed operators; the value is right, the canonical form is not (Findings).
C15–C17: square-and-multiply invariants; windowed and Montgomery paths; C18 one Montgomery
multiplication as a loop invariant on `z`.
C19: Newton iteration invariant and termination measure.
C20, C21: pointer algorithms on a scratch area modelled as list segments; induction on the depth.
C22–C24: bytes; induction over words/bytes.
C25, C26: parsers and printers over `List Char`; round trips by induction over digits.
C27, C28: bit queries through `Nat.testBit`.
C29, C32: random source as an arbitrary stream.
C30: product by induction. C31: Miller–Rabin and Lucas tests, using Mathlib's finite field facts.
C72: the same invariants read in the other direction, for composite numbers as well: Lucas sequences over ℤ. `C72_described` says
what is accepted for every number of at least 128, with the exponents that the shift of C06 leaves (`SpecPrime.lean`).
C33–C35, C73: explicit heap model with addresses (`Verif/Model/Heap.lean`): the assigning operators are modelled word by
word on the heap, so that operands in the same buffer are read while they are being overwritten; programs are lists of
statements over variables.
C36–C50: `BigInt` as sign and magnitude, on top of the `Nat` theorems.
C51–C55, C74: `Rat` on top of `BigInt`, value in `ℚ`.
C75: `to_f64`/`to_f32`: `Model/Ieee.lean` has the IEEE operations the code takes from the hardware (exact result, rounded
to nearest, ties to even; proved to satisfy `Fmt.Nearest`) and `ldexp`/`frexp` of util.rs; `Model/RatFloat.lean` the
conversion. Specification: `SpecIeee.lean`, nearest among all finite numbers of the format.
C56–C62, C76–C80: `Float` value in `ℚ` (`Model/Float.lean`), rounding against an independent definition of the
nearest/directed neighbour (`RoundsTo`, `Rounded`); every operation is shown to produce a normalised mantissa whose value
is the exact result, and one lemma about `round` does the rest. Division is shown to fail for all operands by bounding
the exponent it delivers.
C63–C69, C81: generators as state machines (`Model/Rand.lean`), once for all word sizes; the published sequences are
functions `ℕ → ℕ` (`SpecRand.lean`). Invariants over all lists of calls (C64, C65); for the streams, an invariant that says
which words of the sequence the circular buffer holds after `k` draws (C66, C67).
C82–C85: `Decimal` as a list of digits and an exponent, the texts as lists of characters (`Model/FloatText.lean`). The long
division by powers of two is shown to be exact by an invariant on the remainder, rounding is shown to be to nearest, and
the text is shown to denote the rounded number (`SpecDec.lean`). Parsing is described completely for every decimal text
(`fParse_spec`), on top of the parser of `BigInt` and the fractions. `C82_described` and `C83_described` say what is
printed for every finite number, with two functions on the numerator that state the defects (`blanked`, `lowWords`).
C86–C89: `Float` objects that refer to a mantissa on the heap of C33 (`Model/FloatHeap.lean`); the operators are modelled
again, step by step, with the receiver's buffer being shifted and overwritten while the other operand may refer to it.
`FUpd` relates each to the operation on values; a simulation proves that programs without shallow clones behave as if the
variables held values.
C90–C91: the kernels of `arith_generic.rs` and `arith_amd64.rs` (`Model/Arith.lean`), by induction on the vector.
C92–C94: `Rat` objects on the same heap (`Model/RatHeap.lean`). `RNew` says that an operator writes only buffers it made; a
simulation lifts this to programs, with shallow clones as long as no assigning operator meets NaN.
C95: `Model/Import.lean`, from C22–C24. C96–C97: programs over `BigInt` variables on the heap (`Model/IntHeap.lean`); which
variables may share is computed from the text of the program, and a simulation with that relation as invariant shows that the
program behaves as if the variables held values.
C98–C99: programs over several system generators, and the default generators (`Model/RandClone.lean`); clock, hasher and `rdrand`
are arguments. C98 counts bytes: a permutation between those handed out or buffered and those delivered is the invariant.
C100–C102: whole programs against arithmetic: the heap programs of C73, C97 and C93 compute what the same program computes with
natural numbers in shared cells, integers, and rational numbers (`Props/NatProg.lean`, `Props/IntProg.lean`, `Props/RatProg.lean`).
Each is a simulation, statement by statement, from the theorems about single operations; what is excluded is stated in terms of the
numbers (`Safe`, `ISafe`) or of the text of the program (`Owned`, `qsafe`).

C104: the heap programs of C88 against programs on rational numbers, where each variable is a number with a precision and a
mode and each statement delivers its exact result rounded once (`FqRun`, `Props/FloatProg.lean`).  Two theorems: the invariant holds
throughout every program without division and shallow clones, including those that overflow or produce a NaN; and if the program
on rational numbers runs, the program on `Float`s shows its numbers.  The guards (`FOp.sound`) are the defects of C58 and C60;
`C104_rounding_exists` shows that the rational program stops nowhere else than at a guard.  `Props/FloatProgExt.lean` does the same for
extended values (`FxRun`: rational numbers, two infinities, NaN): too large a result is an infinity, too small a one is zero
(`C104_extended_partial`; `C104_extended_rounding`: every exact result becomes exactly one value).

C105: the source is the list of the results of its draws (C29).  For each value the sequences of words that make `random`
return it after exactly `k + 1` groups are counted: the counting splits a sequence into its groups
(`Fin (m + n) → W ≃ (Fin m → W) × (Fin n → W)`), and a group is a number below `2^(32·len)`, whose low `bits` bits decide.
The count does not mention the value.  The sequences that leave the call running are counted in the same way.

C106: an odd composite passes the strong test to at most a quarter of the bases, by the theorem of Rabin and Monier: the bases lie in a
subgroup of index 4 at least of the units, or `n` is a prime power (`Lemmas/Rabin.lean`, from group theory, Korselt's criterion and the
Chinese remainder theorem; nothing of the model enters).  Then the sequences of
`N` words that make `k + 1` successive draws fall into a set of a quarter of the numbers are counted as for C105, by induction on
`N`.  The bound is for every `N`, so it bounds the probability of the event "the test has accepted after at most `N` words".

C107: `Model/Text.lean` adds `{:?}` and puts the formats side by side.  Each text is a sign, a prefix that depends only on the
format, and a numeral (C26, C48, C55); a numeral denotes one number and contains neither a sign nor a slash.

C108: the relation "panics, or returns the same" is kept by sequencing, branching and recursion; the single overflowing
operations satisfy it by definition.

C109: `f64::from_str` is a parameter of the parser. What is assumed about it (`StdReads`) is its documentation: a decimal
number is read as the nearest double, ties to even, with the sign written; `stdReads_exists` shows that such functions exist.
The rest is the conversion from `f64` (C74). `C109_delegates` assumes nothing.
C110: the specification is Lean's own `Nat.toDigits`; a numeral of the value without superfluous zeros, in the right case, is
that list of digits.

C103: `Model/FunHeap.lean` has the functions on the heap, every buffer they make being a cell of it; a relation between the
results on values and on the heap (`RRel`) goes through loops and recursions, so the theorems on values (C15, C16, C19,
C42–C44) carry over to arguments that share buffers.

C111: `Model/RandWin.lean` has the `Rc` boxes with their counts; the specification has neither, only the creation each generator
goes back to and the list of open handles. The invariant is that each count is the number of generators of its box.

C112: by induction on the formula from C01, C03, C36 and C51; `==` and `<` from C41 and C52.
C113: correct rounding (C104) is monotone, odd up to the direction of the mode, and the identity on numbers that fit
(`Lemmas/FloatLaws.lean`); the laws follow from the specification of rounding alone.
C114: the specification lemmas of C46 and C47 that do not need a prime; that a loop never ends is shown for every number of rounds.
C115: rounding to the digits of the format and then to the format is one rounding in the normal range (`fmt_core`, C76); the
exact results of C104 are carried over. Sums of doubles below the normal range are exact.

C116: parsers that return the kind as well (`Model/ErrKind.lean`); forgetting the kind gives the parsers of C25, C48, C55 and C85.
C117: the loops of `div_inner` and `rem_inner` on a zero of several words leave the dividend as it is in each round, by
induction on the number of rounds. For a divisor with leading zero words (`C117_all`) each round takes at least one divisor off
while there are as many words as the divisor has (`Lemmas/DivAll.lean`).
C118: the operators are described for all word vectors, canonical or not, from the lemmas of C01 and C02 that need no canonical
form.
C119: the functions of one number are described for all word vectors in the same way; for the texts by the digits they have.
C120: by cases on the sign and on zero.
C121: the loops of `exp` again, for all word vectors, with `C117_all` as the specification of the remainder.
C122, C123: kinds of operands (`MachineF`) and of results (`SumForm`, `ProdForm`) from the theorems about Float, then C115 for the doubles; a
  sum of singles has at most 53 digits or is so near to the larger one that it is rounded to it; a product of singles has 48 digits.
C124: the conversions are `enc`/`encI` of the number (`fromU64_eq`, `fromISmall_eq`), and the comparisons follow from C10, C41 and C118.
C125: what `Float::from` makes of a machine number (`MachineF`), then C59, C76 and C79.
C126: the first operand is deep-cloned and so brought to canonical form; what the second one does follows from C117, C118 and C39.
C128: the parsers once more with messages, refining those with kinds (C116); then the loops visit legal digits up to the named character.
C129: one lemma for a chain of checks against a list of conditions; `mask` is `2^w - 1` by the lemma of C64.
C127: the negative zero is computed through each function by hand, the rest is C38, C42-C46.
C130: what `Rat::from` makes of a double (`rat_of64`), then C51 and C75; the signs of zeros are checked one by one.
C131: Fermat's theorem for the two primes of RSA and the Chinese remainder theorem; powers of units of `ZMod p` for exponents of both signs
(`exp_unit`), the rest is C43, C45 and C46.
C132: `Model/RandText.lean` has the generators once more with the texts of the errors; texts are compared up to the first comma.
C133: powers of a primitive root run through the units of `ZMod m`; that `2^31 - 1` is prime and both multipliers are primitive roots by Lucas's test
with `reduce_mod_char`. The cycles of the presets are evaluated by the kernel in blocks of 1024 steps (`wrapIter`), and their least lengths by
their prime divisors.
C134: an xor with a shift is undone from the top bit down; the twist is undone by the top bit of `a`, so two sequences that agree in `n` places
agree before, too (for `m = n` by the xor with a shift instead); the zero sequence satisfies the recurrence but not the start.

C135: the state with words `x_i` and carry `c` stands for the number `Z = sum x_i B^i - sum (last s words) + c` with `B = 2^w`, between 0 and
`M = B^r - B^s + 1`; one draw `x` turns it into `(Z + x M) / B`, so `B Z' = Z mod M` (Tezuka, L'Ecuyer). The initial carry excludes 0 and `M`.
The words of a window give `Z` modulo `B^r > M`. That `2^576 - 2^240 + 1` is prime, and the orders of `2^24` and `2^48`, are Lucas certificates with
the 26 prime divisors of `2^576 - 2^240`, whose modular powers the kernel computes (`Lemmas/Ranlux.lean`).

C136: polynomials over the field with two elements act on bit sequences by the shift (`Lemmas/TwistPoly.lean`; a number stands for the polynomial with
its bits). Bit 0 of the twisted words is annihilated by the characteristic polynomial, written as nested binomials (`TwistBits`). The kernel squares `x`
19937 times modulo that polynomial, in blocks of 250 between literals (`Twist32Part*`, `Twist64Part*`), and ends with `x`; the quotients used on the way
need not be right, only the products with the polynomial are. So the words repeat after `2^19937 - 1`, a prime by Lucas-Lehmer; a shorter
period would make the stream constant, hence zero. Counting the states gives the distribution and that all seeds run along one cycle. The parts import
each other in a chain to keep few of them in memory at a time.

C137: in steps of 6 from a number prime to 3, each of the 14 primes from 5 to 53 divides at most `100 / q + 1` of 100 numbers, together at most 93.

C138: two words at distance `d` differ by a unit times `1 + a + … + a^(d-1)`; lifting the exponent gives that the modulus divides this sum just when
it divides `d`. A condition that fails leaves a property that lasts once it holds (a common factor, a fixed point, two remainders modulo 4 in turn).

C139: the number itself, drawn and then shaped, is left as it is; the bases are drawn as 1, which every number passes. So what can be returned is settled
by trial division and the Lucas part alone.

C140: `Model/PrimeRounds.lean` repeats `probably_prime_test` and `generate_prime` with the number of rounds as a 64-bit `usize`; only `n + 1` differs
from `probablyPrimeTest`, whose rounds are a natural number. `C140_rounds_partial` and `C140_generate_partial` show that they agree for every `n` but
the greatest.

C141: memory is a function from the offsets behind a pointer to units; the string there is what stands before the first zero. `encode_wide` is UTF-16, as
the standard library documents it; what the system reads and writes is an assumption about the documented interface of CNG.

Not expressible in this model: timing/performance, memory safety of `unsafe` pointer code beyond
index bounds, what the hardware random instructions (`rdrand`, `rdseed`) and the hash of the clock return.

## Trusted base

Lean's kernel; the axioms `propext`, `Classical.choice`, `Quot.sound` (no others); the reading
of the Rust source embodied in `Verif/Model`; the definitions in `Verif/Spec*.lean`, which the statements use.

Modelled: `src/bigint/nat.rs`, `nat_amd64.rs`, `nat_avx2.rs`, `nat_generic.rs` (both arithmetic back ends), `bigint.rs`,
`arith_generic.rs`, `arith_amd64.rs`, `rat.rs`, `float.rs`, `float_fmt.rs`, `decimal.rs`, `float_para.rs`, `util.rs` (`ldexp`, `frexp`), the macros that generate operators and conversions,
`src/rand` (linear congruential, lagged Fibonacci, Mersenne twister, iterators, system generator, default generators), `src/os/linux` and `src/os/windows/bcrypt.rs`
(recent compilers reject its implementation of the sealed trait `OsStrExt`).

Evidence for the reading: all unit tests of the repository with fixed expected values (`src/bigint/nat/tests.rs`,
`src/bigint/bigint/tests.rs`, `src/bigint/rat/test.rs`) were evaluated on the model, including the 2048-bit
exponentiations, the primality tests of 2^521-1 and the modular square roots; the model agrees with every expected
value, except that the three ranges of 10^9 factors were not run and the texts handed to the `f64` parser are outside
the model. The cases that the kernel evaluates quickly are kept in `Verif/Conform`.

`arith_amd64.rs` is never compiled: `build.rs` has the detection that enables it commented out.

Not modelled:
the results of `rdrand`, `rdseed` and of the hash of the clock (oracles), the 32-bit x86 variants of `gen_u64` (they do not
type-check), what the Windows functions do inside (their results are oracles), `Display` of the private type `Decimal`, which nothing calls. The intrinsics of `nat_avx2.rs` are
modelled by what the Intel manual says they do; the machine's IEEE operations by correctly rounded exact results.

## Findings

Places where the code does not do what the English property says. Each is a theorem about the model (named), so it is
checked by the kernel; the properties concerned are proved with the exact guard that excludes it (`…_partial`).

* `C06_…`: `Nat >> s` for `s ≥ 32` drops low words but then keeps the wrong ones: `2^32 >> 32` is 0; `C06_described`
  gives the number for every shift. Everything built on it inherits the defect: `BigInt >>` (`C40_shr_wrong`,
  `C40_shr_described`), `jacobi` (`C46_jacobi_panics`), `mod_sqrt` (`C47_mod_sqrt_panics`), the primality tests.
* `C117_rem_by_shifted_zero`, `C117_div_by_shifted_zero`: `a % (0 << s)` and `a / (0 << s)` with `s ≥ 32` never return if
  `a ≥ 2^(32·(s/32))`, and otherwise return `a` and 0 instead of panicking. Because of the wrong right shift the same division
  happens inside `jacobi` and `mod_sqrt`: they never return if `a mod b = 2^(32·k)·q` with an odd `q`, `2^32 ≤ q < 2^(32·k)`
  (`C46_jacobi_hangs`, `C47_mod_sqrt_hangs`), for instance for `2^96 + 2^64` modulo the prime `2^127 - 1`.
* `jacobi(a, b)` for even `b`, where no Jacobi symbol exists, answers with the symbol of `b` with respect to the odd part of the remainder
  (`C46_jacobi_even`), which is not the Kronecker symbol either (`C46_jacobi_even_violated`).
* `C118_violated`, `C118_sub_product`: numbers with leading zero words are wrong operands. `a * u32` is one unless the product
  needs one word more than `a`; `10 - 3 * 1u32` is `2^64 - 7`, `10 % (3 * 1u32)` is 10 and `10 < 3 * 1u32`. `C118_sub`,
  `C118_compare`, `C117_all` give the results for every such operand.
* `C118_shifted_zero`: `5 - (0 << 32)` is `2^64 - 5` as a `Nat` and `5 - 2^64` as a `BigInt`, for every number below `2^32` and, for
  longer shifts, below `2^(32·(s/32))`; `0 << 32` is positive.
* `C119_sqrt_shifted_zero`: `(0 << s).sqrt()` panics for all `s ≥ 32`. `C119_pow_mod_wrong`: `10.pow_mod(1, 3 * 1u32)` is 10.
  `C121_violated`, `C121_exp_no_modulus`: `0.exp(0 << 32, n)` is 0, and `exp` without modulus does `2^32 - 1` squarings too many if
  the exponent has leading zero words, since `32 - shift` wraps; with overflow checks it panics (`C121_exp_checks`).
  `C119_not`, `C119_bits`, `C119_bytes`, `C119_text_zeros`: `!`, `bits_len`, bytes and hexadecimal text of numbers with leading
  zero words.
* `C05_shl_zero_not_canonical`: `0 << s` with `s ≥ 32` has leading zero words, and is not `==` 0.
* `C12_not_equal`, `C12_mul_not_canonical`: `Nat - u32` and `Nat * u32` leave leading zero words; the results are not
  `==` to the canonical numbers. `C14_sub_word_differs`: the portable back end does trim.
* `C11_and_not_ignores_nan`: `and_not` with a NaN argument returns its receiver.
* `C17_exp_debug_panics`: modular exponentiation panics in debug builds for exponents whose top word is 1.
* `C28_clear_not_canonical`, `C29_not_canonical`: clearing a bit and `random` leave leading zero words.
* `C25_bare_prefix_is_nan` (`"0x"` parses to NaN), `C25_leading_zero_rejected` (`"007"` is an error).
* `C37_minus_zero`: `-6 % 3` is a "minus zero" that is not `==` 0.
* `C38_wrong_on_negative_multiples`: `rem_euclid(-6, 3)` is 3, and `div_euclid` disagrees accordingly.
* `C39_or_wrong_on_mixed_signs`, `C39_and_not_wrong_on_negatives`, `C39_not_not_canonical`: two's complement operators.
* `C44_negative_is_none`: a congruence with a negative right side that is solvable is reported as unsolvable.
* `C43_not_coprime`: `mod_inverse` of a number without an inverse is a wrong number, not an error or NaN. `C43_zero_modulus`,
  `C44_zero_modulus`: modulo zero the two functions panic for negative numbers, and `solve_mod_linear_equation` panics instead
  of giving the one solution.
* `C50_below`, `C50_negative_n`, `C50_debug_panics`, `C50_release_overflow`: `binomial` of negative arguments and at the ends
  of `i64`, all of them.
* `C53_release_overflow`: a release build gives `isize::MIN / d` the wrong sign for every negative `d`.
* `C58_zero_zero`: `-0 + 0` is `-0`.
* `C45_negative_exponent_wrong`, `C45_not_coprime_is_not_nan`: negative exponents
  (`C45_exp_negative_odd` says exactly when the answer has the wrong sign, `C45_exp_negative_never_nan` that it is never NaN).
* `C30`: `BigInt::mul_range(i64::MIN, …)` overflows (debug panic). `C50_max`, `C50_negative_k`: `binomial`.
* `C70_witness`: `is_set_bit(2)` of `-4` is `None` although `bits_len` is 3.
* `C71_minus_zero`: random numbers below a negative number may be "minus zero".
* `C31_base_zero`, `C31_rejects_prime`, `C31_lucas_rejects_prime`: primes that `probably_prime_test` rejects: 131 when the
  drawn base is 0; `3·5^9·2^44 + 1` and `36893549737250127871` because of the shift of C06.
* `C31_rejected`, `C31_rejected_exist`: a prime above 2 without a quadratic non-residue up to 10000 is always rejected, because the
  Lucas part gives up its search at 10001; there are infinitely many such primes (Dirichlet's theorem).
* `C106_accepts_all`, `C106_violated`: the Miller-Rabin part accepts every `q·2^(32j) + 1` (`j ≥ 1`, `q < 2^32` odd) whatever is
  drawn, `2^32 + 1 = 641·6700417` among them; only the Lucas part, which no number of rounds improves, tells them from primes
  (`C106_rounds_useless`).
* `C72_lucas_blind`, `C72_violated`: every `q·2^(32j) - 1` (`j ≥ 1`, `q < 2^(32j)` odd) passes the Lucas part whatever the parameter, so
  the composite `83·2^32 - 1 = 331·1076985757` is accepted when the base drawn is 1, although it fails the Lucas test.
* `C107_rat_violated`: `2/5 - 2/5` is printed `0/25`, though it equals `0/1`.
* `C32_panics`: `generate_prime` panics when the first draw of an attempt fails.
* `C34_rem_panics`, `C34_rem_hangs`: `a %= a.clone()` panics for every `a ≥ 2` and does not end for `a = 1`.
* `C73_clone_half_updated`: `let b = a.clone(); a -= 5` with `a = 3` turns `b` into 2 (new magnitude, old sign).
* `C73_bits_shared_wrong`: `x &= x.clone()` is wrong for every odd negative `x` (`-1` becomes `-2`), `x |= x.clone()` for
  every `x ≤ -2`, and `x ^= x.clone()` is never zero for a negative `x`.
* `C51_zero_not_reduced`, `C51_zero_denominator_negative`, `C53_zero_not_reduced`: a `Rat` that is zero keeps its
  denominator: `1/2 - 1/2` is `0/4`, and dividing zero by -3 leaves the denominator -3.
* `C52_minus_zero`: the text `0/-5` is read as a "minus zero", which compares less than zero.
* `C53_from_frac_overflow`: `from_frac` with `isize::MIN` panics (debug) or gives -1 for `MIN/MIN` (release).
* `C54_from_f64_large_wrong`: `Rat::from(f64)` is wrong for every finite double of magnitude `2^53` or more (it divides by
  the power of two instead of multiplying).
* `C55_not_reduced`: `"4/2".parse::<Rat>()` is not reduced, so `is_integer` says no. `C55_negative_denominator`.
* `C74_signnum_minus_zero`.
* `C75_to_f32_zero_panics`: `to_f32` of zero panics. `C75_flag_wrong`: `to_f64(2^-1088)` is `(0.0, true)`
  (`C75_flag_tiny`: for which tiny numbers the flag is wrong).
* `C58_violated_precision`: `x + y` with cancelling signs and `|x| ≤ |y|` has the precision and mode of `y`
  (`C58_add_actual`, `C58_sub_actual` describe the result exactly). `C58_violated_zero_sub`: `0 - y` is `+y`.
  `C58_violated_sub_inf`: `x - ∞` is `+∞`. `C58_violated_stale_flag`: `x + 0` keeps the accuracy flag of `x`.
* `C60_violated`: the quotient of two finite `Float`s is wrong for *all* operands (`6 / 2` is `2^-95`), and `6 / 7` is not
  even a well-formed number (`C60_breaks_invariant`). `C60_described` and `C60_described_small` say what the quotient is. `C60_violated_inf`: `∞ / y` is NaN. `C80_violated`: so every fraction
  that is not an integer is converted wrongly to a `Float`.
* `C62_from_i64_min`: `Float::from(i64::MIN)` panics in a build with overflow checks.
* `C76_violated_f64`, `C76_violated_f32`: between half the least positive machine number and that number, `to_f64`/`to_f32`
  return the least *normal* number, and `to_f64` drops the sign (`C76_gap` describes that gap exactly).
* `C63_violated`, `C63_minstd0_wrong`, `C63_minstd_wrong`: the product of the linear congruential generator wraps; the
  predefined generators leave the published stream at the third word.
* `C64_lfr_violated`, `C66_violated`: the lagged Fibonacci generator with words as long as the type adds the carry with
  overflow: a panic with checks, a lost carry without (`C66_full_size`: exactly the sequence with lost carries).
* `C81_ranlux24_violated`: on 32-bit words the seeding wraps. `C81_mt19937_violated`, `C81_mt19937_64_violated`:
  the tempering of the Mersenne twister shifts to the right where the published one shifts to the left. The wrong tempering
  is injective, so that each stream is the published one up to a fixed translation of the words (`C81_mt19937_partial`).
* `C82_violated`, `C83_violated`: the decimal conversion of a `Float` keeps as many digits as there are digits other than
  zero, so that 101 is printed as 100; it uses the shift of C06, so that 3000000001 panics, or, with `{}`, is printed as 0,
  and `2^95 + 2^32 + 1` is printed as 1.8446744e19 (`C82_low_words`). A tie is not recognised if a zero follows. Exactly
  what is printed: `C82_described`, `C83_described`. `{}` rounds twice (128 with one
  bit of precision is printed as 130.0), and in a build with overflow checks panics for results between 0 and 1/10.
* `C84_violated`: every text that `from_str` accepts and that does not denote an integer is read wrongly (`1.5` is read as
  `2^-96`), because of the division. `C84_violated_rejects`: texts whose last digit is not behind the point (`1.5e1`, `1e5`,
  `1.`), and texts with a zero in front (`0.5`), are rejected. `C85_violated`: a printed number is read back if and only if it is an integer
  and was printed exactly (`C85_round_trip_iff`).
* `C88_violated`: a clone of a `Float` shares the mantissa but not the exponent, so that rounding 15 to three bits (16)
  turns its clone into 8. `C87_violated`: then `a += b` is 32, because aligning `a` shifts `b` too; a receiver that was
  set to precision 0 loses the mantissa. `C89_violated`: `z.set_mant_exp(z.clone(), e)` empties the mantissa of every
  finite `z`, although the documentation allows it.
* `C90_div_violated`: `div_wvw` runs through the words in the wrong order. `C90_shl_slice_violated`: `shl_vu` returns the bits
  that stay instead of those that leave. Nothing calls these two. `C91_violated`: `mul_add_www` of `arith_amd64.rs` stores the
  addend over the product.
* `C92_violated`: `a += NaN` on `Rat`s empties the shared numerator, so that clones of `a` become NaN. `C94_violated`:
  changing a clone of `r.numerator()` changes `r`, and leaves it out of lowest terms.
* `C91_add_mul_described`: what `add_mul_vvw` of `arith_amd64.rs` computes instead: `z (2^32 + 1)`.
* `C97_violated`: `a -= c` on a `BigInt` changes the magnitude of a clone `b` of `a`, but not its sign: 3 - 5 turns `b` into 2.
* `C98_violated`: the system generator buffers the bytes of a short read, and `clone` copies the buffer, so that both hand out
  the same bytes; `C98_reset_keeps_bytes`: `reset` keeps them.
* `C110_violated`: `{:b}` of the `BigInt` 5 is `0b101`.
* `C109_violated`: text with a point is read through `f64`, so that `"0.1".parse::<Rat>()` is not 1/10, and
  `9007199254740992.0` is read as another integer, by the defect of `From<f64>`. `C109_exact_iff` says which texts are read
  exactly: those of doubles below `2^53`.
* `C114_violated`, `C114_square_never_ends`, `C114_order_never_ends`: `mod_sqrt` is documented to panic unless the modulus is an odd
  prime; instead `mod_sqrt(4, 15)` is 1, which is no root, and `mod_sqrt(4, 25)` and `mod_sqrt(2, 33)` never end.
* `C49_not_ceiling`: `BigInt::sqrt` is documented as the root rounded up, but rounds down, as `Nat::sqrt` does.
* `C115_violated`: `3.0 / 2.0` with 53 digits is `2^-64` (the defect of C60) and `0 - 1.0` is `1.0`.
* `C122_low_violated`: `2^-537 · (-3/2 · 2^-538)` as doubles, by way of Float, is `+2^-1022` instead of `-2^-1074`. `C122_mul_low` says exactly
  which products below the normal range are wrong.
* `C122_violated`, `C123_violated`: `-0 + 0` is `-0`, `1 - inf` is `inf`, and the `f32` product of `3/2 · 2^-100` and `2^-50` is `2^-126`.
* `C124_violated`, `C124_padded`: `Nat::from(3u32) * 1u32` is not `== 3u32`, and is greater than every `u32`.
* `C126_violated`: a zero with the sign set (`-4 % 2`) is less than 0, `-0 & 2` is 2 and `!(-0)` is 1; `10 + (-3)` with a `-3` of two words is
  `-(2^64 - 7)`.
* `C127_violated`: the negative zero is no zero for `sqrt` (NaN), `rem_euclid` (`|n|`), `jacobi` (a panic as second argument) and as right-hand side of a
  linear congruence (no solution); `C127_euclid`, `C127_solve`, `C127_jacobi`, `C127_mod_sqrt`, `C127_exp`, `C127_rest` describe all cases.
* `C128_violated`: a numeral with a prefix is read from the right, so `0b2z` is refused for the `z`; `007` for `00`; `1e5` as `Float` for being an
  empty string (the denominator is parsed from an empty buffer); a zero denominator has an empty message.
* `C129_violated`: the Mersenne twister refuses `l = 0`, which is documented as allowed, accepts zero shifts and zero masks, which are documented as
  excluded, and speaks of `m` when `w` is too large.
* `C125_violated`: `3/4 · 2^-149` as an `f64`, by way of Float, is `2^-126` as an `f32`.
* `C130_violated`, `C130_singles_violated`: by way of Rat, `2^53 + 0` is `2^51`, `inf + inf` is NaN, `-0 + -0` is `+0`, `1 / 0` panics; as `f32`,
  `1 - 1` panics.
* `C131_exchange_violated`: with `g = -2` and the exponents `-1` and `3` modulo 7, the two sides of a key exchange get 1 and 6. `C131_rsa_conditions`:
  `mod_inverse` does not tell that an RSA exponent has no inverse.
* `C132_linux_violated`: a call that reads nothing says that it "only read 2 bytes", the bytes left from the call before. `C132_display_violated`: three
  kinds of errors print an empty text.
* `C133_violated`: `minstd_rand0!` with the seed 1 delivers 38041 different words, not 2147483646, and `minstd_rand!` 75030, as the products wrap at
  `2^32` before they are reduced.
* `C134_violated`: the Mersenne twister accepts `u = 0` with `d` all ones, and then every word is 0; it accepts even multipliers `f`, and with
  `2^31` in place of that of `mt19937!` the seeds 0 and 2 give the same stream; `C134_dies`: it accepts `a` without top bit, and streams may run into
  zeros; `C134_two_words`: so they may for `n = 2`.
* `C135_violated`: with words of 32 bits on `u32`, lags 1 and 3 and seed 0, the stream leaves the congruential sequence after the lost carry.
* `C139_never`: `generate_prime` never returns a prime without quadratic non-residue up to 10000. `C139_composite`: for every number of rounds some draws
  make it return `59·2^32 - 1 = 19927·12716569`.
* `C140_violated`: with `usize::MAX` rounds this number is accepted without any draw; `C140_top_primes`: with overflow checks every prime of at least 128
  panics.
* `C141_violated`: `ms_platform_crypto_provider` hands over a name without zero at its end. `C141_long`: `gen_random` with a buffer of `2^32` bytes succeeds
  and writes nothing. Neither happens in `CryptoRand`.
