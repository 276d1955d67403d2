import Verif.Conform.NatTests
import Verif.Model.BigInt
import Verif.Model.BigIntFun
import Verif.Model.Rat

/-!
# The unit tests of the code, run on the model: BigInt and Rat

As `Conform/NatTests.lean`: tests, not proofs.  The cases are those of /repo/src/bigint/bigint/tests.rs and
/repo/src/bigint/rat/test.rs that the kernel can evaluate in reasonable time.  Texts with a decimal point are left out
of the `Rat` cases: the code hands them to the standard library's `f64` parser, which is a parameter of the model.
-/

namespace RMath.Conform

open RMath

/-- `BigInt::from_str(s).unwrap()` -/
def rdB (s : String) : BInt := match bParse s.toList with | .ok (some w) => w | _ => bNan

/-- `assert_eq!(r, w)` -/
def isB (r : Res BInt) (w : BInt) : Bool := match r with | .ok x => bEq x w | .error _ => false

/-- `BigInt::from(n)` for a small literal -/
def litB (n : Int) : BInt := fromISmall (BitVec.ofInt 32 n)

/-- `Rat::from_str(s).unwrap()` -/
def rdR (s : String) : RatV := match rParse (fun _ => none) s.toList with | .ok (some w) => w | _ => rNan

/-- `assert_eq!(r, w)` -/
def isR (r : Res RatV) (w : RatV) : Bool := match r with | .ok x => rEq x w | .error _ => false

/-- `u128::MAX` as a `BigInt` -/
def maxB : BInt := ⟨maxU128, false⟩

/-- the long operands of bigint/tests.rs -/
def int1 : BInt := rdB "0xfffffffffffffffffffffffffffffffffff3222222222222222222234900000000000000ffffffffffffffffffffff"

/-- the long operands of bigint/tests.rs -/
def int2 : BInt := rdB "0xff9000000000000000000000322222222222223209053065839583093285340530493058304593058390584"

/-- bigint/tests.rs `bigint_from_and_fmt`: the extreme values of the machine types and their texts -/
example : (bEq (litB (-2147483648)) (rdB "-0x80000000") && bEq (litB 2147483647) (rdB "0x7fffffff") &&
    isB (fromI64 0x8000000000000000#64) (rdB "-0x8000000000000000") &&
    isB (fromI64 0x7fffffffffffffff#64) (rdB "0x7fffffffffffffff") &&
    isB (fromI128 (1#128 <<< 127)) (rdB "-0x80000000000000000000000000000000") &&
    bEq (fromISmall 0x80#8) (rdB "-0x80") && bEq (fromISmall 0x8000#16) (rdB "-0x8000") &&
    decide (bLowerHex true (litB (-2147483648)) = "-0x80000000".toList)) = true := by decide +kernel

/-- bigint/tests.rs `bigint_relation_arith` -/
example : (bEq maxB maxB &&
    bCmp maxB (rdB "0x1fffffffffffffffffffffffffffffffe") == some .lt &&
    !bEq bNan bNan &&
    !bEq maxB bNan &&
    !bEq bNan maxB) = true := by decide +kernel

/-- bigint/tests.rs `bigint_logical_arith` -/
example : (bEq (bAnd maxB maxB) maxB &&
    bEq (bOr maxB maxB) maxB &&
    bEq (bXor maxB maxB) (litB 0) &&
    bEq (bNot maxB) (rdB "-0x100000000000000000000000000000000") &&
    bEq (bXor int1 int2) (rdB "0xfffffff006fffffffffffffffffffffcddd1000000000102b271247b7058309328534053fb6cfa7cfba6cfa7c6fa7b") &&
    bEq (bOr int1 int2) (rdB "0xfffffffffffffffffffffffffffffffffff3222222222322b273267b7958309328534053ffffffffffffffffffffff") &&
    bEq (bAnd int1 int2) (rdB "0xff9000000000000000000000322222222222222200002020009000000000000000493058304593058390584") &&
    bEq (bNot int2) (rdB "-0xff9000000000000000000000322222222222223209053065839583093285340530493058304593058390585") &&
    bEq (bNot (rdB "0b11000011")) (rdB "-0b11000100")) = true := by decide +kernel

/-- bigint/tests.rs `bigint_shift_arith` -/
example : (bEq (bShl int2 1) (rdB "0x1ff20000000000000000000006444444444444464120a60cb072b0612650a680a609260b0608b260b0720b08") &&
    bEq (bShl int2 0) int2 &&
    bEq (bShl int2 30) (rdB "0x3fe4000000000000000000000c8888888888888c82414c1960e560c24ca14d014c124c160c1164c160e416100000000") &&
    bEq (bShr int2 4) (rdB "0xff900000000000000000000032222222222222320905306583958309328534053049305830459305839058") &&
    bEq (bShr int2 1) (rdB "0x7fc800000000000000000000191111111111111904829832c1cac18499429a029824982c1822c982c1c82c2") &&
    bEq (bShr int2 0) int2 &&
    bEq (bShr int2 1001) (litB 0) &&
    bEq (bShl (litB 0) 0) (litB 0) &&
    bEq (bShl (litB 0) 3) (litB 0)) = true := by decide +kernel

/-- bigint/tests.rs `bigint_add` -/
example : (bEq (bAdd maxB maxB) (rdB "0x1fffffffffffffffffffffffffffffffe") &&
    bEq (bAdd (rdB "0x1fffffffffffffffffffffffffffffffe") (litB 1)) (rdB "0x1ffffffffffffffffffffffffffffffff") &&
    bEq (bAdd int1 int2) (rdB "0x10000000ff900000000000000000000032215444444444542b275287b82583093285340540493058304593058390583") &&
    bIsNan (bAdd bNan int1)) = true := by decide +kernel

/-- bigint/tests.rs `bigint_sub` -/
example : (bEq (bSub maxB maxB) (litB 0) &&
    bEq (bSub (litB 255) maxB) (bNeg (bSub maxB (litB 255))) &&
    bEq (bSub int1 (rdB "0x32888f300000000000000322222229750348593045830670204")) (rdB "0xfffffffffffffffffffffffffffffffffff32222221ef9992f22222348ffffffcdddddde68afcb7a6cfba7cf98fdfb") &&
    bEq (bSub (rdB "0x32888f300000000000000322222229750348593045830670204") int1) (bNeg (rdB "0xfffffffffffffffffffffffffffffffffff32222221ef9992f22222348ffffffcdddddde68afcb7a6cfba7cf98fdfb"))) = true := by decide +kernel

/-- bigint/tests.rs `bigint_mul` -/
example : (bEq (bMul (rdB "0xf9058301048250fabddeabf9320480284932084552541") (rdB "0xf329053910428502fabcd9230494035242429890eacb")) (rdB "0xec882250900ba90c2088a4a5ee549ecc5152d7a50683a82daa24e03f6d6409468abf1ce1f01d9be845021f48b") &&
    bEq (bMul (litB 10) (litB 0)) (litB 0)) = true := by decide +kernel

/-- bigint/tests.rs `test_div` -/
example : (isB (bDiv (rdB "0xfffffffffff32908329058205820") (rdB "0xff")) (rdB "0x10101010100f41d2557e84060b8") &&
    isB (bDiv (rdB "0xff") (rdB "0xfffffffffff32908329058205820")) (litB 0) &&
    isB (bDiv (rdB "0x39025820857032850384502853503850325fa3242de121") (rdB "0x2048537058358afedead392582075275")) (rdB "0x1c414f70ec1f027")) = true := by decide +kernel

/-- bigint/tests.rs `bigint_rem` -/
example : (isB (bRem (rdB "0xffffffffffffff000000000000") (litB 255)) (litB 0) &&
    isB (bRem (rdB "0x39025820857032850384502853503850325fa3242de121") (rdB "0x2048537058358afedead392582075275")) (rdB "0xab9de6183b632a33dc2601ae78da14e") &&
    isB (bRem (rdB "0xfffffffffff32908329058205820") (rdB "0xff")) (rdB "0xd8")) = true := by decide +kernel

/-- bigint/tests.rs `bigint_gcd`: d, x, y, a, b -/
def gcdC : List (String × String × String × String × String) :=
  [("0", "0", "0", "0", "0"),
  ("7", "0", "1", "0", "7"),
  ("7", "0", "-1", "0", "-7"),
  ("11", "1", "0", "11", "0"),
  ("7", "-1", "-2", "-77", "35"),
  ("935", "-3", "8", "64515", "24310"),
  ("935", "-3", "-8", "64515", "-24310"),
  ("935", "3", "-8", "-64515", "-24310"),
  ("1", "-9", "47", "120", "23"),
  ("7", "1", "-2", "77", "35"),
  ("935", "-3", "8", "64515", "24310"),
  ("935000000000000000", "-3", "8", "64515000000000000000", "24310000000000000000")]

/-- `gcd` with the coefficients -/
example : (gcdC.all fun (d, x, y, a, b) =>
    match bGcd (rdB a) (rdB b) with
    | .ok (d1, x1, y1) => bEq d1 (rdB d) && bEq x1 (rdB x) && bEq y1 (rdB y)
    | .error _ => false) = true := by decide +kernel

/-- bigint/tests.rs `bigint_mod_inverse` -/
def invC : List (String × String) :=
  [("1234567", "458948883992"),
  ("-10", "13"),
  ("10", "-13"),
  ("-17", "-13")]

/-- `mod_inverse` -/
example : (invC.all fun (g, n) =>
    match bModInverse (rdB g) (rdB n) with
    | .ok i => isB (bModInverse (bMul (rdB g) i) (rdB n)) (litB 1)
    | .error _ => false) = true := by decide +kernel

/-- bigint/tests.rs `bigint_solve_mod_linear_equation` -/
def solveC : List (String × String × String × List String) :=
  [("14", "30", "100", ["0x5f", "0x2d"]), ("1234567", "1", "458948883992", ["0x3564cd46f"]), ("-10", "1", "13", ["0x9"]),
  ("10", "1", "-13", ["0x4"]), ("-17", "1", "-13", ["0x3"])]

/-- `solve_mod_linear_equation`; the test sorts the solutions, here each expected one must be among them -/
example : (solveC.all fun (a, b, n, xs) =>
    match bSolve (rdB a) (rdB b) (rdB n) with
    | .ok (some ys) => decide (ys.length = xs.length) && xs.all fun x => ys.any fun y => bEq y (rdB x)
    | _ => false) = true := by decide +kernel

/-- bigint/tests.rs `bigint_mul_range` -/
def bMulRangeC : List (Int × Int × String) :=
  [((-1), 1, "0"),
  ((-2), (-1), "2"),
  ((-3), (-2), "6"),
  ((-3), (-1), "-6"),
  (1, 3, "6"),
  ((-10), (-10), "-10"),
  (0, (-1), "1"),
  ((-1), (-100), "1"),
  ((-1), 1, "0"),
  ((-10), (-1), "3628800"),
  ((-20), (-2), "-2432902008176640000"),
  ((-99), (-1), "-933262154439441526816992388562667004907159682643816214685929638952175999932299156089414639761565182862536979208272237582511852109168640000000000000000000000")]

/-- `mul_range` -/
example : (bMulRangeC.all fun (a, b, c) =>
    isB (bMulRange true (BitVec.ofInt 64 a) (BitVec.ofInt 64 b)) (rdB c)) = true := by decide +kernel

/-- bigint/tests.rs `bigint_binomial` -/
def binomialC : List (Nat × Nat × String) :=
  [(0, 0, "1"),
  (0, 1, "0"),
  (1, 0, "1"),
  (1, 1, "1"),
  (1, 10, "0"),
  (4, 0, "1"),
  (4, 1, "4"),
  (4, 2, "6"),
  (4, 3, "4"),
  (4, 4, "1"),
  (10, 1, "10"),
  (10, 9, "10"),
  (10, 5, "252"),
  (11, 5, "462"),
  (11, 6, "462"),
  (100, 10, "17310309456440"),
  (100, 90, "17310309456440")]

/-- `binomial` -/
example : (binomialC.all fun (a, b, c) =>
    isB (bBinomial true (BitVec.ofNat 64 a) (BitVec.ofNat 64 b)) (rdB c)) = true := by decide +kernel

/-- bigint/tests.rs `bigint_exp` -/
def expC : List (String × String × String × String) :=
  [("0", "0", "0", "1"),
  ("1", "0", "0", "1"),
  ("-10", "0", "0", "1"),
  ("1234", "-1", "0", "1"),
  ("1234", "-1", "0", "1"),
  ("17", "-100", "1234", "865"),
  ("2", "-100", "1234", "1"),
  ("0", "0", "1", "0"),
  ("1", "0", "1", "0"),
  ("-10", "0", "1", "0"),
  ("1234", "-1", "1", "0"),
  ("5", "1", "3", "2"),
  ("5", "-7", "0", "1"),
  ("-5", "-7", "0", "1"),
  ("5", "0", "0", "1"),
  ("-5", "0", "0", "1"),
  ("5", "1", "0", "5"),
  ("-5", "1", "0", "-5"),
  ("-5", "1", "7", "2"),
  ("-2", "3", "2", "0"),
  ("5", "2", "0", "25"),
  ("0x8000000000000000", "2", "0", "0x40000000000000000000000000000000"),
  ("0x8000000000000000", "2", "6719", "4944"),
  ("0x8000000000000000", "3", "6719", "5447"),
  ("0x8000000000000000", "1000", "6719", "1603")]

/-- `exp` -/
example : (expC.all fun (a, b, n, c) =>
    isB (bExp true (rdB a) (rdB b) (rdB n)) (rdB c)) = true := by decide +kernel

/-- bigint/tests.rs `bigint_jacobi` -/
def jacobiC : List (Int × Int × Int) :=
  [(0, 1, 1),
  (0, (-1), 1),
  (1, 1, 1),
  (1, (-1), 1),
  (0, 5, 0),
  (1, 5, 1),
  (2, 5, (-1)),
  ((-2), 5, (-1)),
  (2, (-5), (-1)),
  ((-2), (-5), 1),
  (3, 5, (-1)),
  (5, 5, 0),
  ((-5), 5, 0),
  (6, 5, 1),
  (6, (-5), 1),
  ((-6), 5, 1),
  ((-6), (-5), (-1))]

/-- `jacobi` -/
example : (jacobiC.all fun (a, b, c) =>
    match bJacobi (litB a) (litB b) with | .ok j => decide (j = some c) | .error _ => false) = true := by decide +kernel

/-- bigint/tests.rs `bigint_mod_sqrt`: the check of the test, for all residues modulo the small primes of its list -/
def modSqrtOk (e p : Int) : Bool :=
  let p := litB p
  match bRemEuclid (bSqr (litB e)) p with
  | .error _ => false
  | .ok sq =>
    match bModSqrt true sq p, bModSqrt true (bAdd sq p) p, bModSqrt true (bSub sq p) p with
    | .ok (some r), .ok (some r2), .ok (some r3) =>
      bEq r r2 && bEq r r3 && (match bRemEuclid (bSqr r) p with | .ok q => bEq q sq | .error _ => false)
    | _, _, _ => false

example : ([3, 5, 7, 11].all fun p => (List.range p).all fun e => modSqrtOk e p) = true := by decide +kernel

/-- rat/test.rs `rat_partial_cmp` -/
def ratCmpC : List (String × String × Int) :=
  [("0", "0/1", 0),
  ("1/1", "1", 0),
  ("-1", "-2/2", 0),
  ("1", "0", 1),
  ("0/1", "1/1", (-1)),
  ("-5/1434770811533343057144", "-5/1434770811533343057145", (-1)),
  ("49832350382626108453/8964749413", "49832350382626108454/8964749413", (-1)),
  ("-37414950961700930/7204075375675961", "37414950961700930/7204075375675961", (-1)),
  ("37414950961700930/7204075375675961", "74829901923401860/14408150751351922", 0)]

/-- `partial_cmp` -/
example : (ratCmpC.all fun (a, b, c) =>
    rCmp (rdR a) (rdR b) == some (if c == 0 then .eq else if c > 0 then .gt else .lt)) = true := by decide +kernel

/-- rat/test.rs `rat_arith` -/
def ratArithC : List (String × String × String × String) :=
  [("0", "0", "0", "0"),
  ("0", "1", "1", "0"),
  ("-1", "0", "-1", "0"),
  ("-1", "1", "0", "-1"),
  ("1", "1", "2", "1"),
  ("1/2", "1/2", "1", "1/4"),
  ("1/4", "1/3", "7/12", "1/12"),
  ("2/5", "-14/3", "-64/15", "-28/15"),
  ("4707/49292519774798173060", "-3367/70976135186689855734", "84058377121001851123459/1749296273614329067191168098769082663020", "-1760941/388732505247628681598037355282018369560"),
  ("-61204110018146728334/3", "-31052192278051565633/2", "-215564796870448153567/6", "950260896245257153059642991192710872711/3"),
  ("-854857841473707320655/4237645934602118692642972629634714039", "-18/31750379913563777419", "-27/133467566250814981", "15387441146526731771790/134546868362786310073779084329032722548987800600710485341")]

/-- `+`, `-`, `*`, `/` -/
example : (ratArithC.all fun (a, b, s, p) =>
    isR (rAdd (rdR a) (rdR b)) (rdR s) && isR (rSub (rdR s) (rdR b)) (rdR a) && isR (rMul (rdR a) (rdR b)) (rdR p) &&
    (rEq (rdR b) (rdR "0") || isR (rDiv (rdR p) (rdR b)) (rdR a)) && (rEq (rdR a) (rdR "0") || isR (rDiv (rdR p) (rdR a)) (rdR b))) = true := by decide +kernel

/-- rat/test.rs `VALID_STR`, the texts without a decimal point -/
def ratTexts : List (String × String) :=
  [("0", "0"),
  ("-0", "0"),
  ("1", "1"),
  ("-1", "-1"),
  ("2/4", "1/2"),
  ("-1/5", "-1/5"),
  ("884243222337379604041632732738665534", "884243222337379604041632732738665534"),
  ("53/70893980658822810696", "53/70893980658822810696"),
  ("106/141787961317645621392", "53/70893980658822810696")]

/-- `rat_sign`, `rat_is_integer`, `rat_abs`, `rat_neg`, `rat_inv` -/
example : (ratTexts.all fun (a, b) =>
    let x := rdR a
    let z := rdR "0"
    rEq x (rdR b) && rIsInteger x == some (bEq x.b (litB 1)) &&
    (match rSignnum x with
      | some k => rCmp x z == some (if k == 0 then .eq else if k > 0 then .gt else .lt)
      | none => false) &&
    (if rCmp x z == some .lt then isR (rSub z x) (rAbs x) else rEq x (rAbs x)) && isR (rSub z x) (rNeg x) &&
    (rEq x z || match rFromFracBig x.b x.a, rInv x with | .ok (some u), some v => rEq u v | _, _ => false)) = true := by decide +kernel

/-- rat/test.rs `rat_frac` -/
example : ([(0, 1, "0"), (0, -1, "0"), (1, 1, "1"), (-1, 1, "-1"), (1, -1, "-1"), (-1, -1, "1"), (0, 42, "0/1")].all
    fun (e : Int × Int × String) =>
      match rFromFrac true (BitVec.ofInt 64 e.1) (BitVec.ofInt 64 e.2.1) with
      | .ok (some x) => rEq x (rdR e.2.2)
      | _ => false) = true := by decide +kernel

end RMath.Conform
