import Verif.Model.NatText
import Verif.Model.NatFun
import Verif.Model.NatExp
import Verif.Model.NatBytes
import Verif.Model.Prime

/-!
# The unit tests of the code, run on the model

These are tests, not proofs, and no property rests on them.  They are the cases of /repo/src/bigint/nat/tests.rs that the
kernel can evaluate in reasonable time: the expected values were written by the authors of the code (many were taken
over from Go's `math/big`), so that agreement is independent evidence that the model computes what the code computes.
The largest cases (long exponentiations, squares and remainders, the shift by 10000, the primality tests of larger numbers) were left out here.
-/

namespace RMath.Conform

open RMath

/-- `Nat::from_str(s).unwrap()` -/
def rdN (s : String) : Words := match natParse s.toList with | .ok (some w) => w | _ => NaN

/-- `assert_eq!(r, w)` -/
def isN (r : Res Words) (w : Words) : Bool := match r with | .ok x => eqv x w | .error _ => false

/-- `u128::MAX` as a `Nat` -/
def maxU128 : Words := match fromU128 (-1#128) with | .ok w => w | .error _ => NaN

/-- a stand-in for the random source: a linear congruential generator -/
def draws : Nat → W → List (Option W)
  | 0, _ => []
  | n + 1, w => some w :: draws n (w * 1664525#32 + 1013904223#32)

/-- nat/tests.rs `nat_pow2` -/
def natPow2 : List (String × String) :=
  [("3290008573752325757353025730253207247022057235703", "10824156415363812712326338925222078355527665104927424021239791877758156389238060000928857697904209"),
  ("0x90000000fac90247577fffffffffffffff327075770257ffffffffff157025700000000000000000000000000003277faeb", "0x510000011a222291381d3647eaf2983fa600fe84244fe3d65c15277181259444346f541bc2ada3f9fc779dd57fbc3dde437a5dc5458d1feec4f59c6527798bef33f79f172a6e22d8fffa383f112f3237ba0000000000000000000009f3163f0869d3b9")]

/-- `pow` and `exp` with the exponent 2 -/
example : (natPow2.all fun (a, c) =>
    isN (natPow (rdN a) [2#32]) (rdN c) && isN (natExp true (rdN a) [2#32] [0#32]) (rdN c)) = true := by decide +kernel

/-- nat/tests.rs `nat_sqr` -/
def natSqrC : List (String × String) :=
  [("3290008573752325757353025730253207247022057235703", "10824156415363812712326338925222078355527665104927424021239791877758156389238060000928857697904209"),
  ("11790184577738583171520872861412518665678211592275841109096961", "139008452377144732764939786789661303114218850808529137991604824430036072629766435941001769154109609521811665540548899435521"),
  ("515377520732011331036461129765621272702107522001", "265613988875874769338781322035779626829233452653394495974574961739092490901302182994384699044001")]

/-- `sqr`, `*` and `mul_karatsuba` -/
example : (natSqrC.all fun (a, c) =>
    eqv (natSqr (rdN a)) (rdN c) && eqv (natMul (rdN a) (rdN a)) (rdN c) &&
      eqv (natMulKaratsuba (rdN a) (rdN a)) (rdN c)) = true := by decide +kernel

/-- nat/tests.rs `nat_pow_mod` -/
def natPowModC : List (String × String × String × String) :=
  [("0", "0", "0", "1"),
  ("0", "0", "1", "0"),
  ("1", "1", "1", "0"),
  ("2", "1", "1", "0"),
  ("2", "2", "1", "0"),
  ("10", "100000000000", "1", "0"),
  ("0x8000000000000000", "2", "0", "0x40000000000000000000000000000000"),
  ("0x8000000000000000", "2", "6719", "4944"),
  ("0x8000000000000000", "3", "6719", "5447"),
  ("0x8000000000000000", "1000", "6719", "1603")]

/-- `pow_mod` and `exp` -/
example : (natPowModC.all fun (a, b, n, c) =>
    isN (natPowMod (rdN a) (rdN b) (rdN n)) (rdN c) && isN (natExp true (rdN a) (rdN b) (rdN n)) (rdN c)) = true := by decide +kernel

/-- nat/tests.rs `nat_sqrt` -/
def natSqrtC : List (String × String) :=
  [("12206284081173349864898827483688290254295108143553520", "110482053208534054039584038")]

/-- `sqrt` -/
example : (natSqrtC.all fun (a, c) =>
    isN (natSqrt (rdN a)) (rdN c)) = true := by decide +kernel

/-- nat/tests.rs `nat_mul_range` -/
def natMulRangeC : List (Nat × Nat × String) :=
  [(0, 0, "0"),
  (1, 1, "1"),
  (1, 2, "2"),
  (1, 3, "6"),
  (10, 10, "10"),
  (0, 100, "0"),
  (1, 0, "1"),
  (100, 1, "1"),
  (1, 10, "3628800"),
  (1, 20, "2432902008176640000"),
  (1, 100, "93326215443944152681699238856266700490715968264381621468592963895217599993229915608941463976156518286253697920827223758251185210916864000000000000000000000000")]

/-- `mul_range` -/
example : (natMulRangeC.all fun (a, b, c) =>
    isN (natMulRange (BitVec.ofNat 64 a) (BitVec.ofNat 64 b)) (rdN c)) = true := by decide +kernel

/-- nat/tests.rs `nat_prime_test`, the small primes -/
def natPrimes : List (String) :=
  ["2",
  "3",
  "5",
  "7",
  "11"]

/-- `probably_prime_test` accepts them -/
example : (natPrimes.all fun (a) =>
    match probablyPrimeTest true (rdN a) 3 (draws 60 1#32) with | .ok (some (b, _)) => b | _ => false) = true := by decide +kernel

/-- nat/tests.rs `nat_prime_test`, the smaller composites -/
def natComposites : List (String) :=
  ["0",
  "1",
  "989",
  "3239",
  "5777"]

/-- `probably_prime_test` rejects them -/
example : (natComposites.all fun (a) =>
    match probablyPrimeTest true (rdN a) 10 (draws 60 1#32) with | .ok (some (b, _)) => !b | _ => false) = true := by decide +kernel

/-- the long operands of nat/tests.rs -/
def big1 : Words := rdN "0xfffffffffffffffffffffffffffffffffff3222222222222222222234900000000000000ffffffffffffffffffffff"

/-- the long operands of nat/tests.rs -/
def big2 : Words := rdN "0xff9000000000000000000000322222222222223209053065839583093285340530493058304593058390584"

/-- nat/tests.rs `nat_cmp` -/
example : (eqv maxU128 maxU128 &&
    partialCmp maxU128 (rdN "0x1fffffffffffffffffffffffffffffffe") == some .lt &&
    partialCmp (rdN "0x1fe") [255#32] == some .gt &&
    !eqv NaN NaN &&
    !eqv maxU128 NaN &&
    !eqv NaN maxU128) = true := by decide +kernel

/-- nat/tests.rs `nat_logical` -/
example : (eqv (natAnd maxU128 maxU128) maxU128 &&
    eqv (natOr maxU128 maxU128) maxU128 &&
    eqv (natXor maxU128 maxU128) [0#32] &&
    eqv (natNot maxU128) [0#32] &&
    isNan (natAnd maxU128 NaN) &&
    eqv (natXor big1 big2) (rdN "0xfffffff006fffffffffffffffffffffcddd1000000000102b271247b7058309328534053fb6cfa7cfba6cfa7c6fa7b") &&
    eqv (natOr big1 big2) (rdN "0xfffffffffffffffffffffffffffffffffff3222222222322b273267b7958309328534053ffffffffffffffffffffff") &&
    eqv (natAnd big1 big2) (rdN "0xff9000000000000000000000322222222222222200002020009000000000000000493058304593058390584") &&
    eqv (natNot big2) (rdN "0x6fffffffffffffffffffffcdddddddddddddcdf6facf9a7c6a7cf6cd7acbfacfb6cfa7cfba6cfa7c6fa7b") &&
    eqv (natNot (rdN "0b11000011")) (rdN "0b111100")) = true := by decide +kernel

/-- nat/tests.rs `nat_shift` -/
example : (eqv (natShl (rdN "0xffffffffffffffffffffffffffffffffffffffffffffffffffffffffffffffff") 1) (rdN "0x1fffffffffffffffffffffffffffffffffffffffffffffffffffffffffffffffe") &&
    eqv (natShl big2 0) big2 &&
    eqv (natShl big2 1) (rdN "0x1ff20000000000000000000006444444444444464120a60cb072b0612650a680a609260b0608b260b0720b08") &&
    eqv (natShl big2 30) (rdN "0x3fe4000000000000000000000c8888888888888c82414c1960e560c24ca14d014c124c160c1164c160e416100000000") &&
    eqv (natShr big2 4) (rdN "0xff900000000000000000000032222222222222320905306583958309328534053049305830459305839058") &&
    eqv (natShr big2 1) (rdN "0x7fc800000000000000000000191111111111111904829832c1cac18499429a029824982c1822c982c1c82c2") &&
    eqv (natShr big2 0) big2 &&
    eqv (natShr big2 1001) [0#32] &&
    eqv (natShr (rdN "0x3fe4000000000000000000000c8888888888888c82414c1960e560c24ca14d014c124c160c1164c160e416100000000") 30) big2 &&
    eqv (natShl [0#32] 0) [0#32] &&
    eqv (natShl [0#32] 3) [0#32]) = true := by decide +kernel

/-- nat/tests.rs `nat_sub` -/
example : (eqv (natSub maxU128 maxU128) [0#32] &&
    eqv (natSub maxU128 [255#32]) [0xffffff00#32, 0xffffffff#32, 0xffffffff#32, 0xffffffff#32] &&
    eqv (natSub [255#32] maxU128) (natSub maxU128 [255#32]) &&
    eqv (natSub big1 (rdN "0x32888f300000000000000322222229750348593045830670204")) (rdN "0xfffffffffffffffffffffffffffffffffff32222221ef9992f22222348ffffffcdddddde68afcb7a6cfba7cf98fdfb") &&
    eqv (natSub (rdN "0x32888f300000000000000322222229750348593045830670204") big1) (rdN "0xfffffffffffffffffffffffffffffffffff32222221ef9992f22222348ffffffcdddddde68afcb7a6cfba7cf98fdfb") &&
    eqv (natSub (rdN "0x32f3289577420805237534573") [0xffffffff#32]) (natSubW (rdN "0x32f3289577420805237534573") 0xffffffff#32)) = true := by decide +kernel

/-- nat/tests.rs `nat_add` -/
example : (eqv (natAdd maxU128 maxU128) (rdN "0x1fffffffffffffffffffffffffffffffe") &&
    eqv (natAdd (rdN "0x1fffffffffffffffffffffffffffffffe") [1#32]) (rdN "0x1ffffffffffffffffffffffffffffffff") &&
    eqv (natAddW (rdN "0x1fffffffffffffffffffffffffffffffe") 1#32) (rdN "0x1ffffffffffffffffffffffffffffffff") &&
    eqv (natAdd big1 big2) (rdN "0x10000000ff900000000000000000000032215444444444542b275287b82583093285340540493058304593058390583") &&
    eqv (natAdd [255#32] [255#32]) (rdN "0x1fe") &&
    eqv (natAddW [255#32] 255#32) (rdN "0x1fe") &&
    isNan (natAdd NaN big1)) = true := by decide +kernel

/-- nat/tests.rs `nat_mul`, `nat_mul_by_karatsuba` -/
example : (eqv (natMul (rdN "0xffffffffffffffffffffffffffffffffffffffffffffffffffffffffffffffffff") (rdN "0xffffffffffffffffffffffffffffffffffffffffffffffffffffffffffffffff")) (rdN "0xfffffffffffffffffffffffffffffffffffffffffffffffffffffffffffffffeff0000000000000000000000000000000000000000000000000000000000000001") &&
    eqv (natMulKaratsuba (rdN "0xffffffffffffffffffffffffffffffffffffffffffffffffffffffffffffffffff") (rdN "0xffffffffffffffffffffffffffffffffffffffffffffffffffffffffffffffff")) (rdN "0xfffffffffffffffffffffffffffffffffffffffffffffffffffffffffffffffeff0000000000000000000000000000000000000000000000000000000000000001") &&
    eqv (natMul (rdN "0xffffffffffffffffffffffffffffffffffffffffffffffffffffffffffffffff") (rdN "0xffffffffffffffffffffffffffffffffffffffffffffffffffffffffffffffff")) (rdN "0xfffffffffffffffffffffffffffffffffffffffffffffffffffffffffffffffe0000000000000000000000000000000000000000000000000000000000000001") &&
    eqv (natMulKaratsuba (rdN "0xffffffffffffffffffffffffffffffffffffffffffffffffffffffffffffffff") (rdN "0xffffffffffffffffffffffffffffffffffffffffffffffffffffffffffffffff")) (rdN "0xfffffffffffffffffffffffffffffffffffffffffffffffffffffffffffffffe0000000000000000000000000000000000000000000000000000000000000001") &&
    eqv (natMul (rdN "0x123507af44107cfc63175d6cc354e6093bfeb7b0f5145641a0bc284bf1784696cc9791b18ab54de0114f6581d68041b66c7db") (rdN "0xb9bd7d543685789d57cb918e833af352559021483cdb05cc21fd")) (rdN "0xd35cc9e369cf1fd0f297f4cf7ad21a1d9d65d9b421b51d5b689b0a47485a2c1582963dfc988179047a98dd36d5644070a0f8bb94fff1e6efeacc8ba03758fe7c8c574c12cfa377bedddabe6f") &&
    eqv (natMulKaratsuba (rdN "0x123507af44107cfc63175d6cc354e6093bfeb7b0f5145641a0bc284bf1784696cc9791b18ab54de0114f6581d68041b66c7db") (rdN "0xb9bd7d543685789d57cb918e833af352559021483cdb05cc21fd")) (rdN "0xd35cc9e369cf1fd0f297f4cf7ad21a1d9d65d9b421b51d5b689b0a47485a2c1582963dfc988179047a98dd36d5644070a0f8bb94fff1e6efeacc8ba03758fe7c8c574c12cfa377bedddabe6f") &&
    eqv (natMul (rdN "2938462938472983472983659726349017249287491026512746239764525612965293865296239471239874193284792387498274256129746192347") (rdN "298472983472983471903246121093472394872319615612417471234712061")) (rdN "877051800070821244789099242710450134536982682006837233541161511456161001386576641869116186901815671895415144768179824202865342118174193449288433467901275304066981993483906649666797167") &&
    eqv (natMulKaratsuba (rdN "2938462938472983472983659726349017249287491026512746239764525612965293865296239471239874193284792387498274256129746192347") (rdN "298472983472983471903246121093472394872319615612417471234712061")) (rdN "877051800070821244789099242710450134536982682006837233541161511456161001386576641869116186901815671895415144768179824202865342118174193449288433467901275304066981993483906649666797167") &&
    eqv (natMul (rdN "0xf9058301048250fabddeabf9320480284932084552541") (rdN "0xf329053910428502fabcd9230494035242429890eacb")) (rdN "0xec882250900ba90c2088a4a5ee549ecc5152d7a50683a82daa24e03f6d6409468abf1ce1f01d9be845021f48b") &&
    eqv (natMul [10#32] [10#32]) [100#32] &&
    eqv (natMul [10#32] [0#32]) [0#32] &&
    eqv (natMul [10#32] [1#32]) [10#32] &&
    eqv (natMul maxU128 [0xffffffff#32]) (natMulW maxU128 0xffffffff#32) &&
    eqv (natMul (rdN "0x123507af44107cfc63175d6cc354e6093bfeb7b0f5145641a0bc284bf1784696cc9791b18ab54de0114f6581d68041b66c7db") [0xffffffff#32]) (natMulW (rdN "0x123507af44107cfc63175d6cc354e6093bfeb7b0f5145641a0bc284bf1784696cc9791b18ab54de0114f6581d68041b66c7db") 0xffffffff#32) &&
    eqv (natMul (rdN "0x123507af44107cfc63175d6cc354e6093bfeb7b0f5145641a0bc284bf1784696cc9791b18ab54de0114f6581d68041b66c7db") [55778796#32]) (natMulW (rdN "0x123507af44107cfc63175d6cc354e6093bfeb7b0f5145641a0bc284bf1784696cc9791b18ab54de0114f6581d68041b66c7db") 55778796#32)) = true := by decide +kernel

/-- nat/tests.rs `nat_div` -/
example : (isN (natDiv [100#32] [10#32]) [10#32] &&
    isN (natDivW [100#32] 10#32) [10#32] &&
    isN (natDivW [10#32] 100#32) [0#32] &&
    isN (natDiv (rdN "0xfffffffffff32908329058205820") (rdN "0xff")) (rdN "0x10101010100f41d2557e84060b8") &&
    isN (natDivW (rdN "0xfffffffffff32908329058205820") 0xff#32) (rdN "0x10101010100f41d2557e84060b8") &&
    isN (natDiv (rdN "0xff") (rdN "0xfffffffffff32908329058205820")) [0#32] &&
    isN (natDiv (rdN "0x39025820857032850384502853503850325fa3242de121") (rdN "0x2048537058358afedead392582075275"))
      (rdN "0x1c414f70ec1f027") &&
    isN (natDiv (rdN "0x1ad7f29abca") [10#32]) (rdN "184467440737") &&
    isN (natDivW (rdN "0x1ad7f29abca") 10#32) (rdN "184467440737")) = true := by decide +kernel

/-- nat/tests.rs `nat_rem` -/
example : (isN (natRem (rdN "0xffffffffffffff000000000000") [255#32]) [0#32] &&
    isN (natRemW (rdN "0xffffffffffffff000000000000") 255#32) [0#32] &&
    isN (natRem (rdN "0x39025820857032850384502853503850325fa3242de121") (rdN "0x2048537058358afedead392582075275"))
      (rdN "0xab9de6183b632a33dc2601ae78da14e") &&
    isN (natRem (rdN "0xfffffffffff32908329058205820") (rdN "0xff")) (rdN "0xd8") &&
    isN (natRemW (rdN "0xfffffffffff32908329058205820") 255#32) (rdN "0xd8")) = true := by decide +kernel

/-- nat/tests.rs `nat_from_and_fmt`: the word vectors of the test and their hexadecimal text -/
def fmtCases : List (Words × String) :=
  [([0x32905332#32, 0xffccddaa#32, 0#32, 0x00bb0032#32, 0x11111111#32, 0x01101039#32, 0x12345678#32, 0x87654321#32, 0#32],
    "8765432112345678011010391111111100bb003200000000ffccddaa32905332"),
  (List.replicate 7 0xffffffff#32, "ffffffffffffffffffffffffffffffffffffffffffffffffffffffff"),
  (List.replicate 7 0#32, "0"),
  ([0x32#32, 0x54#32, 0x87#32, 0x90#32, 0xaf#32, 0x7b#32, 0x4c#32, 0xdd#32],
    "dd0000004c0000007b000000af00000090000000870000005400000032"),
  ([0#32], "0"), ([111#32], "6f")]

/-- from words, from bytes in three ways, and back through the four texts -/
example : (fmtCases.all fun (x, s) =>
    let n := trim x
    let y := toLeBytes n
    decide (natLowerHex false n = s.toList) &&
    (match fromBytes y with | .ok m => eqv m n | .error _ => false) && eqv (fromLeBytes y) n && eqv (fromBeBytes y.reverse) n &&
    eqv (rdN ("0x" ++ s)) n &&
    [natUpperHex true n, natBinary true n, natOctal true n, natLowerHex true n].all fun t =>
      match natParse t with | .ok (some m) => eqv m n | _ => false) = true := by decide +kernel

end RMath.Conform
