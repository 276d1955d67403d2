import Verif.Model.NatText
import Verif.Model.NatExp

/-!
# Model of `src/bigint/bigint.rs`

As for `Nat`, these definitions describe operations whose operands live in different buffers.
A `BigInt` is its magnitude and its sign flag (`BInt`, bigint.rs:74-77).
-/

namespace RMath

/-- bigint.rs:231-236 `nan` -/
def bNan : BInt := ⟨NaN, false⟩

/-- bigint.rs:131-133 `is_nan` -/
def bIsNan (x : BInt) : Bool := isNan x.nat

/-- bigint.rs:79-84 `deep_clone` -/
def bDeepClone (x : BInt) : BInt := ⟨deepClone x.nat, x.neg⟩

/-- bigint.rs:86-88 `is_negative` -/
def bIsNegative (x : BInt) : Bool := !bIsNan x && x.neg

/-- bigint.rs:90-92 `is_positive` -/
def bIsPositive (x : BInt) : Bool := !bIsNan x && !x.neg && !eqv x.nat [0#32]

/-- bigint.rs:94-96 `is_natural` -/
def bIsNatural (x : BInt) : Bool := !bIsNan x && !x.neg

/-- bigint.rs:114-124 `signnum` -/
def bSignnum (x : BInt) : Option Int :=
  if bIsNan x then none
  else if x.neg then some (-1)
  else if eqv x.nat [0#32] then some 0
  else some 1

/-- bigint.rs:98-102 `set_natural` -/
def bSetNatural (x : BInt) : BInt := if bIsNan x then x else ⟨x.nat, false⟩

/-- bigint.rs:126-130 `set_negative` -/
def bSetNegative (x : BInt) : BInt := if !bIsNan x && !eqv x.nat [0#32] then ⟨x.nat, true⟩ else x

/-- bigint.rs:136-140 `abs` with 146-148 `abs_inner` -/
def bAbs (x : BInt) : BInt := ⟨deepClone x.nat, false⟩

/-- bigint.rs:1019-1023 `PartialEq<u32>` -/
def bEqW (x : BInt) (w : W) : Bool := !x.neg && eqv x.nat [w]

/-- bigint.rs:1013-1017 `PartialEq` -/
def bEq (x y : BInt) : Bool := x.neg == y.neg && eqv x.nat y.nat

/-- bigint.rs:34-42: the order of the signs -/
def signCmp : Bool → Bool → Ordering
  | false, true => .gt
  | true, false => .lt
  | _, _ => .eq

/-- bigint.rs:1025-1040 `PartialOrd` -/
def bCmp (x y : BInt) : Option Ordering :=
  if bIsNan x || bIsNan y then none
  else
    some ((signCmp x.neg y.neg).then
      (if x.neg then (cmpInner x.nat y.nat).swap else cmpInner x.nat y.nat))

/-- bigint.rs:390-395: the sign at the end of `add_inner`, `sub_inner` -/
def signFix (nat : Words) (neg : Bool) : BInt :=
  if isNan nat || eqv nat [0#32] then ⟨nat, false⟩ else ⟨nat, neg⟩

/-- bigint.rs:375-396 `add_inner` -/
def bAddInner (x y : BInt) : BInt :=
  if x.neg = y.neg then signFix (assignNat addInner x.nat y.nat) x.neg
  else signFix (assignNat subInner x.nat y.nat) (if ltOp x.nat y.nat then !x.neg else x.neg)

/-- bigint.rs:398-416 `sub_inner` -/
def bSubInner (x y : BInt) : BInt :=
  if x.neg ≠ y.neg then signFix (assignNat addInner x.nat y.nat) x.neg
  else signFix (assignNat subInner x.nat y.nat) (if ltOp x.nat y.nat then !x.neg else x.neg)

/-- `self.nat -= 1u32` -/
def decW (x : Words) : Words := assignPrim subInnerBasic x 1#32

/-- `self.nat += 1u32` -/
def incW (x : Words) : Words := assignPrim addInnerBasic x 1#32

/-- bigint.rs:418-436 `shr_inner` -/
def bShrInner (x : BInt) (s : Nat) : BInt :=
  if x.neg then
    let nat := incW (assignPrim shrInner (decW x.nat) s)
    ⟨nat, !isNan nat⟩
  else ⟨assignPrim shrInner x.nat s, false⟩

/-- bigint.rs:438-440 `shl_inner` -/
def bShlInner (x : BInt) (s : Nat) : BInt := ⟨assignPrim shlInner x.nat s, x.neg⟩

/-- bigint.rs:442-454 `div_inner` -/
def bDivInner (x y : BInt) : Res BInt :=
  if eqv y.nat [0#32] then .error .panic
  else
    let neg :=
      if x.neg = y.neg then false
      else match partialCmp x.nat [0#32] with
        | none => false
        | some .eq => false
        | _ => true
    match assignNatR divInner x.nat y.nat with
    | .ok q => .ok ⟨q, neg⟩
    | .error e => .error e

/-- bigint.rs:456-463 `mul_inner` -/
def bMulInner (x y : BInt) : BInt := signFix (assignNat mulInner x.nat y.nat) (x.neg != y.neg)

/-- bigint.rs:465-468 `rem_inner` -/
def bRemInner (x y : BInt) : Res BInt :=
  if eqv y.nat [0#32] then .error .panic
  else match assignNatR remInner x.nat y.nat with
    | .ok r => .ok ⟨r, x.neg⟩
    | .error e => .error e

/-- bigint.rs:485-494, 513-521, 587-595: when the signs differ, the magnitude of the non-negative operand and the
magnitude of the negative one minus one -/
def mixed (x y : BInt) : Words × Words :=
  if x.neg then (y.nat, natSubW x.nat 1#32) else (x.nat, natSubW y.nat 1#32)

/-- bigint.rs:470-496 `bitand_inner` -/
def bAndInner (x y : BInt) : BInt :=
  if x.neg = y.neg then
    if x.neg then
      let nat := incW (assignNat bitorInner (decW x.nat) (natSubW y.nat 1#32))
      ⟨nat, !isNan nat⟩
    else ⟨assignNat bitandInner x.nat y.nat, false⟩
  else
    let p := mixed x y
    ⟨andNotAssign p.1 p.2, false⟩

/-- bigint.rs:498-526 `bitor_inner` -/
def bOrInner (x y : BInt) : BInt :=
  if x.neg = y.neg then
    if x.neg then
      let nat := incW (assignNat bitandInner (decW x.nat) (natSubW y.nat 1#32))
      ⟨nat, !isNan nat⟩
    else ⟨assignNat bitorInner x.nat y.nat, false⟩
  else
    let p := mixed x y
    let nat := incW (andNotAssign p.1 p.2)
    ⟨nat, !isNan nat⟩

/-- bigint.rs:571-602 `bitxor_inner` -/
def bXorInner (x y : BInt) : BInt :=
  if x.neg = y.neg then
    if x.neg then ⟨assignNat bitxorInner (decW x.nat) (natSubW y.nat 1#32), false⟩
    else ⟨assignNat bitxorInner x.nat y.nat, false⟩
  else
    let p := mixed x y
    let nat := incW (assignNat bitxorInner p.1 p.2)
    ⟨nat, !isNan nat⟩

/-- bigint.rs:536-561 `and_not_assign` -/
def bAndNotAssign (x y : BInt) : BInt :=
  if x.neg = y.neg then
    if x.neg then ⟨andNotAssign (decW x.nat) (natSubW y.nat 1#32), false⟩
    else ⟨andNotAssign x.nat y.nat, x.neg⟩
  else if x.neg then
    let nat := incW (assignNat bitorInner (decW x.nat) y.nat)
    ⟨nat, !isNan nat⟩
  else ⟨assignNat bitandInner x.nat (natSubW y.nat 1#32), x.neg⟩

/-- bigint.rs:563-569 `neg_inner` -/
def bNegInner (x : BInt) : BInt :=
  if !bIsNan x && !bEqW x 0#32 then ⟨x.nat, !x.neg⟩ else x

/-! ## Operators (bigint_macro.rs:64-91, bigint.rs:1042-1053) -/

/-- `a + b` -/
def bAdd (x y : BInt) : BInt := bAddInner (bDeepClone x) y
/-- `a - b` -/
def bSub (x y : BInt) : BInt := bSubInner (bDeepClone x) y
/-- `a * b` -/
def bMul (x y : BInt) : BInt := bMulInner (bDeepClone x) y
/-- `a / b` -/
def bDiv (x y : BInt) : Res BInt := bDivInner (bDeepClone x) y
/-- `a % b` -/
def bRem (x y : BInt) : Res BInt := bRemInner (bDeepClone x) y
/-- `a & b` -/
def bAnd (x y : BInt) : BInt := bAndInner (bDeepClone x) y
/-- `a | b` -/
def bOr (x y : BInt) : BInt := bOrInner (bDeepClone x) y
/-- `a ^ b` -/
def bXor (x y : BInt) : BInt := bXorInner (bDeepClone x) y
/-- bigint.rs:529-533 `and_not` -/
def bAndNot (x y : BInt) : BInt := bAndNotAssign (bDeepClone x) y
/-- `a << s` -/
def bShl (x : BInt) (s : Nat) : BInt := bShlInner (bDeepClone x) s
/-- `a >> s` -/
def bShr (x : BInt) (s : Nat) : BInt := bShrInner (bDeepClone x) s
/-- bigint.rs:981-989 `-a` -/
def bNeg (x : BInt) : BInt := bNegInner (bDeepClone x)

/-- bigint.rs:991-1011 `!a` -/
def bNot (x : BInt) : BInt :=
  if bIsNan x then bNan
  else if x.neg then ⟨natSubW x.nat 1#32, false⟩
  else ⟨natAddW x.nat 1#32, true⟩

/-- bigint.rs:691-698 `is_set_bit` -/
def bIsSetBit (x : BInt) (i : Nat) : Res (Option Bool) :=
  if x.neg then
    match isSetBit (natSubW x.nat 1#32) i with
    | .ok o => .ok (o.map (!·))
    | .error e => .error e
  else isSetBit x.nat i

/-! ## Euclidean division -/

/-- bigint.rs:196-206 `rem_euclid_inner` -/
def bRemEuclidInner (x n : BInt) : Res BInt := do
  let r ← bRemInner x n
  if bIsNegative r then .ok (if bIsNegative n then bSubInner r n else bAddInner r n) else .ok r

/-- bigint.rs:186-190 `rem_euclid` -/
def bRemEuclid (x n : BInt) : Res BInt := bRemEuclidInner (bDeepClone x) n

/-- `BigInt::from(1)` and other small constants (bigint_macro.rs:36-58) -/
def bOne : BInt := ⟨[1#32], false⟩
/-- `BigInt::from(0)` -/
def bZero : BInt := ⟨[0#32], false⟩
/-- `BigInt::from(-1)` -/
def bMinusOne : BInt := ⟨[1#32], true⟩

/-- bigint.rs:219-229 `div_euclid_inner` -/
def bDivEuclidInner (x n : BInt) : Res BInt := do
  let m ← bRem x n
  let isPos := bIsPositive n
  let q ← bDivInner x n
  if bIsNegative m then .ok (if isPos then bSubInner q bOne else bAddInner q bOne) else .ok q

/-- bigint.rs:209-213 `div_euclid` -/
def bDivEuclid (x n : BInt) : Res BInt := bDivEuclidInner (bDeepClone x) n

/-! ## Greatest common divisor -/

/-- bigint.rs:282-293 `gcd_extend`; the recursion depth is bounded by `fuel`. -/
def bGcdExtend : Nat → BInt → BInt → Res (BInt × BInt × BInt)
  | 0, _, _ => .error .hang
  | fuel + 1, lhs, rhs =>
    if bEqW rhs 0#32 then .ok (lhs, bOne, bZero)
    else do
      let rem ← bRem lhs rhs
      let div ← bDiv lhs rhs
      let r ← bGcdExtend fuel rhs rem
      .ok (r.1, r.2.2, bSubInner r.2.1 (bMulInner div r.2.2))

/-- bigint.rs:247-280 `gcd`.  The fuel is the magnitude of the second operand, plus one. -/
def bGcd (x y : BInt) : Res (BInt × BInt × BInt) :=
  if bIsNan x || bIsNan y then .ok (bNan, bNan, bNan)
  else if bEqW x 0#32 && bEqW y 0#32 then .ok (bZero, bZero, bZero)
  else if bEqW x 0#32 && !bEqW y 0#32 then .ok (bAbs y, bZero, if bIsNegative y then bMinusOne else bOne)
  else if !bEqW x 0#32 && bEqW y 0#32 then .ok (bAbs x, if bIsNegative x then bMinusOne else bOne, bZero)
  else do
    let lhs := if bIsNegative x then bNeg x else bDeepClone x
    let rhs := if bIsNegative y then bNeg y else bDeepClone y
    let r ← bGcdExtend (val rhs.nat + 1) lhs rhs
    .ok (r.1, if bIsNegative x then bNegInner r.2.1 else r.2.1, if bIsNegative y then bNegInner r.2.2 else r.2.2)

/-- bigint.rs:303-328 `mod_inverse` -/
def bModInverse (x n : BInt) : Res BInt :=
  if bIsNan x || bIsNan n then .ok bNan
  else do
    let n := if bIsNegative n then bAbs n else bDeepClone n
    let g ← (if bIsNegative x then bRemEuclid x n else .ok x : Res BInt)
    let r ← bGcd g n
    .ok (if bIsNegative r.2.1 then bAddInner r.2.1 n else r.2.1)

/-- `<` on `BigInt` -/
def bLt (x y : BInt) : Bool := bCmp x y == some .lt
/-- `>` on `BigInt` -/
def bGt (x y : BInt) : Bool := bCmp x y == some .gt
/-- `>=` on `BigInt` -/
def bGe (x y : BInt) : Bool := bCmp x y == some .gt || bCmp x y == some .eq

/-- bigint.rs:359-364: the loop `while i < d` of `solve_mod_linear_equation` -/
def bSolveLoop (x0 nd n d : BInt) : Nat → BInt → Res (List BInt)
  | 0, _ => .error .hang
  | fuel + 1, i =>
    if bLt i d then do
      let r ← bRemEuclid (bAdd x0 (bMul i nd)) n
      let rs ← bSolveLoop x0 nd n d fuel (bAddInner i bOne)
      .ok (r :: rs)
    else .ok []

/-- bigint.rs:333-373 `solve_mod_linear_equation` -/
def bSolve (x b n : BInt) : Res (Option (List BInt)) :=
  if bIsNan x || bIsNan b || bIsNan n then .ok none
  else do
    let n := if bIsNegative n then bAbs n else n
    let a ← (if bIsNegative x then bRemEuclid x n else .ok x : Res BInt)
    let g ← bGcd a n
    let d := g.1
    if bGt d bZero then do
      let divides ← (if bEq b bZero then .ok true
        else (do let r ← bRem b d; .ok (bEqW r 0#32)) : Res Bool)
      if divides then do
        let q ← bDiv b d
        let x0 ← bRemEuclid (bMulInner g.2.1 q) n
        let nd ← bDiv n d
        let rs ← bSolveLoop x0 nd n d (val d.nat + 1) bZero
        .ok (some rs)
      else .ok none
    else .ok none

/-! ## Products, powers -/

/-- bigint.rs:607-625 `mul_range` on `i64`.  `checks`: built with overflow checks (then `-i64::MIN` panics). -/
def bMulRange (checks : Bool) (a b : D) : Res BInt :=
  if b.slt a then .ok bOne
  else if a.sle 0#64 && (0#64).sle b then .ok bZero
  else if a.slt 0#64 then
    if checks && (a == BitVec.intMin 64 || b == BitVec.intMin 64) then .error .panic
    else do
      let nat ← natMulRange (-b) (-a)
      .ok ⟨nat, (b - a) &&& 1#64 == 0#64⟩
  else do
    let nat ← natMulRange a b
    .ok ⟨nat, false⟩

/-- signed addition of `i64` with or without overflow checks -/
def addI64 (checks : Bool) (a b : D) : Res D := if checks && a.saddOverflow b then .error .panic else .ok (a + b)
/-- signed subtraction of `i64` -/
def subI64 (checks : Bool) (a b : D) : Res D := if checks && a.ssubOverflow b then .error .panic else .ok (a - b)

/-- bigint.rs:628-639 `binomial` on `i64` -/
def bBinomial (checks : Bool) (n k : D) : Res BInt := do
  let k ← (if (n.sshiftRight 1).slt k && k.sle n then subI64 checks n k else .ok k : Res D)
  let nk ← subI64 checks n k
  let lo ← addI64 checks nk 1#64
  let a ← bMulRange checks lo n
  let b ← bMulRange checks 1#64 k
  bDivInner a b

/-- bigint.rs:644-686 `exp` -/
def bExp (checks : Bool) (x b n : BInt) : Res BInt :=
  if bIsNan x || bIsNan b || bIsNan n then .ok bNan
  else if bIsNegative b && bEqW n 0#32 then .ok bOne
  else do
    let xwords ← (if bIsNegative b then (do let inv ← bModInverse x n; .ok inv.nat) else .ok x.nat : Res Words)
    if isNan xwords then .ok bNan
    else do
      let e ← natExp checks xwords b.nat n.nat
      let isNeg := !(e.length == 1 && e.headD 0#32 == 0#32) && bIsNegative x &&
        !(b.nat.length == 1 && b.nat.headD 0#32 == 0#32) && (b.nat.headD 0#32 &&& 1#32 == 1#32)
      if isNeg && !(n.nat.length == 1 && n.nat.headD 0#32 == 0#32) then
        .ok ⟨assignNat subInner e n.nat, false⟩
      else .ok ⟨e, isNeg⟩

/-- bigint.rs:706-716 `random` -/
def bRandom (x : BInt) (ds : List (Option W)) : Option (BInt × List (Option W)) :=
  if bIsNan x || bEqW x 0#32 then some (bNan, ds)
  else (natRandom x.nat ds).map fun r => (⟨r.1, if eqv r.1 [0#32] then false else x.neg⟩, r.2)

/-- bigint.rs:772-777 `sqr` -/
def bSqr (x : BInt) : BInt := ⟨natSqr x.nat, false⟩

/-- bigint.rs:926-935 `sqrt` -/
def bSqrt (x : BInt) : Res BInt :=
  if bIsNan x || x.neg then .ok bNan
  else do
    let r ← natSqrt x.nat
    .ok ⟨r, false⟩

/-! ## Conversions -/

/-- bigint_macro.rs:36-50, for the signed types of at most 32 bits (nat_macro.rs:5-6): `MIN` is treated apart, since
its absolute value is not representable; `(MAX as unsigned) + 1` is computed in the unsigned type of the same
width. -/
def fromISmall {w : Nat} (x : BitVec w) : BInt :=
  ⟨[if x = BitVec.intMin w then ((BitVec.intMax w + 1#w).setWidth 32) else (x.abs.setWidth 32)], x.msb⟩

/-- bigint_macro.rs:36-50 for `i64` and `isize` -/
def fromI64 (x : D) : Res BInt := do
  let n ← fromU64 (if x = BitVec.intMin 64 then BitVec.intMax 64 + 1#64 else x.abs)
  .ok ⟨n, x.msb⟩

/-- bigint_macro.rs:36-50 for `i128` -/
def fromI128 (x : BitVec 128) : Res BInt := do
  let n ← fromU128 (if x = BitVec.intMin 128 then BitVec.intMax 128 + 1#128 else x.abs)
  .ok ⟨n, x.msb⟩

/-- bigint.rs:951-979 `from_str` -/
def bParse (s : List Char) : Res (Option BInt) :=
  let s := strTrim s
  match s with
  | [] => .ok none
  | c :: cs =>
    match natParse (if c = '-' then cs else s) with
    | .error e => .error e
    | .ok none => .ok none
    | .ok (some nat) => .ok (some ⟨nat, if eqv nat [0#32] then false else c == '-'⟩)

/-- bigint_macro.rs:93-112: the sign of the printed form -/
def bFmt (x : BInt) (nat : List Char) : List Char := if bIsNegative x then '-' :: nat else nat

/-- `{}` -/
def bDisplay (x : BInt) : Res (List Char) := do
  let s ← natDisplay x.nat
  .ok (bFmt x s)
/-- `{:o}`, `{:#o}` -/
def bOctal (alternate : Bool) (x : BInt) : List Char := bFmt x (natOctal alternate x.nat)
/-- `{:x}`, `{:#x}` -/
def bLowerHex (alternate : Bool) (x : BInt) : List Char := bFmt x (natLowerHex alternate x.nat)
/-- `{:X}`, `{:#X}` -/
def bUpperHex (alternate : Bool) (x : BInt) : List Char := bFmt x (natUpperHex alternate x.nat)
/-- `{:b}` and `{:#b}`: bigint.rs:1061 uses `{:#b}` for both -/
def bBinary (_alternate : Bool) (x : BInt) : List Char := bFmt x (natBinary true x.nat)

end RMath
