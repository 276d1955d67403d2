import Verif.Model.BigInt
import Verif.SpecRat

/-!
# Model of `Rat` (src/bigint/rat.rs)

A `Rat` (rat.rs:19-30, `RatV` in `SpecRat.lean`) is a pair of `BigInt`s.  Every function below builds its result from fresh buffers (deep clones or computed
values), so the sharing of buffers (see `Model/Heap.lean`) does not show; the one exception is the private `clear`
(rat.rs:409-411), which the assigning operators call on a NaN operand.

Simplifications: error values are reduced to `none`; text with a decimal point is read by `f64::from_str` of the Rust
standard library, which is a parameter `stdF64` of the model of `from_str`.  `{:?}` is in `Model/Text.lean`.
-/

namespace RMath

/-- rat.rs:34-36 `is_nan` -/
def rIsNan (x : RatV) : Bool := bIsNan x.a || bIsNan x.b

/-- rat.rs:38-43 `deep_clone` -/
def rDeepClone (x : RatV) : RatV := ⟨bDeepClone x.a, bDeepClone x.b⟩

/-- rat.rs:356-361 `nan` -/
def rNan : RatV := ⟨bNan, ⟨[1#32], false⟩⟩

/-- rat.rs:323-348 `norm`.  `t` says whether the fraction is reduced. -/
def rNorm (x : RatV) : Res RatV :=
  let za := bIsNan x.a || eqv x.a.nat [0#32]
  let zb := bIsNan x.b || eqv x.b.nat [0#32]
  let a : BInt := if za then ⟨x.a.nat, false⟩ else x.a
  let b : BInt := if zb then ⟨[1#32], x.b.neg⟩ else x.b
  if za || zb then .ok ⟨a, b⟩
  else do
    let g ← bGcd ⟨a.nat, false⟩ ⟨b.nat, false⟩
    if eqv g.1.nat [1#32] then .ok ⟨a, ⟨b.nat, false⟩⟩
    else do
      let p ← divInner a.nat g.1.nat
      let q ← divInner b.nat g.1.nat
      .ok ⟨⟨p, a.neg⟩, ⟨q, false⟩⟩

/-- rat.rs:45-56 `from_frac`.  `checks` says whether the build traps arithmetic overflow (debug builds): the negation
and the absolute value of `isize::MIN` overflow, and wrap without the trap. -/
def rFromFrac (checks : Bool) (n d : BitVec 64) : Res (Option RatV) :=
  if d = 0#64 then .ok none
  else if checks && ((d.msb && n == BitVec.intMin 64) || d == BitVec.intMin 64) then .error .panic
  else do
    let a ← fromI64 (if d.msb then -n else n)
    let b ← fromI64 (if d.msb then -d else d)
    let z ← rNorm ⟨a, b⟩
    .ok (some z)

/-- rat.rs:58-69 `from_frac_bigint` -/
def rFromFracBig (n d : BInt) : Res (Option RatV) :=
  if eqv d.nat [0#32] then .ok none
  else do
    let z ← rNorm ⟨if d.neg then bNeg n else bDeepClone n, bAbs d⟩
    .ok (some z)

/-- rat.rs:95-98: the loop that drops trailing zero bits of the mantissa.  The fuel bounds the number of rounds: `shift`
goes down by one in each. -/
def rTrimMant : Nat → D → Int → Res (D × Int)
  | 0, _, _ => .error .hang
  | fuel + 1, m, s => if m &&& 1#64 = 0#64 ∧ s > 0 then rTrimMant fuel (m >>> 1) (s - 1) else .ok (m, s)

/-- rat.rs:71-109 `from_f64`, on the bits of the argument.  `f < 0f64` is: the sign bit is set and the magnitude is not
zero (a non-finite argument returns before that test). -/
def rFromF64 (bits : D) : Res RatV :=
  let mantissa := bits &&& ((1#64 <<< 52) - 1#64)
  let exp : Int := ((bits >>> 52) &&& 2047#64).toNat
  if exp = 2047 then .ok rNan
  else do
    let m := if exp = 0 then mantissa else mantissa ||| (1#64 <<< 52)
    let e : Int := if exp = 0 then exp - 1022 else exp - 1023
    let r ← rTrimMant 1076 m (52 - e)
    let a ← fromU64 r.1
    let neg := bits.msb && !(bits <<< 1 == 0#64)
    let s : Nat := if r.2 > 0 then r.2.toNat else (-r.2).toNat
    rNorm ⟨⟨a, neg⟩, ⟨shlInner [1#32] s, false⟩⟩

/-- rat.rs:350-354 `abs` -/
def rAbs (x : RatV) : RatV := ⟨⟨deepClone x.a.nat, false⟩, bDeepClone x.b⟩

/-- rat.rs:363-379 `inv` -/
def rInv (x : RatV) : Option RatV :=
  if rIsNan x then some rNan
  else if eqv x.a.nat [0#32] then none
  else some ⟨⟨deepClone x.b.nat, x.a.neg⟩, ⟨deepClone x.a.nat, false⟩⟩

/-- rat.rs:388-390 `signnum` -/
def rSignnum (x : RatV) : Option Int := bSignnum x.a

/-- rat.rs:393-399 `is_integer` -/
def rIsInteger (x : RatV) : Option Bool :=
  if rIsNan x then none else some (eqv x.a.nat [0#32] || bEqW x.b 1#32)

/-- rat.rs:413-423 `mul_denom` -/
def rMulDenom (x y : Words) : Words :=
  if eqv x [0#32] && eqv y [0#32] then [1#32]
  else if eqv x [0#32] then deepClone y
  else if eqv y [0#32] then deepClone x
  else opNat mulInner x y

/-- rat.rs:425-434 `scale_denom`; `BigInt::from(Nat)` (bigint.rs:942-949) copies -/
def rScaleDenom (x : BInt) (f : Words) : BInt :=
  if eqv f [0#32] then bDeepClone x else ⟨deepClone (opNat mulInner x.nat f), x.neg⟩

/-- rat.rs:436-443 `cmp_inner` with 612-620 `partial_cmp` -/
def rCmp (x y : RatV) : Option Ordering :=
  if rIsNan x || rIsNan y then none
  else
    let a := rScaleDenom x.a y.b.nat
    let b := rScaleDenom y.a x.b.nat
    some (if bEq a b then .eq else if bCmp a b = some .lt then .lt else .gt)

/-- rat.rs:603-610 `==` -/
def rEq (x y : RatV) : Bool := rCmp x y == some .eq

/-- rat.rs:446-456 `add_inner` -/
def rAddInner (x y : RatV) : Res RatV :=
  rNorm ⟨bAddInner (rScaleDenom x.a y.b.nat) (rScaleDenom y.a x.b.nat), ⟨rMulDenom x.b.nat y.b.nat, false⟩⟩

/-- rat.rs:459-470 `sub_inner` -/
def rSubInner (x y : RatV) : Res RatV :=
  rNorm ⟨bSubInner (rScaleDenom x.a y.b.nat) (rScaleDenom y.a x.b.nat), ⟨rMulDenom x.b.nat y.b.nat, false⟩⟩

/-- rat.rs:472-496 `mul_inner` -/
def rMulInner (x y : RatV) : Res RatV :=
  if rEq x y then rNorm ⟨bSqr x.a, if eqv x.b.nat [0#32] then ⟨[1#32], false⟩ else bSqr x.b⟩
  else rNorm ⟨bMul x.a y.a, ⟨deepClone (rMulDenom x.b.nat y.b.nat), false⟩⟩

/-- rat.rs:498-514 `div_inner` -/
def rDivInner (x y : RatV) : Res RatV :=
  if eqv y.a.nat [0#32] then .error .panic
  else
    let a := rScaleDenom x.a y.b.nat
    let b := rScaleDenom y.a x.b.nat
    rNorm ⟨⟨a.nat, a.neg != b.neg⟩, b⟩

/-- rat.rs:572-579 `Add` -/
def rAdd (x y : RatV) : Res RatV := if rIsNan x || rIsNan y then .ok rNan else rAddInner x y
/-- rat.rs:563-570 `Sub` -/
def rSub (x y : RatV) : Res RatV := if rIsNan x || rIsNan y then .ok rNan else rSubInner x y
/-- rat.rs:540-550 `Mul` -/
def rMul (x y : RatV) : Res RatV := if rIsNan x || rIsNan y then .ok rNan else rMulInner x y
/-- rat.rs:517-527 `Div` -/
def rDiv (x y : RatV) : Res RatV := if rIsNan x || rIsNan y then .ok rNan else rDivInner x y

/-- rat.rs:409-411 `clear` -/
def rClear (x : RatV) : RatV := ⟨⟨[], x.a.neg⟩, x.b⟩

/-- rat.rs:592-601 `AddAssign` -/
def rAddAssign (x y : RatV) : Res RatV := if rIsNan x || rIsNan y then .ok (rClear x) else rAddInner x y
/-- rat.rs:581-590 `SubAssign` -/
def rSubAssign (x y : RatV) : Res RatV := if rIsNan x || rIsNan y then .ok (rClear x) else rSubInner x y
/-- rat.rs:552-561 `MulAssign`: only the left operand is tested -/
def rMulAssign (x y : RatV) : Res RatV := if rIsNan x then .ok (rClear x) else rMulInner x y
/-- rat.rs:529-538 `DivAssign` -/
def rDivAssign (x y : RatV) : Res RatV := if rIsNan x || rIsNan y then .ok (rClear x) else rDivInner x y

/-- rat.rs:622-635 `Neg` -/
def rNeg (x : RatV) : RatV := if rIsNan x then rNan else ⟨bNeg x.a, bDeepClone x.b⟩

/-- rat.rs:668-675 `From<BigInt>`; the conversions from machine integers and `Nat` (649-666) are this one after the
conversion to `BigInt` -/
def rFromBig (n : BInt) : RatV := ⟨bDeepClone n, ⟨[1#32], false⟩⟩

/-- The text before the first `c` and the text after it; `str::find` with the two slices of rat.rs:702-703 -/
def splitAtChar (c : Char) : List Char → Option (List Char × List Char)
  | [] => none
  | d :: ds => if d = c then some ([], ds) else (splitAtChar c ds).map fun p => (d :: p.1, p.2)

/-- rat.rs:677-730 `from_str`.  `stdF64` stands for `f64::from_str` (bits of the result). -/
def rParse (stdF64 : List Char → Option D) (s : List Char) : Res (Option RatV) :=
  let s := strTrim s
  if s = [] then .ok none
  else if '.' ∈ s then
    match stdF64 s with
    | none => .ok none
    | some f =>
      -- `f.is_nan()`: exponent all ones, mantissa not zero
      if ((f >>> 52) &&& 2047#64) = 2047#64 ∧ f <<< 12 ≠ 0#64 then .ok none
      else do
        let z ← rFromF64 f
        .ok (some z)
  else do
    let ab ← (match splitAtChar '/' s with
      | some (l, r) => do
        let a ← bParse l
        let b ← bParse r
        .ok (a, b)
      | none => do
        let a ← bParse s
        .ok (a, some ⟨[1#32], false⟩) : Res (Option BInt × Option BInt))
    match ab with
    | (some a, some b) =>
      if bIsNan a || bIsNan b then .ok none
      else if eqv b.nat [0#32] then .ok none
      else .ok (some ⟨⟨a.nat, a.neg != b.neg⟩, ⟨b.nat, false⟩⟩)
    | _ => .ok none

/-- rat.rs:732-758 the formatting macro, for a formatting function of `BigInt` -/
def rFmt (f : BInt → Res (List Char)) (x : RatV) : Res (List Char) :=
  if rIsNan x then .ok ['N', 'a', 'N']
  else do
    let a ← f x.a
    let b ← f x.b
    .ok (a ++ '/' :: b)

/-- rat.rs:762 `Display` -/
def rDisplay (x : RatV) : Res (List Char) := rFmt bDisplay x
/-- rat.rs:763 `Binary` -/
def rBinary (alternate : Bool) (x : RatV) : Res (List Char) := rFmt (fun n => .ok (bBinary alternate n)) x
/-- rat.rs:764 `Octal` -/
def rOctal (alternate : Bool) (x : RatV) : Res (List Char) := rFmt (fun n => .ok (bOctal alternate n)) x
/-- rat.rs:765 `LowerHex` -/
def rLowerHex (alternate : Bool) (x : RatV) : Res (List Char) := rFmt (fun n => .ok (bLowerHex alternate n)) x
/-- rat.rs:766 `UpperHex` -/
def rUpperHex (alternate : Bool) (x : RatV) : Res (List Char) := rFmt (fun n => .ok (bUpperHex alternate n)) x

end RMath
