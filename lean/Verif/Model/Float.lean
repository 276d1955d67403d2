import Verif.SpecFloat
import Verif.Model.NatFun
import Verif.Model.Rat
import Verif.Model.Ieee

/-!
# src/bigint/float.rs

A `Float` is the structure `FloatV`; `&mut self` becomes a returned object.  The exponent, an `isize`, is an integer, and
lengths are naturals: `exp` stays within 32 bits, so that the sums of an exponent and a length in bits do not overflow 64
bits for buffers that fit in memory.  `Natural`/`Negative` is `false`/`true`.
-/

namespace RMath

open RoundingMode (toNearestEven toNearestAway toZero awayFromZero toNegativeInf toPositiveInf)

/-- float.rs:1253-1265 `default` -/
def fDefault : FloatV := ⟨.toNearestEven, .exact, .zero, false, 0, 0, NaN⟩

/-- float.rs:77-87 `deep_clone` -/
def fDeepClone (x : FloatV) : FloatV := { x with mant := deepClone x.mant }

/-- float.rs:385-391 `make_accuracy` -/
def makeAccuracy (isAbove : Bool) : Accuracy := if isAbove then .above else .below

/-- arith_generic.rs:154-168 (float.rs:16 imports this variant) `shl_vu_inner`, the loop over the words: word `i` takes
its low bits from word `i-1`.  The loop runs downwards, so the words read are the original ones. -/
def shlVuLoop (s ss : Nat) : W → Words → Words
  | pre, a :: as => ((a <<< s) ||| (pre >>> ss)) :: shlVuLoop s ss a as
  | _, [] => []

/-- arith_generic.rs:154-168 `shl_vu_inner`: the shifted words and the bits shifted out. -/
def shlVu (x : Words) (s : Nat) : Words × W :=
  if s = 0 ∨ x = [] then (x, 0#32)
  else
    let s := s % 32
    let ss := (32 - s) % 32
    let c := x.getLastD 0#32 >>> ss
    -- the first word is shifted alone: `pre` is zero
    (shlVuLoop s ss 0#32 x, c)

/-- arith_generic.rs:185-200, arith_amd64.rs:203-218 `shr_vu_inner` with `n > 0` and `0 < s < 32`: word `i` takes its high
bits from word `i+1`, which is read before it is written. -/
def shrVu (s : Nat) : Words → Words
  | a :: b :: as => ((a >>> s) ||| (b <<< (32 - s))) :: shrVu s (b :: as)
  | [a] => [a >>> s]
  | [] => []

/-- float.rs:371-383 `fnorm`: the normalised mantissa and the shift. -/
def fnorm (nat : Words) : Res (Words × Nat) :=
  if isNan nat then .ok (nat, 0)
  else
    let s := leadingZeros (nat.getLastD 0#32)
    if s > 0 then
      let r := shlVu nat s
      if r.2 = 0#32 then .ok (r.1, s) else .error .panic
    else .ok (nat, s)

/-- float.rs:457-465: whether to increment the truncated mantissa -/
def roundInc (mode : RoundingMode) (neg : Bool) (rbit sbit lsbSet : Bool) : Bool :=
  match mode with
  | toNegativeInf => neg
  | toZero => false
  | toNearestEven => rbit && (sbit || lsbSet)
  | toNearestAway => rbit
  | awayFromZero => true
  | toPositiveInf => !neg

/-- float.rs:493-494: clear the bits of the first word below `lsb`; panics if there is no word. -/
def clearLow (lsb : W) : Words → Res Words
  | a :: as => .ok ((a &&& ~~~(lsb - 1#32)) :: as)
  | [] => .error .panic

/-- float.rs:401-495 `round`.  `add_vw_inner` adds a word to a vector (arith_generic.rs:88-94, arith_amd64.rs:87-95):
`adcBasic`.  `self.mant[0]` in the decision panics if there is no word. -/
def fRound (x : FloatV) (sbit : Nat) : Res FloatV :=
  let x := { x with acc := .exact }
  if x.form ≠ .finite then .ok x
  else
    let m := x.mant.length
    let bits := m * 32
    if bits ≤ x.prec then .ok x
    else
      let r := bits - x.prec - 1
      match isSetBit x.mant r with
      | .error e => .error e
      | .ok b =>
        let rbit : Bool := b = some true
        let sbit := if sbit = 0 ∧ (rbit = false ∨ x.mode = toNearestEven) then sticky x.mant r else sbit
        let sbit : Bool := sbit % 2 = 1
        let n := (x.prec + 31) / 32
        let mant := if m > n then (x.mant.rotateLeft (m - n)).take n else x.mant
        let ntz := n * 32 - x.prec
        let lsb : W := 1#32 <<< ntz
        if rbit || sbit then
          match mant with
          | [] => .error .panic
          | m0 :: _ =>
            let inc := roundInc x.mode x.neg rbit sbit (decide (m0 &&& lsb ≠ 0#32))
            let x := { x with acc := makeAccuracy (inc != x.neg) }
            if inc then
              let a := adcBasic false lsb mant
              if a.2 then
                if x.exp ≥ maxExp then .ok { x with form := .inf, mant := a.1 }
                else do
                  let mant := (shrVu 1 a.1).modify (n - 1) (· ||| 1#32 <<< 31)
                  let mant ← clearLow lsb mant
                  .ok { x with exp := x.exp + 1, mant := mant }
              else do
                let mant ← clearLow lsb a.1
                .ok { x with mant := mant }
            else do
              let mant ← clearLow lsb mant
              .ok { x with mant := mant }
        else do
          let mant ← clearLow lsb mant
          .ok { x with mant := mant }

/-- float.rs:108-125 `set_precision` -/
def fSetPrecision (x : FloatV) (prec : Nat) : Res FloatV :=
  let x := { x with acc := .exact }
  if prec = 0 then
    let x := { x with prec := 0 }
    if x.form = .finite then .ok { x with acc := makeAccuracy x.neg, form := .zero } else .ok x
  else
    let prec := min maxPrec prec
    let old := x.prec
    let x := { x with prec := prec }
    if x.prec < old then fRound x 0 else .ok x

/-- float.rs:128-131 `set_mode` -/
def fSetMode (x : FloatV) (mode : RoundingMode) : FloatV := { x with mode := mode, acc := .exact }

/-- float.rs:138-144 `required_min_precision` -/
def fMinPrec (x : FloatV) : Nat :=
  if x.form ≠ .finite then 0 else x.mant.length * 32 - traillingZeros x.mant

/-- float.rs:157-171 `signnum` -/
def fSignnum (x : FloatV) : Option Int :=
  if x.form = .nan then none else some (if x.form = .zero then 0 else if x.neg then -1 else 1)

/-- float.rs:173-178 `get_inf` -/
def fGetInf (neg : Bool) : FloatV := { fDefault with form := .inf, neg := neg }

/-- float.rs:195-208 `mant_exp` -/
def fMantExp (x : FloatV) : FloatV × Int :=
  let exp := if x.form = .finite then x.exp else 0
  let mant := fDeepClone x
  (if mant.form = .finite then { mant with exp := 0 } else mant, exp)

/-- float.rs:210-224 `set_exp_and_round` -/
def fSetExpAndRound (x : FloatV) (exp : Int) (sbit : Nat) : Res FloatV :=
  if exp < minExp then .ok { x with acc := makeAccuracy x.neg, form := .zero }
  else if exp > maxExp then .ok { x with acc := makeAccuracy (!x.neg), form := .inf }
  else fRound { x with form := .finite, exp := exp } sbit

/-- `isize::saturating_add` -/
def isizeSatAdd (a b : Int) : Int := max (-2 ^ 63) (min (2 ^ 63 - 1) (a + b))

/-- float.rs:241-254 `set_mant_exp`: every field of the receiver is replaced, so that the result does not depend on it.
The new content of the mantissa is a copy of that of `mant`. -/
def fSetMantExp (mant : FloatV) (exp : Int) : Res FloatV :=
  if mant.form = .finite then fSetExpAndRound mant (isizeSatAdd mant.exp exp) 0 else .ok mant

/-- float.rs:256-262 `is_negative` -/
def fIsNegative (x : FloatV) : Option Bool := if x.form = .nan then none else some x.neg

/-- float.rs:264-270 `is_infinite` -/
def fIsInfinite (x : FloatV) : Option Bool := if x.form = .nan then none else some (x.form = .inf)

/-- float.rs:277-288 `is_integer` -/
def fIsInteger (x : FloatV) : Option Bool :=
  if x.form = .nan then none
  else if x.form ≠ .finite then some (x.form = .zero)
  else if x.exp ≤ 0 then some false
  else some (decide (x.prec ≤ x.exp.toNat) || decide (fMinPrec x ≤ x.exp.toNat))

/-- `u64::leading_zeros` -/
def leadingZerosD (x : D) : Nat := if x = 0#64 then 64 else 63 - x.toNat.log2

/-- float.rs:290-313 `set_bits` -/
def fSetBits (z : FloatV) (isNeg : Bool) (x : D) : Res FloatV :=
  let z := if z.prec = 0 then { z with prec := 64 } else z
  let z := { z with acc := .exact, neg := isNeg }
  if x = 0#64 then .ok { z with form := .zero }
  else
    let s := leadingZerosD x
    let tmp := x <<< s
    let z := { z with form := .finite, mant := [toW (tmp &&& 0xffffffff#64), toW (tmp >>> 32)], exp := (64 - s : Nat) }
    if z.prec < 64 then fRound z 0 else .ok z

/-- float.rs:315-317 `set_u64` -/
def fSetU64 (z : FloatV) (x : D) : Res FloatV := fSetBits z false x

/-- float.rs:319-321 `set_i64`; `x.abs()` overflows for the least value and panics in a build with overflow checks.
Without them it returns `x`, whose bits read as unsigned are `2^63`: see `fSetI64Wrap`. -/
def fSetI64 (z : FloatV) (x : D) : Res FloatV :=
  if x = BitVec.intMin 64 then .error .panic
  else fSetBits z x.msb (if x.msb then -x else x)

/-- float.rs:319-321 `set_i64` in a build without overflow checks: `abs` wraps. -/
def fSetI64Wrap (z : FloatV) (x : D) : Res FloatV := fSetBits z x.msb (if x.msb then -x else x)

/-- float.rs:323-350 `set_f64` -/
def fSetF64 (z : FloatV) (x : D) : Res FloatV :=
  if b64.inf < mag64 x then .ok { z with form := .nan }
  else
    let z := if z.prec = 0 then { z with prec := 53 } else z
    let z := { z with acc := .exact, neg := x.msb }
    if f64IsZero x then .ok { z with form := .zero }
    else if mag64 x = b64.inf then .ok { z with form := .inf }
    else
      let r := frexp x
      let tmp := (1#64 <<< 63) ||| (r.1 <<< 11)
      let z := { z with form := .finite, mant := [toW (tmp &&& 0xffffffff#64), toW (tmp >>> 32)], exp := r.2 }
      if z.prec < 53 then fRound z 0 else .ok z

/-- float.rs:352-366 `set_float` -/
def fSetFloat (z x : FloatV) : Res FloatV :=
  let z := { z with acc := .exact, form := x.form, neg := x.neg }
  let z := if z.form = .finite then { z with exp := x.exp, mant := x.mant } else z
  if z.prec = 0 then .ok { z with prec := x.prec }
  else if z.prec < x.prec then fRound z 0
  else .ok z

/-- float.rs:497-516 `set_nat` -/
def fSetNat (z : FloatV) (x : Words) (sign : Bool) : Res FloatV :=
  if isNan x then .ok { z with form := .nan }
  else
    let bits := bitsLen x
    let z := if z.prec = 0 then { z with prec := max bits 64 } else z
    let z := { z with acc := .exact, neg := sign }
    if eqv x [0#32] then .ok { z with form := .zero }
    else do
      let r ← fnorm x
      fSetExpAndRound { z with mant := r.1 } bits 0

/-- float.rs:518-520 `set_bigint` -/
def fSetBigInt (z : FloatV) (x : BInt) : Res FloatV := fSetNat z x.nat x.neg

/-- float.rs:543-581 `uquo`.  `rem > 0u32` is false for NaN and for zero. -/
def fUquo (x y : FloatV) : Res FloatV :=
  let n : Int := (x.prec / 32 : Nat) + 1
  let d : Int := n - x.mant.length + y.mant.length
  let xadj := if d > 0 then resize (deepClone x.mant) ((x.mant.length : Int) + d).toNat else x.mant
  let d : Int := (xadj.length : Int) - y.mant.length
  do
    let quo ← natDiv xadj y.mant
    let rem ← natRem xadj y.mant
    let e : Int := x.exp - y.exp - (d - quo.length) * 32
    let sbit := if isNan rem || eqv rem [0#32] then 0 else 1
    let s ← fnorm quo
    fSetExpAndRound { x with mant := s.1 } (e - s.2) sbit

/-- float.rs:583-604 `div_inner`; the second test of line 594 is `self.is_infinite() && self.is_infinite()`. -/
def fDivInner (x y : FloatV) : Res FloatV :=
  let x := if x.prec = 0 then { x with prec := y.prec } else x
  let x := { x with neg := x.neg != y.neg }
  if x.form = .finite ∧ y.form = .finite then fUquo x y
  else
    let x := { x with acc := .exact }
    if (x.form = .zero ∧ y.form = .zero) ∨ (x.form = .inf ∧ x.form = .inf) then .ok { x with form := .nan, neg := false }
    else if x.form = .zero ∨ y.form = .inf then .ok { x with form := .zero }
    else .ok { x with form := .inf }

/-- float.rs:606-611 `msb32` -/
def msb32 (nat : Words) : W := nat.getLastD 0#32

/-- float.rs:613-624 `msb64` -/
def msb64 (nat : Words) : D :=
  match nat.reverse with
  | h :: l :: _ => (toD h <<< 32) ||| toD l
  | [h] => toD h <<< 32
  | [] => 0#64

/-- float.rs:626-657 `truncate_to_u64` -/
def fTruncU64 (x : FloatV) : Option (D × Accuracy) :=
  if x.form = .nan then none
  else if x.form = .finite then
    if x.neg then some (0#64, .above)
    else if x.exp ≤ 0 then some (0#64, .below)
    else if x.exp ≤ 64 then
      let u := msb64 x.mant >>> (64 - x.exp).toNat
      if fMinPrec x ≤ x.exp.toNat then some (u, .exact) else some (u, .below)
    else some (BitVec.allOnes 64, .below)
  else if x.form = .zero then some (0#64, .exact)
  else if x.neg then some (0#64, .above)
  else some (BitVec.allOnes 64, .below)

/-- float.rs:659-696 `truncate_to_i64`, with the result as the bits of an `i64`; `-i` does not overflow since
`0 ≤ i < 2^63`. -/
def fTruncI64 (x : FloatV) : Option (D × Accuracy) :=
  if x.form = .nan then none
  else if x.form = .finite then
    let acc := makeAccuracy x.neg
    if x.exp ≤ 0 then some (0#64, acc)
    else if x.exp ≤ 63 then
      let i := msb64 x.mant >>> (64 - x.exp).toNat
      let i := if x.neg then -i else i
      if fMinPrec x ≤ x.exp.toNat then some (i, .exact) else some (i, acc)
    else if x.neg then
      if x.exp = 64 ∧ fMinPrec x = 1 then some (BitVec.intMin 64, .exact) else some (BitVec.intMin 64, acc)
    else some (BitVec.intMax 64, .below)
  else if x.form = .zero then some (0#64, .exact)
  else if x.neg then some (BitVec.intMin 64, .above)
  else some (BitVec.intMax 64, .below)

/-- float.rs:698-808 `to_f32`: the bits of the result; the NaN is `0x7fc00000`.  `f32::MIN_POSITIVE` is the smallest
*normal* number, with code `2^23`. -/
def fToF32 (x : FloatV) : Res (W × Accuracy) :=
  if x.form = .nan then .ok (0x7fc00000#32, .exact)
  else if x.form = .finite then
    let e := x.exp - 1
    let p : Int := if e < -126 then 24 + 126 + e else 24
    if e < -126 ∧ (p < 0 ∨ (p = 0 ∧ sticky x.mant (x.mant.length * 32 - 1) = 0)) then
      .ok (if x.neg then (mk32 true 0, .above) else (mk32 false 0, .below))
    else if e < -126 ∧ p = 0 then
      .ok (if x.neg then (mk32 true (2 ^ 23), .below) else (mk32 false (2 ^ 23), .above))
    else do
      let r ← fSetFloat { fDefault with prec := p.toNat } x
      let e := r.exp - 1
      if r.form = .inf ∨ e > 127 then
        .ok (if x.neg then (mk32 true b32.inf, .below) else (mk32 false b32.inf, .above))
      else
        let sign : W := if x.neg then 1#32 <<< 31 else 0#32
        if e < -126 then
          let p := 24 + 126 + e
          .ok (sign ||| 0#32 ||| (msb32 r.mant >>> (32 - p).toNat), r.acc)
        else
          let bexp : W := BitVec.ofNat 32 ((e + 127).toNat * 2 ^ 23)
          .ok (sign ||| bexp ||| ((msb32 r.mant >>> 8) &&& ((1#32 <<< 23) - 1#32)), r.acc)
  else if x.form = .zero then .ok (mk32 x.neg 0, .exact)
  else .ok (mk32 x.neg b32.inf, .exact)

/-- float.rs:810-916 `to_f64`: the bits of the result; the NaN is `0x7ff8000000000000`.  Line 853 forgets the sign. -/
def fToF64 (x : FloatV) : Res (D × Accuracy) :=
  if x.form = .nan then .ok (0x7ff8000000000000#64, .exact)
  else if x.form = .finite then
    let e := x.exp - 1
    let p : Int := if e < -1022 then 53 + 1022 + e else 53
    if e < -1022 ∧ (p < 0 ∨ (p = 0 ∧ sticky x.mant (x.mant.length * 32 - 1) = 0)) then
      .ok (if x.neg then (mk64 true 0, .above) else (mk64 false 0, .below))
    else if e < -1022 ∧ p = 0 then
      .ok (if x.neg then (mk64 false (2 ^ 52), .below) else (mk64 false (2 ^ 52), .above))
    else do
      let r ← fSetFloat { fDefault with prec := p.toNat } x
      let e := r.exp - 1
      if r.form = .inf ∨ e > 1023 then
        .ok (if x.neg then (mk64 true b64.inf, .below) else (mk64 false b64.inf, .above))
      else
        let sign : D := if x.neg then 1#64 <<< 63 else 0#64
        if e < -1022 then
          let p := 53 + 1022 + e
          .ok (sign ||| 0#64 ||| (msb64 r.mant >>> (64 - p).toNat), r.acc)
        else
          let bexp : D := BitVec.ofNat 64 ((e + 1023).toNat * 2 ^ 52)
          .ok (sign ||| bexp ||| ((msb64 r.mant >>> 11) &&& ((1#64 <<< 52) - 1#64)), r.acc)
  else if x.form = .zero then .ok (mk64 x.neg 0, .exact)
  else .ok (mk64 x.neg b64.inf, .exact)

/-- float.rs:918-922 `abs` -/
def fAbs (x : FloatV) : FloatV := { fDeepClone x with neg := false }

/-- float.rs:929-933 `nan` -/
def fNan : FloatV := { fDefault with form := .nan }

/-- float.rs:939-968, 1032-1050: align the mantissas and combine them by `f`; the new mantissa and the exponent of its
least bit. -/
def fAlign (f : Words → Words → Words) (x y : FloatV) : Words × Int :=
  let ex : Int := x.exp - x.mant.length * 32
  let ey : Int := y.exp - y.mant.length * 32
  if ex < ey then (assignNat f x.mant (natShl y.mant (ey - ex).toNat), ex)
  else if ex > ey then (assignNat f (assignPrim shlInner x.mant (ex - ey).toNat) y.mant, ey)
  else (assignNat f x.mant y.mant, ex)

/-- float.rs:939-972 `uadd` -/
def fUadd (x y : FloatV) : Res FloatV := do
  let r := fAlign addInner x y
  let s ← fnorm r.1
  fSetExpAndRound { x with mant := s.1 } (r.2 + (r.1.length * 32 : Nat) - s.2) 0

/-- float.rs:1027-1061 `usub` -/
def fUsub (x y : FloatV) : Res FloatV :=
  let r := fAlign subInner x y
  if eqv r.1 [0#32] then .ok { x with mant := r.1, acc := .exact, form := .zero, neg := false }
  else do
    let s ← fnorm r.1
    fSetExpAndRound { x with mant := s.1 } (r.2 + (r.1.length * 32 : Nat) - s.2) 0

/-- float.rs:1169-1193: the comparison loop of `ucmp`, over the words from the top; a missing word counts as zero. -/
def ucmpLoop : Words → Words → Int
  | a :: as, b :: bs => if a < b then -1 else if b < a then 1 else ucmpLoop as bs
  | a :: as, [] => if a < 0#32 then -1 else if 0#32 < a then 1 else ucmpLoop as []
  | [], b :: bs => if 0#32 < b then -1 else if b < 0#32 then 1 else ucmpLoop [] bs
  | [], [] => 0

/-- float.rs:1161-1194 `ucmp` -/
def fUcmp (x y : FloatV) : Int :=
  if x.exp < y.exp then -1
  else if x.exp > y.exp then 1
  else ucmpLoop x.mant.reverse y.mant.reverse

/-- float.rs:989-1008, 1071-1089: `x + y` (`same`) or `x - y` of the magnitudes, and the sign of an exact zero.  In the
last case the result is made from a copy of `y`, and keeps its precision and mode. -/
def fAddFinite (same : Bool) (x y : FloatV) : Res FloatV := do
  let z ←
    if same then fUadd x y
    else if fUcmp x y > 0 then fUsub x y
    else fUsub { fDeepClone y with neg := !x.neg } x
  .ok (if z.form = .zero ∧ z.mode = toNegativeInf ∧ z.acc = .exact then { z with neg := true } else z)

/-- float.rs:974-1025 `add_inner` -/
def fAddInner (x y : FloatV) : Res FloatV :=
  let x := if x.prec = 0 then { x with prec := y.prec } else x
  if x.form = .finite ∧ y.form = .finite then fAddFinite (x.neg == y.neg) x y
  else if x.form = .inf ∧ y.form = .inf ∧ x.neg ≠ y.neg then .ok { x with acc := .exact, form := .nan, neg := false }
  else if x.form = .inf ∨ y.form = .zero then .ok x
  else fSetFloat x y

/-- float.rs:1063-1112 `sub_inner` -/
def fSubInner (x y : FloatV) : Res FloatV :=
  let x := if x.prec = 0 then { x with prec := y.prec } else x
  if x.form = .finite ∧ y.form = .finite then fAddFinite (x.neg != y.neg) x y
  else if x.form = .inf ∧ y.form = .inf ∧ x.neg = y.neg then .ok { x with acc := .exact, form := .nan, neg := false }
  else if x.form = .zero ∧ y.form = .zero then .ok { x with acc := .exact, form := .zero, neg := x.neg && !y.neg }
  else if x.form = .inf ∨ y.form = .zero then .ok x
  else fSetFloat x y

/-- float.rs:1114-1126 `umul` -/
def fUmul (x y : FloatV) : Res FloatV := do
  let e := x.exp + y.exp
  let s ← fnorm (assignNat mulInner x.mant y.mant)
  fSetExpAndRound { x with mant := s.1 } (e - s.2) 0

/-- float.rs:1128-1157 `mul_inner` -/
def fMulInner (x y : FloatV) : Res FloatV :=
  let x := if x.prec = 0 then { x with prec := y.prec } else x
  let x := { x with neg := x.neg != y.neg }
  if x.form = .finite ∧ y.form = .finite then fUmul x y
  else
    let x := { x with acc := .exact }
    if (x.form = .zero ∧ y.form = .inf) ∨ (x.form = .inf ∧ y.form = .zero) then .ok { x with form := .nan, neg := false }
    else if x.form = .inf ∨ y.form = .inf then .ok { x with form := .inf }
    else .ok { x with form := .zero }

/-- float.rs:1201-1217 `ord` -/
def fOrd (x : FloatV) : Option Int :=
  let m : Option Int := match x.form with
    | .finite => some 1
    | .zero => some 0
    | .inf => some 2
    | .nan => none
  if x.neg then m.map (fun v => -v) else m

/-- float.rs:1223-1240 `cmp_inner` -/
def fCmpInner (x y : FloatV) : Option Int :=
  match fOrd x, fOrd y with
  | some mx, some my =>
    some (if mx < my then -1 else if mx > my then 1
      else if mx = -1 then fUcmp y x else if mx = 1 then fUcmp x y else 0)
  | _, _ => none

/-- float.rs:1393-1400 `eq` -/
def fEq (x y : FloatV) : Bool := match fCmpInner x y with | some c => c == 0 | none => false

/-- float.rs:1402-1414 `partial_cmp` -/
def fPartialCmp (x y : FloatV) : Option Ordering :=
  (fCmpInner x y).map fun c => if c > 0 then .gt else if c < 0 then .lt else .eq

/-- float.rs:1243-1251 `neg` -/
def fNeg (x : FloatV) : FloatV := let z := fDeepClone x; { z with neg := !z.neg }

/-- float.rs:1297-1391: the operators `a ∘ b` on values -/
def fOp (f : FloatV → FloatV → Res FloatV) (x y : FloatV) : Res FloatV :=
  if x.form = .nan ∨ y.form = .nan then .ok fNan else f (fDeepClone x) y

/-- float.rs:1297-1391: the operators `a ∘= b`.  The buffers of `x` and `y` are taken to be different. -/
def fOpAssign (f : FloatV → FloatV → Res FloatV) (x y : FloatV) : Res FloatV :=
  if x.form = .nan ∨ y.form = .nan then .ok { x with form := .nan } else f x y

/-- float.rs:1369-1381 `a * b` -/
def fMul := fOp fMulInner
/-- float.rs:1321-1333 `a + b` -/
def fAdd := fOp fAddInner
/-- float.rs:1345-1357 `a - b` -/
def fSub := fOp fSubInner
/-- float.rs:1297-1309 `a / b` -/
def fDiv := fOp fDivInner

/-- float.rs:1268, float_macro.rs:2-16: `Float::from` of `u8`, …, `u64` -/
def fFromU64 (x : D) : Res FloatV := fSetU64 fDefault x
/-- float.rs:1269: `Float::from` of `i8`, …, `i64` -/
def fFromI64 (x : D) : Res FloatV := fSetI64 fDefault x
/-- float.rs:1270: `Float::from` of `f32` (converted to `f64`, which is exact) and `f64` -/
def fFromF64 (x : D) : Res FloatV := fSetF64 fDefault x
/-- float.rs:1272-1278 `From<BigInt>` -/
def fFromBigInt (x : BInt) : Res FloatV := fSetBigInt fDefault x
/-- float.rs:1281-1287 `From<Nat>` -/
def fFromNat (x : Words) : Res FloatV := fSetNat fDefault x false

/-- float.rs:522-539 `set_rat`, 1289-1295 `From<Rat>` -/
def fFromRat (x : RatV) : Res FloatV :=
  match rIsInteger x with
  | some true => fSetBigInt fDefault x.a
  | some false => do
    let a ← fFromBigInt x.a
    let b ← fFromBigInt x.b
    fOpAssign fDivInner a b
  | none => .ok { fDefault with form := .nan }

end RMath
