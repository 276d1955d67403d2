import Verif.Model.Rat
import Verif.Model.Ieee

/-!
# Model of `Rat::to_f32` and `Rat::to_f64` (src/bigint/rat.rs:111-321)

`quo_to_f32` and `quo_to_f64` consist of the same steps with different constants; the steps are modelled once, with the
width `w` of the mantissa variable and the constants as parameters.
-/

namespace RMath

/-- rat.rs:169-186 and 253-269, steps 1 and 2: align, divide.  Returns quotient, remainder and exponent. -/
def quoDivide (msize2 : Int) (a b : Words) : Res (Words × Words × Int) := do
  let exp : Int := (bitsLen a : Int) - bitsLen b
  let isGreat := decide (msize2 > exp)
  let shift := if isGreat then (msize2 - exp).toNat else (exp - msize2).toNat
  let a2 := if isGreat then shlInner (deepClone a) shift else deepClone a
  let b2 := if isGreat then deepClone b else shlInner (deepClone b) shift
  let q ← natDiv a2 b2
  let r ← natRem a2 b2
  .ok (q, r, exp)

/-- rat.rs:189-197 and 276-284, step 3: drop a surplus bit.  Returns mantissa, remainder flag and exponent. -/
def quoFit {w : Nat} (msize2 : Nat) (mantissa : BitVec w) (haveRem : Bool) (exp : Int) : BitVec w × Bool × Int :=
  if mantissa >>> msize2 = 1#w then (mantissa >>> 1, haveRem || mantissa &&& 1#w == 1#w, exp + 1)
  else (mantissa, haveRem, exp)

/-- rat.rs:203-211 and 290-298: in the denormal range, lose some more bits. -/
def quoDenormal {w : Nat} (msize : Nat) (ebias : Int) (mantissa : BitVec w) (haveRem : Bool) (exp : Int) :
    BitVec w × Bool × Int :=
  let emin := 1 - ebias
  if emin - msize ≤ exp ∧ exp ≤ emin then
    let shift := (emin - (exp - 1)).toNat
    let lost := mantissa &&& ((1#w <<< shift) - 1#w)
    (mantissa >>> shift, haveRem || lost != 0#w, 2 - ebias)
  else (mantissa, haveRem, exp)

/-- rat.rs:213-226 and 300-313: round half to even.  Returns mantissa, the exactness flag and exponent. -/
def quoRound {w : Nat} (msize2 : Nat) (mantissa : BitVec w) (haveRem : Bool) (exp : Int) : BitVec w × Bool × Int :=
  if mantissa &&& 1#w ≠ 0#w then
    if haveRem || mantissa &&& 2#w != 0#w then
      let m := mantissa + 1#w
      if m ≥ 1#w <<< msize2 then ((m >>> 1) >>> 1, false, exp + 1) else (m >>> 1, false, exp)
    else (mantissa >>> 1, false, exp)
  else (mantissa >>> 1, !haveRem, exp)

/-- rat.rs:189-226 and 276-313: steps 3 and 4 together, with the panic between them. -/
def quoSteps {w : Nat} (msize : Nat) (ebias : Int) (mantissa : BitVec w) (haveRem : Bool) (exp : Int) :
    Res (BitVec w × Bool × Int) :=
  let f := quoFit (msize + 2) mantissa haveRem exp
  if f.1 >>> (msize + 1) ≠ 1#w then .error .panic
  else
    let d := quoDenormal msize ebias f.1 f.2.1 f.2.2
    .ok (quoRound (msize + 2) d.1 d.2.1 d.2.2)

/-- rat.rs:240-321 `quo_to_f64`, the bits of the double and the exactness flag -/
def quoToF64 (a b : Words) : Res (D × Bool) :=
  if eqv a [0#32] then .ok (0#64, true)
  else do
    let qr ← quoDivide 54 a b
    let q := qr.1
    let m : D :=
      if q.length > 1 then (q.headD 0#32).setWidth 64 ||| ((q.tail.headD 0#32).setWidth 64 <<< 32)
      else (q.headD 0#32).setWidth 64
    let s ← quoSteps 52 1023 m (ltOp [0#32] qr.2.1) qr.2.2
    let f := ldexp (hwOfU64 s.1.toNat) (s.2.2 - 53)
    if mag64 f = b64.inf then .ok (f, false) else .ok (f, s.2.1)

/-- rat.rs:155-234 `quo_to_f32`, the bits of the single and the exactness flag.  The `return` is missing in the test for
zero (rat.rs:165-167), so that test has no effect. -/
def quoToF32 (a b : Words) : Res (W × Bool) := do
  let qr ← quoDivide 25 a b
  let m : W := qr.1.headD 0#32
  let s ← quoSteps 23 127 m (ltOp [0#32] qr.2.1) qr.2.2
  let f := hwTo32 (ldexp (hwOfU64 s.1.toNat) (s.2.2 - 24))
  if f.toNat % 2 ^ 31 = b32.inf then .ok (f, false) else .ok (f, s.2.1)

/-- rat.rs:135-149 `to_f64` -/
def rToF64 (x : RatV) : Res (D × Bool) :=
  if rIsNan x then .ok (0x7ff8000000000000#64, false)
  else do
    let r ← quoToF64 x.a.nat (if eqv x.b.nat [0#32] then [1#32] else x.b.nat)
    .ok (if x.a.neg then (r.1 ^^^ (1#64 <<< 63), r.2) else r)

/-- rat.rs:115-129 `to_f32` -/
def rToF32 (x : RatV) : Res (W × Bool) :=
  if rIsNan x then .ok (0x7fc00000#32, false)
  else do
    let r ← quoToF32 x.a.nat (if eqv x.b.nat [0#32] then [1#32] else x.b.nat)
    .ok (if x.a.neg then (r.1 ^^^ (1#32 <<< 31), r.2) else r)

end RMath
