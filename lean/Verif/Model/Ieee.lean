import Verif.Model.Prim
import Verif.SpecIeee

/-!
# The machine's floating point operations, and src/bigint/util.rs

The code relies on the hardware for a few operations on `f64`: conversion of an integer (`as f64`), conversion to single
precision (`as f32`), multiplication and division by powers of two.  IEEE 754 defines their results: the exact result,
rounded to nearest, ties to even.  `rneBits` computes that; `Lemmas/Ieee.lean` proves that it satisfies the specification
`Fmt.Nearest`.
-/

namespace RMath

/-- `n / d` rounded to the nearest integer, ties to even. -/
def rneDiv (n d : Nat) : Nat :=
  let q := n / d
  let r := n % d
  if 2 * r < d then q else if d < 2 * r then q + 1 else q + q % 2

/-- The largest `e` with `2 ^ e ≤ n / d`. -/
def floorLog (n d : Nat) : Int :=
  let e : Int := (n.log2 : Int) - d.log2
  if d * 2 ^ e.toNat ≤ n * 2 ^ (-e).toNat then e else e - 1

/-- The code of `n / d` rounded to nearest, ties to even: the result IEEE 754 prescribes for every operation whose exact
result is `n / d`. -/
def rneBits (F : Fmt) (n d : Nat) : Nat :=
  if n = 0 then 0
  else
    let emin : Int := 1 - F.bias
    let p := max (floorLog n d) emin
    let t : Int := p - F.mb
    let k := rneDiv (n * 2 ^ (-t).toNat) (d * 2 ^ t.toNat)
    min ((p - emin).toNat * 2 ^ F.mb + k) F.inf

/-- The value of a finite code as a fraction. -/
def fmtNum (F : Fmt) (code : Nat) : Nat :=
  if code / 2 ^ F.mb = 0 then code % 2 ^ F.mb else (2 ^ F.mb + code % 2 ^ F.mb) * 2 ^ (code / 2 ^ F.mb - 1)

/-- The denominator belonging to `fmtNum`. -/
def fmtDen (F : Fmt) : Nat := 2 ^ (F.bias + F.mb - 1)

/-- The code of the magnitude of a double: its bits without the sign. -/
def mag64 (x : D) : Nat := x.toNat % 2 ^ 63

/-- A double from a sign and the code of its magnitude. -/
def mk64 (neg : Bool) (code : Nat) : D := BitVec.ofNat 64 ((if neg then 2 ^ 63 else 0) + code)

/-- A single from a sign and the code of its magnitude. -/
def mk32 (neg : Bool) (code : Nat) : W := BitVec.ofNat 32 ((if neg then 2 ^ 31 else 0) + code)

/-- Hardware: `x * y` for finite doubles. -/
def hwMul (x y : D) : D :=
  mk64 (x.msb != y.msb) (rneBits b64 (fmtNum b64 (mag64 x) * fmtNum b64 (mag64 y)) (fmtDen b64 * fmtDen b64))

/-- Hardware: `n as f64` for an unsigned integer. -/
def hwOfU64 (n : Nat) : D := mk64 false (rneBits b64 n 1)

/-- Hardware: `x as f32` for a double that is not a NaN. -/
def hwTo32 (x : D) : W :=
  if mag64 x = b64.inf then mk32 x.msb b32.inf else mk32 x.msb (rneBits b32 (fmtNum b64 (mag64 x)) (fmtDen b64))

/-- `f == 0f64` -/
def f64IsZero (x : D) : Bool := mag64 x == 0

/-- `f.is_infinite() || f.is_nan()` -/
def f64NotFinite (x : D) : Bool := decide (b64.inf ≤ mag64 x)

/-- util.rs:5-13 `normalize`.  `x.abs() < 2^-1022` for a finite `x` is: the exponent field is zero; `fexp` is 2^52, exactly. -/
def f64Normalize (x : D) : D × Int :=
  if mag64 x < 2 ^ 52 then (hwMul x (BitVec.ofNat 64 ((1023 + 52) * 2 ^ 52)), -52) else (x, 0)

/-- util.rs:24-39 `frexp` -/
def frexp (f : D) : D × Int :=
  if f64IsZero f then (f, 0)
  else if f64NotFinite f then (f, 0)
  else
    let r := f64Normalize f
    let x := r.1
    let exp := r.2 + (((x >>> 52) &&& 0x7ff#64).toNat : Int) - 1023 + 1
    let x := x &&& ~~~(0x7ff#64 <<< 52)
    let x := x ||| (1022#64 <<< 52)
    (x, exp)

/-- util.rs:48-82 `ldexp`.  `frac < 0f64` for a non-zero `frac` is its sign bit; the divisions and products that make
`1.0` and `2^-53` are exact. -/
def ldexp (frac : D) (exp : Int) : D :=
  if f64IsZero frac then frac
  else if f64NotFinite frac then frac
  else
    let r := f64Normalize frac
    let frac := r.1
    let exp := exp + r.2
    let x := frac
    let exp := exp + ((((x >>> 52) &&& 2047#64).toNat : Int) - 1023)
    if exp < -1075 then mk64 frac.msb 0
    else if exp > 1023 then mk64 frac.msb b64.inf
    else
      let sub := exp < -1022
      let exp := if sub then exp + 53 else exp
      let m : D := BitVec.ofNat 64 (if sub then (1023 - 53) * 2 ^ 52 else 1023 * 2 ^ 52)
      let x := x &&& ~~~(2047#64 <<< 52)
      let x := x ||| (BitVec.ofNat 64 (exp + 1023).toNat <<< 52)
      hwMul m x

end RMath
