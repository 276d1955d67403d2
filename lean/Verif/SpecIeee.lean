import Mathlib.Data.Rat.Defs
import Mathlib.Algebra.Field.Rat
import Mathlib.Algebra.Order.Ring.Rat

/-!
# Specification vocabulary for rounding to an IEEE 754 binary format

Nothing here refers to the model of the code.  A format is given by the widths of its mantissa and exponent fields.  The
*code* of a non-negative number is the number whose binary digits are the two fields, without the sign bit.
-/

namespace RMath

/-- A binary interchange format: `mb` bits of mantissa, `eb` bits of exponent. -/
structure Fmt where
  mb : Nat
  eb : Nat
  hmb : 0 < mb
  heb : 1 < eb

/-- binary64, Rust's `f64` -/
def b64 : Fmt := ⟨52, 11, by decide, by decide⟩
/-- binary32, Rust's `f32` -/
def b32 : Fmt := ⟨23, 8, by decide, by decide⟩

/-- The exponent bias. -/
def Fmt.bias (F : Fmt) : Nat := 2 ^ (F.eb - 1) - 1

/-- The code of infinity: all ones in the exponent field, zero in the mantissa field.  The codes below it are those of
the finite non-negative numbers of the format. -/
def Fmt.inf (F : Fmt) : Nat := (2 ^ F.eb - 1) * 2 ^ F.mb

/-- The number with the given code: `0.m · 2^(1-bias)` if the exponent field is zero, else `1.m · 2^(e-bias)`. -/
def Fmt.value (F : Fmt) (code : Nat) : ℚ :=
  let e : Nat := code / 2 ^ F.mb
  let m : Nat := code % 2 ^ F.mb
  if e = 0 then (m : ℚ) * 2 ^ (1 - (F.bias : ℤ) - F.mb) else (2 ^ F.mb + m : ℚ) * 2 ^ ((e : ℤ) - F.bias - F.mb)

/-- `code` is `q ≥ 0` rounded to nearest, ties to even: a finite number at least as near to `q` as every other finite
number of the format, with an even code if another one is equally near; or infinity, exactly from half a unit in the
last place above the largest finite number on. -/
def Fmt.Nearest (F : Fmt) (q : ℚ) (code : Nat) : Prop :=
  (code < F.inf ∧ q < 2 ^ ((F.bias : ℤ) + 1) - 2 ^ ((F.bias : ℤ) - F.mb - 1) ∧
    ∀ c, c < F.inf → |F.value code - q| ≤ |F.value c - q| ∧
      (|F.value c - q| = |F.value code - q| → c ≠ code → code % 2 = 0)) ∨
  (code = F.inf ∧ 2 ^ ((F.bias : ℤ) + 1) - 2 ^ ((F.bias : ℤ) - F.mb - 1) ≤ q)

end RMath
