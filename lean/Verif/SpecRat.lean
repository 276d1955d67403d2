import Verif.Spec
import Mathlib.Data.Rat.Defs
import Mathlib.Algebra.Field.Rat

/-!
# Specification vocabulary for `Rat` and for the machine's floating point numbers

Nothing here refers to the model of the code.
-/

namespace RMath

/-- A `Rat` object: numerator and denominator. -/
structure RatV where
  a : BInt
  b : BInt
deriving DecidableEq, Repr

/-- The rational number denoted by a `Rat`. -/
def qval (r : RatV) : ℚ := (ival r.a : ℚ) / (ival r.b : ℚ)

/-- What every `Rat` that is a number satisfies, however it was made: canonical magnitudes, a denominator that is not
zero, and a sign on the denominator only if the numerator is zero.  The numerator may be "minus zero". -/
def RatOk (r : RatV) : Prop :=
  Canon r.a.nat ∧ Canon r.b.nat ∧ val r.b.nat ≠ 0 ∧ (r.b.neg = true → val r.a.nat = 0)

/-- Lowest terms: canonical integers without a common factor, positive denominator. -/
def LowestTerms (r : RatV) : Prop :=
  CanonI r.a ∧ CanonI r.b ∧ 0 < ival r.b ∧ Int.gcd (ival r.a) (ival r.b) = 1

/-- A double is finite if its exponent field is not all ones. -/
def f64Finite (bits : BitVec 64) : Prop := bits.toNat / 2 ^ 52 % 2 ^ 11 ≠ 2047

instance (bits : BitVec 64) : Decidable (f64Finite bits) := inferInstanceAs (Decidable (_ ≠ _))

/-- The number denoted by the 64 bits of a finite double (IEEE 754 binary64): sign bit, 11 bits of exponent, 52 bits of
mantissa. -/
def f64val (bits : BitVec 64) : ℚ :=
  let s : ℚ := if bits.toNat / 2 ^ 63 = 1 then -1 else 1
  let e : Nat := bits.toNat / 2 ^ 52 % 2 ^ 11
  let m : Nat := bits.toNat % 2 ^ 52
  if e = 0 then s * m / 2 ^ 1074 else s * (2 ^ 52 + m) * 2 ^ e / 2 ^ 1075

end RMath
