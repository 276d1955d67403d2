import Verif.Spec
import Mathlib.Data.Rat.Floor
import Mathlib.Algebra.Order.Field.Rat
import Mathlib.Order.WithBot

/-!
# Specification vocabulary for multi-precision floating point numbers

Nothing here refers to the model of the code.

* `FloatV` – the content of a `Float` object; `fval` the number it denotes; `fext` the same with the infinities.
* `FloatOk` – the representation invariant that float_para.rs:30-49 states in its comment.
* `RoundsTo mode x k` – the integer `k` is `x` rounded in the given mode.
* `Rounded mode p q r` – `r` is `q` rounded to `p` significant binary digits.
* `FloatResult mode p q z` – the object `z` is a correct answer for the exact result `q`.
* `Exactly q z` – the object `z` denotes exactly `q`; `truncZ`, `clampZ` – truncation and saturation.
-/

namespace RMath

/-- float_para.rs:5-18 -/
inductive RoundingMode where
  | toNearestEven | toNearestAway | toZero | awayFromZero | toNegativeInf | toPositiveInf
deriving DecidableEq, Repr

/-- float_para.rs:23-27 -/
inductive Accuracy where
  | below | exact | above
deriving DecidableEq, Repr

/-- float_para.rs:50-55 -/
inductive Form where
  | zero | finite | inf | nan
deriving DecidableEq, Repr

/-- A `Float` object: rounding mode, accuracy of the last operation, kind, sign (`true` for negative), precision in bits,
exponent, content of the mantissa's buffer. -/
structure FloatV where
  mode : RoundingMode
  acc : Accuracy
  form : Form
  neg : Bool
  prec : Nat
  exp : Int
  mant : Words
deriving DecidableEq, Repr

/-- The number denoted by a finite object: the mantissa is a binary fraction below 1, times `2 ^ exp`.  Zero for the
other kinds. -/
def fval (x : FloatV) : ℚ :=
  if x.form = .finite then
    (if x.neg then -1 else 1) * ((val x.mant : ℚ) / 2 ^ (32 * x.mant.length) * 2 ^ x.exp)
  else 0

/-- The extended number denoted by an object, `none` for the NaN: `⊥` and `⊤` are the infinities. -/
def fext (x : FloatV) : Option (WithBot (WithTop ℚ)) :=
  match x.form with
  | .nan => none
  | .inf => some (if x.neg then ⊥ else ((⊤ : WithTop ℚ) : WithBot (WithTop ℚ)))
  | _ => some (((fval x : ℚ) : WithTop ℚ) : WithBot (WithTop ℚ))

/-- `Float::max_exp()` -/
def maxExp : Int := 2 ^ 31 - 1
/-- `Float::min_exp()` -/
def minExp : Int := -2 ^ 31
/-- `Float::max_precision()` -/
def maxPrec : Nat := 2 ^ 32 - 1

/-- The representation invariant: a finite object has a mantissa whose top bit is set, no more words than the precision
needs, no bits beyond the precision, and an exponent in range. -/
def FloatOk (x : FloatV) : Prop :=
  x.form = .finite →
    x.mant ≠ [] ∧ 2 ^ (32 * x.mant.length - 1) ≤ val x.mant ∧ 1 ≤ x.prec ∧ 32 * (x.mant.length - 1) < x.prec ∧
    2 ^ (32 * x.mant.length - x.prec) ∣ val x.mant ∧ minExp ≤ x.exp ∧ x.exp ≤ maxExp

/-- `k` is `x` rounded to an integer. -/
def RoundsTo (mode : RoundingMode) (x : ℚ) (k : ℤ) : Prop :=
  match mode with
  | .toNearestEven => |x - k| ≤ 1 / 2 ∧ (|x - k| = 1 / 2 → k % 2 = 0)
  | .toNearestAway => |x - k| ≤ 1 / 2 ∧ (|x - k| = 1 / 2 → |x| ≤ |(k : ℚ)|)
  | .toZero => k = if 0 ≤ x then ⌊x⌋ else ⌈x⌉
  | .awayFromZero => k = if 0 ≤ x then ⌈x⌉ else ⌊x⌋
  | .toNegativeInf => k = ⌊x⌋
  | .toPositiveInf => k = ⌈x⌉

/-- `r` is `q` rounded to `p` significant binary digits: if `2^(e-1) ≤ |q| < 2^e`, the unit in the last place is
`2^(e-p)`, and `r` is a multiple of it, chosen by the mode. -/
def Rounded (mode : RoundingMode) (p : Nat) (q r : ℚ) : Prop :=
  (q = 0 ∧ r = 0) ∨
  ∃ e k : ℤ, 2 ^ (e - 1) ≤ |q| ∧ |q| < 2 ^ e ∧ r = k * 2 ^ (e - p) ∧ RoundsTo mode (q / 2 ^ (e - p)) k

/-- The accuracy flag for the delivered value `r` of the exact result `q`. -/
def accOf (q r : ℚ) : Accuracy := if r < q then .below else if r = q then .exact else .above

/-- `z` is a correct answer, in the given mode and precision, for the exact result `q`: the rounded value if the exponent
permits; an infinity if the rounded value is too large; a zero if the exact result is zero or too small.  The flag tells
the direction of the error.  The sign of the object is that of `q`, if `q` is not zero. -/
def FloatResult (mode : RoundingMode) (p : Nat) (q : ℚ) (z : FloatV) : Prop :=
  z.mode = mode ∧ z.prec = p ∧ FloatOk z ∧ (q ≠ 0 → z.neg = decide (q < 0)) ∧
  match z.form with
  | .finite => 2 ^ (minExp - 1) ≤ |q| ∧ Rounded mode p q (fval z) ∧ z.acc = accOf q (fval z)
  | .inf => (∃ r, Rounded mode p q r ∧ 2 ^ maxExp ≤ |r|) ∧ z.acc = if q < 0 then .below else .above
  | .zero => |q| < 2 ^ (minExp - 1) ∧ z.acc = accOf q 0
  | .nan => False

/-- `z` denotes exactly the number `q`, satisfies the invariant and is flagged exact. -/
def Exactly (q : ℚ) (z : FloatV) : Prop :=
  FloatOk z ∧ fext z = some ((q : WithTop ℚ) : WithBot (WithTop ℚ)) ∧ z.acc = .exact

/-- Truncation towards zero. -/
def truncZ (q : ℚ) : ℤ := if 0 ≤ q then ⌊q⌋ else ⌈q⌉

/-- Saturation at the ends of a range. -/
def clampZ (lo hi t : ℤ) : ℤ := max lo (min hi t)

end RMath
