import Verif.SpecFloat
import Mathlib.Data.Nat.Digits.Defs

/-!
# Specification vocabulary for decimal text

Nothing here refers to the model of the code.

* `ExpText e p t q` – the text `t` is `[-]d.ddd…e[-]dd` with `p` digits behind the point, and denotes `q`.
* `PointText p t q` – the text `t` is `[-]ddd.ddd…` with `p` digits behind the point, and denotes `q`.
* `NearestDigits n q r` – `r` is `q` rounded to `n` significant decimal digits; `NearestPlaces p q r` – to `p` digits behind
  the point.  Ties to even.
* `PlainZeros N` – the decimal numeral of `N` has no zero in front of its last non-zero digit.
* `AwayDigits n q r` – as `NearestDigits`, but ties away from zero.
* `blanked N`, `lowWords L N` – what two defects of the conversion make of a numerator.
* `DecText` – a decimal number as one writes it: `[-]ddd`, `[-]ddd.ddd`, `[-]ddde[-]ddd` or `[-]ddd.ddde[-]ddd`; its
  characters are `DecText.text`, the number it denotes is `DecText.value`.
-/

namespace RMath

/-- A sign in front of a text, and its meaning. -/
def signText (neg : Bool) : List Char := if neg then ['-'] else []
/-- The factor a sign stands for. -/
def signQ (neg : Bool) : ℚ := if neg then -1 else 1

/-- `t` is a number in scientific notation with exponent character `e` and `p` digits behind the point, whose first digit
is not zero and whose exponent has at least two digits; it denotes `q`. -/
def ExpText (e : Char) (p : Nat) (t : List Char) (q : ℚ) : Prop :=
  ∃ (neg : Bool) (d : Char) (frac : List Char) (eneg : Bool) (ed : List Char) (m x : Nat),
    t = signText neg ++ d :: (if p = 0 then [] else '.' :: frac) ++ e :: signText eneg ++ ed ∧
    d ≠ '0' ∧ frac.length = p ∧ 2 ≤ ed.length ∧ numeral 10 (d :: frac) = some m ∧ numeral 10 ed = some x ∧
    q = signQ neg * m * 10 ^ ((if eneg then -(x : ℤ) else x) - p)

/-- `t` is a number in positional notation with `p` digits behind the point; it denotes `q`. -/
def PointText (p : Nat) (t : List Char) (q : ℚ) : Prop :=
  ∃ (neg : Bool) (int frac : List Char) (m : Nat),
    t = signText neg ++ int ++ (if p = 0 then [] else '.' :: frac) ∧ int ≠ [] ∧ (int.head? = some '0' → int = ['0']) ∧
    frac.length = p ∧ numeral 10 (int ++ frac) = some m ∧ q = signQ neg * m / 10 ^ p

/-- `r` is `q` rounded to `n` significant decimal digits, ties to even: if `10^(e-1) ≤ |q| < 10^e`, the unit in the last
place is `10^(e-n)`. -/
def NearestDigits (n : Nat) (q r : ℚ) : Prop :=
  ∃ e k : ℤ, 10 ^ (e - 1) ≤ |q| ∧ |q| < 10 ^ e ∧ r = k * 10 ^ (e - n) ∧ RoundsTo .toNearestEven (q / 10 ^ (e - n)) k

/-- `r` is `q` rounded to `p` decimal digits behind the point, ties to even. -/
def NearestPlaces (p : Nat) (q r : ℚ) : Prop :=
  ∃ k : ℤ, r = k / 10 ^ p ∧ RoundsTo .toNearestEven (q * 10 ^ p) k

/-- The decimal numeral of `N` consists of digits other than zero, followed by zeros. -/
def PlainZeros (N : Nat) : Prop := ∃ c j, N = c * 10 ^ j ∧ ∀ d ∈ Nat.digits 10 c, d ≠ 0

/-- `r` is `q` rounded to `n` significant decimal digits, ties away from zero. -/
def AwayDigits (n : Nat) (q r : ℚ) : Prop :=
  ∃ e k : ℤ, 10 ^ (e - 1) ≤ |q| ∧ |q| < 10 ^ e ∧ r = k * 10 ^ (e - n) ∧ RoundsTo .toNearestAway (q / 10 ^ (e - n)) k

/-- How many digits of the decimal numeral of `N` are zeros. -/
def zeroDigits (N : Nat) : Nat := (Nat.digits 10 N).count 0

/-- `N` with as many of its last decimal digits replaced by zeros as it has zeros, wherever they are: 100 for 101,
1230000 for 1230405. -/
def blanked (N : Nat) : Nat := N / 10 ^ zeroDigits N * 10 ^ zeroDigits N

/-- How an integer (`k = 0`) or a fraction with numerator `E` is rounded to `n` digits: ties to even – but away from zero for
an integer that still ends with a zero when as many digits are cut off as it has zeros. -/
def DigitsFor (E k n : Nat) (q r : ℚ) : Prop :=
  if k = 0 ∧ 10 ∣ E / 10 ^ zeroDigits E then AwayDigits n q r else NearestDigits n q r

/-- `N`, unless its binary numeral is a whole number of 32-bit words, but shorter than `L` words; then what is left of its
low bits after `N` is moved up to fill `L` words and all but as many low words as `N` has are cut off. -/
def lowWords (L N : Nat) : Nat :=
  let b := N.log2 + 1
  if b < 32 * L ∧ 32 ∣ b then N * 2 ^ (32 * L - b) % 2 ^ b else N

/-- A decimal number as one writes it: sign, digits in front of the point, digits behind the point (`none` if there is no
point), and exponent (`none` if there is none): its character, its sign, its digits. -/
structure DecText where
  neg : Bool
  int : List Char
  frac : Option (List Char)
  exp : Option (Char × Bool × List Char)
deriving DecidableEq, Repr

namespace DecText

/-- The text is well formed: digits where they are expected. -/
def Ok (t : DecText) : Prop :=
  t.int ≠ [] ∧ (∀ c ∈ t.int, digitOf c < 10) ∧ (∀ f, t.frac = some f → ∀ c ∈ f, digitOf c < 10) ∧
  ∀ c n ds, t.exp = some (c, n, ds) → (c = 'e' ∨ c = 'E') ∧ ds ≠ [] ∧ ∀ c ∈ ds, digitOf c < 10

/-- The characters. -/
def text (t : DecText) : List Char :=
  signText t.neg ++ t.int ++ (match t.frac with | none => [] | some f => '.' :: f) ++
    match t.exp with | none => [] | some (c, n, ds) => c :: signText n ++ ds

/-- All the digits of the number. -/
def digits (t : DecText) : List Char := t.int ++ t.frac.getD []

/-- The exponent that is written, 0 if there is none. -/
def written (t : DecText) : ℤ :=
  match t.exp with
  | none => 0
  | some (_, n, ds) => if n then -(((numeral 10 ds).getD 0 : Nat) : ℤ) else ((numeral 10 ds).getD 0 : Nat)

/-- The exponent of the last digit. -/
def scale (t : DecText) : ℤ := t.written - (t.frac.getD []).length

/-- The number the text denotes. -/
def value (t : DecText) : ℚ := signQ t.neg * ((numeral 10 t.digits).getD 0 : Nat) * 10 ^ t.scale

/-- No superfluous zero in front of the digits. -/
def NoLeadingZero (ds : List Char) : Prop := ds = ['0'] ∨ ds.head? ≠ some '0'

/-- The exponent, if there is one, is written without superfluous zeros and is a possible exponent of a `Float`. -/
def ExpFine (t : DecText) : Prop :=
  ∀ c n ds, t.exp = some (c, n, ds) → NoLeadingZero ds ∧ minExp ≤ t.written ∧ t.written ≤ maxExp

end DecText

end RMath
