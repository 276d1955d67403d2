import Verif.Model.Rat

/-!
# Model of the formatting traits seen together (`nat.rs:2115-2184`, `bigint_macro.rs:84-106`, `rat.rs:732-767`)

`Debug` of the three types, and one function per type that takes the requested format.  Width, fill and precision given
by the caller are ignored by the code and not modelled.
-/

namespace RMath

/-- The formats a caller can ask for: `{}`, `{:b}`, `{:o}`, `{:x}`, `{:X}`, `{:?}`. -/
inductive TextStyle where
  | display | binary | octal | lowerHex | upperHex | debug
deriving DecidableEq, Repr

/-- nat.rs:2115 (`nat_fmt!((Debug, "{:08x}", "0x"))`): `{:?}` and `{:#?}` -/
def natDebug (alternate : Bool) (x : Words) : List Char := natFmt false 16 8 ['0', 'x'] alternate x

/-- bigint.rs:1060, bigint_macro.rs:84-101: `{:?}` and `{:#?}` -/
def bDebug (alternate : Bool) (x : BInt) : List Char := bFmt x (natDebug alternate x.nat)

/-- rat.rs:761, rat.rs:732-752: `{:?}` and `{:#?}`; both print numerator and denominator with `{:?}` -/
def rDebug (_alternate : Bool) (x : RatV) : Res (List Char) := rFmt (fun n => .ok (bDebug false n)) x

/-- `format!` of a `Nat` in a format, with or without `#`: nat.rs:2115, 2117-2160, 2162-2184 -/
def natText (st : TextStyle) (alternate : Bool) (x : Words) : Res (List Char) :=
  match st with
  | .display => natDisplay x
  | .binary => .ok (natBinary alternate x)
  | .octal => .ok (natOctal alternate x)
  | .lowerHex => .ok (natLowerHex alternate x)
  | .upperHex => .ok (natUpperHex alternate x)
  | .debug => .ok (natDebug alternate x)

/-- `format!` of a `BigInt`: bigint.rs:1055-1062 -/
def bText (st : TextStyle) (alternate : Bool) (x : BInt) : Res (List Char) :=
  match st with
  | .display => bDisplay x
  | .binary => .ok (bBinary alternate x)
  | .octal => .ok (bOctal alternate x)
  | .lowerHex => .ok (bLowerHex alternate x)
  | .upperHex => .ok (bUpperHex alternate x)
  | .debug => .ok (bDebug alternate x)

/-- `format!` of a `Rat`: rat.rs:760-767 -/
def rText (st : TextStyle) (alternate : Bool) (x : RatV) : Res (List Char) :=
  match st with
  | .display => rDisplay x
  | .binary => rBinary alternate x
  | .octal => rOctal alternate x
  | .lowerHex => rLowerHex alternate x
  | .upperHex => rUpperHex alternate x
  | .debug => rDebug alternate x

end RMath
