/-!
# Specification vocabulary

The few notions needed to read the property theorems.  Nothing here refers to the model of
the code.

* `val ws`  – the number denoted by a little-endian vector of 32-bit words.
* `Canon ws` – canonical form: at least one word, and no superfluous leading zero word.
* `enc n`   – the canonical vector that denotes `n`.
* `NaN`     – the empty vector.
* `bytesVal bs` – the number denoted by a little-endian byte string.
* `numeral base s` – the number denoted by a string of digits.
-/

namespace RMath

/-- `u32` -/
abbrev W := BitVec 32

/-- `Vec<u32>`, least significant word first.  This is the content of a `Nat` object. -/
abbrev Words := List W

/-- The number denoted by a vector: `Σ ws[i] * 2^(32*i)`. -/
def val : Words → Nat
  | [] => 0
  | w :: ws => w.toNat + 2 ^ 32 * val ws

/-- The empty vector is the "not a number" object. -/
abbrev NaN : Words := []

/-- Canonical form: not NaN, and the most significant word is not zero unless it is the only
word. -/
def Canon (ws : Words) : Prop :=
  ∃ h : ws ≠ [], ws.length = 1 ∨ ws.getLast h ≠ 0

/-- The canonical vector of a number (`val_enc`, `canon_enc` and `canon_eq_enc` in
`Verif.Lemmas.Basic` show that it is the only canonical vector with that value). -/
def enc (n : Nat) : Words :=
  if n < 2 ^ 32 then [BitVec.ofNat 32 n]
  else BitVec.ofNat 32 n :: enc (n / 2 ^ 32)
termination_by n
decreasing_by omega

/-- `u8` -/
abbrev Byte := BitVec 8

/-- The number denoted by a byte string, least significant byte first: `Σ bs[i] * 256^i`. -/
def bytesVal : List Byte → Nat
  | [] => 0
  | b :: bs => b.toNat + 256 * bytesVal bs

/-- The value of a character as a digit; 16 if it is not a hexadecimal digit. -/
def digitOf (c : Char) : Nat :=
  if '0' ≤ c ∧ c ≤ '9' then c.toNat - '0'.toNat
  else if 'a' ≤ c ∧ c ≤ 'f' then c.toNat - 'a'.toNat + 10
  else if 'A' ≤ c ∧ c ≤ 'F' then c.toNat - 'A'.toNat + 10
  else 16

/-- The value of a string of digits in the given base (most significant first); `none` for the empty string and
for a string with a character that is not a digit of the base. -/
def numeral (base : Nat) (s : List Char) : Option Nat :=
  if s ≠ [] ∧ ∀ c ∈ s, digitOf c < base then some (s.foldl (fun n c => base * n + digitOf c) 0) else none

/-- A `BigInt` object: content of the magnitude's buffer and sign flag (`true` for `Negative`). -/
structure BInt where
  nat : Words
  neg : Bool
deriving DecidableEq, Repr

/-- The integer denoted by a `BigInt`. -/
def ival (x : BInt) : Int := if x.neg then -(val x.nat : Int) else (val x.nat : Int)

/-- A `BigInt` in canonical form: canonical magnitude, and zero is not negative. -/
def CanonI (x : BInt) : Prop := Canon x.nat ∧ (x.neg = true → val x.nat ≠ 0)

/-- The canonical `BigInt` that denotes `z`. -/
def encI (z : Int) : BInt := ⟨enc z.natAbs, decide (z < 0)⟩

/-- Ways in which a call may fail to return. -/
inductive Err where
  /-- the call panics -/
  | panic
  /-- the loop does not finish within the fuel given to it by the model -/
  | hang
deriving DecidableEq, Repr

/-- Result of a call that may panic. -/
abbrev Res (α : Type) := Except Err α

/-- What the right shift of the code computes for the number `n` stored in `L` words (C06).  `n / 2^s` would be right.  If `s`
is a multiple of 32 (not 0) the low words are kept instead of the high ones.  Otherwise, if whole words are shifted out and
the top word vanishes, the word of `n` at the new top position is left over above the right result. -/
def shrWords (L n s : Nat) : Nat :=
  if s < 32 ∨ 32 * L ≤ s then n / 2 ^ s
  else if s % 32 = 0 then n % 2 ^ (32 * (L - s / 32))
  else if n < 2 ^ (32 * (L - 1) + s % 32) then
    n / 2 ^ s + 2 ^ (32 * (L - 1 - s / 32)) * (n / 2 ^ (32 * (L - 1 - s / 32)) % 2 ^ 32)
  else n / 2 ^ s

end RMath
