import Verif.Spec

/-!
# Machine primitives

The Rust integer operations and x86 intrinsics used by the code.  These are the operations of
the language / instruction set, not of the repository.
-/

namespace RMath

/-- `u64` -/
abbrev D := BitVec 64

/-- `_addcarryx_u32(c, a, b, &out)` – returns the sum word and the carry out. -/
def adc (c : Bool) (a b : W) : W × Bool :=
  (BitVec.ofNat 32 (a.toNat + b.toNat + c.toNat), decide (2 ^ 32 ≤ a.toNat + b.toNat + c.toNat))

/-- `_subborrow_u32(c, a, b, &out)` – returns the difference word and the borrow out. -/
def sbb (c : Bool) (a b : W) : W × Bool :=
  (a - b - BitVec.ofNat 32 c.toNat, decide (a.toNat < b.toNat + c.toNat))

/-- `u32::overflowing_add` -/
def overflowingAdd (a b : W) : W × Bool := (a + b, decide (2 ^ 32 ≤ a.toNat + b.toNat))

/-- `u32::overflowing_sub` -/
def overflowingSub (a b : W) : W × Bool := (a - b, decide (a.toNat < b.toNat))

/-- `if b {1} else {0}` as a word -/
def boolW (b : Bool) : W := if b then 1#32 else 0#32

/-- `u32 as u64` -/
def toD (w : W) : D := w.setWidth 64

/-- `u64 as u32` -/
def toW (d : D) : W := d.setWidth 32

/-- `u32::leading_zeros` -/
def leadingZeros (w : W) : Nat := if w = 0#32 then 32 else 31 - w.toNat.log2

/-- `u32::trailing_zeros` -/
def trailingZeros (w : W) : Nat := ((List.range 32).find? fun i => w.toNat.testBit i).getD 32

/-- `Vec::resize(n, 0)` -/
def resize (v : Words) (n : Nat) : Words := v.take n ++ List.replicate (n - v.length) 0#32

end RMath
