import Verif.Model.Float

/-!
# Machine numbers: conversions and comparisons

`usize` is 64 bits wide.  The conversions to `Nat` are in `NatBytes`, those of the signed types to `BigInt` in `BigInt`.
-/

namespace RMath

/-- nat_macro.rs:58-68, nat.rs:2196: `Nat == u8`, `u16` and `u32` -/
def eqU32 (x : Words) (u : W) : Bool := if isNan x then false else x == fromU32 u

/-- nat_macro.rs:58-68, nat.rs:2196: `Nat == u64` and `usize` -/
def eqU64 (x : Words) (u : D) : Res Bool := if isNan x then .ok false else do
  let y ← fromU64 u
  .ok (x == y)

/-- nat_macro.rs:58-68, nat.rs:2196: `Nat == u128` -/
def eqU128 (x : Words) (u : BitVec 128) : Res Bool := if isNan x then .ok false else do
  let y ← fromU128 u
  .ok (x == y)

/-- nat_macro.rs:76-83, nat.rs:2208: `partial_cmp` with `u8`, `u16` and `u32` -/
def cmpU32 (x : Words) (u : W) : Option Ordering := partialCmp x (fromU32 u)

/-- nat_macro.rs:76-83, nat.rs:2208: `partial_cmp` with `u64` and `usize` -/
def cmpU64 (x : Words) (u : D) : Res (Option Ordering) := do
  let y ← fromU64 u
  .ok (partialCmp x y)

/-- nat_macro.rs:76-83, nat.rs:2208: `partial_cmp` with `u128` -/
def cmpU128 (x : Words) (u : BitVec 128) : Res (Option Ordering) := do
  let y ← fromU128 u
  .ok (partialCmp x y)

/-- bigint_macro.rs:20-29, bigint.rs:938: `BigInt::from` for `u8`, `u16` and `u32` -/
def bFromU32 (u : W) : BInt := ⟨fromU32 u, false⟩

/-- bigint_macro.rs:20-29, bigint.rs:938: `BigInt::from` for `u64` and `usize` -/
def bFromU64 (u : D) : Res BInt := do
  let n ← fromU64 u
  .ok ⟨n, false⟩

/-- bigint_macro.rs:20-29, bigint.rs:938: `BigInt::from` for `u128` -/
def bFromU128 (u : BitVec 128) : Res BInt := do
  let n ← fromU128 u
  .ok ⟨n, false⟩

/-- rat.rs:649-658: `Rat::from` a machine integer or a `Nat`, after the conversion of that to `BigInt` -/
def rFromPrim (n : BInt) : RatV := ⟨n, bFromU32 1#32⟩

/-- Hardware: `x as f64` for an `f32`: exact; a NaN stays a NaN. -/
def hwTo64 (x : W) : D :=
  let c := x.toNat % 2 ^ 31
  if b32.inf < c then mk64 x.msb (b64.inf + 2 ^ 51 + (c - b32.inf))
  else if c = b32.inf then mk64 x.msb b64.inf
  else mk64 x.msb (rneBits b64 (fmtNum b32 c) (fmtDen b32))

/-- float.rs:1270, float_macro.rs:2-16: `Float::from` of an `f32` -/
def fFromF32 (x : W) : Res FloatV := fFromF64 (hwTo64 x)

/-- rat.rs:643-647: `Rat::from` of an `f32` -/
def rFromF32 (x : W) : Res RatV := rFromF64 (hwTo64 x)

end RMath
