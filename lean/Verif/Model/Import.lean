import Verif.Model.BigInt

/-!
# Import and export of `BigInt` as bytes and of both types as words
-/

namespace RMath

/-- nat.rs:2040-2047 `From<Vec<u32>>` for `Nat`; 2049-2061 for `&Vec<u32>` and `&[u32]` copy the words and do the same. -/
def fromWords (ws : Words) : Words := trim ws

/-- bigint_macro.rs:1-17, bigint.rs:943: `BigInt::from` a vector or slice of words -/
def bFromWords (ws : Words) : BInt := ⟨fromWords ws, false⟩

/-- bigint_macro.rs:1-17, bigint.rs:943: `BigInt::from` a vector or slice of bytes, by nat.rs:2062-2096 -/
def bFromBytes (bs : List Byte) : Res BInt :=
  match fromBytes bs with
  | .ok n => .ok ⟨n, false⟩
  | .error e => .error e

/-- bigint.rs:155-157 `to_le_bytes`, and `copy_to_le` 150-152 -/
def bToLeBytes (x : BInt) : List Byte := toLeBytes x.nat

/-- bigint.rs:164-166 `to_be_bytes`, and `copy_to_be` 159-161 -/
def bToBeBytes (x : BInt) : List Byte := toBeBytes x.nat

/-- bigint.rs:169-174 `from_le_bytes` -/
def bFromLeBytes (bs : List Byte) : BInt := ⟨fromLeBytes bs, false⟩

/-- bigint.rs:177-182 `from_be_bytes` -/
def bFromBeBytes (bs : List Byte) : BInt := ⟨fromBeBytes bs, false⟩

/-- nat.rs:411-418 `sub_assign_with_sign`: the new receiver and the flag -/
def subAssignWithSign (x y : Words) : Words × Bool :=
  if isNan x || isNan y then (NaN, false) else subInnerWithSign x y

end RMath
