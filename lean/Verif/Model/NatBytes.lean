import Verif.Model.NatKara

/-!
# Byte import and export of `Nat` (`nat.rs`)
-/

namespace RMath

/-- nat.rs:109-117: the loop of `from_le_or_be_bytes`.  `j` is `i & 3`, `tmp` is the variable `val`.  Returns the
words pushed and the final `val`. -/
def packOr : Nat → W → List Byte → Words × W
  | j, tmp, e :: es =>
    let tmp := tmp ||| (e.setWidth 32 <<< (j * 8))
    if j = 3 then
      let s := packOr 0 0#32 es
      (tmp :: s.1, s.2)
    else packOr (j + 1) tmp es
  | _, tmp, [] => ([], tmp)

/-- nat.rs:106-130 `from_le_or_be_bytes` -/
def fromLeOrBeBytes (bs : List Byte) : Words :=
  let r := packOr 0 0#32 bs
  let v := if r.2 > 0#32 then r.1 ++ [r.2] else if r.1 = [] then [0#32] else r.1
  trim v

/-- nat.rs:133-139 `from_le_bytes` -/
def fromLeBytes (bs : List Byte) : Words := if bs.isEmpty then NaN else fromLeOrBeBytes bs

/-- nat.rs:142-148 `from_be_bytes` -/
def fromBeBytes (bs : List Byte) : Words := if bs.isEmpty then NaN else fromLeOrBeBytes bs.reverse

/-- nat.rs:2068-2074: the loop of `From<&[u8]>`, which adds instead of or-ing; an overflow of the sum would be a
panic in a build with overflow checks. -/
def packAdd : Nat → W → List Byte → Res (Words × W)
  | j, tmp, e :: es =>
    if 2 ^ 32 ≤ tmp.toNat + (e.setWidth 32 <<< (j * 8) : W).toNat then .error .panic
    else
      let tmp := tmp + (e.setWidth 32 <<< (j * 8))
      if j = 3 then
        match packAdd 0 0#32 es with
        | .ok s => .ok (tmp :: s.1, s.2)
        | .error e => .error e
      else packAdd (j + 1) tmp es
  | _, tmp, [] => .ok ([], tmp)

/-- nat.rs:2062-2082 `From<&[u8]>` -/
def fromBytes (bs : List Byte) : Res Words :=
  match packAdd 0 0#32 bs with
  | .error e => .error e
  | .ok r =>
    let v := if r.2 > 0#32 then r.1 ++ [r.2] else if bs ≠ [] then r.1 ++ [r.2] else r.1
    .ok (trim v)

/-- `u32::to_le_bytes` -/
def leBytes (w : W) : List Byte :=
  [w.setWidth 8, (w >>> 8).setWidth 8, (w >>> 16).setWidth 8, (w >>> 24).setWidth 8]

/-- nat.rs:166: number of bytes of the top word -/
def topBytes (x : W) : Nat :=
  if x > 0xffffff#32 then 4 else if x > 0xffff#32 then 3 else if x > 0xff#32 then 2 else 1

/-- nat.rs:151-174 `copy_to_le`, `to_le_bytes` 177-181 -/
def toLeBytes (x : Words) : List Byte :=
  if isNan x then []
  else
    (x.take (x.length - 1)).flatMap leBytes ++
    (match x.getLast? with
     | some w => (leBytes w).take (topBytes w)
     | none => [])

/-- nat.rs:184-203 `copy_to_be`, `to_be_bytes` 205-209; `skip(i)` with `i = 4 -` the number of bytes kept. -/
def toBeBytes (x : Words) : List Byte :=
  if isNan x then []
  else
    (match x.getLast? with
     | some w => (leBytes w).reverse.drop
         (if w > 0xffffff#32 then 0 else if w > 0xffff#32 then 1 else if w > 0xff#32 then 2 else 3)
     | none => []) ++
    (x.reverse.drop 1).flatMap (fun w => (leBytes w).reverse)

/-- `u64::to_le_bytes` (a machine primitive) -/
def leBytes64 (d : D) : List Byte := (List.range 8).map fun i => (d >>> (8 * i)).setWidth 8

/-- `u128::to_le_bytes` (a machine primitive) -/
def leBytes128 (d : BitVec 128) : List Byte := (List.range 16).map fun i => (d >>> (8 * i)).setWidth 8

/-- nat_macro.rs:2-17, nat.rs:2036: `Nat::from` for `u64` and `usize` -/
def fromU64 (d : D) : Res Words := fromBytes (leBytes64 d)

/-- nat_macro.rs:2-17, nat.rs:2036: `Nat::from` for `u128` -/
def fromU128 (d : BitVec 128) : Res Words := fromBytes (leBytes128 d)

/-- nat_macro.rs:2-17, nat.rs:2036: `Nat::from` for `u8`, `u16` and `u32` (zero-extended to `u32`) -/
def fromU32 (w : W) : Words := [w]

end RMath
