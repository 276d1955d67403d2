import Verif.Model.NatBytes

/-!
# Functions of `nat.rs`: bit queries, powers, square root, random numbers, range product
-/

namespace RMath

/-! ## Bits -/

/-- nat.rs:726-734 `is_set_bit_`; a position beyond the last word reaches `unreachable!()`. -/
def isSetBit_ (x : Words) (idx : Nat) : Res Bool :=
  match x[idx / 32]? with
  | some w => .ok (decide (w &&& (1#32 <<< (idx % 32)) ≠ 0#32))
  | none => .error .panic

/-- nat.rs:738-741 `is_set_bit` -/
def isSetBit (x : Words) (idx : Nat) : Res (Option Bool) :=
  if idx ≥ bitsLen x then .ok none
  else match isSetBit_ x idx with
    | .ok b => .ok (some b)
    | .error e => .error e

/-- nat.rs:860-871 `trailling_zeros` -/
def traillingZeros : Words → Nat
  | [] => 0
  | w :: ws => if w = 0#32 then 32 + traillingZeros ws else trailingZeros w

/-- nat.rs:1890-1904 `set_bits` -/
def setBits (x : Words) (i : Nat) (isSet : Bool) : Words :=
  let j := i / 32
  let m : W := 1#32 <<< (i % 32)
  if isSet then
    let x := if j ≥ x.length then resize x (j + 1) else x
    x.modify j (· ||| m)
  else if j < x.length then x.modify j (· &&& ~~~m)
  else x

/-- nat.rs:1908-1931 `sticky` -/
def sticky (x : Words) (bitsNum : Nat) : Nat :=
  if isNan x then 0
  else
    let j := bitsNum / 32
    if j ≥ x.length then (if eqv x [0#32] then 0 else 1)
    else if (x.take j).any (· ≠ 0#32) then 1
    else
      let rom := bitsNum % 32
      if rom > 0 ∧ (x.getD j 0#32) <<< (32 - rom) ≠ 0#32 then 1 else 0

/-! ## Powers -/

/-- nat.rs:774-779: the loop of `pow_inner` over the bits `i, i+1, …` (`n` of them) of `b`. -/
def powLoop (b : Words) : Nat → Nat → Words → Words → Res Words
  | 0, _, _, acc => .ok acc
  | n + 1, i, pre, acc =>
    let pre := mulInner pre pre
    match isSetBit_ b i with
    | .error e => .error e
    | .ok true => powLoop b n (i + 1) pre (mulInner acc pre)
    | .ok false => powLoop b n (i + 1) pre acc

/-- nat.rs:752-781 `pow_inner` -/
def powInner (x b : Words) : Res Words :=
  if eqv x [0#32] then (if eqv b [0#32] then .ok [1#32] else .ok [0#32])
  else if eqv b [0#32] then .ok [1#32]
  else
    match isSetBit_ b 0 with
    | .error e => .error e
    | .ok s => powLoop b (bitsLen b - 1) 1 (deepClone x) (if s then x else [1#32])

/-- nat.rs:744-750 `pow` -/
def natPow (x b : Words) : Res Words :=
  if isNan x || isNan b then .ok NaN else powInner (deepClone x) b

/-- nat.rs:807-814: the loop of `pow_mod_inner` from bit `n - 1` down to bit 0. -/
def powModLoop (b n sm : Words) : Nat → Words → Res Words
  | 0, acc => .ok acc
  | i + 1, acc => do
    let acc ← remInner (mulInner acc acc) n
    let s ← isSetBit_ b i
    if s then
      let acc ← remInner (mulInner acc sm) n
      powModLoop b n sm i acc
    else powModLoop b n sm i acc

/-- nat.rs:794-816 `pow_mod_inner` -/
def powModInner (x b n : Words) : Res Words :=
  if eqv n [0#32] then powInner x b
  else if eqv n [1#32] then .ok [0#32]
  else do
    let sm ← remInner (deepClone x) n
    powModLoop b n sm (bitsLen b) [1#32]

/-- nat.rs:786-792 `pow_mod` -/
def natPowMod (x b n : Words) : Res Words :=
  if isNan x || isNan b || isNan n then .ok NaN else powModInner (deepClone x) b n

/-! ## Square root -/

/-- nat.rs:1166-1176: the Newton loop of `sqrt`; `fuel` bounds the number of iterations. -/
def sqrtLoop (x : Words) : Nat → Words → Res Words
  | 0, _ => .error .hang
  | fuel + 1, z1 => do
    let q ← natDiv x z1
    let z2 := assignPrim shrInner (assignNat addInner q z1) 1
    if geOp z2 z1 then .ok z1 else sqrtLoop x fuel z2

/-- the operator `<=` derived from `partial_cmp` -/
def leOp (x y : Words) : Bool :=
  match partialCmp x y with
  | some .lt | some .eq => true
  | _ => false

/-- nat.rs:1158-1177 `sqrt`; `self <= &1u32` compares with the vector `[1]` (nat_macro.rs:72-84).  The fuel is
the value of the starting point, which the strictly decreasing iteration cannot exceed. -/
def natSqrt (x : Words) : Res Words :=
  if isNan x || leOp x [1#32] then .ok (deepClone x)
  else
    let z1 := assignPrim shlInner [1#32] ((bitsLen x + 1) / 2)
    sqrtLoop x (val z1 + 1) z1

/-! ## Random numbers -/

/-- nat.rs:829-835: draw words until the vector has `n` of them.  The source is modelled by the list of the
results of its successive `next` calls; a failed draw (`None`) is cleared and skipped.  `none` when the given
results are used up. -/
def drawWords : Nat → List (Option W) → Option (Words × List (Option W))
  | 0, ds => some ([], ds)
  | _ + 1, [] => none
  | n + 1, none :: ds => drawWords (n + 1) ds
  | n + 1, some x :: ds => (drawWords n ds).map fun r => (x :: r.1, r.2)

/-- nat.rs:837-840: mask the most significant word. -/
def maskLast (v : Words) (mask : W) : Words :=
  match v.getLast? with
  | some w => v.dropLast ++ [w &&& mask]
  | none => v

/-- nat.rs:825-845: the rejection loop of `random_inner` -/
def randomLoop (self : Words) (num : Nat) (mask : W) : Nat → List (Option W) → Option (Words × List (Option W))
  | 0, _ => none
  | fuel + 1, ds =>
    match drawWords num ds with
    | none => none
    | some (v, ds) =>
      let v := maskLast v mask
      if ltOp v self then some (v, ds) else randomLoop self num mask fuel ds

/-- nat.rs:822: the mask -/
def randomMask (self : Words) : W :=
  let rem := bitsLen self % 32
  if rem = 0 then 0xffffffff#32 else (1#32 <<< rem) - 1#32

/-- nat.rs:849-857 `random`: result and unread part of the source; `none` when the loop is still running after
all the given draws. -/
def natRandom (self : Words) (ds : List (Option W)) : Option (Words × List (Option W)) :=
  if isNan self || eqv self [0#32] then some (NaN, ds)
  else randomLoop self self.length (randomMask self) (ds.length + 1) ds

/-! ## Range product -/

/-- nat.rs:1870-1883: one iteration of `mul_range` -/
def mulRangeStep (res : Words) (e : D) : Words :=
  let high := mulAddWW res (toW (e >>> 32)) 0#32
  let low := mulAddWW res (toW (e &&& 0xffffffff#64)) 0#32
  let high := shlInner high 32
  let len := max high.length low.length
  let r := addVV (resize high len) (resize low len)
  trim (r.1 ++ [r.2])

/-- nat.rs:1869-1884: the loop of `mul_range` over `e in a..b` (`n = b - a` iterations) -/
def mulRangeLoop : Nat → D → Words → Words
  | 0, _, res => res
  | n + 1, e, res => mulRangeLoop n (e + 1#64) (mulRangeStep res e)

/-- nat.rs:1858-1887 `mul_range` -/
def natMulRange (a b : D) : Res Words :=
  if a = 0#64 then .ok [0#32]
  else if a > b then .ok [1#32]
  else if a = b then fromU64 a
  else match fromU64 b with
    | .ok res => .ok (mulRangeLoop (b.toNat - a.toNat) a res)
    | .error e => .error e

end RMath
