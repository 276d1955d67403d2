import Verif.Model.Prim

/-!
# Model of `src/bigint/nat.rs` (core), `nat_amd64.rs`

A `Nat` object is modelled by the content of its buffer.  The functions below describe an
operation whose operands live in *different* buffers; sharing is the subject of
`Verif.Model.Heap`.
-/

namespace RMath

/-- nat.rs:97-99 `is_nan` -/
def isNan (x : Words) : Bool := x.isEmpty

/-- nat.rs:222-232 `trim_head_zero_`: count the zero words at the most significant end, never
counting word 0, and truncate. -/
def trim (v : Words) : Words :=
  v.take (v.length - ((v.drop 1).reverse.takeWhile (· == 0#32)).length)

/-- nat.rs:93-95 `deep_clone`, via nat.rs:2055-2060 `From<&[u32]>` and 2038-2046. -/
def deepClone (x : Words) : Words := trim x

/-- nat.rs:210-220 `bits_len` -/
def bitsLen (x : Words) : Nat :=
  match x.getLast? with
  | none => 0
  | some w =>
    if w = 0#32 then (if x.length = 1 then 1 else (x.length - 1) * 32)
    else (32 - leadingZeros w) + (x.length - 1) * 32

/-- nat.rs:426-433, the loop of `partial_cmp_inner` over the reversed words. -/
def cmpRev : Words → Words → Ordering
  | a :: as, b :: bs => if a < b then .lt else if b < a then .gt else cmpRev as bs
  | _, _ => .eq

/-- nat.rs:420-435 `partial_cmp_inner` -/
def cmpInner (x y : Words) : Ordering :=
  if x.length < y.length then .lt
  else if y.length < x.length then .gt
  else cmpRev x.reverse y.reverse

/-- nat.rs:2186-2194 `PartialEq::eq` -/
def eqv (x y : Words) : Bool := if isNan x then false else x == y

/-- nat.rs:2198-2206 `PartialOrd::partial_cmp` -/
def partialCmp (x y : Words) : Option Ordering :=
  if isNan x || isNan y then none else some (cmpInner x y)

/-- the operator `>=` derived from `partial_cmp` -/
def geOp (x y : Words) : Bool :=
  match partialCmp x y with
  | some .gt | some .eq => true
  | _ => false

/-- the operator `<` derived from `partial_cmp` -/
def ltOp (x y : Words) : Bool :=
  match partialCmp x y with
  | some .lt => true
  | _ => false

/-- nat.rs:238-244 `min_max` -/
def minMax (x y : Words) : Words × Words × Bool := if ltOp x y then (x, y, false) else (y, x, true)

/-! ## nat_amd64.rs -/

/-- nat_amd64.rs:17-19: the `zip` loop of `add_inner_by_adcx`; returns the words written and
the carry. -/
def adcZip : Bool → Words → Words → Words × Bool
  | c, a :: as, b :: bs =>
    let r := adc c a b
    let s := adcZip r.2 as bs
    (r.1 :: s.1, s.2)
  | c, _, _ => ([], c)

/-- nat_amd64.rs:22-24 and 26-30: the loops that add the carry to the rest of the longer
operand. -/
def adcTail : Bool → Words → Words × Bool
  | c, a :: as =>
    let r := adc c a 0#32
    let s := adcTail r.2 as
    (r.1 :: s.1, s.2)
  | c, [] => ([], c)

/-- nat_amd64.rs:11-39 `add_inner` -/
def addInner (x y : Words) : Words :=
  let lo := adcZip false x y
  let hi := if y.length ≤ x.length then adcTail lo.2 (x.drop y.length)
            else adcTail lo.2 (y.drop x.length)
  lo.1 ++ hi.1 ++ (if hi.2 then [1#32] else [])

/-- nat_amd64.rs:47-53: the `zip` loop of `sub_inner_with_sign_by_sbb`. -/
def sbbZip (isGe : Bool) : Bool → Words → Words → Words × Bool
  | c, a :: as, b :: bs =>
    let r := if isGe then sbb c a b else sbb c b a
    let s := sbbZip isGe r.2 as bs
    (r.1 :: s.1, s.2)
  | c, _, _ => ([], c)

/-- nat_amd64.rs:55-62: borrow propagation with early exit. -/
def sbbTail : Bool → Words → Words
  | c, a :: as =>
    if c then
      let r := sbb c a 0#32
      r.1 :: sbbTail r.2 as
    else a :: as
  | _, [] => []

/-- nat_amd64.rs:41-73 `sub_inner_with_sign` -/
def subInnerWithSign (x y : Words) : Words × Bool :=
  let isGe := geOp x y
  let x := if isGe then x else resize x y.length
  let lo := sbbZip isGe false x y
  let rest := x.drop lo.1.length
  let rest := if isGe && lo.2 then sbbTail lo.2 rest else rest
  (trim (lo.1 ++ rest), isGe)

/-- nat_amd64.rs:75-77 `sub_inner` -/
def subInner (x y : Words) : Words := (subInnerWithSign x y).1

/-- nat_amd64.rs:83-90: the loop of `add_inner_basic_by_adcx`. -/
def adcBasic : Bool → W → Words → Words × Bool
  | c, rhs, a :: as =>
    let r := adc c a rhs
    let s := adcBasic r.2 0#32 as
    (r.1 :: s.1, s.2)
  | c, _, [] => ([], c)

/-- nat_amd64.rs:79-90 `add_inner_basic` -/
def addInnerBasic (x : Words) (rhs : W) : Words :=
  let r := adcBasic false rhs x
  r.1 ++ (if r.2 then [1#32] else [])

/-- nat_amd64.rs:109-115 `sub_inner_basic_by_sbb` (no trimming). -/
def sbbBasic : Bool → W → Words → Words
  | c, rhs, a :: as =>
    let r := sbb c a rhs
    r.1 :: sbbBasic r.2 0#32 as
  | _, _, [] => []

/-- nat_amd64.rs:92-107 `sub_inner_basic` -/
def subInnerBasic (x : Words) (rhs : W) : Words :=
  match x with
  | [] => []
  | [w] => [if w < rhs then rhs - w else w - rhs]
  | _ => sbbBasic false rhs x

/-! ## Shifts (nat.rs) -/

/-- nat.rs:443-448: the loop of `shl_inner`. -/
def shlLoop (nom : Nat) : W → Words → Words × W
  | pre, a :: as =>
    let s := shlLoop nom (a >>> (32 - nom)) as
    (((a <<< nom) ||| pre) :: s.1, s.2)
  | pre, [] => ([], pre)

/-- nat.rs:437-456 `shl_inner` -/
def shlInner (x : Words) (s : Nat) : Words :=
  let num := s / 32
  let nom := s % 32
  let x :=
    if nom > 0 then
      let r := shlLoop nom 0#32 x
      r.1 ++ (if r.2 ≠ 0#32 then [r.2] else [])
    else x
  if num > 0 then List.replicate num 0#32 ++ x else x

/-- nat.rs:480-484: the loop of `shr_inner`.  It reads word `num+1+k` of the buffer and writes
word `k`; reads are ahead of writes, so the words read are the original ones. -/
def shrLoop (nom : Nat) : W → Words → Words × W
  | pre, b :: bs =>
    let maskH : W := ((1#32 <<< nom) - 1#32) <<< (32 - nom)
    let maskL : W := (1#32 <<< (32 - nom)) - 1#32
    let r := b.rotateRight nom
    let s := shrLoop nom (r &&& maskL) bs
    (((r &&& maskH) ||| pre) :: s.1, s.2)
  | pre, [] => ([], pre)

/-- nat.rs:458-500 `shr_inner` -/
def shrInner (v : Words) (rhs : Nat) : Words :=
  let num := rhs / 32
  let nom := rhs % 32
  if num ≥ v.length then [0#32]
  else
    let r : Words × W :=
      if nom > 0 then
        match v.drop num with
        | x :: itr => shrLoop nom (x >>> nom) itr
        | [] => ([], 0#32)
      else ([], 0#32)
    let v' := (r.1 ++ v.drop r.1.length).take (v.length - num)
    if r.2 ≠ 0#32 then v'.dropLast ++ [r.2]
    else if nom > 0 && num == 0 then
      let v'' := v'.dropLast
      if v'' = [] then [0#32] else v''
    else v'

/-- nat.rs:503-509 `u32_shl` -/
def u32Shl (lhs : W) (rhs : Nat) : Words := List.replicate (rhs / 32) 0#32 ++ [lhs <<< (rhs % 32)]

/-! ## Division (nat.rs) -/

/-- nat.rs:543-546: `while den > sc { den >>= 1; shift -= 1 }`; `shift` is a `usize`, so going
below zero panics. -/
def divAdjust : Nat → Words → Words → Nat → Res (Words × Nat)
  | 0, _, _, _ => .error .hang
  | fuel + 1, den, sc, shift =>
    if cmpInner den sc = .gt then
      match shift with
      | 0 => .error .panic
      | shift + 1 => divAdjust fuel (shrInner den 1) sc shift
    else .ok (den, shift)

/-- nat.rs:537-554: main loop of `div_inner`. -/
def divLoop (rhs : Words) : Nat → Words → Words → Res Words
  | 0, _, _ => .error .hang
  | fuel + 1, sc, acc =>
    if cmpInner sc rhs = .lt then .ok acc
    else if bitsLen sc < bitsLen rhs then .error .panic
    else
      let shift := bitsLen sc - bitsLen rhs
      match divAdjust (shift + 2) (shlInner rhs shift) sc shift with
      | .error e => .error e
      | .ok (den, shift) => divLoop rhs fuel (subInner sc den) (addInner acc (u32Shl 1#32 shift))

/-- nat.rs:511-555 `div_inner` for operands in different buffers.  Each round of the loop makes the dividend smaller unless
the divisor is zero, so that the bound on the rounds is reached only if the loop never ends (C117). -/
def divInner (x rhs : Words) : Res Words :=
  if eqv rhs [0#32] then .error .panic
  else
    let sc := deepClone x
    if cmpInner sc rhs = .lt then .ok [0#32]
    else if bitsLen sc = bitsLen rhs then .ok [1#32]
    else divLoop rhs (val sc + 2) sc [0#32]

/-- nat.rs:566-579: main loop of `rem_inner`. -/
def remLoop (rhs : Words) : Nat → Words → Res Words
  | 0, _ => .error .hang
  | fuel + 1, x =>
    if cmpInner x rhs = .lt then .ok x
    else if bitsLen x < bitsLen rhs then .error .panic
    else
      let den := shlInner rhs (bitsLen x - bitsLen rhs)
      let den := if cmpInner x den = .lt then shrInner den 1 else den
      remLoop rhs fuel (subInner x den)

/-- nat.rs:557-581 `rem_inner` for operands in different buffers.  The bound on the rounds is that of `divInner`. -/
def remInner (x rhs : Words) : Res Words :=
  if eqv rhs [0#32] then .error .panic
  else if cmpInner x rhs = .lt then .ok x
  else
    match remLoop rhs (val x + 2) x with
    | .ok r => .ok (trim r)
    | .error e => .error e

/-! ## Bit operations (nat.rs) -/

/-- `zip` loop that updates the prefix of `x` and keeps the rest of `x`. -/
def zipKeep (f : W → W → W) : Words → Words → Words
  | a :: as, b :: bs => f a b :: zipKeep f as bs
  | as, [] => as
  | [], _ => []

/-- nat.rs:583-589 `bitand_inner` -/
def bitandInner (x y : Words) : Words :=
  trim ((zipKeep (· &&& ·) x y).take (min x.length y.length))

/-- nat.rs:591-603 `bitor_inner` -/
def bitorInner (x y : Words) : Words := zipKeep (· ||| ·) x y ++ y.drop x.length

/-- nat.rs:605-618 `bitxor_inner` -/
def bitxorInner (x y : Words) : Words := trim (zipKeep (· ^^^ ·) x y ++ y.drop x.length)

/-- nat.rs:253-259 `and_not_assign` -/
def andNotAssign (x y : Words) : Words := trim (zipKeep (fun a b => a &&& ~~~b) x y)

/-- nat.rs:247-251 `and_not` -/
def andNot (x y : Words) : Words := andNotAssign (deepClone x) y

/-- nat.rs:693-712 `not_inner` -/
def notInner (x : Words) : Words :=
  let bitlen := bitsLen x % 32
  let v := x.map (~~~ ·)
  let v := if bitlen > 0 then
      match v.getLast? with
      | some w => v.dropLast ++ [w &&& ((1#32 <<< bitlen) - 1#32)]
      | none => v
    else v
  trim v

/-! ## Operations with a machine word (nat.rs) -/

/-- nat.rs:625-630: loop of `mul_inner_basic`, in `u64` arithmetic. -/
def mulBasicLoop (rhs : D) : D → Words → Words × D
  | pre, a :: as =>
    let x := toD a * rhs
    let v := (x &&& 0xffffffff#64) + pre
    let s := mulBasicLoop rhs ((v >>> 32) + (x >>> 32)) as
    (toW (v &&& 0xffffffff#64) :: s.1, s.2)
  | pre, [] => ([], pre)

/-- nat.rs:620-638 `mul_inner_basic` -/
def mulInnerBasic (x : Words) (rhs : W) : Words :=
  let r := mulBasicLoop (toD rhs) 0#64 x
  if r.2 > 0xffffffff#64 then r.1 ++ [toW (r.2 &&& 0xffffffff#64), toW (r.2 >>> 32)]
  else r.1 ++ [toW r.2]

/-- nat.rs:654-659: loop of `div_inner_basic` (from the most significant word down); returns the
quotient words (most significant first) and the remainder. -/
def divBasicLoop (rhs : D) : D → Words → Words × D
  | pre, x :: xs =>
    let v := (pre <<< 32) + toD x
    let s := divBasicLoop rhs (v % rhs) xs
    (toW (v / rhs) :: s.1, s.2)
  | pre, [] => ([], pre)

/-- nat.rs:640-669 `div_inner_basic`.  The counter `i` of the code always ends at `old_len`, so
`rotate_right(0)` and `truncate(old_len)` do nothing. -/
def divInnerBasic (x : Words) (rhs : W) : Res Words :=
  if rhs = 0#32 then .error .panic
  else
    match x with
    | [] => .ok []
    | [w] => .ok [w / rhs]
    | _ => .ok (trim (divBasicLoop (toD rhs) 0#64 x.reverse).1.reverse)

/-- nat.rs:671-691 `rem_inner_basic` -/
def remInnerBasic (x : Words) (rhs : W) : Res Words :=
  if rhs = 0#32 then .error .panic
  else
    match x with
    | [] => .ok []
    | [w] => .ok [w % rhs]
    | _ => .ok [toW (divBasicLoop (toD rhs) 0#64 x.reverse).2]

/-! ## Operators (nat_macro.rs:91-121, nat.rs:2210-2226) -/

/-- nat_macro.rs:94-102: the by-value operators `lhs op rhs` with a `Nat` on the right, for an
operation that cannot panic. -/
def opNat (f : Words → Words → Words) (x y : Words) : Words :=
  if isNan x || isNan y then NaN else f (deepClone x) y

/-- the same for an operation that may panic -/
def opNatR (f : Words → Words → Res Words) (x y : Words) : Res Words :=
  if isNan x || isNan y then .ok NaN else f (deepClone x) y

/-- the same for a right operand that is a machine integer -/
def opPrim {α : Type} (f : Words → α → Words) (x : Words) (y : α) : Words :=
  if isNan x then NaN else f (deepClone x) y

/-- the same, for an operation that may panic -/
def opPrimR {α : Type} (f : Words → α → Res Words) (x : Words) (y : α) : Res Words :=
  if isNan x then .ok NaN else f (deepClone x) y

/-- nat_macro.rs:106-114: the assigning operators `lhs op= rhs` (new content of `lhs`); sharing of
the two buffers is treated in `Verif.Model.Heap`. -/
def assignNat (f : Words → Words → Words) (x y : Words) : Words :=
  if isNan x || isNan y then NaN else f x y

/-- the same for an operation that may panic -/
def assignNatR (f : Words → Words → Res Words) (x y : Words) : Res Words :=
  if isNan x || isNan y then .ok NaN else f x y

/-- the same for a right operand that is a machine integer -/
def assignPrim {α : Type} (f : Words → α → Words) (x : Words) (y : α) : Words :=
  if isNan x then NaN else f x y

/-- the same, for an operation that may panic -/
def assignPrimR {α : Type} (f : Words → α → Res Words) (x : Words) (y : α) : Res Words :=
  if isNan x then .ok NaN else f x y

/-- `a + b` -/
def natAdd := opNat addInner
/-- `a - b` -/
def natSub := opNat subInner
/-- `a / b` -/
def natDiv := opNatR divInner
/-- `a % b` -/
def natRem := opNatR remInner
/-- `a & b` -/
def natAnd := opNat bitandInner
/-- `a | b` -/
def natOr := opNat bitorInner
/-- `a ^ b` -/
def natXor := opNat bitxorInner
/-- `a << s` -/
def natShl := opPrim shlInner
/-- `a >> s` -/
def natShr := opPrim shrInner
/-- `a + u` -/
def natAddW := opPrim addInnerBasic
/-- `a - u` -/
def natSubW := opPrim subInnerBasic
/-- `a * u` -/
def natMulW := opPrim mulInnerBasic
/-- `a / u` -/
def natDivW := opPrimR divInnerBasic
/-- `a % u` -/
def natRemW := opPrimR remInnerBasic

/-- nat.rs:2228-2238 `!a` -/
def natNot (x : Words) : Words := if isNan x then NaN else trim (notInner x)

/-- nat.rs:399-407 `sub_with_sign` -/
def subWithSign (x y : Words) : Words × Bool :=
  if isNan x || isNan y then (NaN, false) else subInnerWithSign (deepClone x) y

end RMath
