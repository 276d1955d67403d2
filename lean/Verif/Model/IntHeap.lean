import Verif.Model.RatHeap

/-!
# Programs over `BigInt` variables that may share buffers (`bigint.rs`)

`Verif.Model.Heap` has the operators of the macro `bigint_ops_impl!`; here are the other functions that change a `BigInt` in
place, and programs.
-/

namespace RMath

open Heap

/-- bigint.rs:536-561 `and_not_assign` -/
def hbAndNot (h : Heap) (x y : HInt) : Res (Heap × HInt) :=
  if x.neg = y.neg then
    if x.neg then
      let h := hAssignPrim subInnerBasic h x.addr 1#32
      let r := hOpPrim subInnerBasic h y.addr 1#32
      .ok (hAndNotAssign r.1 x.addr r.2, ⟨x.addr, false⟩)
    else .ok (hAndNotAssign h x.addr y.addr, x)
  else if x.neg then
    let h := hAssignPrim subInnerBasic h x.addr 1#32
    match hAssign .or h x.addr y.addr with
    | .ok h =>
      let h := hAssignPrim addInnerBasic h x.addr 1#32
      .ok (h, ⟨x.addr, !isNan (h.buf x.addr)⟩)
    | .error e => .error e
  else
    let r := hOpPrim subInnerBasic h y.addr 1#32
    match hAssign .and r.1 x.addr r.2 with
    | .ok h => .ok (h, x)
    | .error e => .error e

/-- bigint.rs:196-206 `rem_euclid_inner`, `rem_euclid_assign` 192-194 -/
def hbRemEuclid (h : Heap) (x n : HInt) : Res (Heap × HInt) := do
  let r ← hbRem h x n
  if bIsNegative (r.2.value r.1) then
    if bIsNegative (n.value r.1) then hbSub r.1 r.2 n else hbAdd r.1 r.2 n
  else .ok r

/-- bigint.rs:219-229 `div_euclid_inner`, `div_euclid_assign` 215-217 -/
def hbDivEuclid (h : Heap) (x n : HInt) : Res (Heap × HInt) := do
  let m ← hbOp .rem h x n
  let isPos := bIsPositive (n.value m.1)
  let q ← hbDiv m.1 x n
  if bIsNegative (m.2.value q.1) then
    let one := hbNew q.1 bOne
    if isPos then hbSub one.1 q.2 one.2 else hbAdd one.1 q.2 one.2
  else .ok q

/-- the functions of two `BigInt`s that have an assigning form -/
inductive IntOp where
  /-- an operator -/
  | nat (o : NatOp)
  /-- `and_not` -/
  | andNot
  /-- `rem_euclid` -/
  | remEuclid
  /-- `div_euclid` -/
  | divEuclid
deriving DecidableEq

/-- the assigning form -/
def hiAssign : IntOp → Heap → HInt → HInt → Res (Heap × HInt)
  | .nat o => hbAssign o
  | .andNot => hbAndNot
  | .remEuclid => hbRemEuclid
  | .divEuclid => hbDivEuclid

/-- the other form: bigint_macro.rs:66-74 and bigint.rs:186-190, 209-213, 529-533; all of them work on a deep clone. -/
def hiOp (op : IntOp) (h : Heap) (x y : HInt) : Res (Heap × HInt) :=
  let r := h.alloc (deepClone (h.buf x.addr))
  hiAssign op r.1 ⟨r.2, x.neg⟩ y

/-- the functions on values -/
def IntOp.fn : IntOp → BInt → BInt → Res BInt
  | .nat o, x, y => o.bfn x y
  | .andNot, x, y => .ok (bAndNotAssign x y)
  | .remEuclid, x, y => bRemEuclidInner x y
  | .divEuclid, x, y => bDivEuclidInner x y

/-- bigint.rs:438-440 `shl_inner` -/
def hbShl (h : Heap) (x : HInt) (s : Nat) : Heap × HInt := (hAssignPrim shlInner h x.addr s, x)

/-- bigint.rs:418-436 `shr_inner` -/
def hbShr (h : Heap) (x : HInt) (s : Nat) : Heap × HInt :=
  if x.neg then
    let h := hAssignPrim subInnerBasic h x.addr 1#32
    let h := hAssignPrim shrInner h x.addr s
    let h := hAssignPrim addInnerBasic h x.addr 1#32
    (h, ⟨x.addr, !isNan (h.buf x.addr)⟩)
  else (hAssignPrim shrInner h x.addr s, x)

/-- `left = true`: `<<=`, otherwise `>>=` -/
def hbShift (left : Bool) (h : Heap) (x : HInt) (s : Nat) : Heap × HInt := if left then hbShl h x s else hbShr h x s

/-- the shifts on values -/
def shiftFn (left : Bool) (x : BInt) (s : Nat) : BInt := if left then bShlInner x s else bShrInner x s

/-- A statement of a program over variables that hold `BigInt`s. -/
inductive BCmd where
  /-- `let x = BigInt::from(n);` with an `i64` -/
  | fromI64 (x : Nat) (n : D)
  /-- `let x = BigInt::from(v);` with a vector of words -/
  | fromWords (x : Nat) (v : Words)
  /-- `let x = s.parse().unwrap();` -/
  | parse (x : Nat) (s : List Char)
  /-- `let x = y.clone();` -/
  | clone (x y : Nat)
  /-- `let x = y.deep_clone();` -/
  | deepClone (x y : Nat)
  /-- `let x = -y.clone();` -/
  | neg (x y : Nat)
  /-- `let x = !y.clone();` -/
  | not (x y : Nat)
  /-- `let x = y.abs();` -/
  | abs (x y : Nat)
  /-- `x.set_natural();` -/
  | setNatural (x : Nat)
  /-- `x.set_negative();` -/
  | setNegative (x : Nat)
  /-- `let z = x.clone() op y.clone();` -/
  | op (o : IntOp) (z x y : Nat)
  /-- `x op= y.clone();` -/
  | assign (o : IntOp) (x y : Nat)
  /-- `let z = x.clone() << s;` or `>>` -/
  | shift (left : Bool) (z x s : Nat)
  /-- `x <<= s;` or `>>=` -/
  | shiftAssign (left : Bool) (x s : Nat)

/-- the variables and the heap; a variable that is not bound is `none` -/
structure BState where
  env : Nat → Option HInt
  heap : Heap

/-- binding a variable, or storing the new fields of a receiver -/
def BState.bind (s : BState) (x : Nat) (r : Heap × HInt) : BState := ⟨fun y => if y = x then some r.2 else s.env y, r.1⟩

/-- the `BigInt` a variable holds; a program that uses a variable that is not bound is not a program: an error. -/
def BState.get (s : BState) (x : Nat) : Res HInt :=
  match s.env x with
  | some v => .ok v
  | none => .error .panic

/-- what a variable shows -/
def BState.value (s : BState) (x : Nat) : Option BInt := (s.env x).map (HInt.value s.heap)

/-- One statement.  bigint.rs:951-953 and bigint_macro.rs:1-60 for the conversions, nat.rs:2040-2047 for a vector of words,
bigint.rs:955-979 for the text, 981-989 for `-`, 991-1011 for `!`, 136-140 for `abs`: these results are in buffers of their own.
bigint.rs:101-105 `set_natural` and 126-130 `set_negative` change the flag only. -/
def BCmd.step (s : BState) : BCmd → Res BState
  | .fromI64 x n => do
    let v ← RMath.fromI64 n
    .ok (s.bind x (hbNew s.heap v))
  | .fromWords x v => .ok (s.bind x (hbNew s.heap ⟨trim v, false⟩))
  | .parse x t => do
    let v ← bParse t
    let v ← unwrapR v
    .ok (s.bind x (hbNew s.heap v))
  | .clone x y => do
    let v ← s.get y
    .ok (s.bind x (s.heap, v))
  | .deepClone x y => do
    let v ← s.get y
    .ok (s.bind x (hbNew s.heap (bDeepClone (v.value s.heap))))
  | .neg x y => do
    let v ← s.get y
    .ok (s.bind x (hbNew s.heap (bNeg (v.value s.heap))))
  | .not x y => do
    let v ← s.get y
    .ok (s.bind x (hbNew s.heap (bNot (v.value s.heap))))
  | .abs x y => do
    let v ← s.get y
    .ok (s.bind x (hbNew s.heap (bAbs (v.value s.heap))))
  | .setNatural x => do
    let v ← s.get x
    .ok (s.bind x (s.heap, ⟨v.addr, (bSetNatural (v.value s.heap)).neg⟩))
  | .setNegative x => do
    let v ← s.get x
    .ok (s.bind x (s.heap, ⟨v.addr, (bSetNegative (v.value s.heap)).neg⟩))
  | .op o z x y => do
    let v ← s.get x
    let w ← s.get y
    let r ← hiOp o s.heap v w
    .ok (s.bind z r)
  | .assign o x y => do
    let v ← s.get x
    let w ← s.get y
    let r ← hiAssign o s.heap v w
    .ok (s.bind x r)
  | .shift left z x n => do
    let v ← s.get x
    let r := s.heap.alloc (RMath.deepClone (s.heap.buf v.addr))
    .ok (s.bind z (hbShift left r.1 ⟨r.2, v.neg⟩ n))
  | .shiftAssign left x n => do
    let v ← s.get x
    .ok (s.bind x (hbShift left s.heap v n))

/-- a program -/
def bRun : BState → List BCmd → Res BState
  | s, [] => .ok s
  | s, c :: cs =>
    match c.step s with
    | .ok s => bRun s cs
    | .error e => .error e

end RMath
