import Verif.Model.BigInt
import Verif.Model.NatMul
import Verif.SpecOps

/-!
# Sharing of buffers between clones (`Rc<Cell<Vec<u32>>>`, nat.rs:48-95)

A `Nat` is a reference to a buffer; `clone` copies the reference, `deep_clone` the buffer.  Here the buffers are cells of a
heap, and the assigning operators are modelled word by word: at each step of a loop the operands are read from the heap
as it is at that moment, so that the model also describes `a op= b` when `a` and `b` are the same buffer.

Vectors that a function allocates for itself and never hands out (`sc`, `den`, `one` in the division) are values.
-/

namespace RMath

/-- the buffers; the addresses from `next` on are unused -/
structure Heap where
  buf : Nat → Words
  next : Nat

namespace Heap

/-- replace the content of a buffer -/
def write (h : Heap) (a : Nat) (v : Words) : Heap := ⟨fun b => if b = a then v else h.buf b, h.next⟩

/-- `Rc::new(Cell::new(v))` -/
def alloc (h : Heap) (v : Words) : Heap × Nat := (⟨fun b => if b = h.next then v else h.buf b, h.next + 1⟩, h.next)

/-- read one word -/
def word (h : Heap) (a i : Nat) : W := (h.buf a).getD i 0#32

/-- write one word -/
def setWord (h : Heap) (a i : Nat) (w : W) : Heap := h.write a ((h.buf a).set i w)

/-- `push` -/
def push (h : Heap) (a : Nat) (w : W) : Heap := h.write a (h.buf a ++ [w])

end Heap

/-- A loop `self.iter_mut().zip(rhs.iter()).for_each(|(a, &b)| ..)`: `k` steps from index `i` on.  Each step reads word
`i` of both buffers, then writes word `i` of the first one; `s` is the captured state (a carry). -/
def hZip {S : Type} (f : S → W → W → W × S) (a b : Nat) : Nat → Nat → S → Heap → Heap × S
  | 0, _, s, h => (h, s)
  | k + 1, i, s, h =>
    let r := f s (h.word a i) (h.word b i)
    hZip f a b k (i + 1) r.2 (h.setWord a i r.1)

/-- nat_amd64.rs:22-24: the carry goes through the rest of the left operand -/
def hAdcTail (a : Nat) : Nat → Nat → Bool → Heap → Heap × Bool
  | 0, _, c, h => (h, c)
  | k + 1, i, c, h =>
    let r := adc c (h.word a i) 0#32
    hAdcTail a k (i + 1) r.2 (h.setWord a i r.1)

/-- nat_amd64.rs:26-30: the rest of the right operand is pushed on the left one -/
def hAdcPush (a b : Nat) : Nat → Nat → Bool → Heap → Heap × Bool
  | 0, _, c, h => (h, c)
  | k + 1, i, c, h =>
    let r := adc c 0#32 (h.word b i)
    hAdcPush a b k (i + 1) r.2 (h.push a r.1)

/-- nat_amd64.rs:11-39 `add_inner` -/
def hAddInner (h : Heap) (a b : Nat) : Heap :=
  let la := (h.buf a).length
  let lb := (h.buf b).length
  let r := hZip adc a b (min la lb) 0 false h
  let r := if lb ≤ la then hAdcTail a (la - lb) lb r.2 r.1 else hAdcPush a b (lb - la) la r.2 r.1
  if r.2 then r.1.push a 1#32 else r.1

/-- nat_amd64.rs:55-62: the borrow goes through the rest of the left operand, with early exit -/
def hSbbTail (a : Nat) : Nat → Nat → Bool → Heap → Heap
  | 0, _, _, h => h
  | k + 1, i, c, h =>
    if c then
      let r := sbb c (h.word a i) 0#32
      hSbbTail a k (i + 1) r.2 (h.setWord a i r.1)
    else h

/-- nat_amd64.rs:41-73 `sub_inner_with_sign` -/
def hSubInner (h : Heap) (a b : Nat) : Heap :=
  let isGe := geOp (h.buf a) (h.buf b)
  let h := if isGe then h else h.write a (resize (h.buf a) (h.buf b).length)
  let r := hZip (fun c x y => if isGe then sbb c x y else sbb c y x) a b
    (min (h.buf a).length (h.buf b).length) 0 false h
  let lb := (r.1.buf b).length
  let h := if isGe && r.2 then hSbbTail a ((r.1.buf a).length - lb) lb r.2 r.1 else r.1
  h.write a (trim (h.buf a))

/-- nat_avx2.rs:79-92 `mul_inner` with 11-77: both operands are read completely (into `lpkg`, `rpkg` and the partial
products `r`) before the result is written; the comparison of pointers in line 82 is that of the addresses. -/
def hMulInner (h : Heap) (a b : Nat) : Heap :=
  if eqv (h.buf a) [0#32] || eqv (h.buf b) [0#32] then h.write a [0#32]
  else if eqv (h.buf a) [1#32] then (if a ≠ b then h.write a (h.buf b) else h)
  else if !eqv (h.buf b) [1#32] then h.write a (mulAvx2 (h.buf a) (h.buf b))
  else h

/-- nat.rs:537-554: the loop of `div_inner`; the divisor is read from the heap in every round, the quotient is built in
the buffer `a`. -/
def hDivLoop (a b : Nat) (divisorLen : Nat) : Nat → Words → Heap → Res Heap
  | 0, _, _ => .error .hang
  | fuel + 1, sc, h =>
    if cmpInner sc (h.buf b) = .lt then .ok h
    else if bitsLen sc < divisorLen then .error .panic
    else
      let shift := bitsLen sc - divisorLen
      match divAdjust (shift + 2) (shlInner (h.buf b) shift) sc shift with
      | .error e => .error e
      | .ok (den, shift) =>
        hDivLoop a b divisorLen fuel (subInner sc den) (h.write a (addInner (h.buf a) (u32Shl 1#32 shift)))

/-- nat.rs:511-555 `div_inner` -/
def hDivInner (h : Heap) (a b : Nat) : Res Heap :=
  if eqv (h.buf b) [0#32] then .error .panic
  else if a = b then .ok (h.write a [1#32])
  else
    let sc := deepClone (h.buf a)
    let h := h.write a []
    if cmpInner sc (h.buf b) = .lt then .ok (h.write a [0#32])
    else if bitsLen sc = bitsLen (h.buf b) then .ok (h.write a [1#32])
    else hDivLoop a b (bitsLen (h.buf b)) (val sc + 2) sc (h.write a [0#32])

/-- nat.rs:566-579: the loop of `rem_inner`; the modulus is read from the heap in every round, its length is not.  (In a
build without overflow checks the subtraction of the lengths wraps instead of panicking, and the shift that follows asks
for `2^61` bytes; the allocation fails, which ends the program as well.) -/
def hRemLoop (a b : Nat) (divisorLen : Nat) : Nat → Heap → Res Heap
  | 0, _ => .error .hang
  | fuel + 1, h =>
    if cmpInner (h.buf a) (h.buf b) = .lt then .ok h
    else if bitsLen (h.buf a) < divisorLen then .error .panic
    else
      let den := shlInner (h.buf b) (bitsLen (h.buf a) - divisorLen)
      let den := if cmpInner (h.buf a) den = .lt then shrInner den 1 else den
      hRemLoop a b divisorLen fuel (h.write a (subInner (h.buf a) den))

/-- nat.rs:557-581 `rem_inner`, with a given bound on the rounds -/
def hRemInner (fuel : Nat) (h : Heap) (a b : Nat) : Res Heap :=
  if eqv (h.buf b) [0#32] then .error .panic
  else if cmpInner (h.buf a) (h.buf b) = .lt then .ok h
  else
    match hRemLoop a b (bitsLen (h.buf b)) fuel h with
    | .ok h => .ok (h.write a (trim (h.buf a)))
    | .error e => .error e

/-- the loop of the bit operations -/
def hBits (f : W → W → W) (h : Heap) (a b : Nat) : Heap :=
  (hZip (fun (_ : Unit) x y => (f x y, ())) a b (min (h.buf a).length (h.buf b).length) 0 () h).1

/-- nat.rs:598-601: `rhs.iter().skip(mi).for_each(|&b| v.push(b))` -/
def hPushRest (a b : Nat) : Nat → Nat → Heap → Heap
  | 0, _, h => h
  | k + 1, i, h => hPushRest a b k (i + 1) (h.push a (h.word b i))

/-- nat.rs:583-589 `bitand_inner` -/
def hBitandInner (h : Heap) (a b : Nat) : Heap :=
  let h := hBits (· &&& ·) h a b
  let h := h.write a ((h.buf a).take (min (h.buf a).length (h.buf b).length))
  h.write a (trim (h.buf a))

/-- nat.rs:591-603 `bitor_inner` -/
def hBitorInner (h : Heap) (a b : Nat) : Heap :=
  let h := hBits (· ||| ·) h a b
  let mi := (h.buf a).length
  let ma := (h.buf b).length
  if mi < ma then hPushRest a b (ma - mi) mi h else h

/-- nat.rs:605-618 `bitxor_inner` -/
def hBitxorInner (h : Heap) (a b : Nat) : Heap :=
  let h := hBits (· ^^^ ·) h a b
  let mi := (h.buf a).length
  let ma := (h.buf b).length
  let h := if mi < ma then hPushRest a b (ma - mi) mi h else h
  h.write a (trim (h.buf a))

/-- nat.rs:253-259 `and_not_assign` -/
def hAndNotAssign (h : Heap) (a b : Nat) : Heap :=
  let h := hBits (fun x y => x &&& ~~~y) h a b
  h.write a (trim (h.buf a))

/-! ## Operators -/

/-- the function behind the operator, on the heap (nat.rs:2210-2226) -/
def NatOp.inner : NatOp → Heap → Nat → Nat → Res Heap
  | .add, h, a, b => .ok (hAddInner h a b)
  | .sub, h, a, b => .ok (hSubInner h a b)
  | .mul, h, a, b => .ok (hMulInner h a b)
  | .div, h, a, b => hDivInner h a b
  | .rem, h, a, b => hRemInner (val (h.buf a) + 2) h a b
  | .and, h, a, b => .ok (hBitandInner h a b)
  | .or, h, a, b => .ok (hBitorInner h a b)
  | .xor, h, a, b => .ok (hBitxorInner h a b)

/-- nat_macro.rs:105-114: `a op= b` -/
def hAssign (op : NatOp) (h : Heap) (a b : Nat) : Res Heap :=
  if isNan (h.buf a) || isNan (h.buf b) then .ok (h.write a []) else op.inner h a b

/-- nat_macro.rs:93-103: `a op b`; the new heap and the address of the result -/
def hOp (op : NatOp) (h : Heap) (a b : Nat) : Res (Heap × Nat) :=
  if isNan (h.buf a) || isNan (h.buf b) then .ok (h.alloc [])
  else
    let r := h.alloc (deepClone (h.buf a))
    match op.inner r.1 r.2 b with
    | .ok h => .ok (h, r.2)
    | .error e => .error e

/-- nat_macro.rs:105-114 for a right operand that is a machine integer -/
def hAssignPrim {α : Type} (f : Words → α → Words) (h : Heap) (a : Nat) (y : α) : Heap :=
  if isNan (h.buf a) then h.write a [] else h.write a (f (h.buf a) y)

/-- nat_macro.rs:93-103 for a right operand that is a machine integer -/
def hOpPrim {α : Type} (f : Words → α → Words) (h : Heap) (a : Nat) (y : α) : Heap × Nat :=
  if isNan (h.buf a) then h.alloc [] else h.alloc (f (deepClone (h.buf a)) y)

/-! ## Programs -/

/-- A statement of a program over variables that hold `Nat`s. -/
inductive Cmd where
  /-- `let x = y.clone();` -/
  | clone (x y : Nat)
  /-- `let x = y.deep_clone();` -/
  | deepClone (x y : Nat)
  /-- `let z = x.clone() op y.clone();` -/
  | op (o : NatOp) (z x y : Nat)
  /-- `x op= y.clone();` -/
  | assign (o : NatOp) (x y : Nat)
  /-- `x.and_not_assign(y.clone());` -/
  | andNotAssign (x y : Nat)
  /-- `x += w;` with a machine word -/
  | addWord (x : Nat) (w : W)
  /-- `x -= w;` -/
  | subWord (x : Nat) (w : W)
  /-- `x <<= s;` -/
  | shl (x s : Nat)
  /-- `x >>= s;` -/
  | shr (x s : Nat)
  /-- `let x = Nat::from(w);` -/
  | const (x : Nat) (w : W)

/-- the variables (addresses of buffers) and the heap -/
structure State where
  env : Nat → Nat
  heap : Heap

/-- rebinding of a variable -/
def State.bind (s : State) (x a : Nat) (h : Heap) : State := ⟨fun y => if y = x then a else s.env y, h⟩

/-- the value a variable shows -/
def State.value (s : State) (x : Nat) : Words := s.heap.buf (s.env x)

/-- one statement -/
def Cmd.step (s : State) : Cmd → Res State
  | .clone x y => .ok (s.bind x (s.env y) s.heap)
  | .deepClone x y =>
    let r := s.heap.alloc (RMath.deepClone (s.value y))
    .ok (s.bind x r.2 r.1)
  | .op o z x y =>
    match hOp o s.heap (s.env x) (s.env y) with
    | .ok r => .ok (s.bind z r.2 r.1)
    | .error e => .error e
  | .assign o x y =>
    match hAssign o s.heap (s.env x) (s.env y) with
    | .ok h => .ok ⟨s.env, h⟩
    | .error e => .error e
  | .andNotAssign x y => .ok ⟨s.env, hAndNotAssign s.heap (s.env x) (s.env y)⟩
  | .addWord x w => .ok ⟨s.env, hAssignPrim addInnerBasic s.heap (s.env x) w⟩
  | .subWord x w => .ok ⟨s.env, hAssignPrim subInnerBasic s.heap (s.env x) w⟩
  | .shl x n => .ok ⟨s.env, hAssignPrim shlInner s.heap (s.env x) n⟩
  | .shr x n => .ok ⟨s.env, hAssignPrim shrInner s.heap (s.env x) n⟩
  | .const x w =>
    let r := s.heap.alloc [w]
    .ok (s.bind x r.2 r.1)

/-- a program -/
def run : State → List Cmd → Res State
  | s, [] => .ok s
  | s, c :: cs =>
    match c.step s with
    | .ok s => run s cs
    | .error e => .error e

/-! ## `BigInt` -/

/-- a `BigInt`: the reference to the magnitude and its own sign flag (bigint.rs:73-77; `clone` is derived, so it shares the
magnitude and copies the sign) -/
structure HInt where
  addr : Nat
  neg : Bool
deriving DecidableEq

/-- what the `BigInt` shows -/
def HInt.value (h : Heap) (x : HInt) : BInt := ⟨h.buf x.addr, x.neg⟩

/-- the sign at the end of `add_inner`, `sub_inner` and `mul_inner` -/
def hbSign (h : Heap) (x : HInt) (neg : Bool) : HInt :=
  if isNan (h.buf x.addr) || eqv (h.buf x.addr) [0#32] then ⟨x.addr, false⟩ else ⟨x.addr, neg⟩

/-- bigint.rs:375-396 `add_inner` -/
def hbAdd (h : Heap) (x y : HInt) : Res (Heap × HInt) :=
  let neg := if x.neg = y.neg then x.neg else if ltOp (h.buf x.addr) (h.buf y.addr) then !x.neg else x.neg
  match hAssign (if x.neg = y.neg then .add else .sub) h x.addr y.addr with
  | .ok h => .ok (h, hbSign h x neg)
  | .error e => .error e

/-- bigint.rs:398-416 `sub_inner` -/
def hbSub (h : Heap) (x y : HInt) : Res (Heap × HInt) :=
  let neg := if x.neg ≠ y.neg then x.neg else if ltOp (h.buf x.addr) (h.buf y.addr) then !x.neg else x.neg
  match hAssign (if x.neg ≠ y.neg then .add else .sub) h x.addr y.addr with
  | .ok h => .ok (h, hbSign h x neg)
  | .error e => .error e

/-- bigint.rs:456-463 `mul_inner` -/
def hbMul (h : Heap) (x y : HInt) : Res (Heap × HInt) :=
  match hAssign .mul h x.addr y.addr with
  | .ok h => .ok (h, hbSign h x (x.neg != y.neg))
  | .error e => .error e

/-- bigint.rs:442-454 `div_inner` -/
def hbDiv (h : Heap) (x y : HInt) : Res (Heap × HInt) :=
  if eqv (h.buf y.addr) [0#32] then .error .panic
  else
    let neg :=
      if x.neg = y.neg then false
      else match partialCmp (h.buf x.addr) [0#32] with
        | none => false
        | some .eq => false
        | _ => true
    match hAssign .div h x.addr y.addr with
    | .ok h => .ok (h, ⟨x.addr, neg⟩)
    | .error e => .error e

/-- bigint.rs:465-468 `rem_inner` -/
def hbRem (h : Heap) (x y : HInt) : Res (Heap × HInt) :=
  if eqv (h.buf y.addr) [0#32] then .error .panic
  else match hAssign .rem h x.addr y.addr with
    | .ok h => .ok (h, x)
    | .error e => .error e

/-- bigint.rs:485-494, 513-521, 587-595: operands of different signs; the left buffer gets the magnitude of the
non-negative operand, a new buffer the magnitude of the negative one minus one. -/
def hbMixed (h : Heap) (x y : HInt) : Heap × Nat :=
  if x.neg then
    let r := hOpPrim subInnerBasic h x.addr 1#32
    let h := r.1.write x.addr []
    (h.write x.addr (h.buf x.addr ++ h.buf y.addr), r.2)
  else hOpPrim subInnerBasic h y.addr 1#32

/-- bigint.rs:470-496 `bitand_inner` -/
def hbAnd (h : Heap) (x y : HInt) : Res (Heap × HInt) :=
  if x.neg = y.neg then
    if x.neg then
      let h := hAssignPrim subInnerBasic h x.addr 1#32
      let r := hOpPrim subInnerBasic h y.addr 1#32
      match hAssign .or r.1 x.addr r.2 with
      | .ok h =>
        let h := hAssignPrim addInnerBasic h x.addr 1#32
        .ok (h, ⟨x.addr, !isNan (h.buf x.addr)⟩)
      | .error e => .error e
    else
      match hAssign .and h x.addr y.addr with
      | .ok h => .ok (h, ⟨x.addr, false⟩)
      | .error e => .error e
  else
    let r := hbMixed h x y
    .ok (hAndNotAssign r.1 x.addr r.2, ⟨x.addr, false⟩)

/-- bigint.rs:498-526 `bitor_inner` -/
def hbOr (h : Heap) (x y : HInt) : Res (Heap × HInt) :=
  if x.neg = y.neg then
    if x.neg then
      let h := hAssignPrim subInnerBasic h x.addr 1#32
      let r := hOpPrim subInnerBasic h y.addr 1#32
      match hAssign .and r.1 x.addr r.2 with
      | .ok h =>
        let h := hAssignPrim addInnerBasic h x.addr 1#32
        .ok (h, ⟨x.addr, !isNan (h.buf x.addr)⟩)
      | .error e => .error e
    else
      match hAssign .or h x.addr y.addr with
      | .ok h => .ok (h, ⟨x.addr, false⟩)
      | .error e => .error e
  else
    let r := hbMixed h x y
    let h := hAssignPrim addInnerBasic (hAndNotAssign r.1 x.addr r.2) x.addr 1#32
    .ok (h, ⟨x.addr, !isNan (h.buf x.addr)⟩)

/-- bigint.rs:571-602 `bitxor_inner` -/
def hbXor (h : Heap) (x y : HInt) : Res (Heap × HInt) :=
  if x.neg = y.neg then
    if x.neg then
      let h := hAssignPrim subInnerBasic h x.addr 1#32
      let r := hOpPrim subInnerBasic h y.addr 1#32
      match hAssign .xor r.1 x.addr r.2 with
      | .ok h => .ok (h, ⟨x.addr, false⟩)
      | .error e => .error e
    else
      match hAssign .xor h x.addr y.addr with
      | .ok h => .ok (h, ⟨x.addr, false⟩)
      | .error e => .error e
  else
    let r := hbMixed h x y
    match hAssign .xor r.1 x.addr r.2 with
    | .ok h =>
      let h := hAssignPrim addInnerBasic h x.addr 1#32
      .ok (h, ⟨x.addr, !isNan (h.buf x.addr)⟩)
    | .error e => .error e

/-- the assigning operators of `BigInt` -/
def hbAssign : NatOp → Heap → HInt → HInt → Res (Heap × HInt)
  | .add => hbAdd
  | .sub => hbSub
  | .mul => hbMul
  | .div => hbDiv
  | .rem => hbRem
  | .and => hbAnd
  | .or => hbOr
  | .xor => hbXor

/-- bigint_macro.rs:66-74: `x op y`; the new heap and the result -/
def hbOp (op : NatOp) (h : Heap) (x y : HInt) : Res (Heap × HInt) :=
  let r := h.alloc (deepClone (h.buf x.addr))
  hbAssign op r.1 ⟨r.2, x.neg⟩ y

/-- the assigning operators on values, as modelled in `Verif.Model.BigInt` (for operands that share nothing) -/
def NatOp.bfn : NatOp → BInt → BInt → Res BInt
  | .add, x, y => .ok (bAddInner x y)
  | .sub, x, y => .ok (bSubInner x y)
  | .mul, x, y => .ok (bMulInner x y)
  | .div, x, y => bDivInner x y
  | .rem, x, y => bRemInner x y
  | .and, x, y => .ok (bAndInner x y)
  | .or, x, y => .ok (bOrInner x y)
  | .xor, x, y => .ok (bXorInner x y)

end RMath
