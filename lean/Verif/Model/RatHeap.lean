import Verif.Model.Heap
import Verif.Model.Rat

/-!
# Model of the sharing of buffers between `Rat`s

A `Rat` is a pair of `BigInt`s (rat.rs:21-30); `clone` is derived, so a clone shares both buffers.  The objects below refer to
buffers on the heap of `Model/Heap.lean`.  The functions of `rat.rs` are modelled again, step by step: which buffers they make,
which they write.

Simplifications: functions that only read their arguments and return fresh buffers (`gcd` and `sqr` of `BigInt`, the comparison
of two `Rat`s, `from_frac`, `from_f64`) are those of the models of values; buffers that nothing refers to any more stay on the
heap.
-/

namespace RMath

/-- rat.rs:21-30: the references of the numerator and of the denominator -/
structure HRat where
  a : HInt
  b : HInt
deriving DecidableEq

/-- what the `Rat` shows -/
def HRat.value (h : Heap) (x : HRat) : RatV := ⟨x.a.value h, x.b.value h⟩

/-- a `BigInt` in a buffer of its own -/
def hbNew (h : Heap) (v : BInt) : Heap × HInt := ((h.alloc v.nat).1, ⟨(h.alloc v.nat).2, v.neg⟩)

/-- a `Rat` in buffers of its own -/
def hrNew (h : Heap) (v : RatV) : Heap × HRat :=
  let r := hbNew h v.a
  let s := hbNew r.1 v.b
  (s.1, ⟨r.2, s.2⟩)

/-- rat.rs:425-434 `scale_denom`; `x.nat.clone() * f.clone()` makes a buffer, `BigInt::from` (bigint.rs:942-949) another -/
def hrScale (h : Heap) (x : HInt) (f : Nat) : Res (Heap × HInt) :=
  if eqv (h.buf f) [0#32] then .ok (hbNew h (bDeepClone (x.value h)))
  else do
    let r ← hOp .mul h x.addr f
    .ok (hbNew r.1 ⟨deepClone (r.1.buf r.2), x.neg⟩)

/-- rat.rs:413-423 `mul_denom` -/
def hrMulDenom (h : Heap) (x y : Nat) : Res (Heap × Nat) :=
  if eqv (h.buf x) [0#32] && eqv (h.buf y) [0#32] then .ok (h.alloc [1#32])
  else if eqv (h.buf x) [0#32] then .ok (h.alloc (deepClone (h.buf y)))
  else if eqv (h.buf y) [0#32] then .ok (h.alloc (deepClone (h.buf x)))
  else hOp .mul h x y

/-- rat.rs:323-348 `norm`: it writes the buffers of the numerator and of the denominator -/
def hrNorm (h : Heap) (x : HRat) : Res (Heap × HRat) :=
  let za := isNan (h.buf x.a.addr) || eqv (h.buf x.a.addr) [0#32]
  let zb := isNan (h.buf x.b.addr) || eqv (h.buf x.b.addr) [0#32]
  let h := if zb then h.write x.b.addr [1#32] else h
  let a : HInt := if za then ⟨x.a.addr, false⟩ else x.a
  if za || zb then .ok (h, ⟨a, x.b⟩)
  else do
    let g ← bGcd ⟨h.buf x.a.addr, false⟩ ⟨h.buf x.b.addr, false⟩
    let d := hbNew h g.1
    if eqv (d.1.buf d.2.addr) [1#32] then .ok (d.1, ⟨x.a, ⟨x.b.addr, false⟩⟩)
    else do
      let h ← NatOp.inner .div d.1 x.a.addr d.2.addr
      let h ← NatOp.inner .div h x.b.addr d.2.addr
      .ok (h, ⟨x.a, ⟨x.b.addr, false⟩⟩)

/-- the four operators -/
inductive RatOp where
  | add | sub | mul | div
deriving DecidableEq

/-- rat.rs:446-456 `add_inner` (`sub = false`) and 459-470 `sub_inner` (`sub = true`) -/
def hrAddSub (sub : Bool) (h : Heap) (x y : HRat) : Res (Heap × HRat) := do
  let a1 ← hrScale h x.a y.b.addr
  let a2 ← hrScale a1.1 y.a x.b.addr
  let a ← hbAssign (if sub then .sub else .add) a2.1 a1.2 a2.2
  let b ← hrMulDenom a.1 x.b.addr y.b.addr
  hrNorm b.1 ⟨a.2, ⟨b.2, false⟩⟩

/-- rat.rs:472-496 `mul_inner` -/
def hrMul (h : Heap) (x y : HRat) : Res (Heap × HRat) :=
  if rEq (x.value h) (y.value h) then
    let a := hbNew h (bSqr (x.a.value h))
    let b := hbNew a.1 (if eqv (a.1.buf x.b.addr) [0#32] then ⟨[1#32], false⟩ else bSqr (x.b.value a.1))
    hrNorm b.1 ⟨a.2, b.2⟩
  else do
    let a ← hbOp .mul h x.a y.a
    let d ← hrMulDenom a.1 x.b.addr y.b.addr
    let b := hbNew d.1 ⟨deepClone (d.1.buf d.2), false⟩
    hrNorm b.1 ⟨a.2, b.2⟩

/-- rat.rs:498-514 `div_inner` -/
def hrDiv (h : Heap) (x y : HRat) : Res (Heap × HRat) :=
  if eqv (h.buf y.a.addr) [0#32] then .error .panic
  else do
    let a ← hrScale h x.a y.b.addr
    let b ← hrScale a.1 y.a x.b.addr
    hrNorm b.1 ⟨⟨a.2.addr, a.2.neg != b.2.neg⟩, b.2⟩

/-- the function behind the operator -/
def RatOp.inner : RatOp → Heap → HRat → HRat → Res (Heap × HRat)
  | .add => hrAddSub false
  | .sub => hrAddSub true
  | .mul => hrMul
  | .div => hrDiv

/-- rat.rs:34-36 `is_nan` -/
def hrIsNan (h : Heap) (x : HRat) : Bool := isNan (h.buf x.a.addr) || isNan (h.buf x.b.addr)

/-- rat.rs:517-527, 540-550, 563-579: `x op y` -/
def hrOp (op : RatOp) (h : Heap) (x y : HRat) : Res (Heap × HRat) :=
  if hrIsNan h x || hrIsNan h y then .ok (hrNew h rNan) else op.inner h x y

/-- rat.rs:529-538, 552-561, 581-601: `x op= y`; `clear` (409-411) empties the buffer of the numerator.  `*=` tests only the
receiver. -/
def hrAssign (op : RatOp) (h : Heap) (x y : HRat) : Res (Heap × HRat) :=
  if hrIsNan h x || (op != .mul && hrIsNan h y) then .ok (h.write x.a.addr [], x) else op.inner h x y

/-! ## The operators on values, as modelled in `Verif.Model.Rat` -/

/-- `x op y` -/
def RatOp.fn : RatOp → RatV → RatV → Res RatV
  | .add => rAdd
  | .sub => rSub
  | .mul => rMul
  | .div => rDiv

/-- `x op= y` -/
def RatOp.assignFn : RatOp → RatV → RatV → Res RatV
  | .add => rAddAssign
  | .sub => rSubAssign
  | .mul => rMulAssign
  | .div => rDivAssign

/-! ## Programs -/

/-- A statement of a program over variables that hold `Rat`s.  `c` says whether the build traps arithmetic overflow. -/
inductive RCmd where
  /-- `let x = Rat::from_frac(n, d).unwrap();` -/
  | fromFrac (c : Bool) (x : Nat) (n d : BitVec 64)
  /-- `let x = Rat::from(f);` with a floating point number, given by its bits -/
  | fromF64 (x : Nat) (f : D)
  /-- `let x = y.clone();` -/
  | clone (x y : Nat)
  /-- `let x = y.deep_clone();` -/
  | deepClone (x y : Nat)
  /-- `let x = -y.clone();` -/
  | neg (x y : Nat)
  /-- `let x = y.abs();` -/
  | abs (x y : Nat)
  /-- `let x = y.inv().unwrap();` -/
  | inv (x y : Nat)
  /-- `let z = x.clone() op y.clone();` -/
  | op (o : RatOp) (z x y : Nat)
  /-- `x op= y.clone();` -/
  | assign (o : RatOp) (x y : Nat)

/-- the variables and the heap; a variable that is not bound is `none` -/
structure RState where
  env : Nat → Option HRat
  heap : Heap

/-- binding a variable, or storing the new fields of a receiver -/
def RState.bind (s : RState) (x : Nat) (r : Heap × HRat) : RState := ⟨fun y => if y = x then some r.2 else s.env y, r.1⟩

/-- the `Rat` a variable holds; a program that uses a variable that is not bound is not a program: an error. -/
def RState.get (s : RState) (x : Nat) : Res HRat :=
  match s.env x with
  | some v => .ok v
  | none => .error .panic

/-- what a variable shows -/
def RState.value (s : RState) (x : Nat) : Option RatV := (s.env x).map (HRat.value s.heap)

/-- `unwrap` -/
def unwrapR {α : Type} : Option α → Res α
  | some v => .ok v
  | none => .error .panic

/-- one statement -/
def RCmd.step (s : RState) : RCmd → Res RState
  | .fromFrac c x n d => do
    let v ← rFromFrac c n d
    let v ← unwrapR v
    .ok (s.bind x (hrNew s.heap v))
  | .fromF64 x f => do
    let v ← rFromF64 f
    .ok (s.bind x (hrNew s.heap v))
  | .clone x y => do
    let v ← s.get y
    .ok (s.bind x (s.heap, v))
  | .deepClone x y => do
    let v ← s.get y
    .ok (s.bind x (hrNew s.heap (rDeepClone (v.value s.heap))))
  | .neg x y => do
    let v ← s.get y
    .ok (s.bind x (hrNew s.heap (rNeg (v.value s.heap))))
  | .abs x y => do
    let v ← s.get y
    .ok (s.bind x (hrNew s.heap (rAbs (v.value s.heap))))
  | .inv x y => do
    let v ← s.get y
    let w ← unwrapR (rInv (v.value s.heap))
    .ok (s.bind x (hrNew s.heap w))
  | .op o z x y => do
    let v ← s.get x
    let w ← s.get y
    let r ← hrOp o s.heap v w
    .ok (s.bind z r)
  | .assign o x y => do
    let v ← s.get x
    let w ← s.get y
    let r ← hrAssign o s.heap v w
    .ok (s.bind x r)

/-- a program -/
def rRun : RState → List RCmd → Res RState
  | s, [] => .ok s
  | s, c :: cs =>
    match c.step s with
    | .ok s => rRun s cs
    | .error e => .error e

end RMath
