import Verif.Model.Heap
import Verif.Model.Float

/-!
# Sharing of mantissas between clones of a `Float`

`Float` derives `Clone` (float.rs:66): a clone has its own mode, accuracy, form, sign, precision and exponent, and shares
the buffer of the mantissa.  Here the mantissas are buffers of the heap of `Verif.Model.Heap`.  The functions that touch no
buffer but the receiver's (`round`, `fnorm`, `set_exp_and_round`, `set_precision`, …) are those of `Verif.Model.Float`,
applied to what the receiver shows, with the new mantissa written back; the functions with two operands are modelled
statement by statement: every operand is read from the heap as it is at that moment.
-/

namespace RMath

/-- float.rs:66-75: the object; `addr` is the buffer of the mantissa. -/
structure HFloat where
  mode : RoundingMode
  acc : Accuracy
  form : Form
  neg : Bool
  prec : Nat
  exp : Int
  addr : Nat
deriving DecidableEq

/-- what the object shows -/
def HFloat.view (h : Heap) (x : HFloat) : FloatV := ⟨x.mode, x.acc, x.form, x.neg, x.prec, x.exp, h.buf x.addr⟩

/-- the object with the fields of `v` and the buffer `a` -/
def HFloat.of (v : FloatV) (a : Nat) : HFloat := ⟨v.mode, v.acc, v.form, v.neg, v.prec, v.exp, a⟩

/-- the receiver gets the fields of `v`, its buffer the mantissa of `v` -/
def HFloat.put (h : Heap) (x : HFloat) (v : FloatV) : Heap × HFloat := (h.write x.addr v.mant, HFloat.of v x.addr)

/-- a new object with a buffer of its own -/
def hfNew (h : Heap) (v : FloatV) : Heap × HFloat := ((h.alloc v.mant).1, HFloat.of v (h.alloc v.mant).2)

/-- a function with `&mut self` that touches no buffer but the receiver's -/
def hfSelf (f : FloatV → Res FloatV) (h : Heap) (x : HFloat) : Res (Heap × HFloat) := (f (x.view h)).map (HFloat.put h x)

/-- float.rs:108-125 `set_precision` -/
def hfSetPrecision (h : Heap) (x : HFloat) (prec : Nat) : Res (Heap × HFloat) := hfSelf (fSetPrecision · prec) h x

/-- float.rs:128-131 `set_mode` -/
def hfSetMode (h : Heap) (x : HFloat) (mode : RoundingMode) : Res (Heap × HFloat) :=
  .ok (h, { x with mode := mode, acc := .exact })

/-- float.rs:77-87 `deep_clone` -/
def hfDeepClone (h : Heap) (x : HFloat) : Heap × HFloat := hfNew h (fDeepClone (x.view h))

/-- `self.mant.clear(); self.mant.as_mut_vec().extend(x.mant.iter())` (float.rs:248-249, 358-359): the words of `x` are
read after the buffer is emptied. -/
def hCopy (h : Heap) (a b : Nat) : Heap :=
  let h := h.write a []
  h.write a (h.buf a ++ h.buf b)

/-- float.rs:241-254 `set_mant_exp` -/
def hfSetMantExp (h : Heap) (z mant : HFloat) (exp : Int) : Res (Heap × HFloat) :=
  let z : HFloat := ⟨mant.mode, mant.acc, mant.form, mant.neg, mant.prec, mant.exp, z.addr⟩
  let h := hCopy h z.addr mant.addr
  if z.form = .finite then hfSelf (fSetExpAndRound · (isizeSatAdd z.exp exp) 0) h z else .ok (h, z)

/-- float.rs:352-366 `set_float` -/
def hfSetFloat (h : Heap) (z x : HFloat) : Res (Heap × HFloat) :=
  let z := { z with acc := .exact, form := x.form, neg := x.neg }
  let fin : Bool := z.form = .finite
  let z := if fin then { z with exp := x.exp } else z
  let h := if fin then hCopy h z.addr x.addr else h
  if z.prec = 0 then .ok (h, { z with prec := x.prec })
  else if z.prec < x.prec then hfSelf (fRound · 0) h z
  else .ok (h, z)

/-- float.rs:953-968, 1034-1050: align the mantissas and combine them by `op=`; the heap and the exponent of the least
bit. -/
def hfAlign (op : NatOp) (h : Heap) (x y : HFloat) : Res (Heap × Int) :=
  let ex : Int := x.exp - (h.buf x.addr).length * 32
  let ey : Int := y.exp - (h.buf y.addr).length * 32
  if ex < ey then
    -- `let tmp = y.mant.clone() << ..; x.mant op= tmp`
    let r := hOpPrim shlInner h y.addr (ey - ex).toNat
    (hAssign op r.1 x.addr r.2).map fun h => (h, ex)
  else if ex > ey then
    -- `x.mant <<= ..; x.mant op= y.mant.clone()`
    let h := hAssignPrim shlInner h x.addr (ex - ey).toNat
    (hAssign op h x.addr y.addr).map fun h => (h, ey)
  else (hAssign op h x.addr y.addr).map fun h => (h, ex)

/-- float.rs:970-971, 1058-1059: normalise the mantissa, set the exponent and round; `e` is the exponent of the least
bit. -/
def hfFinish (e : Int) (h : Heap) (x : HFloat) : Res (Heap × HFloat) :=
  hfSelf (fun v => do
    let s ← fnorm v.mant
    fSetExpAndRound { v with mant := s.1 } (e + (v.mant.length * 32 : Nat) - s.2) 0) h x

/-- float.rs:939-972 `uadd` -/
def hfUadd (h : Heap) (x y : HFloat) : Res (Heap × HFloat) := do
  let r ← hfAlign .add h x y
  hfFinish r.2 r.1 x

/-- float.rs:1027-1061 `usub` -/
def hfUsub (h : Heap) (x y : HFloat) : Res (Heap × HFloat) := do
  let r ← hfAlign .sub h x y
  if eqv (r.1.buf x.addr) [0#32] then .ok (r.1, { x with acc := .exact, form := .zero, neg := false })
  else hfFinish r.2 r.1 x

/-- float.rs:1005-1008, 1087-1089: the sign of an exact zero -/
def hfZeroSign (z : HFloat) : HFloat :=
  if z.form = .zero ∧ z.mode = .toNegativeInf ∧ z.acc = .exact then { z with neg := true } else z

/-- float.rs:989-1008, 1071-1089; in the last branch `*self = tmp`: the receiver leaves its buffer. -/
def hfAddFinite (same : Bool) (h : Heap) (x y : HFloat) : Res (Heap × HFloat) := do
  let z ←
    if same then hfUadd h x y
    else if fUcmp (x.view h) (y.view h) > 0 then hfUsub h x y
    else
      let t := hfDeepClone h y
      hfUsub t.1 { t.2 with neg := !x.neg } x
  .ok (z.1, hfZeroSign z.2)

/-- float.rs:974-1025 `add_inner` -/
def hfAddInner (h : Heap) (x y : HFloat) : Res (Heap × HFloat) :=
  let x := if x.prec = 0 then { x with prec := y.prec } else x
  if x.form = .finite ∧ y.form = .finite then hfAddFinite (x.neg == y.neg) h x y
  else if x.form = .inf ∧ y.form = .inf ∧ x.neg ≠ y.neg then .ok (h, { x with acc := .exact, form := .nan, neg := false })
  else if x.form = .inf ∨ y.form = .zero then .ok (h, x)
  else hfSetFloat h x y

/-- float.rs:1063-1112 `sub_inner` -/
def hfSubInner (h : Heap) (x y : HFloat) : Res (Heap × HFloat) :=
  let x := if x.prec = 0 then { x with prec := y.prec } else x
  if x.form = .finite ∧ y.form = .finite then hfAddFinite (x.neg != y.neg) h x y
  else if x.form = .inf ∧ y.form = .inf ∧ x.neg = y.neg then .ok (h, { x with acc := .exact, form := .nan, neg := false })
  else if x.form = .zero ∧ y.form = .zero then .ok (h, { x with acc := .exact, form := .zero, neg := x.neg && !y.neg })
  else if x.form = .inf ∨ y.form = .zero then .ok (h, x)
  else hfSetFloat h x y

/-- float.rs:1114-1126 `umul` -/
def hfUmul (h : Heap) (x y : HFloat) : Res (Heap × HFloat) := do
  let e := x.exp + y.exp
  let h ← hAssign .mul h x.addr y.addr
  hfSelf (fun v => do
    let s ← fnorm v.mant
    fSetExpAndRound { v with mant := s.1 } (e - s.2) 0) h x

/-- float.rs:1128-1157 `mul_inner` -/
def hfMulInner (h : Heap) (x y : HFloat) : Res (Heap × HFloat) :=
  let x := if x.prec = 0 then { x with prec := y.prec } else x
  let x := { x with neg := x.neg != y.neg }
  if x.form = .finite ∧ y.form = .finite then hfUmul h x y
  else
    let x := { x with acc := .exact }
    if (x.form = .zero ∧ y.form = .inf) ∨ (x.form = .inf ∧ y.form = .zero) then .ok (h, { x with form := .nan, neg := false })
    else if x.form = .inf ∨ y.form = .inf then .ok (h, { x with form := .inf })
    else .ok (h, { x with form := .zero })

/-- float.rs:543-581 `uquo`; `xadj` is a new buffer or the receiver's own. -/
def hfUquo (h : Heap) (x y : HFloat) : Res (Heap × HFloat) :=
  let n : Int := (x.prec / 32 : Nat) + 1
  let d : Int := n - (h.buf x.addr).length + (h.buf y.addr).length
  let r : Heap × Nat :=
    if d > 0 then h.alloc (resize (deepClone (h.buf x.addr)) (((h.buf x.addr).length : Int) + d).toNat) else (h, x.addr)
  let h := r.1
  let d : Int := ((h.buf r.2).length : Int) - (h.buf y.addr).length
  do
    let quo ← hOp .div h r.2 y.addr
    let rem ← hOp .rem quo.1 r.2 y.addr
    let h := hCopy rem.1 x.addr quo.2
    let e : Int := x.exp - y.exp - (d - (h.buf x.addr).length) * 32
    let sbit := if isNan (h.buf rem.2) || eqv (h.buf rem.2) [0#32] then 0 else 1
    hfSelf (fun v => do
      let s ← fnorm v.mant
      fSetExpAndRound { v with mant := s.1 } (e - s.2) sbit) h x

/-- float.rs:583-604 `div_inner` -/
def hfDivInner (h : Heap) (x y : HFloat) : Res (Heap × HFloat) :=
  let x := if x.prec = 0 then { x with prec := y.prec } else x
  let x := { x with neg := x.neg != y.neg }
  if x.form = .finite ∧ y.form = .finite then hfUquo h x y
  else
    let x := { x with acc := .exact }
    if (x.form = .zero ∧ y.form = .zero) ∨ (x.form = .inf ∧ x.form = .inf) then .ok (h, { x with form := .nan, neg := false })
    else if x.form = .zero ∨ y.form = .inf then .ok (h, { x with form := .zero })
    else .ok (h, { x with form := .inf })

/-- the four operators -/
inductive FOp where
  | add | sub | mul | div
deriving DecidableEq

/-- the function behind the operator, on values -/
def FOp.fn : FOp → FloatV → FloatV → Res FloatV
  | .add => fAddInner
  | .sub => fSubInner
  | .mul => fMulInner
  | .div => fDivInner

/-- the function behind the operator, on the heap -/
def FOp.inner : FOp → Heap → HFloat → HFloat → Res (Heap × HFloat)
  | .add => hfAddInner
  | .sub => hfSubInner
  | .mul => hfMulInner
  | .div => hfDivInner

/-- float.rs:1311-1391: `x op= y` -/
def hfAssign (op : FOp) (h : Heap) (x y : HFloat) : Res (Heap × HFloat) :=
  if x.form = .nan ∨ y.form = .nan then .ok (h, { x with form := .nan }) else op.inner h x y

/-- float.rs:1297-1381: `x op y` -/
def hfOp (op : FOp) (h : Heap) (x y : HFloat) : Res (Heap × HFloat) :=
  if x.form = .nan ∨ y.form = .nan then .ok (hfNew h fNan)
  else
    let z := hfDeepClone h x
    op.inner z.1 z.2 y

/-! ## Programs -/

/-- A statement of a program over variables that hold `Float`s. -/
inductive FCmd where
  /-- `let x = Float::from(u);` with an unsigned machine integer -/
  | fromU64 (x : Nat) (u : D)
  /-- `let x = Float::from(f);` with the bits of an `f64` -/
  | fromF64 (x : Nat) (f : D)
  /-- `let x = y.clone();` -/
  | clone (x y : Nat)
  /-- `let x = y.deep_clone();` -/
  | deepClone (x y : Nat)
  /-- `let x = -y.clone();` -/
  | neg (x y : Nat)
  /-- `let x = y.abs();` -/
  | abs (x y : Nat)
  /-- `let z = x.clone() op y.clone();` -/
  | op (o : FOp) (z x y : Nat)
  /-- `x op= y.clone();` -/
  | assign (o : FOp) (x y : Nat)
  /-- `x.set_precision(p);` -/
  | setPrecision (x p : Nat)
  /-- `x.set_mode(m);` -/
  | setMode (x : Nat) (m : RoundingMode)
  /-- `x.set_mant_exp(y.clone(), e);` -/
  | setMantExp (x y : Nat) (e : Int)

/-- the variables and the heap; a variable that is not bound is `none` -/
structure FState where
  env : Nat → Option HFloat
  heap : Heap

/-- binding a variable, or storing the new fields of a receiver -/
def FState.bind (s : FState) (x : Nat) (r : Heap × HFloat) : FState := ⟨fun y => if y = x then some r.2 else s.env y, r.1⟩

/-- the `Float` a variable holds; a program that uses a variable that is not bound is not a program: an error. -/
def FState.get (s : FState) (x : Nat) : Res HFloat :=
  match s.env x with
  | some v => .ok v
  | none => .error .panic

/-- what a variable shows -/
def FState.value (s : FState) (x : Nat) : Option FloatV := (s.env x).map (HFloat.view s.heap)

/-- one statement -/
def FCmd.step (s : FState) : FCmd → Res FState
  | .fromU64 x u => do
    let v ← fFromU64 u
    .ok (s.bind x (hfNew s.heap v))
  | .fromF64 x f => do
    let v ← fFromF64 f
    .ok (s.bind x (hfNew s.heap v))
  | .clone x y => do
    let v ← s.get y
    .ok (s.bind x (s.heap, v))
  | .deepClone x y => do
    let v ← s.get y
    .ok (s.bind x (hfDeepClone s.heap v))
  | .neg x y => do
    let v ← s.get y
    let z := hfDeepClone s.heap v
    .ok (s.bind x (z.1, { z.2 with neg := !z.2.neg }))
  | .abs x y => do
    let v ← s.get y
    let z := hfDeepClone s.heap v
    .ok (s.bind x (z.1, { z.2 with neg := false }))
  | .op o z x y => do
    let v ← s.get x
    let w ← s.get y
    let r ← hfOp o s.heap v w
    .ok (s.bind z r)
  | .assign o x y => do
    let v ← s.get x
    let w ← s.get y
    let r ← hfAssign o s.heap v w
    .ok (s.bind x r)
  | .setPrecision x p => do
    let v ← s.get x
    let r ← hfSetPrecision s.heap v p
    .ok (s.bind x r)
  | .setMode x m => do
    let v ← s.get x
    let r ← hfSetMode s.heap v m
    .ok (s.bind x r)
  | .setMantExp x y e => do
    let v ← s.get x
    let w ← s.get y
    let r ← hfSetMantExp s.heap v w e
    .ok (s.bind x r)

/-- a program -/
def fRun : FState → List FCmd → Res FState
  | s, [] => .ok s
  | s, c :: cs =>
    match c.step s with
    | .ok s => fRun s cs
    | .error e => .error e

end RMath
