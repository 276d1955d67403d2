import Verif.Model.IntHeap
import Verif.Model.NatFun

/-!
# Functions that make a number from others, on shared buffers (`nat.rs`, `bigint.rs`)

`pow`, `pow_mod`, `sqrt`, `gcd`, `mod_inverse`, `solve_mod_linear_equation` take references to buffers that the caller goes
on using, and work in place on buffers of their own.  Here every buffer they touch is a cell of the heap
(`Verif.Model.Heap`), and a `clone` in the code is the same address.
-/

namespace RMath

open Heap

/-! ## `Nat` -/

/-- nat.rs:774-779: the loop of `pow_inner`; `a` is `self`, `p` is `pre`.  `pre.mul_inner(&pre.clone())` has the same buffer
on both sides. -/
def hPowLoop (a p b : Nat) : Nat → Nat → Heap → Res Heap
  | 0, _, h => .ok h
  | n + 1, i, h =>
    let h := hMulInner h p p
    match isSetBit_ (h.buf b) i with
    | .error e => .error e
    | .ok true => hPowLoop a p b n (i + 1) (hMulInner h a p)
    | .ok false => hPowLoop a p b n (i + 1) h

/-- nat.rs:752-781 `pow_inner` on the buffer `a`; the comparison of pointers is that of the addresses. -/
def hPowInner (h : Heap) (a b : Nat) : Res Heap :=
  if eqv (h.buf a) [0#32] then
    (if eqv (h.buf b) [0#32] then .ok (h.write a [1#32]) else .ok (h.write a [0#32]))
  else if eqv (h.buf b) [0#32] then .ok (h.write a [1#32])
  else
    let c := if b = a then h.alloc (deepClone (h.buf b)) else (h, b)
    let blen := bitsLen (c.1.buf c.2)
    let p := c.1.alloc (deepClone (c.1.buf a))
    match isSetBit_ (p.1.buf c.2) 0 with
    | .error e => .error e
    | .ok s => hPowLoop a p.2 c.2 (blen - 1) 1 (if s then p.1 else p.1.write a [1#32])

/-- nat.rs:744-750 `pow`: the new heap and the address of the result -/
def hPow (h : Heap) (x b : Nat) : Res (Heap × Nat) :=
  if isNan (h.buf x) || isNan (h.buf b) then .ok (h.alloc NaN)
  else
    let r := h.alloc (deepClone (h.buf x))
    match hPowInner r.1 r.2 b with
    | .ok h => .ok (h, r.2)
    | .error e => .error e

/-- `self.rem_inner(&n)` (nat.rs:557-581), with a bound on its rounds that is never reached for different buffers -/
def hRem (h : Heap) (a n : Nat) : Res Heap := hRemInner (val (h.buf a) + 2) h a n

/-- nat.rs:807-814: the loop of `pow_mod_inner`; `a` is `self`, `m` is `sm`. -/
def hPowModLoop (a m b n : Nat) : Nat → Heap → Res Heap
  | 0, h => .ok h
  | i + 1, h => do
    let h ← hRem (hMulInner h a a) a n
    let s ← isSetBit_ (h.buf b) i
    if s then
      let h ← hRem (hMulInner h a m) a n
      hPowModLoop a m b n i h
    else hPowModLoop a m b n i h

/-- nat.rs:794-816 `pow_mod_inner` on the buffer `a` -/
def hPowModInner (h : Heap) (a b n : Nat) : Res Heap :=
  if eqv (h.buf n) [0#32] then hPowInner h a b
  else if eqv (h.buf n) [1#32] then .ok (h.write a [0#32])
  else do
    let d := if n = a then h.alloc (deepClone (h.buf n)) else (h, n)
    let c := if b = a then d.1.alloc (deepClone (d.1.buf b)) else (d.1, b)
    let m := c.1.alloc (deepClone (c.1.buf a))
    let h ← hRem (m.1.write a [1#32]) m.2 d.2
    hPowModLoop a m.2 c.2 d.2 (bitsLen (h.buf c.2)) h

/-- nat.rs:786-792 `pow_mod` -/
def hPowMod (h : Heap) (x b n : Nat) : Res (Heap × Nat) :=
  if isNan (h.buf x) || isNan (h.buf b) || isNan (h.buf n) then .ok (h.alloc NaN)
  else
    let r := h.alloc (deepClone (h.buf x))
    match hPowModInner r.1 r.2 b n with
    | .ok h => .ok (h, r.2)
    | .error e => .error e

/-- nat.rs:1166-1176: the loop of `sqrt`; the buffer of the previous approximation is given up when the next one is. -/
def hSqrtLoop (x : Nat) : Nat → Heap → Nat → Res (Heap × Nat)
  | 0, _, _ => .error .hang
  | fuel + 1, h, z1 => do
    let q ← hOp .div h x z1
    let h ← hAssign .add q.1 q.2 z1
    let h := hAssignPrim shrInner h q.2 1
    if geOp (h.buf q.2) (h.buf z1) then .ok (h, z1) else hSqrtLoop x fuel h q.2

/-- nat.rs:1158-1177 `sqrt`; the fuel is as in `natSqrt`. -/
def hSqrt (h : Heap) (x : Nat) : Res (Heap × Nat) :=
  if isNan (h.buf x) || leOp (h.buf x) [1#32] then .ok (h.alloc (deepClone (h.buf x)))
  else
    let z1 := h.alloc [1#32]
    let h := hAssignPrim shlInner z1.1 z1.2 ((bitsLen (h.buf x) + 1) / 2)
    hSqrtLoop x (val (h.buf z1.2) + 1) h z1.2

/-! ## `BigInt` -/

/-- three `BigInt`s -/
structure HInt3 where
  d : HInt
  x : HInt
  y : HInt

/-- bigint.rs:282-293 `gcd_extend`; `lhs` is handed back as it is when `rhs` is zero; the product is stored in the buffer of
`div`, the difference in that of `x_p`. -/
def hbGcdExtend : Nat → Heap → HInt → HInt → Res (Heap × HInt3)
  | 0, _, _, _ => .error .hang
  | fuel + 1, h, lhs, rhs =>
    if bEqW (rhs.value h) 0#32 then
      let one := hbNew h bOne
      let zero := hbNew one.1 bZero
      .ok (zero.1, ⟨lhs, one.2, zero.2⟩)
    else do
      let rem ← hbOp .rem h lhs rhs
      let div ← hbOp .div rem.1 lhs rhs
      let r ← hbGcdExtend fuel div.1 rhs rem.2
      let div ← hbMul r.1 div.2 r.2.y
      let x ← hbSub div.1 r.2.x div.2
      .ok (x.1, ⟨r.2.d, r.2.y, x.2⟩)

/-- three new `BigInt`s -/
def hbNew3 (h : Heap) (d x y : BInt) : Heap × HInt3 :=
  let r := hbNew h d
  let s := hbNew r.1 x
  let t := hbNew s.1 y
  (t.1, ⟨r.2, s.2, t.2⟩)

/-- bigint.rs:563-569 `neg_inner`: the flag only -/
def hbNegInner (h : Heap) (x : HInt) : HInt := ⟨x.addr, (bNegInner (x.value h)).neg⟩

/-- bigint.rs:247-280 `gcd` -/
def hbGcd (h : Heap) (x y : HInt) : Res (Heap × HInt3) :=
  let vx := x.value h
  let vy := y.value h
  if bIsNan vx || bIsNan vy then .ok (hbNew3 h bNan bNan bNan)
  else if bEqW vx 0#32 && bEqW vy 0#32 then .ok (hbNew3 h bZero bZero bZero)
  else if bEqW vx 0#32 && !bEqW vy 0#32 then
    .ok (hbNew3 h (bAbs vy) bZero (if bIsNegative vy then bMinusOne else bOne))
  else if !bEqW vx 0#32 && bEqW vy 0#32 then
    .ok (hbNew3 h (bAbs vx) (if bIsNegative vx then bMinusOne else bOne) bZero)
  else do
    let lhs := hbNew h (if bIsNegative vx then bNeg vx else bDeepClone vx)
    let rhs := hbNew lhs.1 (if bIsNegative vy then bNeg vy else bDeepClone vy)
    let r ← hbGcdExtend (val (rhs.2.value rhs.1).nat + 1) rhs.1 lhs.2 rhs.2
    .ok (r.1, ⟨r.2.d, if bIsNegative vx then hbNegInner r.1 r.2.x else r.2.x,
      if bIsNegative vy then hbNegInner r.1 r.2.y else r.2.y⟩)

/-- bigint.rs:303-328 `mod_inverse`; `g` is `self` itself when that is not negative; the sum is stored in the buffer of `x`. -/
def hbModInverse (h : Heap) (x n : HInt) : Res (Heap × HInt) :=
  if bIsNan (x.value h) || bIsNan (n.value h) then .ok (hbNew h bNan)
  else do
    let m := hbNew h (if bIsNegative (n.value h) then bAbs (n.value h) else bDeepClone (n.value h))
    let g ← (if bIsNegative (x.value m.1) then hiOp .remEuclid m.1 x m.2 else .ok (m.1, x) : Res (Heap × HInt))
    let r ← hbGcd g.1 g.2 m.2
    if bIsNegative (r.2.x.value r.1) then hbAdd r.1 r.2.x m.2 else .ok (r.1, r.2.x)

/-- bigint.rs:359-364: the loop of `solve_mod_linear_equation`; `i += one.clone()` is in place. -/
def hbSolveLoop (x0 nd n d one : HInt) : Nat → Heap → HInt → Res (Heap × List HInt)
  | 0, _, _ => .error .hang
  | fuel + 1, h, i =>
    if bLt (i.value h) (d.value h) then do
      let t ← hbOp .mul h i nd
      let t ← hbOp .add t.1 x0 t.2
      let r ← hiOp .remEuclid t.1 t.2 n
      let i ← hbAssign .add r.1 i one
      let rs ← hbSolveLoop x0 nd n d one fuel i.1 i.2
      .ok (rs.1, r.2 :: rs.2)
    else .ok (h, [])

/-- bigint.rs:333-373 `solve_mod_linear_equation`; a modulus that is not negative is the caller's own buffer. -/
def hbSolve (h : Heap) (x b n : HInt) : Res (Heap × Option (List HInt)) :=
  if bIsNan (x.value h) || bIsNan (b.value h) || bIsNan (n.value h) then .ok (h, none)
  else do
    let m := if bIsNegative (n.value h) then hbNew h (bAbs (n.value h)) else (h, n)
    let a ← (if bIsNegative (x.value m.1) then hiOp .remEuclid m.1 x m.2 else .ok (m.1, x) : Res (Heap × HInt))
    let g ← hbGcd a.1 a.2 m.2
    let zero := hbNew g.1 bZero
    if bGt (g.2.d.value zero.1) (zero.2.value zero.1) then do
      let divides ← (if bEq (b.value zero.1) (zero.2.value zero.1) then .ok (zero.1, true)
        else (do let r ← hbOp .rem zero.1 b g.2.d; .ok (r.1, bEqW (r.2.value r.1) 0#32)) : Res (Heap × Bool))
      if divides.2 then do
        let q ← hbOp .div divides.1 b g.2.d
        let x ← hbAssign .mul q.1 g.2.x q.2
        let x0 ← hiOp .remEuclid x.1 x.2 m.2
        let nd ← hbOp .div x0.1 m.2 g.2.d
        let one := hbNew nd.1 bOne
        let rs ← hbSolveLoop x0.2 nd.2 m.2 g.2.d one.2 (val (g.2.d.value one.1).nat + 1) one.1 zero.2
        .ok (rs.1, some rs.2)
      else .ok (divides.1, none)
    else .ok (zero.1, none)

end RMath
