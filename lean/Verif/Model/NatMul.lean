import Verif.Model.NatCore

/-!
# Multiplication (`nat_avx2.rs`) and the portable back end (`nat_generic.rs`)
-/

namespace RMath

/-! ## nat_avx2.rs -/

/-- nat_avx2.rs:24-42: the longer operand packed four words at a time, one word per 64-bit lane,
the last group padded with zeros. -/
def rpkg : Words → List (W × W × W × W)
  | x0 :: x1 :: x2 :: x3 :: t => (x0, x1, x2, x3) :: rpkg t
  | [x0, x1, x2] => [(x0, x1, x2, 0#32)]
  | [x0, x1] => [(x0, x1, 0#32, 0#32)]
  | [x0] => [(x0, 0#32, 0#32, 0#32)]
  | [] => []

/-- `_mm256_mul_epu32` of a broadcast word and a packed group (nat_avx2.rs:53). -/
def mulEpu32 (l : W) (r : W × W × W × W) : List D :=
  [toD l * toD r.1, toD l * toD r.2.1, toD l * toD r.2.2.1, toD l * toD r.2.2.2]

/-- nat_avx2.rs:46-58: one row of partial products, written at offset `i` of a zeroed buffer of
`vlen` cells. -/
def mulRow (vlen : Nat) (pk : List (W × W × W × W)) (i : Nat) (l : W) : List D :=
  resizeD (List.replicate i 0#64 ++ pk.flatMap (mulEpu32 l)) vlen
where
  /-- the cells after the last store keep the value 0 -/
  resizeD (v : List D) (n : Nat) : List D := v.take n ++ List.replicate (n - v.length) 0#64

/-- nat_avx2.rs:46-58: all the rows, `i` being the index of the word of the shorter operand. -/
def mulRows (vlen : Nat) (pk : List (W × W × W × W)) : Nat → Words → List (List D)
  | i, l :: ls => mulRow vlen pk i l :: mulRows vlen pk (i + 1) ls
  | _, [] => []

/-- nat_avx2.rs:66-70: sum of a column; `_addcarryx_u64` without carry in, the carries out are
counted in `c`. -/
def colSum : D → Nat → List D → D × Nat
  | out, c, y :: ys => colSum (out + y) (c + (decide (2 ^ 64 ≤ out.toNat + y.toNat)).toNat) ys
  | out, c, [] => (out, c)

/-- nat_avx2.rs:65-73: column loop.  The code keeps `pre` in a `u64`; here it is a number, and
what does not fit in 64 bits goes to the carry count.  It always fits: `c` is at most the number
of rows, and `2^32` rows (each of at least `2^32` cells of 8 bytes) do not fit in memory. -/
def colLoop : Nat → Nat → List (List D) → Words × Nat
  | 0, pre, _ => ([], pre)
  | n + 1, pre, rows =>
    let r := colSum (BitVec.ofNat 64 pre) (pre / 2 ^ 64) (rows.map (·.headD 0#64))
    let s := colLoop n ((r.1 >>> 32).toNat ||| (r.2 <<< 32)) (rows.map (·.drop 1))
    (toW (r.1 &&& 0xffffffff#64) :: s.1, s.2)

/-- nat_avx2.rs:11-77 `mul_manuual_by_avx2` -/
def mulAvx2 (x rhs : Words) : Words :=
  let mm := minMax (deepClone x) rhs
  let vlen := mm.1.length + (mm.2.1.length + 3) / 4 * 4 - 1
  let r := colLoop vlen 0 (mulRows vlen (rpkg mm.2.1) 0 mm.1)
  trim (r.1 ++ (if r.2 > 0 then [BitVec.ofNat 32 r.2] else []))

/-- nat_avx2.rs:79-92 `mul_inner` -/
def mulInner (x y : Words) : Words :=
  if eqv x [0#32] || eqv y [0#32] then [0#32]
  else if eqv x [1#32] then y
  else if !eqv y [1#32] then mulAvx2 x y
  else x

/-- `a * b` -/
def natMul := opNat mulInner

/-! ## nat_generic.rs -/

namespace Gen

/-- nat_generic.rs:41-46: the `zip` loop of `add_inner`. -/
def addZip : W → Words → Words → Words × W
  | c, a :: as, b :: bs =>
    let x := overflowingAdd a b
    let y := overflowingAdd x.1 c
    let s := addZip (boolW (x.2 || y.2)) as bs
    (y.1 :: s.1, s.2)
  | c, _, _ => ([], c)

/-- nat_generic.rs:47-51 -/
def addTail : W → Words → Words × W
  | c, a :: as =>
    let x := overflowingAdd a c
    let s := addTail (boolW x.2) as
    (x.1 :: s.1, s.2)
  | c, [] => ([], c)

/-- nat_generic.rs:34-56 `add_inner` -/
def addInner (x y : Words) : Words :=
  let x := if geOp x y then x else resize x y.length
  let lo := addZip 0#32 x y
  let hi := addTail lo.2 (x.drop y.length)
  lo.1 ++ hi.1 ++ (if hi.2 > 0#32 then [hi.2] else [])

/-- nat_generic.rs:65-74 -/
def subZip (isGe : Bool) : W → Words → Words → Words × W
  | c, a :: as, b :: bs =>
    let x := if isGe then overflowingSub a b else overflowingSub b a
    let y := overflowingSub x.1 c
    let s := subZip isGe (boolW (y.2 || x.2)) as bs
    (y.1 :: s.1, s.2)
  | c, _, _ => ([], c)

/-- nat_generic.rs:77-81 -/
def subTail : W → Words → Words
  | c, a :: as =>
    let x := overflowingSub a c
    x.1 :: subTail (boolW x.2) as
  | _, [] => []

/-- nat_generic.rs:58-87 `sub_inner_with_sign` -/
def subInnerWithSign (x y : Words) : Words × Bool :=
  let isGe := geOp x y
  let x := if isGe then x else resize x y.length
  let lo := subZip isGe 0#32 x y
  let rest := x.drop lo.1.length
  let rest := if isGe && decide (lo.2 > 0#32) then subTail lo.2 rest else rest
  (trim (lo.1 ++ rest), isGe)

/-- nat_generic.rs:89-91 `sub_inner` -/
def subInner (x y : Words) : Words := (subInnerWithSign x y).1

/-- nat_generic.rs:96-102 -/
def addBasicLoop : W → W → Words → Words × W
  | c, rhs, a :: as =>
    let x := overflowingAdd a rhs
    let y := overflowingAdd x.1 c
    let s := addBasicLoop (boolW (x.2 || y.2)) 0#32 as
    (y.1 :: s.1, s.2)
  | c, _, [] => ([], c)

/-- nat_generic.rs:93-106 `add_inner_basic` -/
def addInnerBasic (x : Words) (rhs : W) : Words :=
  let r := addBasicLoop 0#32 rhs x
  r.1 ++ (if r.2 > 0#32 then [r.2] else [])

/-- nat_generic.rs:123-135 -/
def subBasicLoop : W → W → Words → Words
  | c, rhs, a :: as =>
    if rhs > 0#32 then
      let x := overflowingSub a rhs
      let y := overflowingSub x.1 c
      y.1 :: subBasicLoop (boolW (x.2 || y.2)) 0#32 as
    else
      let x := overflowingSub a c
      x.1 :: subBasicLoop (boolW x.2) rhs as
  | _, _, [] => []

/-- nat_generic.rs:108-138 `sub_inner_basic` -/
def subInnerBasic (x : Words) (rhs : W) : Words :=
  match x with
  | [] => []
  | [w] => [if w < rhs then rhs - w else w - rhs]
  | _ => trim (subBasicLoop 0#32 rhs x)

/-- nat_generic.rs:20-29: the inner loop of `mul_inner`.  `carry` is the last element of `round`,
which the code pops and pushes back. -/
def roundLoop (a : D) : W → Words → Words
  | carry, b :: bs =>
    let x := a * toD b
    let y := x + toD carry
    let cy := decide (2 ^ 64 ≤ x.toNat + (toD carry).toNat)
    if cy then toW (y &&& 0xffffffff#64) :: toW (y >>> 32) :: roundLoop a 1#32 bs
    else toW (y &&& 0xffffffff#64) :: roundLoop a (toW (y >>> 32)) bs
  | carry, [] => [carry]

/-- nat_generic.rs:16-31: the outer loop of `mul_inner`. -/
def mulLoop (max : Words) : Nat → Words → Words → Words
  | i, acc, a :: as =>
    mulLoop max (i + 1) (addInner acc (trim (List.replicate i 0#32 ++ roundLoop (toD a) 0#32 max))) as
  | _, acc, [] => acc

/-- nat_generic.rs:4-32 `mul_inner` -/
def mulInner (x y : Words) : Words :=
  let mm := minMax x y
  trim (mulLoop mm.2.1 0 [0#32] mm.1)

end Gen

end RMath
