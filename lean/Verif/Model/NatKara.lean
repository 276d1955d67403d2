import Verif.Model.NatMul

/-!
# Kernels of `arith_generic.rs`, Karatsuba multiplication and squaring, Montgomery multiplication

The kernels that work through raw pointers are modelled on the list segments they access; the
callers say which segment of the destination is passed.
-/

namespace RMath

/-! ## arith_generic.rs -/

/-- arith_generic.rs:14-17 `mul_ww`: (high word, low word) -/
def mulWW (x y : W) : W × W :=
  let z := toD x * toD y
  (toW (z >>> 32), toW (z &&& 0xffffffff#64))

/-- arith_generic.rs:22-25 `mul_add_www`: (high word, low word) -/
def mulAddWWW (x y c : W) : W × W :=
  let z := toD x * toD y + toD c
  (toW (z >>> 32), toW (z &&& 0xffffffff#64))

/-- arith_generic.rs:42-58 `add_vv`, `add_vv_inner`: new words and carry. -/
def addVVc : W → Words → Words → Words × W
  | c, x :: xs, y :: ys =>
    let t := overflowingAdd x y
    let u := overflowingAdd t.1 c
    let s := addVVc (boolW (t.2 || u.2)) xs ys
    (u.1 :: s.1, s.2)
  | c, _, _ => ([], c)

/-- `add_vv` with the initial carry 0 -/
def addVV (x y : Words) : Words × W := addVVc 0#32 x y

/-- arith_generic.rs:62-78 `sub_vv`, `sub_vv_inner`: new words and borrow. -/
def subVVc : W → Words → Words → Words × W
  | c, x :: xs, y :: ys =>
    let t := overflowingSub x y
    let u := overflowingSub t.1 c
    let s := subVVc (boolW (t.2 || u.2)) xs ys
    (u.1 :: s.1, s.2)
  | c, _, _ => ([], c)

/-- `sub_vv` with the initial borrow 0 -/
def subVV (x y : Words) : Words × W := subVVc 0#32 x y

/-- arith_generic.rs:80-94 `add_vw`, `add_vw_inner` -/
def addVW : W → Words → Words × W
  | c, x :: xs =>
    let t := overflowingAdd x c
    let s := addVW (boolW t.2) xs
    (t.1 :: s.1, s.2)
  | c, [] => ([], c)

/-- arith_generic.rs:109-123 `sub_vw`, `sub_vw_inner` -/
def subVW : W → Words → Words × W
  | c, x :: xs =>
    let t := overflowingSub x c
    let s := subVW (boolW t.2) xs
    (t.1 :: s.1, s.2)
  | c, [] => ([], c)

/-- arith_generic.rs:154-168 `shl_vu_inner`.  Word `i` becomes `(x[i] << s) | (x[i-1] >> (32-s))`; the loop
runs from the top down, so it reads the original words also when `z` and `x` are the same.  For `0 < s < 32`
this is the loop of `shl_inner`; the only call has `s = 1`. -/
def shlVU (x : Words) (s : Nat) : Words × W :=
  if s = 0 ∨ x = [] then (x, 0#32) else shlLoop (s % 32) 0#32 x

/-- arith_generic.rs:202-208 `mul_add_vww` -/
def mulAddVWW (y : W) : W → Words → Words × W
  | c, x :: xs =>
    let p := mulAddWWW x y c
    let s := mulAddVWW y p.1 xs
    (p.2 :: s.1, s.2)
  | c, [] => ([], c)

/-- arith_generic.rs:211-227 `add_mul_vvw`, `add_mul_vvw_inner`: new words of `z` and carry.
`1 + z1` cannot overflow. -/
def addMulVVWc (y : W) : W → Words → Words → Words × W
  | c, z :: zs, x :: xs =>
    let p := mulAddWWW x y z
    let l := overflowingAdd p.2 c
    let s := addMulVVWc y (if l.2 then 1#32 + p.1 else p.1) zs xs
    (l.1 :: s.1, s.2)
  | c, _, _ => ([], c)

/-- `add_mul_vvw(z, x, y)` -/
def addMulVVW (z x : Words) (y : W) : Words × W := addMulVVWc y 0#32 z x

/-- storing the words `v` at index `i` of the buffer `z` -/
def writeAt (z : Words) (i : Nat) (v : Words) : Words := z.take i ++ v ++ z.drop (i + v.length)

/-! ## nat.rs: multiplication -/

/-- nat.rs:1196-1201: the loop of `basic_mul`; `z` is the part of the buffer that starts at word `i`. -/
def basicMulLoop (x : Words) : Words → Words → Words
  | z, d :: ds =>
    let z' := if d ≠ 0#32 then
        let r := addMulVVW (z.take x.length) x d
        r.1 ++ [r.2] ++ z.drop (x.length + 1)
      else z
    match z' with
    | w :: t => w :: basicMulLoop x t ds
    | [] => []
  | z, [] => z

/-- nat.rs:1194-1202 `basic_mul` -/
def basicMul (z x y : Words) : Words :=
  basicMulLoop x (List.replicate (x.length + y.length) 0#32 ++ z.drop (x.length + y.length)) y

/-- nat.rs:1204-1215 `mul_add_ww` -/
def mulAddWW (x : Words) (y r : W) : Words :=
  if x.length = 0 ∨ y = 0#32 then [r]
  else
    let p := mulAddVWW y r x
    trim (p.1 ++ [p.2])

/-- nat.rs:18 -/
def KARATSUBA_THRESHOLD : Nat := 40
/-- nat.rs:19 `BASIC_SQRT_HRESHOLD` -/
def BASIC_SQR_THRESHOLD : Nat := 20
/-- nat.rs:20 `KARATSUBA_SQRT_HRESHOLD` -/
def KARATSUBA_SQR_THRESHOLD : Nat := 260

/-- nat.rs:1180-1185 `karatsuba_add(z + off, x, n)` -/
def karaAdd (z : Words) (off : Nat) (x : Words) (n : Nat) : Words :=
  let r := addVV ((z.drop off).take n) (x.take n)
  let z := writeAt z off r.1
  if r.2 ≠ 0#32 then
    writeAt z (off + n) (addVW r.2 ((z.drop (off + n)).take (n / 2))).1
  else z

/-- nat.rs:1187-1192 `karatsuba_sub(z + off, x, n)` -/
def karaSub (z : Words) (off : Nat) (x : Words) (n : Nat) : Words :=
  let r := subVV ((z.drop off).take n) (x.take n)
  let z := writeAt z off r.1
  if r.2 ≠ 0#32 then
    writeAt z (off + n) (subVW r.2 ((z.drop (off + n)).take (n / 2))).1
  else z

/-- nat.rs:1377-1380, 1385-1388, 1474-1476: difference of two vectors, negated when it is negative; the flag says
whether it was negated.  The word counts `tmp` passed by the code all equal the common length. -/
def absDiff (a b : Words) : Words × Bool :=
  let d := subVV a b
  if d.2 ≠ 0#32 then ((subVV b a).1, true) else (d.1, false)

/-- nat.rs:1319-1418 `karatsuba`.  `z` is the buffer from the pointer to its end; `x` and `y` are the words
read through the operand pointers, which never overlap the part of `z` being written.  The recursion halves
the length, `fuel` bounds its depth. -/
def karatsuba : Nat → Words → Words → Words → Words
  | 0, z, _, _ => z
  | fuel + 1, z, x, y =>
    let n := y.length
    if n % 2 ≠ 0 ∨ n < KARATSUBA_THRESHOLD ∨ n < 2 then basicMul z x y
    else
      let n2 := n / 2
      let x1 := x.drop n2
      let x0 := x.take n2
      let y1 := y.drop n2
      let y0 := y.take n2
      let z := karatsuba fuel z x0 y0
      let z := z.take n ++ karatsuba fuel (z.drop n) x1 y1
      let xd := absDiff x1 x0
      let z := writeAt z (2 * n) xd.1
      let yd := absDiff y0 y1
      let z := writeAt z (2 * n + n2) yd.1
      let s := xd.2 == yd.2
      let z := z.take (2 * n + n) ++
        karatsuba fuel (z.drop (2 * n + n)) ((z.drop (2 * n)).take n2) ((z.drop (2 * n + n2)).take n2)
      let z := writeAt z (4 * n) (z.take (min (2 * n) (z.length - 4 * n)))
      let z := karaAdd z n2 (z.drop (4 * n)) n
      let z := karaAdd z n2 (z.drop (4 * n + n)) n
      if s then karaAdd z n2 (z.drop (2 * n + n)) n else karaSub z n2 (z.drop (2 * n + n)) n

/-- nat.rs:1426-1429: the loop of `karatsuba_len` -/
def karaLenLoop (threshold : Nat) : Nat → Nat → Nat → Nat
  | 0, n, i => n * 2 ^ i
  | fuel + 1, n, i => if n > threshold then karaLenLoop threshold fuel (n / 2) (i + 1) else n * 2 ^ i

/-- nat.rs:1424-1432 `karatsuba_len` -/
def karaLen (n threshold : Nat) : Nat := karaLenLoop threshold n n 0

/-- nat.rs:1492-1502 `add_at` -/
def addAt (z x : Words) (i : Nat) : Words :=
  if x.length > 0 then
    let r := addVV ((z.drop i).take x.length) x
    let z := writeAt z i r.1
    if r.2 ≠ 0#32 then
      let j := i + x.length
      if j < z.length then writeAt z j (addVW r.2 (z.drop j)).1 else z
    else z
  else z

/-- nat.rs:1277-1279, 1287-1289, 1298-1300, 1559-1561: cut the zero words at the most significant end (possibly all). -/
def stripZeros (x : Words) : Words := (x.reverse.dropWhile (· == 0#32)).reverse

/-- nat.rs:1290-1309: the loop over the `k`-word pieces of `x` above the first one; `xr` is `x[i..]`. -/
def karaPieces (mul : Words → Words → Words) (k : Nat) (y0 y1 : Words) : Nat → Nat → Words → Words → Words
  | 0, _, _, z => z
  | fuel + 1, i, xr, z =>
    if xr = [] then z
    else
      let xi := stripZeros (if xr.length > k then xr.take k else xr)
      let z := addAt z (mul xi y0) i
      let z := addAt z (mul xi y1) (i + k)
      karaPieces mul k y0 y1 fuel (i + k) (xr.drop k) z

/-- nat.rs:1223-1313 `mul_by_karatsuba` (result content of `z`).  The call with swapped operands for
`m < n` is folded into the first line; `fuel` bounds the depth of the recursion. -/
def mulKaraF : Nat → Words → Words → Words
  | 0, _, _ => []
  | fuel + 1, xx, yy =>
    let x := if xx.length < yy.length then yy else xx
    let y := if xx.length < yy.length then xx else yy
    let m := x.length
    let n := y.length
    if m = 0 ∨ n = 0 then []
    else if n = 1 then mulAddWW x (y.headD 0#32) 0#32
    else if n < KARATSUBA_THRESHOLD then trim (basicMul (List.replicate (m + n) 0#32) x y)
    else
      let k := karaLen n KARATSUBA_THRESHOLD
      let x0 := x.take k
      let y0 := y.take k
      let z := karatsuba (k + 1) (List.replicate (max (6 * k) (m + n)) 0#32) x0 y0
      let z := z.take (m + n)
      let z := z.take (2 * k) ++ List.replicate (z.length - 2 * k) 0#32
      let z :=
        if k < n ∨ m ≠ n then
          let y1 := y.drop k
          let z := addAt z (mulKaraF fuel (stripZeros x0) y1) k
          karaPieces (mulKaraF fuel) k (stripZeros y0) y1 m k (x.drop k) z
        else z
      trim z

/-- `mul_by_karatsuba(z, x, y)`: new content of `z` -/
def mulKara (x y : Words) : Words := mulKaraF (x.length + y.length + 1) x y

/-- nat.rs:1217-1221 `mul_karatsuba` -/
def natMulKaratsuba (x y : Words) : Words := trim (mulKara x y)

/-! ## nat.rs: squaring -/

/-- nat.rs:1442-1452: the loop of `basic_sqr` on the vector `t` of mixed products; `pre` are the words of `x`
already treated. -/
def sqrMixed : Words → Words → Words → Words
  | pre, t, d :: ds =>
    let i := pre.length
    let r := addMulVVW ((t.drop i).take i) pre d
    sqrMixed (pre ++ [d]) (writeAt (writeAt t i r.1) (2 * i) [r.2]) ds
  | _, t, [] => t

/-- nat.rs:1437-1439, 1444-1448: the squares of the words. -/
def sqrDiag : Words → Words
  | d :: ds => (mulWW d d).2 :: (mulWW d d).1 :: sqrDiag ds
  | [] => []

/-- nat.rs:1434-1457 `basic_sqr` -/
def basicSqr (z x : Words) : Words :=
  let z := writeAt z 0 (sqrDiag x)
  let t := sqrMixed (x.take 1) (List.replicate (2 * x.length) 0#32) (x.drop 1)
  let tmp := 2 * x.length - 1
  let sh := shlVU ((t.drop 1).take (tmp - 1)) 1
  let t := writeAt (writeAt t 1 sh.1) tmp [sh.2]
  let m := min z.length (2 * x.length)
  writeAt z 0 (addVV (z.take m) (t.take m)).1

/-- nat.rs:1459-1489 `karatsuba_sqr`; see `karatsuba` for `z` and `fuel`. -/
def karatsubaSqr : Nat → Words → Words → Words
  | 0, z, _ => z
  | fuel + 1, z, x =>
    let n := x.length
    if n % 2 ≠ 0 ∨ n < KARATSUBA_THRESHOLD ∨ n < 2 then basicSqr z x
    else
      let n2 := n / 2
      let x1 := x.drop n2
      let x0 := x.take n2
      let z := karatsubaSqr fuel z x0
      let z := z.take n ++ karatsubaSqr fuel (z.drop n) x1
      let xd := absDiff x1 x0
      let z := writeAt z (2 * n) xd.1
      let z := z.take (2 * n + n) ++ karatsubaSqr fuel (z.drop (2 * n + n)) ((z.drop (2 * n)).take n2)
      let z := writeAt z (4 * n) (z.take (min (z.length - 4 * n) (2 * n)))
      let z := karaAdd z n2 (z.drop (4 * n)) n
      let z := karaAdd z n2 (z.drop (4 * n + n)) n
      karaSub z n2 (z.drop (2 * n + n)) n

/-- nat.rs:1512-1575 `sqr_v` (result content of `z`); `fuel` bounds the recursion depth. -/
def sqrF : Nat → Words → Words
  | 0, _ => []
  | fuel + 1, x =>
    match x with
    | [] => []
    | [d] => trim [(mulWW d d).2, (mulWW d d).1]
    | _ =>
      if x.length < BASIC_SQR_THRESHOLD then trim (basicMul (List.replicate (2 * x.length) 0#32) x x)
      else if x.length < KARATSUBA_SQR_THRESHOLD then trim (basicSqr (List.replicate (2 * x.length) 0#32) x)
      else
        let k := karaLen x.length KARATSUBA_SQR_THRESHOLD
        let x0 := x.take k
        let z := karatsubaSqr (k + 1) (List.replicate (max (k * 6) (x.length * 2)) 0#32) x0
        let z := z.take (2 * x.length)
        let z := z.take (2 * k) ++ List.replicate (z.length - 2 * k) 0#32
        let z :=
          if k < x.length then
            let x1 := x.drop k
            let t := mulKara (stripZeros x0) x1
            let z := addAt z t k
            let z := addAt z t k
            addAt z (sqrF fuel x1) (2 * k)
          else z
        trim z

/-- `sqr_v(z, x)`: new content of `z` -/
def sqrV (x : Words) : Words := sqrF (x.length + 1) x

/-- nat.rs:1505-1509 `sqr` -/
def natSqr (x : Words) : Words := trim (sqrV x)

/-! ## nat.rs: Montgomery multiplication -/

/-- nat.rs:1593-1604: the loop of `montgomery`.  `w` is the window `z[i..n+i]`; the words below it are never
read again, the words above it are zero until they are written.  Returns the window after the last step and the
carry `c`. -/
def montLoop (x m : Words) (k : W) : W → Words → Words → Words × W
  | c, w, d :: ds =>
    let r2 := addMulVVW w x d
    let t := (r2.1.headD 0#32) * k
    let r3 := addMulVVW r2.1 m t
    let cx := c + r2.2
    let cy := cx + r3.2
    montLoop x m k (if cx < r2.2 ∨ cy < r3.2 then 1#32 else 0#32) (r3.1.drop 1 ++ [cy]) ds
  | c, w, [] => (w, c)

/-- nat.rs:1586-1618 `montgomery`: result content of `z`; panics if the lengths differ. -/
def montgomery (x y m : Words) (k : W) (n : Nat) : Res Words :=
  if x.length ≠ n ∨ y.length ≠ n ∨ m.length ≠ n then .error .panic
  else
    let r := montLoop x m k 0#32 (List.replicate n 0#32) y
    .ok (if r.2 ≠ 0#32 then (subVV r.1 m).1 else r.1)

end RMath
