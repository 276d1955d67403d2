import Verif.Model.NatKara
import Verif.Model.Float

/-!
# The remaining kernels of `arith_generic.rs`, and those of `arith_amd64.rs`

`Verif.Model.NatKara` has the kernels that multiplication, squaring and exponentiation call, `Verif.Model.Float` the shifts that
`Float` calls.  Here are the others, and the second implementation, which is compiled if the flag `rmath_sse2` is set
(arith.rs:3-7).  A kernel that writes the slice `z` is modelled by the words it writes; `z` and `x` have the same length
(the callers pass slices of the same length).
-/

namespace RMath

/-! ## arith_generic.rs -/

/-- arith_generic.rs:34-38, arith_amd64.rs:40-43 `div_ww`: quotient and remainder of `u1·2^32 + u0` by `v`, the quotient cut to a
word.  Division by zero panics. -/
def divWW (u1 u0 v : W) : Res (W × W) :=
  if v = 0#32 then .error .panic
  else
    let z := (toD u1 <<< 32) + toD u0
    .ok (toW (z / toD v), toW (z % toD v))

/-- arith_generic.rs:229-235, arith_amd64.rs:247-253 `div_wvw`: the words in the order of the slice, the remainder handed on. -/
def divWVW (y : W) : W → Words → Res (Words × W)
  | r, x :: xs => do
    let q ← divWW r x y
    let s ← divWVW y q.2 xs
    .ok (q.1 :: s.1, s.2)
  | r, [] => .ok ([], r)

/-- arith_generic.rs:96-107 `add_vw_large`: copies once there is no carry. -/
def addVWLarge : W → Words → Words × W
  | c, x :: xs =>
    if c = 0#32 then
      let s := addVWLarge 0#32 xs
      (x :: s.1, s.2)
    else
      let t := overflowingAdd x c
      let s := addVWLarge (boolW t.2) xs
      (t.1 :: s.1, s.2)
  | c, [] => ([], c)

/-- arith_generic.rs:125-136 `sub_vw_large` -/
def subVWLarge : W → Words → Words × W
  | c, x :: xs =>
    if c = 0#32 then
      let s := subVWLarge 0#32 xs
      (x :: s.1, s.2)
    else
      let t := overflowingSub x c
      let s := subVWLarge (boolW t.2) xs
      (t.1 :: s.1, s.2)
  | c, [] => ([], c)

/-- arith_generic.rs:138-152, arith_amd64.rs:156-170 `shl_vu`: as `shl_vu_inner`, but the value returned is the last word
shifted right by `s`. -/
def shlVuSlice (x : Words) (s : Nat) : Words × W :=
  if s = 0 ∨ x = [] then (x, 0#32)
  else
    let s := s % 32
    let ss := (32 - s) % 32
    (shlVuLoop s ss 0#32 x, x.getLastD 0#32 >>> s)

/-- arith_generic.rs:170-183 and 185-200, arith_amd64.rs:188-201 and 203-218 `shr_vu`, `shr_vu_inner`, the loop: word `i` takes
its high bits from word `i+1`. -/
def shrVuLoop (s ss : Nat) : Words → Words
  | a :: b :: as => ((a >>> s) ||| (b <<< ss)) :: shrVuLoop s ss (b :: as)
  | [a] => [a >>> s]
  | [] => []

/-- arith_generic.rs:170-200, arith_amd64.rs:188-218 `shr_vu`, `shr_vu_inner`: the shifted words and the bits shifted out. -/
def shrVuFull (x : Words) (s : Nat) : Words × W :=
  if s = 0 ∨ x = [] then (x, 0#32)
  else
    let s := s % 32
    let ss := (32 - s) % 32
    (shrVuLoop s ss x, x.headD 0#32 <<< ss)

/-! ## arith_amd64.rs -/

/-- arith_amd64.rs:12-21 `mul_ww`: `_mm_mul_su32` multiplies the low words to 64 bits, which are stored low word first. -/
def sseMulWW (x y : W) : W × W :=
  let c := toD x * toD y
  (toW (c >>> 32), toW c)

/-- arith_amd64.rs:25-36 `mul_add_www`: the sum `d` is computed, and `c` is stored: both words are the argument `c`. -/
def sseMulAddWWW (_x _y c : W) : W × W := (c, c)

/-- arith_amd64.rs:46-58 `add_vv`, `add_vv_inner` -/
def sseAddVV (x y : Words) : Words × W :=
  let r := adcZip false x y
  (r.1, boolW r.2)

/-- arith_amd64.rs:61-73: the loop of `sub_vv`, `sub_vv_inner` -/
def sbbZip2 : Bool → Words → Words → Words × Bool
  | c, a :: as, b :: bs =>
    let r := sbb c a b
    let s := sbbZip2 r.2 as bs
    (r.1 :: s.1, s.2)
  | c, _, _ => ([], c)

/-- arith_amd64.rs:61-73 `sub_vv`, `sub_vv_inner` -/
def sseSubVV (x y : Words) : Words × W :=
  let r := sbbZip2 false x y
  (r.1, boolW r.2)

/-- arith_amd64.rs:75-95 `add_vw`, `add_vw_inner`: the first word takes `y`, the others only the carry. -/
def sseAddVW (y : W) (x : Words) : Words × W :=
  let r := adcBasic false y x
  (r.1, boolW r.2)

/-- arith_amd64.rs:115-137: the loop of `sub_vw`, `sub_vw_inner` -/
def sbbBasic2 : Bool → W → Words → Words × Bool
  | c, rhs, a :: as =>
    let r := sbb c a rhs
    let s := sbbBasic2 r.2 0#32 as
    (r.1 :: s.1, s.2)
  | c, _, [] => ([], c)

/-- arith_amd64.rs:115-137 `sub_vw`, `sub_vw_inner` -/
def sseSubVW (y : W) (x : Words) : Words × W :=
  let r := sbbBasic2 false y x
  (r.1, boolW r.2)

/-- arith_amd64.rs:97-112: the words of `add_vw_large` after the first -/
def adcLarge : Bool → Words → Words × Bool
  | c, a :: as =>
    if c then
      let r := adc c a 0#32
      let s := adcLarge r.2 as
      (r.1 :: s.1, s.2)
    else
      let s := adcLarge false as
      (a :: s.1, s.2)
  | c, [] => ([], c)

/-- arith_amd64.rs:97-112 `add_vw_large` -/
def sseAddVWLarge (y : W) : Words → Words × W
  | a :: as =>
    let r := adc false a y
    let s := adcLarge r.2 as
    (r.1 :: s.1, boolW s.2)
  | [] => ([], 0#32)

/-- arith_amd64.rs:139-154: the words of `sub_vw_large` after the first -/
def sbbLarge : Bool → Words → Words × Bool
  | c, a :: as =>
    if c then
      let r := sbb c a 0#32
      let s := sbbLarge r.2 as
      (r.1 :: s.1, s.2)
    else
      let s := sbbLarge false as
      (a :: s.1, s.2)
  | c, [] => ([], c)

/-- arith_amd64.rs:139-154 `sub_vw_large` -/
def sseSubVWLarge (y : W) : Words → Words × W
  | a :: as =>
    let r := sbb false a y
    let s := sbbLarge r.2 as
    (r.1 :: s.1, boolW s.2)
  | [] => ([], 0#32)

/-- arith_amd64.rs:220-226 `mul_add_vww` -/
def sseMulAddVWW (y : W) : W → Words → Words × W
  | c, x :: xs =>
    let p := sseMulAddWWW x y c
    let s := sseMulAddVWW y p.1 xs
    (p.2 :: s.1, s.2)
  | c, [] => ([], c)

/-- arith_amd64.rs:228-245: the loop of `add_mul_vvw`, `add_mul_vvw_inner`; `z1 + cc` wraps in a release build. -/
def sseAddMulLoop (y : W) : W → Words → Words → Words × W
  | c, z :: zs, x :: xs =>
    let p := sseMulAddWWW x y z
    let l := adc false p.2 c
    let s := sseAddMulLoop y (p.1 + boolW l.2) zs xs
    (l.1 :: s.1, s.2)
  | c, _, _ => ([], c)

/-- arith_amd64.rs:228-245 `add_mul_vvw`, `add_mul_vvw_inner` -/
def sseAddMulVVW (z x : Words) (y : W) : Words × W := sseAddMulLoop y 0#32 z x

end RMath
