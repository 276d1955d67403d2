import Verif.Model.NatFun

/-!
# Modular exponentiation `Nat::exp` (`nat.rs`)

`mulKara`, `sqrV` and `montgomery` return the new content of the destination buffer; the exchange of the two
work buffers in the loops is expressed by passing that content on.
-/

namespace RMath

/-- nat.rs:1637-1641: Newton iteration for the inverse of an odd word modulo `2^32` (`i = 1, 2, 4, 8, 16`). -/
def k0Loop : Nat → W → W → W
  | 0, _, k0 => k0
  | n + 1, t, k0 => k0Loop n (t * t) (k0 * (t * t + 1#32))

/-- nat.rs:1636-1642: `-m0⁻¹ mod 2^32` -/
def negInv (m0 : W) : W := -(k0Loop 5 (m0 - 1#32) (2#32 - m0))

/-- nat.rs:1680-1695, 1737-1761: the loop over the nibbles of one exponent word, most significant first; `step`
gets the flag "first nibble of all" and the nibble. -/
def nibWord (step : Bool → Nat → Words → Res Words) : Nat → Bool → W → Words → Res Words
  | 0, _, _, z => .ok z
  | c + 1, first, yi, z =>
    match step first (yi >>> 28).toNat z with
    | .error e => .error e
    | .ok z => nibWord step c false (yi <<< 4) z

/-- nat.rs:1678-1696, 1735-1762: the loop over the exponent words, most significant first. -/
def nibLoop (step : Bool → Nat → Words → Res Words) : Bool → List W → Words → Res Words
  | _, [], z => .ok z
  | first, w :: ws, z =>
    match nibWord step 8 first w z with
    | .error e => .error e
    | .ok z => nibLoop step false ws z

/-- nat.rs:1669-1671: `powers[i] = powers[i-1] * powers[1]` for `n` further entries. -/
def montPowers (m : Words) (k : W) (nw : Nat) (p1 : Words) : Nat → Words → Res (List Words)
  | 0, _ => .ok []
  | n + 1, p => do
    let p' ← montgomery p p1 m k nw
    let r ← montPowers m k nw p1 n p'
    .ok (p' :: r)

/-- nat.rs:1681-1690: one nibble of the Montgomery loop -/
def montStep (powers : List Words) (m : Words) (k : W) (nw : Nat) (first : Bool) (nib : Nat) (z : Words) :
    Res Words := do
  let z ← if first then .ok z else do
    let z ← montgomery z z m k nw
    let z ← montgomery z z m k nw
    let z ← montgomery z z m k nw
    montgomery z z m k nw
  montgomery z (powers.getD nib []) m k nw

/-- nat.rs:1621-1708 `exp_montogomery`.  The last lines copy the result into `z` whichever work buffer it is in. -/
def expMontgomery (x y m : Words) : Res Words := do
  let nw := m.length
  let x ← (if x.length > nw then natRem x m else .ok (deepClone x) : Res Words)
  let x := if x.length < nw then resize x nw else x
  let k0 := negInv (m.headD 0#32)
  let rr ← assignNatR remInner (assignPrim shlInner [1#32] (nw * 64)) m
  let rr := if rr.length < nw then resize rr nw else rr
  let one := resize [1#32] nw
  let p0 ← montgomery one rr m k0 nw
  let p1 ← montgomery x rr m k0 nw
  let ps ← montPowers m k0 nw p1 14 p1
  let powers := p0 :: p1 :: ps
  let z ← nibLoop (montStep powers m k0 nw) true y.reverse p0
  let zz ← montgomery z one m k0 nw
  let zz ← (if geOp zz m then
      if geOp (assignNat subInner zz m) m then assignNatR remInner (assignNat subInner zz m) m
      else .ok (assignNat subInner zz m)
    else .ok zz : Res Words)
  .ok (trim zz)

/-- nat.rs:1720-1730: the table of powers, two entries (`2 i` and `2 i + 1`) at a time. -/
def winPowers (x m : Words) : Nat → List Words → Res (List Words)
  | 0, powers => .ok powers
  | n + 1, powers => do
    let i := powers.length
    let p ← natRem (sqrV (powers.getD (i / 2) [])) m
    let p1 ← natRem (mulKara p x) m
    winPowers x m n (powers ++ [p, p1])

/-- nat.rs:1739-1754: square and reduce -/
def sqrMod (m z : Words) : Res Words := assignNatR remInner (sqrV z) m

/-- nat.rs:1738-1759: one nibble of the windowed loop -/
def winStep (powers : List Words) (m : Words) (first : Bool) (nib : Nat) (z : Words) : Res Words := do
  let z ← if first then .ok z else do
    let z ← sqrMod m z
    let z ← sqrMod m z
    let z ← sqrMod m z
    sqrMod m z
  assignNatR remInner (mulKara z (powers.getD nib [])) m

/-- nat.rs:1710-1768 `exp_windowed` -/
def expWindowed (x y m : Words) : Res Words := do
  let powers ← winPowers x m 7 [[1#32], deepClone x]
  let z ← nibLoop (winStep powers m) true y.reverse [1#32]
  .ok (trim z)

/-- nat.rs:1816-1829 and 1834-1849: `c` bits of square-and-multiply, most significant bit of `v` first. -/
def expBits (x n : Words) : Nat → W → Words → Res Words
  | 0, _, z => .ok z
  | c + 1, v, z => do
    let z := sqrV z
    let z := if v &&& 0x80000000#32 ≠ 0#32 then mulKara z x else z
    let z ← (if n.length = 1 ∧ n.headD 0#32 = 0#32 then .ok z else natRem z n : Res Words)
    expBits x n c (v <<< 1) z

/-- nat.rs:1832-1850: the loop over the remaining exponent words. -/
def expWords (x n : Words) : List W → Words → Res Words
  | [], z => .ok z
  | w :: ws, z => do
    let z ← expBits x n 32 w z
    expWords x n ws z

/-- nat.rs:1810 `w = 32 - shift` on `u32`: wraps for the shift 33, which a zero top word gives. -/
def expWidth (shift : Nat) : Nat := (32#32 - BitVec.ofNat 32 shift).toNat

/-- nat.rs:1771-1854 `exp`.  `checks` tells whether the program is built with overflow checks (a shift by 32 then
panics; without them the shift count is taken modulo 32). -/
def natExp (checks : Bool) (x b n : Words) : Res Words :=
  if isNan x || isNan b || isNan n then .ok NaN
  else if n.length = 1 ∧ n.headD 0#32 = 1#32 then .ok [0#32]
  else if b.length = 1 ∧ b.headD 0#32 = 0#32 then .ok [1#32]
  else if b.length = 1 ∧ b.headD 0#32 = 1#32 then
    if n.length = 1 ∧ n.headD 0#32 = 0#32 then .ok (deepClone x) else natRem x n
  else if (x.length > 1 ∨ x.headD 0#32 > 1#32) ∧ b.length > 1 ∧ (n.length > 1 ∨ n.headD 0#32 > 0#32) then
    if n.headD 0#32 &&& 1#32 = 1#32 then expMontgomery x b n else expWindowed x b n
  else
    match b.reverse with
    | [] => .error .panic
    | v :: rest =>
      let shift := leadingZeros v + 1
      if checks ∧ shift ≥ 32 then .error .panic
      else do
        let z ← expBits x n (expWidth shift) (v <<< (shift % 32)) x
        let z ← expWords x n rest z
        .ok (deepClone (trim z))

end RMath
