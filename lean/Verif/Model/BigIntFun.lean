import Verif.Model.BigInt
import Verif.Model.NatFun

/-!
# Model of the Jacobi symbol and of modular square roots (`src/bigint/bigint.rs:718-925`)
-/

namespace RMath

/-- `x.as_vec()[0]` -/
def word0 : Words → Res W
  | [] => .error .panic
  | w :: _ => .ok w

/-- bigint.rs:739-769: the loop of `jacobi`; the two references `a` and `b` are exchanged at the end of each round.
`fuel` bounds the number of rounds. -/
def bJacobiLoop : Nat → BInt → BInt → Int → Res Int
  | 0, _, _, _ => .error .hang
  | fuel + 1, a, b, j =>
    if bEqW b 1#32 then .ok j
    else if eqv a.nat [0#32] then .ok 0
    else do
      let a ← bRemEuclidInner a b
      if eqv a.nat [0#32] then .ok 0
      else do
        let s := traillingZeros a.nat
        let b0 ← word0 b.nat
        let bmod8 := b0 &&& 7#32
        let j := if s % 2 ≠ 0 ∧ (bmod8 = 3#32 ∨ bmod8 = 5#32) then -j else j
        let a := bShrInner a s
        let a0 ← word0 a.nat
        let j := if b0 &&& 3#32 = 3#32 ∧ a0 &&& 3#32 = 3#32 then -j else j
        bJacobiLoop fuel b a j

/-- bigint.rs:719-769 `jacobi`.  The fuel is the magnitude of `b`, plus two. -/
def bJacobi (x b : BInt) : Res (Option Int) :=
  if bIsNan x || bIsNan b || bEqW b 0#32 then .ok none
  else
    let j : Int := if bIsNegative b then (if bIsNegative x then -1 else 1) else 1
    let b' : BInt := if bIsNegative b then ⟨(bDeepClone b).nat, false⟩ else bDeepClone b
    match bJacobiLoop (val b'.nat + 2) (bDeepClone x) b' j with
    | .ok v => .ok (some v)
    | .error e => .error e

/-- bigint.rs:784-791 `mod_sqrt_3mod4` -/
def bModSqrt3mod4 (checks : Bool) (x p : BInt) : Res BInt :=
  let e : BInt := ⟨shrInner (natAddW p.nat 1#32) 2, false⟩
  bExp checks x e p

/-- bigint.rs:798-817 `mod_sqrt_5mod8`; `sqr_v` writes over the buffer of `e`. -/
def bModSqrt5mod8 (checks : Bool) (x p : BInt) : Res BInt := do
  let e := bShr p 3
  let tx := bShl x 1
  let alpha ← bExp checks tx e p
  let beta : BInt := ⟨sqrV alpha.nat, false⟩
  let beta ← bRemEuclidInner beta p
  let beta ← bRemEuclidInner (bMulInner beta tx) p
  let beta ← bRemEuclidInner (bMulInner (bSubInner beta bOne) x) p
  bRemEuclidInner (bMulInner beta alpha) p

/-- bigint.rs:819-829 `set_bits` -/
def bSetBits (x : BInt) (i : Nat) (isSet : Bool) : BInt :=
  if bIsNegative x then
    let nat := incW (setBits (decW x.nat) i (!isSet))
    ⟨nat, partialCmp nat [0#32] == some .gt⟩
  else ⟨setBits x.nat i isSet, x.neg⟩

/-- bigint.rs:843-845: `while n.jacobi(p) != Some(-1) { n += 1 }` -/
def bNonSquare (p : BInt) : Nat → BInt → Res BInt
  | 0, _ => .error .hang
  | fuel + 1, n => do
    let j ← bJacobi n p
    if j = some (-1) then .ok n else bNonSquare p fuel ⟨addInnerBasic n.nat 1#32, n.neg⟩

/-- bigint.rs:862-866: `while tmp != 1 { tmp = tmp * tmp mod p; m += 1 }`.  `tmp.mul_inner(tmp.clone())` multiplies a
number by itself through a second handle on the same buffer: nat.rs copies the operand in that case, see the model of
shared buffers. -/
def bOrderLoop (p : BInt) : Nat → BInt → Nat → Res Nat
  | 0, _, _ => .error .hang
  | fuel + 1, tmp, m =>
    if bEqW tmp 1#32 then .ok m
    else do
      let t ← bRemEuclidInner (bMulInner tmp tmp) p
      bOrderLoop p fuel t (m + 1)

/-- bigint.rs:859-884: the main loop of `mod_sqrt_tonelli_shanks`.  The subtraction `r - m - 1` panics when `m ≥ r`
with overflow checks; without them `set_bits` would be asked for an enormous bit: both are modelled as a panic.  `fuelM`
bounds the inner loop, which for a modulus that is not prime need not end; `tmp` equals 1 when it does, so its sign is
`Natural` when `tmp` is set to zero. -/
def bTonelliLoop (checks : Bool) (p : BInt) (fuelM : Nat) : Nat → BInt → BInt → BInt → Nat → Res BInt
  | 0, _, _, _, _ => .error .hang
  | fuel + 1, y, b, g, r => do
    let m ← bOrderLoop p fuelM b 0
    if m = 0 then .ok y
    else if r < m + 1 then .error .panic
    else do
      let tmp := bSetBits ⟨[0#32], false⟩ (r - m - 1) true
      let t ← bExp checks g tmp p
      let g ← bRemEuclidInner ⟨sqrV t.nat, false⟩ p
      let y ← bRemEuclidInner (bMulInner y t) p
      let b ← bRemEuclidInner (bMulInner b g) p
      bTonelliLoop checks p fuelM fuel y b g m

/-- bigint.rs:831-885 `mod_sqrt_tonelli_shanks` -/
def bTonelli (checks : Bool) (x p : BInt) : Res BInt := do
  let s := natSubW p.nat 1#32
  let e := traillingZeros s
  let s : BInt := ⟨shrInner s e, false⟩
  let n ← bNonSquare p (val p.nat + 1) ⟨[2#32], false⟩
  let tmp : BInt := ⟨shrInner (natAddW s.nat 1#32) 1, false⟩
  let y ← bExp checks x tmp p
  let b ← bExp checks x s p
  let g ← bExp checks n s p
  bTonelliLoop checks p (val p.nat + 1) (e + 1) y b g e

/-- bigint.rs:894-925 `mod_sqrt` -/
def bModSqrt (checks : Bool) (x p : BInt) : Res (Option BInt) := do
  let j ← bJacobi x p
  if j = some (-1) then .ok none
  else if j = some 0 then .ok (some bZero)
  else if j = some 1 then do
    let p0 ← word0 p.nat
    if p0 &&& 1#32 ≠ 1#32 then .ok none
    else do
      let x ← (if bIsNegative x || bGe x p then bRemEuclid x p else .ok x : Res BInt)
      let y ← (if p0 % 4#32 = 3#32 then bModSqrt3mod4 checks x p
        else if p0 % 8#32 = 5#32 then bModSqrt5mod8 checks x p
        else bTonelli checks x p : Res BInt)
      .ok (some y)
  else .ok none

end RMath
