import Verif.Model.NatExp
import Verif.Model.NatKara
import Verif.Model.BigIntFun

/-!
# Model of the primality test and of prime generation (`src/bigint/nat.rs`)

The random source is the list of the results of its successive draws (`none`: a failed draw), as in `natRandom`.
A function that draws returns `none` when it still waits for draws after the given ones, and the unread draws
otherwise.
-/

namespace RMath

/-! ## Miller-Rabin -/

/-- nat.rs:874-890 `miller_rabin_witness`: `x` is the buffer called `xi_m1` (the other buffer is overwritten before it
is read), the first argument the number of rounds left. -/
def mrWitness (n nm1 : Words) : Nat → Words → Res Bool
  | 0, x => .ok (!eqv x [1#32])
  | t + 1, x => do
    let xi ← remInner (sqrV x) n
    if eqv xi [1#32] && !eqv x [1#32] && !eqv x nm1 then .ok true else mrWitness n nm1 t xi

/-- nat.rs:903-911: the rounds; `s` counts them down. -/
def mrRounds (checks : Bool) (self nm1 u : Words) (t : Nat) :
    Nat → List (Option W) → Res (Option (Bool × List (Option W)))
  | 0, ds => .ok (some (true, ds))
  | s + 1, ds =>
    match randomLoop self self.length (randomMask self) (ds.length + 1) ds with
    | none => .ok none
    | some (a, ds) => do
      let tmp ← natExp checks a u self
      let w ← mrWitness self nm1 t tmp
      if w then .ok (some (false, ds)) else mrRounds checks self nm1 u t s ds

/-- nat.rs:896-912 `prime_validate_by_miller_rabin` -/
def millerRabin (checks : Bool) (self : Words) (s : Nat) (ds : List (Option W)) :
    Res (Option (Bool × List (Option W))) :=
  let nm1 := natSubW self 1#32
  let t := traillingZeros nm1
  let u := natShr nm1 t
  mrRounds checks self nm1 u t s ds

/-! ## Lucas -/

/-- nat.rs:955-986: the search for `P` (from `p`, at most `fuel` steps): `inl b` when the function returns `b`, `inr p`
when the loop is left.  `int_d` always has one word, so the assignment to its word 0 sets its value. -/
def lucasFind (self : Words) : Nat → Nat → Res (Bool ⊕ Nat)
  | 0, p => .ok (.inr p)
  | fuel + 1, p =>
    if 10000 < p then .ok (.inr p)
    else do
      let j ← bJacobi ⟨[BitVec.ofNat 32 (p * p - 4)], false⟩ ⟨self, false⟩
      match j with
      | none => .ok (.inl false)
      | some j =>
        if j = -1 then .ok (.inr p)
        else if j = 0 then .ok (.inl (self.length == 1 && self.headD 0#32 == BitVec.ofNat 32 (p + 2)))
        else if p = 40 then do
          let t1 ← natSqrt self
          if eqv (natSqr t1) self then .ok (.inl false) else lucasFind self fuel (p + 1)
        else lucasFind self fuel (p + 1)

/-- nat.rs:1036-1067: the loop that computes `V(s)` and `V(s+1)`, for the bit indices below the first argument. -/
def lucasChain (self nm2 natP s : Words) : Nat → Words → Words → Res (Words × Words)
  | 0, vk, vk1 => .ok (vk, vk1)
  | i + 1, vk, vk1 => do
    let t1 := subInner (addInner (mulKara vk vk1) self) natP
    let bit ← isSetBit s i
    if bit = some true then do
      let vk' ← natRem t1 self
      let vk1' ← natRem (addInner (sqrV vk1) nm2) self
      lucasChain self nm2 natP s i vk' vk1'
    else do
      let vk1' ← natRem t1 self
      let vk' ← natRem (addInner (sqrV vk) nm2) self
      lucasChain self nm2 natP s i vk' vk1'

/-- nat.rs:1087-1102: is `V(2^t s)` zero for one of the next `t`? -/
def lucasTail (self : Words) : Nat → Words → Res Bool
  | 0, _ => .ok false
  | r + 1, vk =>
    if eqv vk [0#32] then .ok true
    else if vk.length = 1 ∧ vk.headD 0#32 = 2#32 then .ok false
    else do
      let vk' ← natRem (assignPrim subInnerBasic (sqrV vk) 2#32) self
      lucasTail self r vk'

/-- nat.rs:1000-1103: the part of `prime_validate_by_lucas` after the choice of `P`. -/
def lucasCheck (self : Words) (p : Nat) : Res Bool := do
  let s0 := natAddW self 1#32
  let r := traillingZeros s0
  let s := shrInner s0 r
  let nm2 := natSubW self 2#32
  let natP : Words := [BitVec.ofNat 32 p]
  let v ← lucasChain self nm2 natP s (bitsLen s + 1) [2#32] natP
  let hit ← (if eqv v.1 [2#32] || eqv v.1 nm2 then do
      let d ← natRem (assignNat subInner (mulKara v.1 natP) (natShl v.2 1)) self
      .ok (eqv d [0#32])
    else .ok false : Res Bool)
  if hit then .ok true else lucasTail self (r - 1) v.1

/-- nat.rs:939-1103 `prime_validate_by_lucas` -/
def primeLucas (self : Words) : Res Bool :=
  if isNan self || eqv self [1#32] then .ok false
  else do
    let w0 ← word0 self
    if w0 &&& 1#32 = 0#32 then .ok (eqv self [2#32])
    else do
      let f ← lucasFind self 9999 3
      match f with
      | .inl b => .ok b
      | .inr p => lucasCheck self p

/-! ## The test -/

/-- nat.rs:1105-1112 `rem_inner_u32`: the words from the most significant down. -/
def remInnerU32 (self : Words) (rhs : W) : W :=
  toW (self.foldr (fun e r => ((r <<< 32) ||| toD e) % toD rhs) 0#64)

/-- nat.rs:1123-1127: the exponents in `PRIME_BIT_MASK` -/
def primeBits : List Nat :=
  [2, 3, 5, 7, 11, 13, 17, 19, 23, 29, 31, 37, 41, 43, 47, 53, 59, 61, 67, 71, 73, 79, 83, 89, 97, 101, 103, 107, 109,
   113, 127]

/-- nat.rs:1123-1127 `PRIME_BIT_MASK` -/
def primeMask : BitVec 128 := primeBits.foldl (fun m i => m ||| (1#128 <<< i)) 0#128

/-- nat.rs:1140 -/
def primesA : W := 3#32 * 5#32 * 7#32 * 11#32 * 13#32 * 17#32 * 19#32 * 23#32 * 37#32
/-- nat.rs:1141 -/
def primesB : W := 29#32 * 31#32 * 41#32 * 43#32 * 47#32 * 53#32

/-- nat.rs:1148-1153: division by one of the primes 3 to 53 -/
def smallFactor (self : Words) : Bool :=
  let ra := remInnerU32 self primesA
  let rb := remInnerU32 self primesB
  ra % 3#32 == 0#32 || ra % 5#32 == 0#32 || ra % 7#32 == 0#32 || ra % 11#32 == 0#32 || ra % 13#32 == 0#32 ||
  ra % 17#32 == 0#32 || ra % 19#32 == 0#32 || ra % 23#32 == 0#32 || ra % 37#32 == 0#32 ||
  rb % 29#32 == 0#32 || rb % 31#32 == 0#32 || rb % 41#32 == 0#32 || rb % 43#32 == 0#32 || rb % 47#32 == 0#32 ||
  rb % 53#32 == 0#32

/-- nat.rs:1118-1155 `probably_prime_test`; `n + 1` rounds (the overflow of `n + 1` for `n = usize::MAX` is left
out).  `checks` is the build with overflow checks, see `natExp`. -/
def probablyPrimeTest (checks : Bool) (self : Words) (n : Nat) (ds : List (Option W)) :
    Res (Option (Bool × List (Option W))) :=
  if isNan self || eqv self [0#32] then .ok (some (false, ds))
  else do
    let x ← word0 self
    if self.length = 1 ∧ x.toNat < 128 then .ok (some ((1#128 <<< x.toNat) &&& primeMask != 0#128, ds))
    else if x &&& 1#32 = 0#32 then .ok (some (false, ds))
    else if smallFactor self then .ok (some (false, ds))
    else do
      let r ← millerRabin checks self (n + 1) ds
      match r with
      | none => .ok none
      | some (false, ds) => .ok (some (false, ds))
      | some (true, ds) => do
        let l ← primeLucas self
        .ok (some (l, ds))

/-! ## Generation -/

/-- nat.rs:1973-1975: at most `n` words, up to the first failed draw (which is used up). -/
def takeDraws : Nat → List (Option W) → Option (Words × List (Option W))
  | 0, ds => some ([], ds)
  | _ + 1, [] => none
  | _ + 1, none :: ds => some ([], ds)
  | n + 1, some x :: ds => (takeDraws n ds).map fun r => (x :: r.1, r.2)

/-- apply `f` to the last element: `*p.iter_mut().last().unwrap() = f(..)` -/
def onLast (f : W → W) (v : Words) : Res Words :=
  match v.getLast? with
  | none => .error .panic
  | some w => .ok (v.dropLast ++ [f w])

/-- nat.rs:1989-1996: the branch `b == 1`: lowest bit of the last word, highest bit of the word before it. -/
def topTwoSplit (v : Words) : Words :=
  match v.reverse with
  | [] => v
  | [w] => [w ||| 1#32]
  | w :: w' :: rest => rest.reverse ++ [w' ||| 0x80000000#32, w ||| 1#32]

/-- nat.rs:1977-2000: force the length and the parity of the drawn words. -/
def shapePrime (b : Nat) (v : Words) : Res Words := do
  let v ← (if b ≠ 32 then onLast (fun w => w &&& ((1#32 <<< b) - 1#32)) v else .ok v : Res Words)
  let v ← (if 2 ≤ b then onLast (fun w => w ||| (3#32 <<< (b - 2))) v else .ok (topTwoSplit v) : Res Words)
  match v with
  | [] => .error .panic
  | w :: ws => .ok ((w ||| 1#32) :: ws)

/-- nat.rs:1934-1947 `rem_inner_u64`, on the words from the most significant down, two at a time. -/
def remU64Loop (rhs : BitVec 128) : BitVec 128 → List W → BitVec 128
  | r, [] => r
  | r, [a] => ((r <<< 32) ||| a.zeroExtend 128) % rhs
  | r, a :: b :: ws =>
    remU64Loop rhs (((((r <<< 32) ||| a.zeroExtend 128) <<< 32) ||| b.zeroExtend 128) % rhs) ws

/-- nat.rs:1934-1947 `rem_inner_u64` -/
def remInnerU64 (self : Words) (rhs : D) : D := (remU64Loop (rhs.zeroExtend 128) 0#128 self.reverse).truncate 64

/-- nat.rs:1959-1961 -/
def smallPrimes : List Nat := [3, 5, 7, 11, 13, 17, 19, 23, 29, 31, 37, 41, 43, 47, 53]

/-- nat.rs:2008-2021: the first even `delta` below `2^20` (here: from `delta`, at most `cnt` of them) such that none of
the small primes divides `modulus + delta`.  The sum does not overflow: the modulus is less than
`SMALL_PRIMES_PRODUCT`. -/
def findDelta (bits modulus : Nat) : Nat → Nat → Option Nat
  | 0, _ => none
  | cnt + 1, delta =>
    let m := modulus + delta
    if smallPrimes.any fun q => m % q == 0 && (decide (bits > 6) || m != q) then findDelta bits modulus cnt (delta + 2)
    else some delta

/-- nat.rs:2006-2021: add `delta` (nothing when there is none) -/
def bumpPrime (bits : Nat) (p : Words) : Words :=
  match findDelta bits (remInnerU64 p 16294579238595022365#64).toNat (2 ^ 19) 0 with
  | none => p
  | some delta => if delta > 0 then assignPrim addInnerBasic p (BitVec.ofNat 32 delta) else p

/-- nat.rs:1971-2026: the loop of `generate_prime`; each round uses at least one draw, so that the number of draws
bounds the rounds. -/
def genPrimeLoop (checks : Bool) (bits rounds b len : Nat) : Nat → List (Option W) →
    Res (Option (Words × List (Option W)))
  | 0, _ => .ok none
  | fuel + 1, ds =>
    match takeDraws len ds with
    | none => .ok none
    | some (v, ds) => do
      let p ← shapePrime b v
      let p := bumpPrime bits p
      if bitsLen p = bits then do
        let r ← probablyPrimeTest checks p rounds ds
        match r with
        | none => .ok none
        | some (true, ds) => .ok (some (p, ds))
        | some (false, ds) => genPrimeLoop checks bits rounds b len fuel ds
      else genPrimeLoop checks bits rounds b len fuel ds

/-- the outcome of `generate_prime`: an error value, or the number and the unread draws -/
inductive GenPrime where
  | tooShort
  | waiting
  | prime (p : Words) (rest : List (Option W))
deriving DecidableEq

/-- nat.rs:1954-2027 `generate_prime` -/
def generatePrime (checks : Bool) (bits rounds : Nat) (ds : List (Option W)) : Res GenPrime :=
  if bits < 2 then .ok .tooShort
  else do
    let b := if bits % 32 = 0 then 32 else bits % 32
    let len := (bits + 31) / 32
    let r ← genPrimeLoop checks bits rounds b len (ds.length + 1) ds
    match r with
    | none => .ok .waiting
    | some (p, ds) => .ok (.prime p ds)

end RMath
