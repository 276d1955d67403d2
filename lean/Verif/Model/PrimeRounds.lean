import Verif.Model.Prime

/-!
# Model of `probably_prime_test` and `generate_prime` with a number of rounds of the machine's size (`src/bigint/nat.rs`)

`probablyPrimeTest` and `generatePrime` take the number of rounds as a natural number.  Here it is a `usize` of 64 bits, so that `n + 1` may overflow.
-/

namespace RMath

/-- nat.rs:1154: `n + 1` on `usize` (64 bits): a panic in builds with overflow checks, otherwise modulo `2^64` -/
def roundsPlusOne (checks : Bool) (n : D) : Res Nat :=
  if n.toNat + 1 = 2 ^ 64 ∧ checks then .error .panic else .ok (n + 1#64).toNat

/-- nat.rs:1118-1155 `probably_prime_test` -/
def probablyPrimeTestUsize (checks : Bool) (self : Words) (n : D) (ds : List (Option W)) :
    Res (Option (Bool × List (Option W))) :=
  if isNan self || eqv self [0#32] then .ok (some (false, ds))
  else do
    let x ← word0 self
    if self.length = 1 ∧ x.toNat < 128 then .ok (some ((1#128 <<< x.toNat) &&& primeMask != 0#128, ds))
    else if x &&& 1#32 = 0#32 then .ok (some (false, ds))
    else if smallFactor self then .ok (some (false, ds))
    else do
      let s ← roundsPlusOne checks n
      let r ← millerRabin checks self s ds
      match r with
      | none => .ok none
      | some (false, ds) => .ok (some (false, ds))
      | some (true, ds) => do
        let l ← primeLucas self
        .ok (some (l, ds))

/-- nat.rs:1971-2026: the loop of `generate_prime`, as `genPrimeLoop` -/
def genPrimeLoopUsize (checks : Bool) (bits : Nat) (rounds : D) (b len : Nat) : Nat → List (Option W) →
    Res (Option (Words × List (Option W)))
  | 0, _ => .ok none
  | fuel + 1, ds =>
    match takeDraws len ds with
    | none => .ok none
    | some (v, ds) => do
      let p ← shapePrime b v
      let p := bumpPrime bits p
      if bitsLen p = bits then do
        let r ← probablyPrimeTestUsize checks p rounds ds
        match r with
        | none => .ok none
        | some (true, ds) => .ok (some (p, ds))
        | some (false, ds) => genPrimeLoopUsize checks bits rounds b len fuel ds
      else genPrimeLoopUsize checks bits rounds b len fuel ds

/-- nat.rs:1954-2027 `generate_prime` -/
def generatePrimeUsize (checks : Bool) (bits : Nat) (rounds : D) (ds : List (Option W)) : Res GenPrime :=
  if bits < 2 then .ok .tooShort
  else do
    let b := if bits % 32 = 0 then 32 else bits % 32
    let len := (bits + 31) / 32
    let r ← genPrimeLoopUsize checks bits rounds b len (ds.length + 1) ds
    match r with
    | none => .ok .waiting
    | some (p, ds) => .ok (.prime p ds)

end RMath
