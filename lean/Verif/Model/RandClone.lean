import Verif.Model.Rand

/-!
# Model of several system generators that are clones of each other, and of the default generators

The system generator (`src/rand/crypto_rand.rs` with `src/os/linux/mod.rs`) is its buffer, a deque of bytes.  The clock, the
hasher of the standard library and the instruction `rdrand` are oracles: their results are arguments.
-/

namespace RMath

/-- One statement of a program that uses system generators.  Generators are numbered in the order of their creation. -/
inductive SysCmd where
  /-- crypto_rand.rs:34-39 `new`, os/linux/mod.rs:30-34 `new` -/
  | create
  /-- crypto_rand.rs:9 and os/linux/mod.rs:24 `derive(Clone)`: a copy of the generator `i` -/
  | clone (i : Nat)
  /-- crypto_rand.rs:45-55 `gen` on the generator `i`: `n` bytes are requested, the system call gives `sys` -/
  | gen (i n : Nat) (sys : Option (List Byte))
  /-- crypto_rand.rs:57-59 `reset`: nothing happens -/
  | reset (i : Nat)
deriving DecidableEq, Repr

/-- One statement: the bytes handed out, and the buffers afterwards. -/
def SysCmd.step (gs : List (List Byte)) : SysCmd → Res (List Byte × List (List Byte))
  | .create => .ok ([], gs ++ [[]])
  | .clone i => do
    let q ← atR gs i
    .ok ([], gs ++ [q])
  | .gen i n sys => do
    let q ← atR gs i
    let p ← genRandom q n sys
    .ok (p.1.getD [], gs.set i p.2)
  | .reset i => do
    let _ ← atR gs i
    .ok ([], gs)

/-- A program: the bytes handed out by its statements, in order, and the buffers at the end. -/
def sysRun : List (List Byte) → List SysCmd → Res (List (List Byte) × List (List Byte))
  | gs, [] => .ok ([], gs)
  | gs, c :: cs => do
    let p ← c.step gs
    let r ← sysRun p.2 cs
    .ok (p.1 :: r.1, r.2)

/-- default_seed.rs:42-62 `seed`: the low `b` bits of the hash of the time (default_seed.rs:19-39, an oracle) -/
def timeSeed (b : Nat) (hash : BitVec 64) : BitVec b := BitVec.ofNat b (hash &&& BitVec.ofNat 64 (2 ^ b - 1)).toNat

/-- default_rand.rs:11-18 `new`: the state is the seed drawn -/
def defaultNew {b : Nat} (sd : Except RandErr (BitVec b)) : Except RandErr (BitVec b) := sd.map fun x => x

/-- default_rand.rs:24-27 `gen`, with the hash of the time of the call -/
def defaultGen {b : Nat} (state : BitVec b) (hash : BitVec 64) : BitVec b × BitVec b :=
  let state := state ^^^ timeSeed b hash
  (state, state)

/-- default_rand.rs:29-33 `reset` -/
def defaultReset {b : Nat} (state : BitVec b) (sd : Except RandErr (BitVec b)) : BitVec b :=
  match sd with
  | .ok x => x
  | .error _ => state

/-- a call of the default generator: a draw at a time with the given hash, or a reset with the result of the seed source -/
inductive DefaultCall (b : Nat) where
  | gen (hash : BitVec 64)
  | reset (sd : Except RandErr (BitVec b))

/-- a sequence of calls: the words delivered, and the state at the end -/
def defaultRun {b : Nat} : BitVec b → List (DefaultCall b) → List (BitVec b) × BitVec b
  | s, [] => ([], s)
  | s, .gen h :: cs => ((defaultGen s h).1 :: (defaultRun (defaultGen s h).2 cs).1, (defaultRun (defaultGen s h).2 cs).2)
  | s, .reset sd :: cs => defaultRun (defaultReset s sd) cs

/-- default_rand_amd64.rs:21-28, 43-58, 61-93 `gen`; crypto_rand_amd64.rs:21-23 `gen`: `flag` and `out` are what the
instruction returns -/
def hwGen {b : Nat} (flag : Nat) (out : BitVec b) : Except RandErr (BitVec b) :=
  if 0 < flag then .ok out else .error .noNewRandNumberGen

/-- default_seed_amd64.rs:25-32, 47-54 `seed` -/
def hwSeed {b : Nat} (flag : Nat) (out : BitVec b) : Except RandErr (BitVec b) :=
  if 0 < flag then .ok out else .error .noNewRandSeedGen

end RMath
