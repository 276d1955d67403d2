import Verif.Model.RandClone

/-!
# Model of the system generators on Windows

A generator (`src/rand/crypto_rand.rs` with `src/os/windows/bcrypt.rs`) holds an `Rc` of a provider handle.  The handles
that the system returns, its status codes and the bytes it writes are oracles: they are arguments of the statements.  What
the program does to the system is recorded in a list of events.  `AlgorithmHandle::ms_platform_crypto_provider` and
`auto_select_provider` are never called and not modelled, nor are the texts of the errors.
-/

namespace RMath

/-- a call that the program makes to the system -/
inductive OsEvent where
  /-- `BCryptOpenAlgorithmProvider` succeeded with the handle `h` -/
  | opened (h : Nat)
  /-- `BCryptGenRandom` for `n` bytes with the handle `h` -/
  | drew (h n : Nat)
  /-- `BCryptCloseAlgorithmProvider` with the handle `h` -/
  | closed (h : Nat)
deriving DecidableEq, Repr

/-- One statement of a program that uses system generators.  Generators are numbered in the order of their creation. -/
inductive WinCmd where
  /-- crypto_rand.rs:18-32 `new`: the system answers with `status` and the handle `h` -/
  | create (status : BitVec 32) (h : Nat)
  /-- crypto_rand.rs:9 and bcrypt.rs:116 `derive(Clone)`: a copy of the generator `i` -/
  | clone (i : Nat)
  /-- crypto_rand.rs:45-55 `gen` on the generator `i` with a buffer of 4 or 8 bytes: the system answers with `status`, and the
  buffer then holds `bytes` -/
  | gen (i : Nat) (status : BitVec 32) (bytes : List Byte)
  /-- crypto_rand.rs:57-59 `reset`: nothing happens -/
  | reset (i : Nat)
  /-- the generator `i` goes out of scope -/
  | drop (i : Nat)
deriving DecidableEq, Repr

/-- what a statement tells the program -/
inductive WinOut where
  | done
  | word (v : Nat)
  | err (e : RandErr)
deriving DecidableEq, Repr

/-- The boxes of the `Rc`s with their strong counts (bcrypt.rs:52-54, 116-119), and for each generator that is in scope the number of its
box. -/
structure WinState where
  boxes : List (Nat × Nat)
  gens : List (Option Nat)
deriving DecidableEq, Repr

/-- the box of the generator `i`: a generator that is not in scope cannot be named -/
def WinState.box (st : WinState) (i : Nat) : Res (Nat × Nat × Nat) :=
  match st.gens[i]? with
  | some (some k) =>
    match st.boxes[k]? with
    | some (h, c) => .ok (k, h, c)
    | none => .error .panic
  | _ => .error .panic

/-- One statement: what it tells the program, the state afterwards, and the calls to the system. -/
def WinCmd.step (st : WinState) : WinCmd → Res (WinOut × WinState × List OsEvent)
  -- crypto_rand.rs:18-32; bcrypt.rs:77-88: `AlgorithmHandle` is made, and later dropped, only if the status is a success;
  -- bcrypt.rs:121-126: `Rc::new`
  | .create status h =>
    if status = 0#32 then
      .ok (.done, ⟨st.boxes ++ [(h, 1)], st.gens ++ [some st.boxes.length]⟩, [.opened h])
    else .ok (.err .innerErr, st, [])
  -- `Rc::clone`
  | .clone i => do
    let (k, h, c) ← st.box i
    .ok (.done, ⟨st.boxes.set k (h, c + 1), st.gens ++ [some k]⟩, [])
  -- crypto_rand.rs:45-55; bcrypt.rs:128-138
  | .gen i status bytes => do
    let (_, h, _) ← st.box i
    let out := if status = 0#32 then .word (bytes.foldr (fun x acc => x.toNat + 256 * acc) 0) else .err .innerErr
    .ok (out, st, [.drew h bytes.length])
  | .reset i => do
    let _ ← st.box i
    .ok (.done, st, [])
  -- `Rc::drop`, and at the last one bcrypt.rs:56-62 `AlgorithmHandle::drop`
  | .drop i => do
    let (k, h, c) ← st.box i
    .ok (.done, ⟨st.boxes.set k (h, c - 1), st.gens.set i none⟩, if c - 1 = 0 then [.closed h] else [])

/-- A program: what its statements tell it, the state at the end, and the calls to the system. -/
def winRun : WinState → List WinCmd → Res (List WinOut × WinState × List OsEvent)
  | st, [] => .ok ([], st, [])
  | st, c :: cs => do
    let p ← c.step st
    let r ← winRun p.2.1 cs
    .ok (p.1 :: r.1, r.2.1, p.2.2 ++ r.2.2)

end RMath
