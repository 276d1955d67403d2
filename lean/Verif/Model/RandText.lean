import Verif.Model.RandWin

/-!
# The texts of the errors of the system generators and of the processor's

The functions of `Verif/Model/Rand.lean`, `RandClone.lean` and `RandWin.lean` once more, with the text of the error.  A `RandError` is its kind
and its text: `RandError::new` always stores the text (rand_error.rs:33-39), so that `Display` always prints it (rand_error.rs:46-53).
-/

namespace RMath

/-- rand_error.rs:26-30: the kind, and the text of the inner error -/
abbrev RandError := RandErr × List Char

/-- rand_error.rs:13-23 `Debug` of a kind -/
def RandErr.name : RandErr → List Char
  | .noNewRandSeedGen => "NoNewRandSeedGen".toList
  | .noNewRandNumberGen => "NoNewRandNumberGen".toList
  | .divisorIsZero => "DivisorIsZero".toList
  | .invalidRngPara => "InvalidRngPara".toList
  | .innerErr => "InnerErr".toList

/-- rand_error.rs:46-53 `Display` -/
def errDisplay (e : RandError) : List Char := e.2

/-- rand_error.rs:26 `derive(Debug)`, as `{:?}` prints it.  *Simplified:* the standard library prints a text in quotes and escapes quotes,
backslashes and control characters in it, of which the texts of the crate have none. -/
def errDebug (e : RandError) : List Char :=
  "RandError { kind: ".toList ++ e.1.name ++ ", error: Some(\"".toList ++ e.2 ++ "\") }".toList

/-! ## Linux -/

/-- os/linux/mod.rs:49: the text, with the number of bytes in the deque -/
def linuxText (n : Nat) : List Char :=
  "only read ".toList ++ Nat.toDigits 10 n ++ " bytes random bytes from the system".toList

/-- os/linux/mod.rs:36-54 `gen_random`, with the text of the error -/
def genRandomM (deque : List Byte) (n : Nat) (sys : Option (List Byte)) : Res (Except (List Char) (List Byte) × List Byte) :=
  let bytes := sys.getD []
  if n < bytes.length then .error .panic
  else
    let deque := bytes.foldl (fun q x => x :: q) deque
    if deque.length < n then .ok (.error (linuxText deque.length), deque)
    else .ok (.ok (deque.reverse.take n), deque.take (deque.length - n))

/-- crypto_rand.rs:45-55 `gen` -/
def cryptoGenM (len : Nat) (deque : List Byte) (sys : Option (List Byte)) : Res (Except RandError Nat × List Byte) := do
  let p ← genRandomM deque len sys
  match p.1 with
  | .error e => .ok (.error (.innerErr, e), p.2)
  | .ok buf => .ok (.ok (buf.foldr (fun x acc => x.toNat + 256 * acc) 0), p.2)

/-- calls of `gen` one after the other, each with the result of its system call: the answers, and the bytes still buffered -/
def cryptoRunM (len : Nat) : List Byte → List (Option (List Byte)) → Res (List (Except RandError Nat) × List Byte)
  | q, [] => .ok ([], q)
  | q, sys :: rs => do
    let p ← cryptoGenM len q sys
    let r ← cryptoRunM len p.2 rs
    .ok (p.1 :: r.1, r.2)

/-! ## Windows -/

/-- ntstatus.rs:66-82 `msg_map` -/
def ntMsg (status : BitVec 32) : List Char :=
  if status = 0xC0000008#32 then "invalid handle was specified".toList
  else if status = 0xC0000017#32 then
    "Not enough virtual memory or paging file quota is available to complete the specified operation".toList
  else if status = 0xC000000D#32 then "An invalid parameter was passed to a service or function".toList
  else if status = 0xC0000225#32 then "The object not found".toList
  else []

/-- ntstatus.rs:40-51, 85-90 `Display` of an `NtError` and `Debug` of its kind.  `{:#x}` of an `i32` prints its 32 bits. -/
def ntText (status : BitVec 32) (source : List Char) : List Char :=
  "code: ".toList ++ ("0x".toList ++ Nat.toDigits 16 status.toNat) ++ ", msg: ".toList ++ ntMsg status ++ ", source: ".toList ++ source

/-- what a statement tells the program -/
inductive WinOutM where
  | done
  | word (v : Nat)
  | err (e : RandError)
deriving DecidableEq, Repr

/-- `WinCmd.step` with the texts of the errors -/
def WinCmd.stepM (st : WinState) : WinCmd → Res (WinOutM × WinState × List OsEvent)
  -- crypto_rand.rs:18-32; bcrypt.rs:77-88
  | .create status h =>
    if status = 0#32 then
      .ok (.done, ⟨st.boxes ++ [(h, 1)], st.gens ++ [some st.boxes.length]⟩, [.opened h])
    else .ok (.err (.innerErr, ntText status "BCryptOpenAlgorithmProvider".toList), st, [])
  | .clone i => do
    let (k, h, c) ← st.box i
    .ok (.done, ⟨st.boxes.set k (h, c + 1), st.gens ++ [some k]⟩, [])
  -- crypto_rand.rs:45-55; bcrypt.rs:128-138
  | .gen i status bytes => do
    let (_, h, _) ← st.box i
    let out := if status = 0#32 then .word (bytes.foldr (fun x acc => x.toNat + 256 * acc) 0)
      else .err (.innerErr, ntText status "BCryptGenRandom".toList)
    .ok (out, st, [.drew h bytes.length])
  | .reset i => do
    let _ ← st.box i
    .ok (.done, st, [])
  | .drop i => do
    let (k, h, c) ← st.box i
    .ok (.done, ⟨st.boxes.set k (h, c - 1), st.gens.set i none⟩, if c - 1 = 0 then [.closed h] else [])

/-! ## The processor, and the seed that can be drawn once -/

/-- default_rand_amd64.rs:21-28, 43-58; crypto_rand_amd64.rs:21-23 -/
def hwGenM {b : Nat} (flag : Nat) (out : BitVec b) : Except RandError (BitVec b) :=
  if 0 < flag then .ok out else .error (.noNewRandNumberGen, [])

/-- default_seed_amd64.rs:25-32, 47-54 -/
def hwSeedM {b : Nat} (flag : Nat) (out : BitVec b) : Except RandError (BitVec b) :=
  if 0 < flag then .ok out else .error (.noNewRandSeedGen, [])

end RMath
