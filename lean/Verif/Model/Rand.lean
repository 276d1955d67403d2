import Verif.Spec

/-!
# Model of the random number generators (`src/rand`) and of the system's random bytes (`src/os/linux`)

The generators are written once for `u32`, `u64` and `usize`: here, for words of `b` bits (`b` is 32 or 64).
A seed source is the result of its only call: a word, or none if it fails.  `checks` tells whether the build has overflow
checks.  A shift by `b` or more (a panic or a masked shift in Rust) is excluded by the conditions that `new` checks.
-/

namespace RMath

/-- rand_error.rs:5-11 -/
inductive RandErr where
  | noNewRandSeedGen | noNewRandNumberGen | divisorIsZero | invalidRngPara | innerErr
deriving DecidableEq, Repr

/-- rand/mod.rs:87-89, 97-99, 106-108 `mask` -/
def maskW {b : Nat} (w : BitVec b) : BitVec b :=
  if w = BitVec.ofNat b b then BitVec.allOnes b else (1#b <<< (w &&& BitVec.ofNat b (b - 1)).toNat) - 1#b

/-- `x + y` on words -/
def addChk {b : Nat} (checks : Bool) (x y : BitVec b) : Res (BitVec b) :=
  if checks ∧ 2 ^ b ≤ x.toNat + y.toNat then .error .panic else .ok (x + y)

/-- `x - y` on words -/
def subChk {b : Nat} (checks : Bool) (x y : BitVec b) : Res (BitVec b) :=
  if checks ∧ x.toNat < y.toNat then .error .panic else .ok (x - y)

/-- `v[i]` -/
def atR {α : Type} (v : List α) (i : Nat) : Res α := match v[i]? with | some x => .ok x | none => .error .panic

/-- `v[i] = x` -/
def setR {α : Type} (v : List α) (i : Nat) (x : α) : Res (List α) :=
  if i < v.length then .ok (v.set i x) else .error .panic

/-! ## Linear congruential generator -/

/-- linear_congruential_rand.rs:10-15 -/
structure Lcg (b : Nat) where
  a : BitVec b
  c : BitVec b
  m : BitVec b
  x : BitVec b
deriving DecidableEq, Repr

/-- linear_congruential_rand.rs:22-30 `new` -/
def lcgNew {b : Nat} (sd : Except RandErr (BitVec b)) (a c m : BitVec b) : Except RandErr (Lcg b) :=
  if m = 0#b then .error .divisorIsZero else sd.map fun x => ⟨a, c, m, x⟩

/-- linear_congruential_rand.rs:36-40 `gen` -/
def lcgGen {b : Nat} (g : Lcg b) : Res (BitVec b × Lcg b) :=
  if g.m = 0#b then .error .panic
  else
    let tmp := (g.a * g.x + g.c) % g.m
    .ok (tmp, { g with x := tmp })

/-- linear_congruential_rand.rs:42-46 `reset`, with the seed drawn -/
def lcgReset {b : Nat} (g : Lcg b) (x : BitVec b) : Res (Lcg b) := .ok { g with x := x }

/-- linear_congruential_rand.rs:58-62 -/
def minstdRand0 (sd : Except RandErr (BitVec 32)) : Except RandErr (Lcg 32) := lcgNew sd 16807#32 0#32 2147483647#32
/-- linear_congruential_rand.rs:68-72 -/
def minstdRand (sd : Except RandErr (BitVec 32)) : Except RandErr (Lcg 32) := lcgNew sd 48271#32 0#32 2147483647#32

/-! ## Lagged Fibonacci generator -/

/-- lagged_fibonacci_rand.rs:12-21.  The field `seed: Result<T, T>` is split into the word and a flag, `true` for `Ok`. -/
structure Lfr (b : Nat) where
  w : BitVec b
  s : BitVec b
  r : BitVec b
  seed : BitVec b
  ready : Bool
  carry : BitVec b
  idx : BitVec b
  state : List (BitVec b)
deriving DecidableEq, Repr

/-- lagged_fibonacci_rand.rs:29-49 `new` -/
def lfrNew {b : Nat} (sd : Except RandErr (BitVec b)) (w s r : BitVec b) : Except RandErr (Lfr b) :=
  if w = 0#b ∨ s = 0#b ∨ r = 0#b then .error .invalidRngPara
  else if r ≤ s then .error .invalidRngPara
  else if BitVec.ofNat b b < w then .error .invalidRngPara
  else sd.map fun x => ⟨w, s, r, x, false, 0#b, 0#b, []⟩

/-- lagged_fibonacci_rand.rs:81-84: the inner loop, `n` rounds left -/
def lfrWord {b : Nat} : Nat → Lcg b → BitVec b → BitVec b → Res (BitVec b × Lcg b)
  | 0, lcr, sum, _ => .ok (sum, lcr)
  | n + 1, lcr, sum, factor => do
    let p ← lcgGen lcr
    lfrWord n p.2 (sum + p.1 * factor) (factor * (if b ≤ 32 then 0#b else maskW 32#b + 1#b))

/-- lagged_fibonacci_rand.rs:79-86: the outer loop, `k` rounds left; the words pushed -/
def lfrFill {b : Nat} (w : BitVec b) (n : Nat) : Nat → Lcg b → Res (List (BitVec b))
  | 0, _ => .ok []
  | k + 1, lcr => do
    let p ← lfrWord n lcr 0#b 1#b
    let l ← lfrFill w n k p.2
    .ok ((maskW w &&& p.1) :: l)

/-- lagged_fibonacci_rand.rs:72-93 `check_init`; `self.word_size + 31` does not overflow since `w ≤ b`. -/
def lfrInit {b : Nat} (g : Lfr b) : Res (Lfr b) :=
  if g.ready then .ok g
  else do
    let n := ((g.w + 31#b) >>> 5).toNat
    let state ← lfrFill g.w n g.r.toNat ⟨40014#b, 0#b, 2147483563#b, g.seed⟩
    .ok { g with state := state, carry := if state.getLastD 0#b = 0#b then 1#b else 0#b, idx := 0#b, ready := true }

/-- lagged_fibonacci_rand.rs:97-115 `gen` -/
def lfrGen {b : Nat} (checks : Bool) (g : Lfr b) : Res (BitVec b × Lfr b) := do
  let g ← lfrInit g
  let ps ← if g.idx < g.s then (do let t ← addChk checks g.r g.idx; subChk checks t g.s) else subChk checks g.idx g.s
  let idx := g.idx.toNat
  let carry := g.carry
  let xs ← atR g.state ps.toNat
  let x ← atR g.state idx
  let t ← addChk checks x carry
  let (xi, c) : BitVec b × BitVec b :=
    if t ≤ xs then (xs - x - carry, 0#b)
    else
      let w : BitVec b := if g.w = BitVec.ofNat b b then 0#b else 1#b <<< g.w.toNat
      (w - x - carry + xs, 1#b)
  let state ← setR g.state idx xi
  let i ← addChk checks g.idx 1#b
  .ok (xi, { g with carry := c, state := state, idx := if g.r ≤ i then 0#b else i })

/-- lagged_fibonacci_rand.rs:117-122 `reset`, with the seed drawn -/
def lfrReset {b : Nat} (g : Lfr b) (x : BitVec b) : Res (Lfr b) := lfrInit { g with seed := x, ready := false }

/-- lagged_fibonacci_rand.rs:133-137 -/
def ranlux24Base {b : Nat} (sd : Except RandErr (BitVec b)) : Except RandErr (Lfr b) := lfrNew sd 24#b 10#b 24#b
/-- lagged_fibonacci_rand.rs:141-145 -/
def ranlux48Base {b : Nat} (sd : Except RandErr (BitVec b)) : Except RandErr (Lfr b) := lfrNew sd 48#b 5#b 12#b

/-! ## Mersenne twister -/

/-- mersenne_twister_rand.rs:11-28: the parameters -/
structure MtPar (b : Nat) where
  w : BitVec b
  n : BitVec b
  m : BitVec b
  r : BitVec b
  a : BitVec b
  u : BitVec b
  d : BitVec b
  s : BitVec b
  bm : BitVec b
  t : BitVec b
  c : BitVec b
  l : BitVec b
  f : BitVec b
deriving DecidableEq, Repr

/-- mersenne_twister_rand.rs:11-28.  The field `seed: Result<T, T>` is split into the word and a flag, `true` for `Ok`. -/
structure Mt (b : Nat) where
  par : MtPar b
  idx : BitVec b
  seed : BitVec b
  ready : Bool
  state : List (BitVec b)
deriving DecidableEq, Repr

/-- mersenne_twister_rand.rs:45-97 `new` -/
def mtNew {b : Nat} (sd : Except RandErr (BitVec b)) (p : MtPar b) : Except RandErr (Mt b) :=
  if p.w = 0#b ∨ p.m = 0#b ∨ p.r = 0#b ∨ p.a = 0#b ∨ (p.u = 0#b ∧ p.d = 0#b) ∨ (p.s = 0#b ∧ p.bm = 0#b) ∨
    (p.t = 0#b ∧ p.c = 0#b) ∨ p.l = 0#b ∨ p.f = 0#b then .error .invalidRngPara
  else if p.n < p.m then .error .invalidRngPara
  else if BitVec.ofNat b b < p.w then .error .invalidRngPara
  else if p.w ≤ p.r then .error .invalidRngPara
  else if p.w ≤ p.u then .error .invalidRngPara
  else if p.w ≤ p.s then .error .invalidRngPara
  else if p.w ≤ p.t then .error .invalidRngPara
  else if p.w ≤ p.l then .error .invalidRngPara
  else if maskW p.w < p.a then .error .invalidRngPara
  else if maskW p.w < p.d then .error .invalidRngPara
  else if maskW p.w < p.bm then .error .invalidRngPara
  else if maskW p.w < p.c then .error .invalidRngPara
  else if maskW p.w < p.f then .error .invalidRngPara
  else sd.map fun x => ⟨p, p.n, x, false, []⟩

/-- mersenne_twister_rand.rs:113-119: the loop, from `i`, with `k` rounds left; `word_size - 2` does not underflow, since
`0 < r < w`. -/
def mtFill {b : Nat} (p : MtPar b) : Nat → Nat → BitVec b → List (BitVec b)
  | _, 0, _ => []
  | i, k + 1, last =>
    let last := last ^^^ (last >>> (p.w - 2#b).toNat)
    let last := last * p.f
    let last := last + BitVec.ofNat b i
    let last := last &&& maskW p.w
    last :: mtFill p (i + 1) k last

/-- mersenne_twister_rand.rs:103-124 `check_init` -/
def mtInit {b : Nat} (g : Mt b) : Mt b :=
  if g.ready then g
  else
    let last := g.seed &&& maskW g.par.w
    { g with state := last :: mtFill g.par 1 (g.par.n.toNat - 1) last, idx := g.par.n, ready := true }

/-- mersenne_twister_rand.rs:131-133, 138-139, 143-145: one step of the recurrence, from the words called `state[i]`,
`state[i+1]` and the one xored to the result -/
def mtTwist {b : Nat} (p : MtPar b) (hi lo src : BitVec b) : BitVec b :=
  let upper : BitVec b := BitVec.allOnes b <<< p.r.toNat
  let lower := ~~~upper
  let y := (hi &&& upper) ||| (lo &&& lower)
  (src ^^^ (y >>> 1)) ^^^ (if 0#b < y &&& 1#b then p.a else 0#b)

/-- mersenne_twister_rand.rs:130-134, 137-141: a loop from `i` with `k` rounds left; in round `i` the word with index
`src i` is xored: `i + m` in the first loop, `j = i - k` in the second, where `j` counts up from 0 and `i` from `k`. -/
def mtLoop {b : Nat} (p : MtPar b) (src : Nat → Nat) : Nat → Nat → List (BitVec b) → Res (List (BitVec b))
  | _, 0, st => .ok st
  | i, k + 1, st => do
    let hi ← atR st i
    let lo ← atR st (i + 1)
    let x ← atR st (src i)
    let st ← setR st i (mtTwist p hi lo x)
    mtLoop p src (i + 1) k st

/-- mersenne_twister_rand.rs:126-147 `gen_rand`.  `k = n - m` and `n - 1` do not underflow, since `0 < m ≤ n`. -/
def mtRegen {b : Nat} (p : MtPar b) (st : List (BitVec b)) : Res (List (BitVec b)) := do
  let m := p.m.toNat
  let k := p.n.toNat - m
  let n := p.n.toNat - 1
  let st ← mtLoop p (fun i => i + m) 0 k st
  let st ← mtLoop p (fun i => i - k) k (n - k) st
  let hi ← atR st n
  let lo ← atR st 0
  let x ← atR st (m - 1)
  setR st n (mtTwist p hi lo x)

/-- mersenne_twister_rand.rs:157-160 -/
def mtTemper {b : Nat} (p : MtPar b) (z : BitVec b) : BitVec b :=
  let z := z ^^^ ((z >>> p.u.toNat) &&& p.d)
  let z := z ^^^ ((z >>> p.s.toNat) &&& p.bm)
  let z := z ^^^ ((z >>> p.t.toNat) &&& p.c)
  z ^^^ (z >>> p.l.toNat)

/-- mersenne_twister_rand.rs:151-165 `gen` -/
def mtGen {b : Nat} (checks : Bool) (g : Mt b) : Res (BitVec b × Mt b) := do
  let g := mtInit g
  let g ← if g.par.n ≤ g.idx then (do let st ← mtRegen g.par g.state; pure { g with state := st, idx := 0#b }) else pure g
  let z ← atR g.state g.idx.toNat
  let z := mtTemper g.par z
  let i ← addChk checks g.idx 1#b
  .ok (z, { g with idx := i })

/-- mersenne_twister_rand.rs:167-172 `reset`, with the seed drawn -/
def mtReset {b : Nat} (g : Mt b) (x : BitVec b) : Res (Mt b) := .ok (mtInit { g with seed := x, ready := false })

/-- mersenne_twister_rand.rs:183-189 -/
def mt19937Par : MtPar 32 :=
  ⟨32#32, 624#32, 397#32, 31#32, 0x9908b0df#32, 11#32, 0xffffffff#32, 7#32, 0x9d2c5680#32, 15#32, 0xefc60000#32, 18#32,
    1812433253#32⟩
/-- mersenne_twister_rand.rs:194-200 -/
def mt19937Par64 : MtPar 64 :=
  ⟨64#64, 312#64, 156#64, 31#64, 0xb5026f5aa96619e9#64, 29#64, 0x5555555555555555#64, 17#64, 0x71d67fffeda60000#64, 37#64,
    0xfff7eee000000000#64, 43#64, 6364136223846793005#64⟩

/-! ## Sources and histories -/

/-- rand/mod.rs:115-119: the two methods of a generator: drawing a word, and starting anew from a seed -/
structure Source (b : Nat) (σ : Type) where
  gen : σ → Res (BitVec b × σ)
  reset : σ → BitVec b → Res σ

/-- linear_congruential_rand.rs:35-47 -/
def lcgSource (b : Nat) : Source b (Lcg b) := ⟨lcgGen, lcgReset⟩
/-- lagged_fibonacci_rand.rs:96-123 -/
def lfrSource (b : Nat) (checks : Bool) : Source b (Lfr b) := ⟨lfrGen checks, lfrReset⟩
/-- mersenne_twister_rand.rs:150-173 -/
def mtSource (b : Nat) (checks : Bool) : Source b (Mt b) := ⟨mtGen checks, mtReset⟩

/-- A call by the user of a generator. -/
inductive RandCall (b : Nat) where
  | gen
  /-- `reset`, with the answer of the seed source -/
  | reset (sd : Except RandErr (BitVec b))

/-- A sequence of calls: the words drawn, and the final state.  `sd.seed().map(…)`: a `reset` whose seed source fails does
nothing. -/
def runCalls {b : Nat} {σ : Type} (src : Source b σ) : σ → List (RandCall b) → Res (List (BitVec b) × σ)
  | g, [] => .ok ([], g)
  | g, .gen :: cs => do
    let p ← src.gen g
    let q ← runCalls src p.2 cs
    .ok (p.1 :: q.1, q.2)
  | g, .reset (.ok x) :: cs => do
    let g ← src.reset g x
    runCalls src g cs
  | g, .reset (.error _) :: cs => runCalls src g cs

/-! ## Iterators -/

/-- iter.rs:4-9: the borrowed source and the last error.  The source is any state machine. -/
structure RandIter (σ : Type) where
  inner : σ
  lastErr : Option RandErr

/-- iter.rs:14-20 `new`, 53-59 `iter_mut` -/
def iterNew {σ : Type} (s : σ) : RandIter σ := ⟨s, none⟩

/-- iter.rs:35-47 `next`, for a source with the method `gen` -/
def iterNext {σ α : Type} (gen : σ → Except RandErr α × σ) (it : RandIter σ) : Option α × RandIter σ :=
  match it.lastErr with
  | none =>
    match gen it.inner with
    | (.ok x, s) => (some x, { it with inner := s })
    | (.error e, s) => (none, { inner := s, lastErr := some e })
  | some _ => (none, it)

/-- iter.rs:26-28 `clear_error` -/
def iterClear {σ : Type} (it : RandIter σ) : RandIter σ := { it with lastErr := none }

/-- A call by the user of an iterator. -/
inductive IterCall where
  | next
  | clear

/-- A sequence of calls: the answers of `next`, and the final iterator. -/
def runIter {σ α : Type} (gen : σ → Except RandErr α × σ) : RandIter σ → List IterCall → List (Option α) × RandIter σ
  | it, [] => ([], it)
  | it, .next :: cs => ((iterNext gen it).1 :: (runIter gen (iterNext gen it).2 cs).1, (runIter gen (iterNext gen it).2 cs).2)
  | it, .clear :: cs => runIter gen (iterClear it) cs

/-! ## Random bytes of the operating system -/

/-- os/linux/mod.rs:36-54 `gen_random`.  The deque is a list, front first.  `n` is the length of the buffer; `sys` is the
result of the system call: the bytes it wrote to the beginning of the buffer, none if it failed.  The result: the content
of the buffer if the call succeeds, none for the error; and the new deque.  Not modelled: after an error, the buffer
contains the bytes written by the system call. -/
def genRandom (deque : List Byte) (n : Nat) (sys : Option (List Byte)) : Res (Option (List Byte) × List Byte) :=
  let bytes := sys.getD []
  if n < bytes.length then .error .panic
  else
    let deque := bytes.foldl (fun q x => x :: q) deque
    if deque.length < n then .ok (none, deque)
    else .ok (some (deque.reverse.take n), deque.take (deque.length - n))

/-- A sequence of requests, each with the length of the buffer and the result of the system call: the answers, and the
bytes still buffered (front of the deque first). -/
def runRandom : List Byte → List (Nat × Option (List Byte)) → Res (List (Option (List Byte)) × List Byte)
  | q, [] => .ok ([], q)
  | q, (n, sys) :: rs => do
    let p ← genRandom q n sys
    let r ← runRandom p.2 rs
    .ok (p.1 :: r.1, r.2)

/-- crypto_rand.rs:45-55 `gen` (64-bit words: 8 bytes), bytes least significant first -/
def cryptoGen (len : Nat) (deque : List Byte) (sys : Option (List Byte)) : Res (Except RandErr Nat × List Byte) := do
  let p ← genRandom deque len sys
  match p.1 with
  | none => .ok (.error .innerErr, p.2)
  | some buf => .ok (.ok (buf.foldr (fun x acc => x.toNat + 256 * acc) 0), p.2)

end RMath
