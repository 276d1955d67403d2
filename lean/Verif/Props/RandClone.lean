import Verif.Model.RandClone
import Verif.Props.Rand

/-!
# Properties C98, C99: clones of the system generator, and the default generators

C98 is about programs (`SysCmd`) that create, clone, use and reset system generators.  Its statement counts bytes: for every
program, the bytes handed out together with those still buffered should be the bytes obtained from the system, each as often as
the system delivered it.
-/

namespace RMath

/-! ## C98: no byte of the system is handed out twice -/

/-- the bytes that the system delivers in a program -/
def sysBytes : List SysCmd → List Byte
  | [] => []
  | .gen _ _ sys :: cs => sys.getD [] ++ sysBytes cs
  | _ :: cs => sysBytes cs

/-- the program uses only generators that exist (`k` exist at the beginning), and the system never delivers more bytes than
requested -/
def SysWf : Nat → List SysCmd → Prop
  | _, [] => True
  | k, .create :: cs => SysWf (k + 1) cs
  | k, .clone i :: cs => i < k ∧ SysWf (k + 1) cs
  | k, .gen i n sys :: cs => i < k ∧ (sys.getD []).length ≤ n ∧ SysWf k cs
  | k, .reset i :: cs => i < k ∧ SysWf k cs

/-- the system never delivers less than requested, unless it delivers nothing -/
def NoShortReads : List SysCmd → Prop
  | [] => True
  | .gen _ n sys :: cs => ((sys.getD []).length = n ∨ (sys.getD []).length = 0) ∧ NoShortReads cs
  | _ :: cs => NoShortReads cs

/-- the program clones no generator -/
def NoClones : List SysCmd → Prop
  | [] => True
  | .clone _ :: _ => False
  | _ :: cs => NoClones cs

theorem genRandom_perm {q : List Byte} {n : ℕ} {sys : Option (List Byte)} (h : (sys.getD []).length ≤ n) :
    ∃ o q', genRandom q n sys = .ok (o, q') ∧ (o.getD [] ++ q').Perm (sys.getD [] ++ q) ∧
      (q = [] → (sys.getD []).length = n ∨ (sys.getD []).length = 0 → q' = []) := by
  unfold genRandom
  simp only [foldl_push]
  rw [if_neg (by omega)]
  by_cases hn : ((sys.getD []).reverse ++ q).length < n
  · rw [if_pos hn]
    refine ⟨none, _, rfl, by simpa using (List.reverse_perm _).append_right q, fun hq hs => ?_⟩
    subst hq
    simp only [List.append_nil, List.length_reverse] at hn
    rcases hs with hs | hs
    · omega
    · simp [List.length_eq_zero_iff.1 hs]
  · rw [if_neg hn]
    refine ⟨some _, _, rfl, ?_, fun hq hs => ?_⟩
    · generalize hl : (sys.getD []).reverse ++ q = l at *
      have h1 : l.Perm (sys.getD [] ++ q) := by rw [← hl]; exact (List.reverse_perm _).append_right q
      refine List.Perm.trans ?_ h1
      show (l.reverse.take n ++ l.take (l.length - n)).Perm l
      have h2 : l.take (l.length - n) = (l.reverse.drop n).reverse := by
        rw [List.drop_reverse, List.reverse_reverse]
      rw [h2]
      refine ((List.reverse_perm _).append_left _).trans ?_
      rw [List.take_append_drop]
      exact List.reverse_perm l
    · subst hq
      simp only [List.append_nil, List.length_reverse] at hn ⊢
      rcases hs with hs | hs
      · simp [hs]
      · simp [List.length_eq_zero_iff.1 hs]

theorem atR_lt {α : Type} {l : List α} {i : Nat} (h : i < l.length) : atR l i = .ok l[i] := by
  simp [atR, List.getElem?_eq_getElem h]

theorem set_perm {gs : List (List Byte)} {i : Nat} (h : i < gs.length) {o q' s : List Byte} (hp : (o ++ q').Perm (s ++ gs[i])) :
    (o ++ (gs.set i q').flatten).Perm (s ++ gs.flatten) := by
  induction gs generalizing i with
  | nil => simp at h
  | cons g gs ih =>
    cases i with
    | zero =>
      simp only [List.set_cons_zero, List.flatten_cons, ← List.append_assoc]
      exact hp.append_right _
    | succ i =>
      simp only [List.set_cons_succ, List.flatten_cons]
      have := ih (i := i) (by simpa using h) (by simpa using hp)
      have h1 : (o ++ (g ++ (gs.set i q').flatten)).Perm (g ++ (o ++ (gs.set i q').flatten)) := by
        rw [← List.append_assoc, ← List.append_assoc]; exact List.perm_append_comm.append_right _
      have h2 : (g ++ (s ++ gs.flatten)).Perm (s ++ (g ++ gs.flatten)) := by
        rw [← List.append_assoc, ← List.append_assoc]; exact List.perm_append_comm.append_right _
      exact h1.trans ((this.append_left g).trans h2)

/-- what one statement adds to the bytes that the system delivers -/
theorem sysRun_perm (cs : List SysCmd) (gs : List (List Byte)) (hw : SysWf gs.length cs)
    (hc : NoClones cs ∨ (NoShortReads cs ∧ ∀ q ∈ gs, q = [])) :
    ∃ outs gs', sysRun gs cs = .ok (outs, gs') ∧ (outs.flatten ++ gs'.flatten).Perm (gs.flatten ++ sysBytes cs) := by
  induction cs generalizing gs with
  | nil => exact ⟨[], gs, rfl, by simp [sysBytes]⟩
  | cons c cs ih =>
    cases c with
    | create =>
      obtain ⟨outs, gs', e, hp⟩ := ih (gs ++ [[]]) (by simpa [SysWf] using hw) (by
        refine hc.imp id fun h => ⟨h.1, fun q hq => ?_⟩
        rcases List.mem_append.1 hq with hq | hq
        · exact h.2 q hq
        · simpa using hq)
      refine ⟨[] :: outs, gs', ?_, by simpa [sysBytes] using hp⟩
      simp only [sysRun, SysCmd.step, bind, Except.bind, e]
    | clone i =>
      obtain ⟨hi, hw⟩ := hw
      rcases hc with hc | hc
      · exact hc.elim
      · have hq := hc.2 gs[i] (List.getElem_mem hi)
        obtain ⟨outs, gs', e, hp⟩ := ih (gs ++ [gs[i]]) (by simpa using hw) (by
          refine .inr ⟨hc.1, fun q hm => ?_⟩
          rcases List.mem_append.1 hm with hm | hm
          · exact hc.2 q hm
          · rw [List.mem_singleton.1 hm, hq])
        refine ⟨[] :: outs, gs', ?_, ?_⟩
        · simp only [sysRun, SysCmd.step, bind, Except.bind, atR_lt hi, e]
        · simpa [sysBytes, hq] using hp
    | gen i n sys =>
      obtain ⟨hi, hl, hw⟩ := hw
      obtain ⟨o, q', e1, hp1, hemp⟩ := genRandom_perm (q := gs[i]) hl
      obtain ⟨outs, gs', e, hp⟩ := ih (gs.set i q') (by simpa using hw) (by
        refine hc.imp id fun h => ⟨h.1.2, fun q hm => ?_⟩
        rcases List.mem_or_eq_of_mem_set hm with hm | rfl
        · exact h.2 q hm
        · exact hemp (h.2 _ (List.getElem_mem hi)) h.1.1)
      refine ⟨o.getD [] :: outs, gs', ?_, ?_⟩
      · simp only [sysRun, SysCmd.step, bind, Except.bind, atR_lt hi, e1, e]
      · simp only [List.flatten_cons, List.append_assoc, sysBytes]
        refine (hp.append_left _).trans ?_
        rw [← List.append_assoc, ← List.append_assoc]
        exact ((set_perm hi hp1).trans List.perm_append_comm).append_right _
    | reset i =>
      obtain ⟨hi, hw⟩ := hw
      obtain ⟨outs, gs', e, hp⟩ := ih gs hw hc
      refine ⟨[] :: outs, gs', ?_, by simpa [sysBytes] using hp⟩
      simp only [sysRun, SysCmd.step, bind, Except.bind, atR_lt hi, e]

/-- **C98, part**: programs with any number of generators, without clones: there is no panic, and the bytes handed out to all of
them, with those still buffered, are the bytes obtained from the system, each as often as the system delivered it.  Missing:
clones after a short read, see `C98_violated`. -/
theorem C98_no_clones_partial (cs : List SysCmd) (hw : SysWf 0 cs) (hc : NoClones cs) :
    ∃ outs gs', sysRun [] cs = .ok (outs, gs') ∧ ∀ x : Byte,
      outs.flatten.count x + gs'.flatten.count x = (sysBytes cs).count x := by
  obtain ⟨outs, gs', e, hp⟩ := sysRun_perm cs [] hw (.inl hc)
  exact ⟨outs, gs', e, fun x => by rw [← List.count_append, hp.count_eq]; rfl⟩

/-- **C98, part**: programs with clones, if every system call fails or delivers all the bytes requested. -/
theorem C98_no_short_reads_partial (cs : List SysCmd) (hw : SysWf 0 cs) (hc : NoShortReads cs) :
    ∃ outs gs', sysRun [] cs = .ok (outs, gs') ∧ ∀ x : Byte,
      outs.flatten.count x + gs'.flatten.count x = (sysBytes cs).count x := by
  obtain ⟨outs, gs', e, hp⟩ := sysRun_perm cs [] hw (.inr ⟨hc, by simp⟩)
  exact ⟨outs, gs', e, fun x => by rw [← List.count_append, hp.count_eq]; rfl⟩

/-- two generators, one used after a failure and a short read; a clone with full reads -/
example : SysWf 0 [.create, .create, .gen 0 4 (some [1#8, 2#8]), .gen 1 4 none, .gen 0 4 (some [3#8, 4#8, 5#8])] ∧
    NoClones [.create, .create, .gen 0 4 (some [1#8, 2#8]), .gen 1 4 none, .gen 0 4 (some [3#8, 4#8, 5#8])] ∧
    SysWf 0 [.create, .gen 0 1 (some [7#8]), .clone 0, .gen 1 1 (some [8#8]), .reset 0, .gen 0 1 none] ∧
    NoShortReads [.create, .gen 0 1 (some [7#8]), .clone 0, .gen 1 1 (some [8#8]), .reset 0, .gen 0 1 none] := by
  simp [SysWf, NoClones, NoShortReads]

/-- **C98 is violated**: after a short read, a clone hands out the buffered bytes a second time.  Here the system delivers
1, 2, then 3, 4, then 5, 6, and both generators hand out a number that begins with 1, 2. -/
theorem C98_violated : SysWf 0 [.create, .gen 0 4 (some [1#8, 2#8]), .clone 0, .gen 0 4 (some [3#8, 4#8]), .gen 1 4 (some [5#8, 6#8])] ∧
    sysRun [] [.create, .gen 0 4 (some [1#8, 2#8]), .clone 0, .gen 0 4 (some [3#8, 4#8]), .gen 1 4 (some [5#8, 6#8])] =
      .ok ([[], [], [], [1#8, 2#8, 3#8, 4#8], [1#8, 2#8, 5#8, 6#8]], [[], []]) :=
  ⟨by simp [SysWf], by decide⟩

/-- And `reset` does not discard the buffer: the bytes read before it are handed out after it, whatever the seed. -/
theorem C98_reset_keeps_bytes : sysRun [] [.create, .gen 0 4 (some [1#8, 2#8]), .reset 0, .gen 0 4 (some [3#8, 4#8])] =
    .ok ([[], [], [], [1#8, 2#8, 3#8, 4#8]], [[]]) := by decide

/-! ## C99: the default generators -/

/-- the successive hashes are those of the draws of the sequence -/
def drawsOf {b : Nat} : List (DefaultCall b) → List (BitVec 64)
  | [] => []
  | .gen h :: cs => h :: drawsOf cs
  | .reset _ :: cs => drawsOf cs

/-- the seed of a sequence of calls: that of the last reset that succeeded, and the draws after it -/
def sinceReset {b : Nat} (seed : BitVec b) (hs : List (BitVec 64)) : List (DefaultCall b) → BitVec b × List (BitVec 64)
  | [] => (seed, hs)
  | .gen h :: cs => sinceReset seed (hs ++ [h]) cs
  | .reset (.ok x) :: cs => sinceReset x [] cs
  | .reset (.error _) :: cs => sinceReset seed hs cs

/-- the bits of a hash that a seed of `b` bits has -/
theorem timeSeed_toNat {b : Nat} (hb : b = 32 ∨ b = 64) (h : BitVec 64) : (timeSeed b h).toNat = h.toNat % 2 ^ b := by
  rcases hb with rfl | rfl
  · simp only [timeSeed, BitVec.toNat_ofNat, BitVec.toNat_and]
    have : (2 ^ 32 - 1) % 2 ^ 64 = 2 ^ 32 - 1 := by decide
    rw [this, Nat.and_two_pow_sub_one_eq_mod, Nat.mod_mod]
  · simp only [timeSeed, BitVec.toNat_ofNat, BitVec.toNat_and]
    have : (2 ^ 64 - 1) % 2 ^ 64 = 2 ^ 64 - 1 := by decide
    rw [this, Nat.and_two_pow_sub_one_eq_mod, Nat.mod_mod]

/-- the exclusive or of a number with the low `b` bits of some hashes -/
def xorAll (b : Nat) (n : Nat) (hs : List (BitVec 64)) : Nat := hs.foldl (fun s h => s ^^^ (h.toNat % 2 ^ b)) n

theorem defaultRun_last {b : Nat} (hb : b = 32 ∨ b = 64) (s seed : BitVec b) (hs : List (BitVec 64)) (cs : List (DefaultCall b))
    (h0 : s.toNat = xorAll b seed.toNat hs) :
    (defaultRun s cs).2.toNat = xorAll b (sinceReset seed hs cs).1.toNat (sinceReset seed hs cs).2 := by
  induction cs generalizing s seed hs with
  | nil => exact h0
  | cons c cs ih =>
    cases c with
    | gen h =>
      simp only [defaultRun, sinceReset]
      refine ih _ _ _ ?_
      simp only [defaultGen, BitVec.toNat_xor, timeSeed_toNat hb, h0, xorAll, List.foldl_append, List.foldl_cons, List.foldl_nil]
    | reset sd =>
      cases sd with
      | ok x => exact ih x x [] rfl
      | error e => exact ih s seed hs h0

/-- **C99, portable**: whatever was called before, a draw delivers the seed of the last successful reset (or of the creation)
combined by exclusive or with the hashes of all the draws since, this one included. -/
theorem C99_default {b : Nat} (hb : b = 32 ∨ b = 64) (seed : BitVec b) (cs : List (DefaultCall b)) (h : BitVec 64) :
    defaultNew (.ok seed) = .ok seed ∧
    ∃ w, (defaultRun seed (cs ++ [.gen h])).1.getLast? = some w ∧
      w.toNat = xorAll b (sinceReset seed [] cs).1.toNat ((sinceReset seed [] cs).2 ++ [h]) := by
  refine ⟨rfl, ?_⟩
  have key : ∀ (s : BitVec b) (cs : List (DefaultCall b)),
      (defaultRun s (cs ++ [.gen h])).1.getLast? = some ((defaultRun s cs).2 ^^^ timeSeed b h) := by
    intro s cs
    induction cs generalizing s with
    | nil => rfl
    | cons c cs ih =>
      cases c with
      | gen h' =>
        simp only [List.cons_append, defaultRun]
        rw [List.getLast?_cons, ih]
        rfl
      | reset sd => exact ih _
  refine ⟨_, key seed cs, ?_⟩
  rw [BitVec.toNat_xor, timeSeed_toNat hb, defaultRun_last hb seed seed [] cs rfl]
  simp [xorAll]

/-- every draw delivers a word, every reset none -/
theorem C99_default_count {b : Nat} (seed : BitVec b) (cs : List (DefaultCall b)) :
    (defaultRun seed cs).1.length = (drawsOf cs).length := by
  induction cs generalizing seed with
  | nil => rfl
  | cons c cs ih =>
    cases c with
    | gen h => simp [defaultRun, drawsOf, ih]
    | reset sd => exact ih _

/-- a generator whose seed source fails is not created, and one that is reset by a failing source goes on -/
theorem C99_failing_seed {b : Nat} (e : RandErr) (s : BitVec b) (cs : List (DefaultCall b)) :
    defaultNew (b := b) (.error e) = .error e ∧ defaultRun s (.reset (.error e) :: cs) = defaultRun s cs := ⟨rfl, rfl⟩

/-- **C99, x86**: a draw delivers the word of the instruction exactly if the instruction reports success; otherwise the error
that tells that there is no new number (for seeds: no new seed). -/
theorem C99_hardware {b : Nat} (flag : Nat) (out w : BitVec b) :
    (hwGen flag out = .ok w ↔ flag ≠ 0 ∧ w = out) ∧ (hwGen flag out = .error .noNewRandNumberGen ↔ flag = 0) ∧
    (hwSeed flag out = .ok w ↔ flag ≠ 0 ∧ w = out) ∧ (hwSeed flag out = .error .noNewRandSeedGen ↔ flag = 0) := by
  unfold hwGen hwSeed
  by_cases h : 0 < flag
  · simp [if_pos h, Nat.pos_iff_ne_zero.1 h, eq_comm]
  · simp [if_neg h, show flag = 0 by omega]

/-- a seed, two draws, a failing reset, a draw, a reset, a draw -/
example : (defaultRun 5#32 [.gen 3#64, .gen 0x100000001#64, .reset (.error .innerErr), .gen 1#64, .reset (.ok 8#32), .gen 2#64]).1 =
    [6#32, 7#32, 6#32, 10#32] := by decide

end RMath
