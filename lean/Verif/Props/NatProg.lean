import Verif.Lemmas.Heap
import Verif.Lemmas.BigInt
import Verif.Lemmas.FloatOps
import Verif.SpecProg

/-!
# Property C100: programs over `Nat` variables compute natural numbers

The program on the heap of word vectors (`run`) is compared with the program on cells that hold natural numbers (`nRun`, in terms
of `Verif.SpecProg`).  A clone refers to the same cell; everything else is arithmetic.
-/

namespace RMath

open Heap

/-- one statement, on numbers; none for a division by zero -/
def Cmd.nstep (s : NStore) : Cmd → Option NStore
  | .clone x y => some (s.alias x y)
  | .deepClone x y => some (s.fresh x (s.number y))
  | .op o z x y =>
    if (o = .div ∨ o = .rem) ∧ s.number y = 0 then none else some (s.fresh z (o.spec (s.number x) (s.number y)))
  | .assign o x y =>
    if (o = .div ∨ o = .rem) ∧ s.number y = 0 then none else some (s.update x (o.spec (s.number x) (s.number y)))
  | .andNotAssign x y => some (s.update x (Nat.ldiff (s.number x) (s.number y)))
  | .addWord x w => some (s.update x (s.number x + w.toNat))
  | .subWord x w => some (s.update x ((s.number x - w.toNat) + (w.toNat - s.number x)))
  | .shl x n => some (s.update x (s.number x * 2 ^ n))
  | .shr x n => some (s.update x (s.number x / 2 ^ n))
  | .const x w => some (s.fresh x w.toNat)

/-- a program, on numbers -/
def nRun : NStore → List Cmd → Option NStore
  | s, [] => some s
  | s, c :: cs => (c.nstep s).bind fun s => nRun s cs

/-- what has to be avoided, in terms of the numbers: `x %= y` with `x` and `y` in the same cell; a difference with a machine word
that needs fewer words than `x`; shifts of zero by 32 or more; and right shifts by 32 or more which leave words of `x`, unless the
count is not a multiple of 32 and the top word of `x` stays. -/
def Cmd.safe (s : NStore) : Cmd → Prop
  | .assign o x y => o = .rem → s.env x ≠ s.env y
  | .subWord x w => s.number x < 2 ^ 32 ∨ ∃ k, 2 ^ (32 * k) ≤ s.number x - w.toNat ∧ s.number x < 2 ^ (32 * (k + 1))
  | .shl x n => s.number x ≠ 0 ∨ n < 32
  | .shr x n => n < 32 ∨ (∃ k, 0 < k ∧ s.number x < 2 ^ (32 * k) ∧ 32 * k ≤ n) ∨
      n % 32 ≠ 0 ∧ ∃ k, 2 ^ (32 * k + n % 32) ≤ s.number x ∧ s.number x < 2 ^ (32 * (k + 1))
  | _ => True

/-- all statements of a run are safe -/
def Safe : NStore → List Cmd → Prop
  | _, [] => True
  | s, c :: cs => c.safe s ∧
    match c.nstep s with
    | some s' => Safe s' cs
    | none => True

/-- the heap holds the numbers of the cells, in canonical form -/
structure Shows (s : State) (t : NStore) : Prop where
  env : s.env = t.env
  count : s.heap.next = t.count
  bound : ∀ v, t.env v < t.count
  cells : ∀ a, a < t.count → s.heap.buf a = enc (t.cell a)

theorem Shows.value {s : State} {t : NStore} (h : Shows s t) (x : Nat) : s.heap.buf (s.env x) = enc (t.number x) := by
  rw [h.env]; exact h.cells _ (h.bound x)

theorem shows_fresh {s : State} {t : NStore} (h : Shows s t) (x n : Nat) {v : Words} (hv : v = enc n) :
    Shows (s.bind x (s.heap.alloc v).2 (s.heap.alloc v).1) (t.fresh x n) := by
  subst hv
  refine ⟨?_, ?_, fun y => ?_, fun a ha => ?_⟩
  · funext y; simp only [State.bind, NStore.fresh, alloc, h.env, h.count]
  · simp only [State.bind, NStore.fresh, alloc, h.count]
  · simp only [NStore.fresh]
    split
    · omega
    · have := h.bound y; omega
  · simp only [State.bind, NStore.fresh, alloc, h.count]
    split
    · rfl
    · refine h.cells a ?_
      simp only [NStore.fresh] at ha
      omega

theorem shows_update {s : State} {t : NStore} (h : Shows s t) (x n : Nat) {v : Words} (hv : v = enc n) :
    Shows ⟨s.env, s.heap.write (s.env x) v⟩ (t.update x n) := by
  subst hv
  refine ⟨h.env, h.count, h.bound, fun a ha => ?_⟩
  simp only [write, NStore.update, h.env]
  split
  · rfl
  · exact h.cells a ha

theorem shows_alias {s : State} {t : NStore} (h : Shows s t) (x y : Nat) :
    Shows (s.bind x (s.env y) s.heap) (t.alias x y) := by
  refine ⟨?_, h.count, fun z => ?_, h.cells⟩
  · funext z; simp only [State.bind, NStore.alias, h.env]
  · simp only [NStore.alias]; split <;> exact h.bound _

theorem assignPrim_enc' {α : Type} (f : Words → α → Words) (h : Heap) (a : Nat) (y : α) {n : Nat} (ha : h.buf a = enc n) :
    hAssignPrim f h a y = h.write a (f (enc n) y) := by
  simp [hAssignPrim, ha]

theorem fn_zero (o : NatOp) (h : o = .div ∨ o = .rem) (m : Nat) : o.fn (enc m) (enc 0) = .error .panic := by
  rcases h with rfl | rfl
  · exact divInner_zero _
  · exact remInner_zero _

theorem subWord_enc {n : Nat} {w : W}
    (h : n < 2 ^ 32 ∨ ∃ k, 2 ^ (32 * k) ≤ n - w.toNat ∧ n < 2 ^ (32 * (k + 1))) :
    subInnerBasic (enc n) w = enc ((n - w.toNat) + (w.toNat - n)) := by
  have hv : val (subInnerBasic (enc n) w) = (n - w.toNat) + (w.toNat - n) := by
    rw [subInnerBasic_val (canon_enc n), val_enc]
  have hl := subInnerBasic_length (enc n) w
  have hp := (canon_enc n).length_pos
  refine enc_eq_iff.2 ⟨canon_of_le_val (List.length_pos_iff.1 (by omega)) fun h1 => ?_, hv⟩
  rw [hl] at h1 ⊢
  rw [hv]
  rcases h with h | ⟨k, h2, h3⟩
  · have := enc_length_le (v := n) (L := 1) (by omega) (by simpa using h); omega
  · have h4 := enc_length_bits (c := n) (k := k) (by omega) h3
    rw [h4, Nat.add_sub_cancel]; omega

theorem shr_enc_ok {n s : Nat} (h : s < 32 ∨ (∃ k, 0 < k ∧ n < 2 ^ (32 * k) ∧ 32 * k ≤ s) ∨
      s % 32 ≠ 0 ∧ ∃ k, 2 ^ (32 * k + s % 32) ≤ n ∧ n < 2 ^ (32 * (k + 1))) : shrInner (enc n) s = enc (n / 2 ^ s) := by
  rcases h with h | ⟨k, h0, h1, h2⟩ | ⟨h0, k, h1, h2⟩
  · exact shrInner_enc_lt h
  · have hl := enc_length_le (v := n) (L := k) (by omega) h1
    rw [shrInner_all (by omega), Nat.div_eq_of_lt]
    exact lt_of_lt_of_le h1 (Nat.pow_le_pow_right (by norm_num) h2)
  · have hk : 2 ^ (32 * k) ≤ n := le_trans (Nat.pow_le_pow_right (by norm_num) (by omega)) h1
    have hl := enc_length_bits hk h2
    by_cases hs : k + 1 ≤ s / 32
    · rw [shrInner_all (by omega), Nat.div_eq_of_lt]
      exact lt_of_lt_of_le h2 (Nat.pow_le_pow_right (by norm_num) (by omega))
    · have := shrInner_carry (v := enc n) (s := s) (by omega) (by omega)
        (top_shift (enc_ne_nil n) _ (by rw [hl, val_enc, Nat.add_sub_cancel]; exact h1))
      rw [val_enc] at this
      exact enc_eq_iff.2 ⟨this.2, this.1⟩

/-- one statement: the same outcome on the heap and on the numbers -/
theorem nstep_sim {s : State} {t : NStore} (h : Shows s t) (c : Cmd) (hc : c.safe t) :
    match c.nstep t with
    | some t' => ∃ s', c.step s = .ok s' ∧ Shows s' t'
    | none => c.step s = .error .panic := by
  cases c with
  | clone x y => exact ⟨_, rfl, shows_alias h x y⟩
  | deepClone x y =>
    refine ⟨_, rfl, shows_fresh h x _ ?_⟩
    rw [State.value, h.value, deepClone_enc]
  | op o z x y =>
    have hb : s.env y < s.heap.next := by rw [h.env, h.count]; exact h.bound y
    have e := hOp_spec o s.heap (a := s.env x) hb
    rw [h.value, h.value] at e
    simp only [opNatR, isNan_enc, Bool.or_self, Bool.false_eq_true, if_false, deepClone_enc] at e
    simp only [Cmd.nstep]
    by_cases hz : (o = .div ∨ o = .rem) ∧ t.number y = 0
    · rw [if_pos hz]
      rw [hz.2, fn_zero o hz.1] at e
      simp only [Cmd.step, e, Except.map]
    · rw [if_neg hz]
      rw [fn_enc o _ _ (fun h1 h2 => hz ⟨h1, h2⟩)] at e
      simp only [Cmd.step, e, Except.map]
      exact ⟨_, rfl, shows_fresh h z _ rfl⟩
  | assign o x y =>
    simp only [Cmd.nstep]
    have key : (hz : ¬((o = .div ∨ o = .rem) ∧ t.number y = 0)) →
        hAssign o s.heap (s.env x) (s.env y) = .ok (s.heap.write (s.env x) (enc (o.spec (t.number x) (t.number y)))) := by
      intro hz
      by_cases ha : s.env y = s.env x
      · have hn : t.number y = t.number x := by rw [h.env] at ha; simp only [NStore.number, ha]
        by_cases hr : o = .rem
        · exact absurd (by rw [← h.env]; exact ha.symm) (hc hr)
        · by_cases hd : o = .div
          · subst hd
            have h0 : t.number x ≠ 0 := fun h => hz ⟨.inl rfl, by rw [hn, h]⟩
            rw [ha]
            unfold hAssign
            rw [h.value, isNan_enc]
            simp only [Bool.or_self, Bool.false_eq_true, if_false, NatOp.inner, hDivInner, h.value, ← enc_zero, eqv_enc, h0,
              decide_false, if_true]
            rw [hn, NatOp.spec, Nat.div_self (by omega), enc_one]
          · rw [hAssign_alias hd hr, h.value, h.value]
            simp only [assignNatR, isNan_enc, Bool.or_self, Bool.false_eq_true, if_false]
            rw [fn_enc o _ _ (fun h1 h2 => hz ⟨h1, h2⟩)]
            rfl
      · rw [hAssign_ne o _ ha, h.value, h.value]
        simp only [assignNatR, isNan_enc, Bool.or_self, Bool.false_eq_true, if_false]
        rw [fn_enc o _ _ (fun h1 h2 => hz ⟨h1, h2⟩)]
        rfl
    by_cases hz : (o = .div ∨ o = .rem) ∧ t.number y = 0
    · rw [if_pos hz]
      have e : hAssign o s.heap (s.env x) (s.env y) = .error .panic := by
        unfold hAssign
        rw [h.value, h.value, isNan_enc, isNan_enc]
        simp only [Bool.or_self, Bool.false_eq_true, if_false]
        rcases hz.1 with rfl | rfl
        · simp [NatOp.inner, hDivInner, h.value, hz.2, ← enc_zero]
        · simp [NatOp.inner, hRemInner, h.value, hz.2, ← enc_zero]
      simp only [Cmd.step, e]
    · rw [if_neg hz]
      simp only [Cmd.step, key hz]
      exact ⟨_, rfl, shows_update h x _ rfl⟩
  | andNotAssign x y =>
    refine ⟨_, rfl, ?_⟩
    rw [hAndNotAssign_spec, h.value, h.value]
    exact shows_update h x _ (andNotAssign_enc _ _)
  | addWord x w =>
    refine ⟨_, rfl, ?_⟩
    rw [assignPrim_enc' _ _ _ _ (h.value x)]
    exact shows_update h x _ (addInnerBasic_enc _ _)
  | subWord x w =>
    refine ⟨_, rfl, ?_⟩
    rw [assignPrim_enc' _ _ _ _ (h.value x)]
    exact shows_update h x _ (subWord_enc hc)
  | shl x n =>
    refine ⟨_, rfl, ?_⟩
    rw [assignPrim_enc' _ _ _ _ (h.value x)]
    refine shows_update h x _ ?_
    rcases hc with hc | hc
    · exact shlInner_enc hc n
    · exact shlInner_enc_lt hc
  | shr x n =>
    refine ⟨_, rfl, ?_⟩
    rw [assignPrim_enc' _ _ _ _ (h.value x)]
    exact shows_update h x _ (shr_enc_ok hc)
  | const x w => exact ⟨_, rfl, shows_fresh h x _ (singleton_eq_enc w)⟩

/-- A program over `Nat` variables, whatever they share, in which every statement is safe: it panics exactly if the program on
numbers divides by zero, and otherwise at its end every variable shows, in canonical form, the number that it shows in the
program on numbers, where variables share exactly if one is a clone of the other.  Missing from the full property: the statements
that are not safe, where the code is wrong (C05, C06, C12, C34). -/
theorem C100_programs_partial (cs : List Cmd) (s : State) (t : NStore) (h : Shows s t) (hc : Safe t cs) :
    match nRun t cs with
    | some t' => ∃ s', run s cs = .ok s' ∧ ∀ x, Canon (s'.value x) ∧ val (s'.value x) = t'.number x
    | none => run s cs = .error .panic := by
  induction cs generalizing s t with
  | nil => exact ⟨s, rfl, fun x => by rw [State.value, h.value, val_enc]; exact ⟨canon_enc _, rfl⟩⟩
  | cons c cs ih =>
    have h1 := nstep_sim h c hc.1
    have h2 := hc.2
    simp only [nRun, run]
    revert h1 h2
    cases c.nstep t with
    | none => intro h1 _; simp only [h1, Option.bind_none]
    | some t' =>
      rintro ⟨s', e, hs⟩ h2
      simp only [Option.bind_some, e]
      exact ih s' t' hs h2

/-- Comparisons at the end of such a program are those of the numbers: `==` and `partial_cmp`. -/
theorem C100_comparisons_partial (cs : List Cmd) (s s' : State) (t t' : NStore) (h : Shows s t) (hc : Safe t cs)
    (hn : nRun t cs = some t') (hr : run s cs = .ok s') (x y : Nat) :
    (eqv (s'.value x) (s'.value y) = true ↔ t'.number x = t'.number y) ∧
    partialCmp (s'.value x) (s'.value y) = some (compare (t'.number x) (t'.number y)) := by
  have := C100_programs_partial cs s t h hc
  rw [hn] at this
  obtain ⟨s'', e, hv⟩ := this
  rw [hr] at e
  cases e
  obtain ⟨m, hm⟩ := canon_iff_enc.1 (hv x).1
  obtain ⟨n, hk⟩ := canon_iff_enc.1 (hv y).1
  have h1 := (hv x).2
  have h2 := (hv y).2
  rw [hm, val_enc] at h1
  rw [hk, val_enc] at h2
  subst h1 h2
  rw [hm, hk]
  simp [eqv_enc, partialCmp, cmpInner_enc]

/-- every variable refers to the only cell, which holds zero -/
def zeroN : NStore := ⟨fun _ => 0, fun _ => 0, 1⟩

/-- the same on the heap -/
def zeroS : State := ⟨fun _ => 0, ⟨fun _ => [0#32], 1⟩⟩

theorem zero_shows : Shows zeroS zeroN := ⟨rfl, rfl, fun _ => Nat.zero_lt_one, fun _ _ => enc_zero.symm⟩

/-- `let a = 7; let b = a.clone(); a *= b; a <<= 40; let c = a / b; b -= c` and some more; `a` and `b` show the same throughout -/
def sampleNP : List Cmd :=
  [.const 0 7#32, .clone 1 0, .assign .mul 0 1, .shl 0 40, .const 2 3#32, .op .div 2 0 2, .assign .sub 1 2, .assign .div 0 1]

example : Shows zeroS zeroN ∧ Safe zeroN sampleNP ∧
    (nRun zeroN sampleNP).map (fun t => (t.number 0, t.number 1, t.number 2)) = some (1, 1, 49 * 2 ^ 40 / 3) := by
  refine ⟨zero_shows, ?_, by decide⟩
  exact And.intro trivial (And.intro trivial (And.intro (fun h => nomatch h) (And.intro (Or.inl (show 49 ≠ 0 by decide))
    (And.intro trivial (And.intro trivial (And.intro (fun h => nomatch h) (And.intro (fun h => nomatch h) trivial)))))))

end RMath
