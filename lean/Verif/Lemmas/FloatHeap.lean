import Verif.Model.FloatHeap
import Verif.Lemmas.Heap

/-! # Lemmas about `Float`s that share mantissas -/

namespace RMath

open Heap

/-- The outcome of an operation with receiver `x` on the heap `h` is that of the operation on values (`r`): the receiver
shows the result; no buffer but the receiver's has changed; the receiver is still in its buffer or has moved to a new one
and left the old one as it was. -/
def FUpd (h : Heap) (x : HFloat) (r : Res FloatV) (out : Res (Heap × HFloat)) : Prop :=
  match r, out with
  | .ok v, .ok (h', x') =>
    x'.view h' = v ∧ (x'.addr = x.addr ∨ (h.next ≤ x'.addr ∧ h'.buf x.addr = h.buf x.addr)) ∧ x'.addr < h'.next ∧
    h.next ≤ h'.next ∧ ∀ c, c < h.next → c ≠ x.addr → h'.buf c = h.buf c
  | .error e, .error e' => e = e'
  | _, _ => False

theorem fupd_ok {h : Heap} {x : HFloat} {v : FloatV} {out : Res (Heap × HFloat)} (hu : FUpd h x (.ok v) out) :
    ∃ h' x', out = .ok (h', x') ∧ x'.view h' = v ∧
      (x'.addr = x.addr ∨ (h.next ≤ x'.addr ∧ h'.buf x.addr = h.buf x.addr)) ∧ x'.addr < h'.next ∧
      h.next ≤ h'.next ∧ ∀ c, c < h.next → c ≠ x.addr → h'.buf c = h.buf c := by
  rcases out with e | ⟨h', x'⟩
  · exact hu.elim
  · exact ⟨h', x', rfl, hu⟩

@[simp] theorem view_of (h : Heap) (v : FloatV) (a : Nat) (ha : h.buf a = v.mant) : (HFloat.of v a).view h = v := by
  simp [HFloat.view, HFloat.of, ha]

theorem put_view (h : Heap) (x : HFloat) (v : FloatV) : (x.put h v).2.view (x.put h v).1 = v := by
  simp [HFloat.put, HFloat.view, HFloat.of]

/-- nothing on the heap changes -/
theorem fupd_same {h : Heap} {x x' : HFloat} {v : FloatV} (hx : x.addr < h.next) (ha : x'.addr = x.addr)
    (hv : x'.view h = v) : FUpd h x (.ok v) (.ok (h, x')) :=
  ⟨hv, Or.inl ha, by omega, Nat.le_refl _, fun _ _ _ => rfl⟩

/-- an operation on the receiver's buffer, after other steps that only allocated and changed that buffer -/
theorem fupd_self {h h1 : Heap} {x x1 : HFloat} (f : FloatV → Res FloatV) (ha : x1.addr = x.addr) (hx : x.addr < h.next)
    (hn : h.next ≤ h1.next) (hf : ∀ c, c < h.next → c ≠ x.addr → h1.buf c = h.buf c) {v : FloatV}
    (hv : x1.view h1 = v) : FUpd h x (f v) (hfSelf f h1 x1) := by
  unfold hfSelf
  rw [hv]
  cases f v with
  | error e => exact rfl
  | ok w =>
    refine ⟨put_view h1 x1 w, Or.inl ha, ?_, hn, fun c hc hne => ?_⟩
    · show x1.addr < h1.next
      omega
    · show (h1.write x1.addr w.mant).buf c = _
      rw [ha, write_buf_ne _ _ hne, hf c hc hne]

/-- the operands may be handed to an operation: different buffers, or the same one in a case in which that is harmless -/
def HFloat.Fine (x y : HFloat) : Prop := y.addr = x.addr → y.form = .finite → x.form = .finite ∧ x.exp ≤ y.exp

theorem hfAlign_spec (op : NatOp) (f : Words → Words → Words)
    (hop : ∀ h a b, hAssign op h a b = .ok (h.write a (assignNat f (h.buf a) (h.buf b)))) (h : Heap) (x y : HFloat)
    (hx : x.addr < h.next) (_hy : y.addr < h.next) (hf : y.addr = x.addr → x.exp ≤ y.exp) :
    ∃ h1, hfAlign op h x y = .ok (h1, (fAlign f (x.view h) (y.view h)).2) ∧
      h1.buf x.addr = (fAlign f (x.view h) (y.view h)).1 ∧ h.next ≤ h1.next ∧
      ∀ c, c < h.next → c ≠ x.addr → h1.buf c = h.buf c := by
  have hd : fAlign f (x.view h) (y.view h) =
      if x.exp - ((h.buf x.addr).length : Int) * 32 < y.exp - ((h.buf y.addr).length : Int) * 32 then
        (assignNat f (h.buf x.addr) (natShl (h.buf y.addr) (y.exp - ((h.buf y.addr).length : Int) * 32 -
          (x.exp - ((h.buf x.addr).length : Int) * 32)).toNat), x.exp - ((h.buf x.addr).length : Int) * 32)
      else if x.exp - ((h.buf x.addr).length : Int) * 32 > y.exp - ((h.buf y.addr).length : Int) * 32 then
        (assignNat f (assignPrim shlInner (h.buf x.addr) (x.exp - ((h.buf x.addr).length : Int) * 32 -
          (y.exp - ((h.buf y.addr).length : Int) * 32)).toNat) (h.buf y.addr), y.exp - ((h.buf y.addr).length : Int) * 32)
      else (assignNat f (h.buf x.addr) (h.buf y.addr), x.exp - ((h.buf x.addr).length : Int) * 32) := rfl
  rw [hd]
  unfold hfAlign
  simp only []
  by_cases h1 : x.exp - ((h.buf x.addr).length : Int) * 32 < y.exp - ((h.buf y.addr).length : Int) * 32
  · rw [if_pos h1, if_pos h1]
    simp only [hOpPrim_eq, hop, Except.map]
    refine ⟨_, rfl, ?_, ?_, fun c hc hne => ?_⟩
    · rw [write_buf, alloc_buf_ne _ _ (by omega)]
      rw [show (h.alloc (opPrim shlInner (h.buf y.addr) (y.exp - ((h.buf y.addr).length : Int) * 32 -
        (x.exp - ((h.buf x.addr).length : Int) * 32)).toNat)).2 = h.next from rfl, alloc_buf]
      rfl
    · exact Nat.le_succ _
    · rw [write_buf_ne _ _ hne, alloc_buf_ne _ _ (by omega)]
  · rw [if_neg h1, if_neg h1]
    by_cases h2 : x.exp - ((h.buf x.addr).length : Int) * 32 > y.exp - ((h.buf y.addr).length : Int) * 32
    · have hab : y.addr ≠ x.addr := by
        intro e
        have := hf e
        rw [e] at h2
        omega
      rw [if_pos h2, if_pos h2]
      simp only [hAssignPrim_eq, hop, Except.map, write_write]
      refine ⟨_, rfl, ?_, Nat.le_refl _, fun c _ hne => ?_⟩
      · rw [write_buf, write_buf, write_buf_ne _ _ hab]
      · rw [write_buf_ne _ _ hne]
    · rw [if_neg h2, if_neg h2]
      simp only [hop, Except.map]
      refine ⟨_, rfl, by rw [write_buf], Nat.le_refl _, fun c _ hne => ?_⟩
      rw [write_buf_ne _ _ hne]

theorem hfUadd_spec (h : Heap) (x y : HFloat) (hx : x.addr < h.next) (hy : y.addr < h.next)
    (hf : y.addr = x.addr → x.exp ≤ y.exp) : FUpd h x (fUadd (x.view h) (y.view h)) (hfUadd h x y) := by
  obtain ⟨h1, e1, e2, e3, e4⟩ := hfAlign_spec .add addInner hAssign_add h x y hx hy hf
  unfold hfUadd fUadd
  rw [e1]
  have := fupd_self (h := h) (h1 := h1) (x := x) (x1 := x) (fun v => do
    let s ← fnorm v.mant
    fSetExpAndRound { v with mant := s.1 } ((fAlign addInner (x.view h) (y.view h)).2 + (v.mant.length * 32 : Nat) - s.2) 0)
    rfl hx e3 e4 rfl
  simpa only [bind, Except.bind, hfFinish, HFloat.view, e2] using this

theorem hfUsub_spec (h : Heap) (x y : HFloat) (hx : x.addr < h.next) (hy : y.addr < h.next)
    (hf : y.addr = x.addr → x.exp ≤ y.exp) : FUpd h x (fUsub (x.view h) (y.view h)) (hfUsub h x y) := by
  obtain ⟨h1, e1, e2, e3, e4⟩ := hfAlign_spec .sub subInner hAssign_sub h x y hx hy hf
  unfold hfUsub fUsub
  rw [e1]
  simp only [bind, Except.bind, e2]
  by_cases h0 : eqv (fAlign subInner (x.view h) (y.view h)).1 [0#32] = true
  · rw [if_pos h0, if_pos h0]
    refine ⟨?_, Or.inl rfl, by show x.addr < h1.next; omega, e3, e4⟩
    simp only [HFloat.view, e2]
  · rw [if_neg h0, if_neg h0]
    have := fupd_self (h := h) (h1 := h1) (x := x) (x1 := x) (fun v => do
      let s ← fnorm v.mant
      fSetExpAndRound { v with mant := s.1 } ((fAlign subInner (x.view h) (y.view h)).2 + (v.mant.length * 32 : Nat) - s.2) 0)
      rfl hx e3 e4 rfl
    simpa only [bind, Except.bind, hfFinish, HFloat.view, e2] using this

theorem zeroSign_view (h : Heap) (z : HFloat) :
    (hfZeroSign z).view h =
      (if (z.view h).form = .zero ∧ (z.view h).mode = .toNegativeInf ∧ (z.view h).acc = .exact
        then { z.view h with neg := true } else z.view h) ∧ (hfZeroSign z).addr = z.addr := by
  unfold hfZeroSign
  by_cases c : z.form = .zero ∧ z.mode = .toNegativeInf ∧ z.acc = .exact
  · have c' : (z.view h).form = .zero ∧ (z.view h).mode = .toNegativeInf ∧ (z.view h).acc = .exact := c
    rw [if_pos c, if_pos c']
    exact ⟨rfl, rfl⟩
  · have c' : ¬((z.view h).form = .zero ∧ (z.view h).mode = .toNegativeInf ∧ (z.view h).acc = .exact) := c
    rw [if_neg c, if_neg c']
    exact ⟨rfl, rfl⟩

theorem ucmp_shared {x y : FloatV} (hm : x.mant = y.mant) (h : fUcmp x y > 0) : y.exp < x.exp := by
  unfold fUcmp at h
  split at h
  · omega
  split at h
  · omega
  exfalso
  rw [hm] at h
  have key : ∀ l : Words, ucmpLoop l l = 0 := by
    intro l
    induction l with
    | nil => simp [ucmpLoop]
    | cons a l ih => simp [ucmpLoop, ih]
  rw [key] at h
  omega

theorem hfAddFinite_spec (same : Bool) (h : Heap) (x y : HFloat) (hx : x.addr < h.next) (hy : y.addr < h.next)
    (hf : y.addr = x.addr → x.exp ≤ y.exp) :
    FUpd h x (fAddFinite same (x.view h) (y.view h)) (hfAddFinite same h x y) := by
  have fin : ∀ {r : Res FloatV} {out : Res (Heap × HFloat)}, FUpd h x r out →
      FUpd h x (r.bind fun z => .ok (if z.form = .zero ∧ z.mode = .toNegativeInf ∧ z.acc = .exact then { z with neg := true } else z))
        (out.bind fun z => .ok (z.1, hfZeroSign z.2)) := by
    intro r out hu
    rcases r with e | v <;> rcases out with e' | ⟨h', x'⟩
    · exact hu
    · exact hu.elim
    · exact hu.elim
    · obtain ⟨u1, u2, u3, u4, u5⟩ := hu
      obtain ⟨z1, z2⟩ := zeroSign_view h' x'
      refine ⟨?_, ?_, ?_, u4, u5⟩
      · show (hfZeroSign x').view h' = _
        rw [z1, u1]
      · show (hfZeroSign x').addr = _ ∨ (h.next ≤ (hfZeroSign x').addr ∧ _)
        rw [z2]; exact u2
      · show (hfZeroSign x').addr < _
        rw [z2]; exact u3
  unfold fAddFinite hfAddFinite
  simp only [bind]
  by_cases hs : same = true
  · rw [if_pos hs, if_pos hs]
    exact fin (hfUadd_spec h x y hx hy hf)
  rw [if_neg hs, if_neg hs]
  by_cases hc : fUcmp (x.view h) (y.view h) > 0
  · rw [if_pos hc, if_pos hc]
    exact fin (hfUsub_spec h x y hx hy hf)
  rw [if_neg hc, if_neg hc]
  refine fin ?_
  -- the result is built in a copy of `y`
  set t := hfDeepClone h y with ht
  have t1 : t.1 = (h.alloc (deepClone (h.buf y.addr))).1 := rfl
  have t2 : t.2.addr = h.next := rfl
  have tn : t.1.next = h.next + 1 := rfl
  have tv : HFloat.view t.1 { t.2 with neg := !x.neg } = { fDeepClone (y.view h) with neg := !(x.view h).neg } := by
    simp only [HFloat.view, t2, t1, alloc_buf]
    rfl
  have tx : x.view t.1 = x.view h := by
    simp only [HFloat.view, t1]
    rw [alloc_buf_ne _ _ (by omega)]
  have := hfUsub_spec t.1 { t.2 with neg := !x.neg } x (by show t.2.addr < _; omega) (by omega)
    (by intro e; exact absurd e (by show x.addr ≠ t.2.addr; omega))
  rw [tv, tx] at this
  revert this
  generalize fUsub _ (x.view h) = r
  generalize hfUsub _ _ _ = out
  rcases r with e | v <;> rcases out with e' | ⟨h', x'⟩
  · exact fun h => h
  · exact fun h => h
  · exact fun h => h
  · rintro ⟨u1, u2, u3, u4, u5⟩
    have u2' : h.next ≤ x'.addr := by
      rcases u2 with u | ⟨u, _⟩
      · rw [u]; show h.next ≤ t.2.addr; omega
      · omega
    have hb : ∀ c, c < h.next → h'.buf c = h.buf c := by
      intro c hc
      rw [u5 c (by omega) (by show c ≠ t.2.addr; omega), t1, alloc_buf_ne _ _ (by omega)]
    exact ⟨u1, Or.inr ⟨u2', hb _ hx⟩, u3, by omega, fun c hc _ => hb c hc⟩

theorem hCopy_spec {h : Heap} {a b : Nat} (hab : b ≠ a) : hCopy h a b = h.write a (h.buf b) := by
  simp only [hCopy, write_buf, write_write, List.nil_append, write_buf_ne _ _ hab]

theorem hfSetFloat_spec (h : Heap) (z x : HFloat) (hz : z.addr < h.next) (hf : x.addr = z.addr → x.form ≠ .finite) :
    FUpd h z (fSetFloat (z.view h) (x.view h)) (hfSetFloat h z x) := by
  unfold fSetFloat hfSetFloat
  by_cases hfin : x.form = .finite
  · have hne : x.addr ≠ z.addr := fun e => hf e hfin
    have hfv : (x.view h).form = .finite := hfin
    simp only [hfin, hfv, decide_true, if_true]
    by_cases h0 : z.prec = 0
    · have h0v : (z.view h).prec = 0 := h0
      simp only [h0, h0v, if_true, hCopy_spec hne]
      refine ⟨?_, Or.inl rfl, hz, Nat.le_refl _, fun c _ hc => write_buf_ne _ _ hc⟩
      simp [HFloat.view]
    · have h0v : ¬(z.view h).prec = 0 := h0
      simp only [h0, h0v, if_false]
      by_cases hp : z.prec < x.prec
      · have hpv : (z.view h).prec < (x.view h).prec := hp
        rw [if_pos hp, if_pos hpv]
        refine fupd_self (x1 := { z with acc := .exact, form := .finite, neg := x.neg, exp := x.exp }) (fun v => fRound v 0)
          rfl hz ?_ ?_ ?_
        · rw [hCopy_spec hne]; exact Nat.le_refl _
        · intro c _ hc; rw [hCopy_spec hne, write_buf_ne _ _ hc]
        · rw [hCopy_spec hne]; simp [HFloat.view]
      · have hpv : ¬(z.view h).prec < (x.view h).prec := hp
        rw [if_neg hp, if_neg hpv, hCopy_spec hne]
        refine ⟨?_, Or.inl rfl, hz, Nat.le_refl _, fun c _ hc => write_buf_ne _ _ hc⟩
        simp [HFloat.view]
  · have hfv : ¬(x.view h).form = .finite := hfin
    simp only [hfin, hfv, decide_false, Bool.false_eq_true, if_false]
    by_cases h0 : z.prec = 0
    · have h0v : (z.view h).prec = 0 := h0
      simp only [h0, h0v, if_true]
      exact fupd_same hz rfl rfl
    · have h0v : ¬(z.view h).prec = 0 := h0
      simp only [h0, h0v, if_false]
      by_cases hp : z.prec < x.prec
      · have hpv : (z.view h).prec < (x.view h).prec := hp
        rw [if_pos hp, if_pos hpv]
        exact fupd_self (x1 := { z with acc := .exact, form := x.form, neg := x.neg }) (fun v => fRound v 0) rfl hz
          (Nat.le_refl _) (fun _ _ _ => rfl) rfl
      · have hpv : ¬(z.view h).prec < (x.view h).prec := hp
        rw [if_neg hp, if_neg hpv]
        exact fupd_same hz rfl rfl

theorem hfUmul_spec (h : Heap) (x y : HFloat) (hx : x.addr < h.next) :
    FUpd h x (fUmul (x.view h) (y.view h)) (hfUmul h x y) := by
  unfold hfUmul fUmul
  simp only [hAssign_mul, bind, Except.bind]
  have := fupd_self (h := h) (h1 := h.write x.addr (assignNat mulInner (h.buf x.addr) (h.buf y.addr))) (x := x) (x1 := x)
    (fun v => do
      let s ← fnorm v.mant
      fSetExpAndRound { v with mant := s.1 } (x.exp + y.exp - s.2) 0)
    rfl hx (Nat.le_refl _) (fun c _ hc => write_buf_ne _ _ hc) rfl
  simpa only [bind, Except.bind, HFloat.view, write_buf] using this

theorem hfUquo_spec (h : Heap) (x y : HFloat) (hx : x.addr < h.next) (hy : y.addr < h.next) :
    FUpd h x (fUquo (x.view h) (y.view h)) (hfUquo h x y) := by
  set d : Int := ((x.prec / 32 : Nat) : Int) + 1 - (h.buf x.addr).length + (h.buf y.addr).length with hd
  set r : Heap × Nat :=
    if d > 0 then h.alloc (resize (deepClone (h.buf x.addr)) (((h.buf x.addr).length : Int) + d).toNat) else (h, x.addr)
    with hr
  set xadj : Words := if d > 0 then resize (deepClone (h.buf x.addr)) (((h.buf x.addr).length : Int) + d).toNat
    else h.buf x.addr with hxadj
  have hs : fUquo (x.view h) (y.view h) = (do
      let quo ← natDiv xadj (h.buf y.addr)
      let rem ← natRem xadj (h.buf y.addr)
      let s ← fnorm quo
      fSetExpAndRound { x.view h with mant := s.1 }
        (x.exp - y.exp - ((xadj.length : Int) - (h.buf y.addr).length - quo.length) * 32 - s.2)
        (if isNan rem || eqv rem [0#32] then 0 else 1)) := rfl
  have hs' : hfUquo h x y = (do
      let quo ← hOp .div r.1 r.2 y.addr
      let rem ← hOp .rem quo.1 r.2 y.addr
      hfSelf (fun v => do
        let s ← fnorm v.mant
        fSetExpAndRound { v with mant := s.1 }
          (x.exp - y.exp - (((r.1.buf r.2).length : Int) - (r.1.buf y.addr).length -
            ((hCopy rem.1 x.addr quo.2).buf x.addr).length) * 32 - s.2)
          (if isNan ((hCopy rem.1 x.addr quo.2).buf rem.2) || eqv ((hCopy rem.1 x.addr quo.2).buf rem.2) [0#32] then 0 else 1))
        (hCopy rem.1 x.addr quo.2) x) := rfl
  rw [hs, hs']
  clear_value d
  have r1 : r.1.buf r.2 = xadj := by
    rw [hr, hxadj]
    split
    · exact alloc_buf _ _
    · rfl
  have r2 : h.next ≤ r.1.next ∧ ∀ c, c < h.next → r.1.buf c = h.buf c := by
    rw [hr]
    split
    · exact ⟨Nat.le_succ _, fun c hc => alloc_buf_ne _ _ (by omega)⟩
    · exact ⟨Nat.le_refl _, fun _ _ => rfl⟩
  have r3 : r.2 < r.1.next := by
    rw [hr]
    split
    · exact Nat.lt_succ_self _
    · exact hx
  rw [r1, r2.2 _ hy, hOp_spec .div r.1 (by omega), r1, r2.2 _ hy]
  have e1 : natDiv xadj (h.buf y.addr) = opNatR NatOp.div.fn xadj (h.buf y.addr) := rfl
  have e2 : natRem xadj (h.buf y.addr) = opNatR NatOp.rem.fn xadj (h.buf y.addr) := rfl
  rw [e1, e2]
  simp only [bind, Except.bind]
  rcases hq : opNatR NatOp.div.fn xadj (h.buf y.addr) with e | quo
  · exact rfl
  simp only [Except.map]
  set h2 := (r.1.alloc quo).1 with hh2
  have a1 : (r.1.alloc quo).2 = r.1.next := rfl
  have a2 : h2.next = r.1.next + 1 := rfl
  have a3 : ∀ c, c < r.1.next → h2.buf c = r.1.buf c := fun c hc => alloc_buf_ne _ _ (by omega)
  rw [hOp_spec .rem h2 (by omega), a3 _ r3, r1, a3 y.addr (by omega), r2.2 _ hy]
  rcases hm : opNatR NatOp.rem.fn xadj (h.buf y.addr) with e | rem
  · exact rfl
  simp only [Except.map]
  set h3 := (h2.alloc rem).1 with hh3
  have b1 : (h2.alloc rem).2 = h2.next := rfl
  have b2 : h3.next = h2.next + 1 := rfl
  have b3 : ∀ c, c < h2.next → h3.buf c = h2.buf c := fun c hc => alloc_buf_ne _ _ (by omega)
  have b4 : h3.buf h2.next = rem := alloc_buf _ _
  have b5 : h3.buf r.1.next = quo := by rw [b3 _ (by omega)]; exact alloc_buf _ _
  rw [a1, b1, hCopy_spec (show r.1.next ≠ x.addr by omega), b5, write_buf, write_buf_ne _ _ (show h2.next ≠ x.addr by omega), b4]
  have := fupd_self (h := h) (h1 := h3.write x.addr quo) (x := x) (x1 := x)
    (fun v => do
      let s ← fnorm v.mant
      fSetExpAndRound { v with mant := s.1 } (x.exp - y.exp - ((xadj.length : Int) - (h.buf y.addr).length - quo.length) * 32 - s.2)
        (if isNan rem || eqv rem [0#32] then 0 else 1))
    rfl hx (by show h.next ≤ h3.next; omega)
    (fun c hc hne => by rw [write_buf_ne _ _ hne, b3 _ (by omega), a3 _ (by omega), r2.2 _ hc]) rfl
  simpa only [bind, Except.bind, HFloat.view, write_buf] using this

theorem fine_exp {x y : HFloat} (hf : x.Fine y) (h2 : y.form = .finite) : y.addr = x.addr → x.exp ≤ y.exp :=
  fun e => (hf e h2).2

theorem hfAddInner_spec (h : Heap) (x y : HFloat) (hx : x.addr < h.next) (hy : y.addr < h.next) (hf : x.Fine y) :
    FUpd h x (fAddInner (x.view h) (y.view h)) (hfAddInner h x y) := by
  unfold fAddInner hfAddInner
  have hv : (if (x.view h).prec = 0 then { x.view h with prec := (y.view h).prec } else x.view h) =
      (if x.prec = 0 then { x with prec := y.prec } else x).view h := by
    by_cases h0 : x.prec = 0 <;> simp [HFloat.view, h0]
  rw [hv]
  set x1 : HFloat := if x.prec = 0 then { x with prec := y.prec } else x with hx1
  have ha : x1.addr = x.addr := by rw [hx1]; split <;> rfl
  have hform : x1.form = x.form := by rw [hx1]; split <;> rfl
  have hexp : x1.exp = x.exp := by rw [hx1]; split <;> rfl
  have lift : ∀ {r out}, FUpd h x1 r out → FUpd h x r out := by
    intro r out hu
    simpa only [FUpd, ha] using hu
  simp only []
  have f1 : (x1.view h).form = x1.form := rfl
  have f2 : (y.view h).form = y.form := rfl
  have f3 : (x1.view h).neg = x1.neg := rfl
  have f4 : (y.view h).neg = y.neg := rfl
  rw [f1, f2, f3, f4]
  by_cases c1 : x1.form = .finite ∧ y.form = .finite
  · rw [if_pos c1, if_pos c1]
    exact lift (hfAddFinite_spec _ h x1 y (by omega) hy (by rw [ha, hexp]; exact fine_exp hf c1.2))
  rw [if_neg c1, if_neg c1]
  by_cases c2 : x1.form = .inf ∧ y.form = .inf ∧ x1.neg ≠ y.neg
  · rw [if_pos c2, if_pos c2]
    exact lift (fupd_same (by omega) rfl rfl)
  rw [if_neg c2, if_neg c2]
  by_cases c3 : x1.form = .inf ∨ y.form = .zero
  · rw [if_pos c3, if_pos c3]
    exact lift (fupd_same (by omega) rfl rfl)
  rw [if_neg c3, if_neg c3]
  refine lift (hfSetFloat_spec h x1 y (by omega) fun e hy' => ?_)
  rw [ha] at e
  exact c1 ⟨hform ▸ (hf e hy').1, hy'⟩

theorem hfSubInner_spec (h : Heap) (x y : HFloat) (hx : x.addr < h.next) (hy : y.addr < h.next) (hf : x.Fine y) :
    FUpd h x (fSubInner (x.view h) (y.view h)) (hfSubInner h x y) := by
  unfold fSubInner hfSubInner
  have hv : (if (x.view h).prec = 0 then { x.view h with prec := (y.view h).prec } else x.view h) =
      (if x.prec = 0 then { x with prec := y.prec } else x).view h := by
    by_cases h0 : x.prec = 0 <;> simp [HFloat.view, h0]
  rw [hv]
  set x1 : HFloat := if x.prec = 0 then { x with prec := y.prec } else x with hx1
  have ha : x1.addr = x.addr := by rw [hx1]; split <;> rfl
  have hform : x1.form = x.form := by rw [hx1]; split <;> rfl
  have hexp : x1.exp = x.exp := by rw [hx1]; split <;> rfl
  have lift : ∀ {r out}, FUpd h x1 r out → FUpd h x r out := by
    intro r out hu
    simpa only [FUpd, ha] using hu
  simp only []
  have f1 : (x1.view h).form = x1.form := rfl
  have f2 : (y.view h).form = y.form := rfl
  have f3 : (x1.view h).neg = x1.neg := rfl
  have f4 : (y.view h).neg = y.neg := rfl
  rw [f1, f2, f3, f4]
  by_cases c1 : x1.form = .finite ∧ y.form = .finite
  · rw [if_pos c1, if_pos c1]
    exact lift (hfAddFinite_spec _ h x1 y (by omega) hy (by rw [ha, hexp]; exact fine_exp hf c1.2))
  rw [if_neg c1, if_neg c1]
  by_cases c2 : x1.form = .inf ∧ y.form = .inf ∧ x1.neg = y.neg
  · rw [if_pos c2, if_pos c2]
    exact lift (fupd_same (by omega) rfl rfl)
  rw [if_neg c2, if_neg c2]
  by_cases c3 : x1.form = .zero ∧ y.form = .zero
  · rw [if_pos c3, if_pos c3]
    exact lift (fupd_same (by omega) rfl rfl)
  rw [if_neg c3, if_neg c3]
  by_cases c4 : x1.form = .inf ∨ y.form = .zero
  · rw [if_pos c4, if_pos c4]
    exact lift (fupd_same (by omega) rfl rfl)
  rw [if_neg c4, if_neg c4]
  refine lift (hfSetFloat_spec h x1 y (by omega) fun e hy' => ?_)
  rw [ha] at e
  exact c1 ⟨hform ▸ (hf e hy').1, hy'⟩

theorem hfMulInner_spec (h : Heap) (x y : HFloat) (hx : x.addr < h.next) :
    FUpd h x (fMulInner (x.view h) (y.view h)) (hfMulInner h x y) := by
  unfold fMulInner hfMulInner
  have hv : (if (x.view h).prec = 0 then { x.view h with prec := (y.view h).prec } else x.view h) =
      (if x.prec = 0 then { x with prec := y.prec } else x).view h := by
    by_cases h0 : x.prec = 0 <;> simp [HFloat.view, h0]
  rw [hv]
  set x1 : HFloat := if x.prec = 0 then { x with prec := y.prec } else x with hx1
  have ha : x1.addr = x.addr := by rw [hx1]; split <;> rfl
  have lift : ∀ {r out}, FUpd h { x1 with neg := x1.neg != y.neg } r out → FUpd h x r out := by
    intro r out hu
    simpa only [FUpd, ha] using hu
  have f1 : (x1.view h).form = x1.form := rfl
  have f2 : (y.view h).form = y.form := rfl
  simp only [f1, f2]
  by_cases c1 : x1.form = .finite ∧ y.form = .finite
  · rw [if_pos c1, if_pos c1]
    exact lift (hfUmul_spec h _ y (by show x1.addr < _; omega))
  rw [if_neg c1, if_neg c1]
  by_cases c2 : (x1.form = .zero ∧ y.form = .inf) ∨ (x1.form = .inf ∧ y.form = .zero)
  · rw [if_pos c2, if_pos c2]
    exact lift (fupd_same (by show x1.addr < _; omega) rfl rfl)
  rw [if_neg c2, if_neg c2]
  by_cases c3 : x1.form = .inf ∨ y.form = .inf
  · rw [if_pos c3, if_pos c3]
    exact lift (fupd_same (by show x1.addr < _; omega) rfl rfl)
  rw [if_neg c3, if_neg c3]
  exact lift (fupd_same (by show x1.addr < _; omega) rfl rfl)

theorem hfDivInner_spec (h : Heap) (x y : HFloat) (hx : x.addr < h.next) (hy : y.addr < h.next) :
    FUpd h x (fDivInner (x.view h) (y.view h)) (hfDivInner h x y) := by
  unfold fDivInner hfDivInner
  have hv : (if (x.view h).prec = 0 then { x.view h with prec := (y.view h).prec } else x.view h) =
      (if x.prec = 0 then { x with prec := y.prec } else x).view h := by
    by_cases h0 : x.prec = 0 <;> simp [HFloat.view, h0]
  rw [hv]
  set x1 : HFloat := if x.prec = 0 then { x with prec := y.prec } else x with hx1
  have ha : x1.addr = x.addr := by rw [hx1]; split <;> rfl
  have lift : ∀ {r out}, FUpd h { x1 with neg := x1.neg != y.neg } r out → FUpd h x r out := by
    intro r out hu
    simpa only [FUpd, ha] using hu
  have f1 : (x1.view h).form = x1.form := rfl
  have f2 : (y.view h).form = y.form := rfl
  simp only [f1, f2]
  by_cases c1 : x1.form = .finite ∧ y.form = .finite
  · rw [if_pos c1, if_pos c1]
    exact lift (hfUquo_spec h _ y (by show x1.addr < _; omega) hy)
  rw [if_neg c1, if_neg c1]
  by_cases c2 : (x1.form = .zero ∧ y.form = .zero) ∨ (x1.form = .inf ∧ x1.form = .inf)
  · rw [if_pos c2, if_pos c2]
    exact lift (fupd_same (by show x1.addr < _; omega) rfl rfl)
  rw [if_neg c2, if_neg c2]
  by_cases c3 : x1.form = .zero ∨ y.form = .inf
  · rw [if_pos c3, if_pos c3]
    exact lift (fupd_same (by show x1.addr < _; omega) rfl rfl)
  rw [if_neg c3, if_neg c3]
  exact lift (fupd_same (by show x1.addr < _; omega) rfl rfl)

theorem inner_spec (op : FOp) (h : Heap) (x y : HFloat) (hx : x.addr < h.next) (hy : y.addr < h.next)
    (hf : op = .add ∨ op = .sub → x.Fine y) : FUpd h x (op.fn (x.view h) (y.view h)) (op.inner h x y) := by
  cases op with
  | add => exact hfAddInner_spec h x y hx hy (hf (Or.inl rfl))
  | sub => exact hfSubInner_spec h x y hx hy (hf (Or.inr rfl))
  | mul => exact hfMulInner_spec h x y hx
  | div => exact hfDivInner_spec h x y hx hy

theorem hfAssign_spec (op : FOp) (h : Heap) (x y : HFloat) (hx : x.addr < h.next) (hy : y.addr < h.next)
    (hf : op = .add ∨ op = .sub → x.Fine y) :
    FUpd h x (fOpAssign op.fn (x.view h) (y.view h)) (hfAssign op h x y) := by
  unfold fOpAssign hfAssign
  have f1 : (x.view h).form = x.form := rfl
  have f2 : (y.view h).form = y.form := rfl
  rw [f1, f2]
  by_cases c : x.form = .nan ∨ y.form = .nan
  · rw [if_pos c, if_pos c]
    exact fupd_same hx rfl rfl
  · rw [if_neg c, if_neg c]
    exact inner_spec op h x y hx hy hf

/-- The outcome of an operation that makes a new object: no buffer changes, the result shows the value and has a buffer of
its own. -/
def FNew (h : Heap) (r : Res FloatV) (out : Res (Heap × HFloat)) : Prop :=
  match r, out with
  | .ok v, .ok (h', x') =>
    x'.view h' = v ∧ h.next ≤ x'.addr ∧ x'.addr < h'.next ∧ ∀ c, c < h.next → h'.buf c = h.buf c
  | .error e, .error e' => e = e'
  | _, _ => False

theorem fnew_new (h : Heap) (v : FloatV) : FNew h (.ok v) (.ok (hfNew h v)) :=
  ⟨view_of _ _ _ (alloc_buf _ _), Nat.le_refl _, Nat.lt_succ_self _, fun c hc => alloc_buf_ne _ _ (by omega)⟩

theorem hfOp_spec (op : FOp) (h : Heap) (x y : HFloat) (hy : y.addr < h.next) :
    FNew h (fOp op.fn (x.view h) (y.view h)) (hfOp op h x y) := by
  unfold fOp hfOp
  have f1 : (x.view h).form = x.form := rfl
  have f2 : (y.view h).form = y.form := rfl
  rw [f1, f2]
  by_cases c : x.form = .nan ∨ y.form = .nan
  · rw [if_pos c, if_pos c]
    exact fnew_new h fNan
  rw [if_neg c, if_neg c]
  have hn : FNew h (.ok (fDeepClone (x.view h))) (.ok (hfDeepClone h x)) := fnew_new h _
  have t2 : (hfDeepClone h x).2.addr = h.next := rfl
  have tn : (hfDeepClone h x).1.next = h.next + 1 := rfl
  simp only []
  generalize hfDeepClone h x = t at hn t2 tn ⊢
  obtain ⟨n1, n2, n3, n4⟩ : t.2.view t.1 = fDeepClone (x.view h) ∧ h.next ≤ t.2.addr ∧ t.2.addr < t.1.next ∧
    ∀ c, c < h.next → t.1.buf c = h.buf c := hn
  have hyv : y.view t.1 = y.view h := by simp only [HFloat.view]; rw [n4 _ hy]
  have := inner_spec op t.1 t.2 y n3 (by omega) (fun _ e => absurd e (by omega))
  rw [n1, hyv] at this
  revert this
  show FUpd _ _ _ _ → FNew _ _ (op.inner t.1 t.2 y)
  generalize op.fn _ _ = r
  generalize op.inner _ _ _ = out
  rcases r with e | v <;> rcases out with e' | ⟨h', x'⟩
  · exact fun h => h
  · exact fun h => h
  · exact fun h => h
  · rintro ⟨u1, u2, u3, u4, u5⟩
    refine ⟨u1, ?_, u3, fun c hc => ?_⟩
    · rcases u2 with u | ⟨u, _⟩ <;> omega
    · rw [u5 c (by omega) (by omega), n4 c hc]

theorem hfSetMantExp_spec (h : Heap) (z m : HFloat) (e : Int) (hz : z.addr < h.next) (hne : m.addr ≠ z.addr) :
    FUpd h z (fSetMantExp (m.view h) e) (hfSetMantExp h z m e) := by
  unfold fSetMantExp hfSetMantExp
  simp only [hCopy_spec hne]
  have f1 : (m.view h).form = m.form := rfl
  rw [f1]
  by_cases hf : m.form = .finite
  · rw [if_pos hf, if_pos hf]
    refine fupd_self (h1 := h.write z.addr (h.buf m.addr))
      (x1 := ⟨m.mode, m.acc, m.form, m.neg, m.prec, m.exp, z.addr⟩)
      (fun v => fSetExpAndRound v (isizeSatAdd m.exp e) 0) rfl hz (Nat.le_refl _)
      (fun c _ hc => write_buf_ne _ _ hc) ?_
    simp [HFloat.view]
  · rw [if_neg hf, if_neg hf]
    refine ⟨?_, Or.inl rfl, hz, Nat.le_refl _, fun c _ hc => write_buf_ne _ _ hc⟩
    simp [HFloat.view]

theorem hfSetPrecision_spec (h : Heap) (x : HFloat) (p : Nat) (hx : x.addr < h.next) :
    FUpd h x (fSetPrecision (x.view h) p) (hfSetPrecision h x p) :=
  fupd_self (fun v => fSetPrecision v p) rfl hx (Nat.le_refl _) (fun _ _ _ => rfl) rfl

theorem hfSetMode_spec (h : Heap) (x : HFloat) (m : RoundingMode) (hx : x.addr < h.next) :
    FUpd h x (.ok (fSetMode (x.view h) m)) (hfSetMode h x m) := fupd_same hx rfl rfl

end RMath
