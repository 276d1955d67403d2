import Verif.Model.FunHeap
import Verif.Lemmas.IntHeap

/-!
# Lemmas on functions that make a number from others, on shared buffers
-/

namespace RMath

open Heap

/-- two computations end in the same way, and the results are related -/
def RRel {α β : Type} (P : α → β → Prop) (r : Res α) (o : Res β) : Prop :=
  match r, o with
  | .ok a, .ok b => P a b
  | .error e, .error e' => e = e'
  | _, _ => False

theorem RRel.bind {α β γ δ : Type} {P : α → β → Prop} {Q : γ → δ → Prop} {r : Res α} {o : Res β} (h : RRel P r o)
    {f : α → Res γ} {g : β → Res δ} (k : ∀ a b, P a b → RRel Q (f a) (g b)) : RRel Q (r >>= f) (o >>= g) := by
  cases r <;> cases o <;> simp only [RRel] at h
  · subst h; rfl
  · exact k _ _ h

theorem RRel.mono {α β : Type} {P Q : α → β → Prop} {r : Res α} {o : Res β} (h : RRel P r o)
    (k : ∀ a b, P a b → Q a b) : RRel Q r o := by
  cases r <;> cases o <;> simp only [RRel] at h ⊢
  · exact h
  · exact k _ _ h

theorem RRel.ok_left {α β : Type} {P : α → β → Prop} {a : α} {o : Res β} (h : RRel P (.ok a) o) :
    ∃ b, o = .ok b ∧ P a b := by
  cases o <;> simp only [RRel] at h
  exact ⟨_, rfl, h⟩

theorem RRel.err_left {α β : Type} {P : α → β → Prop} {e : Err} {o : Res β} (h : RRel P (.error e) o) :
    o = .error e := by
  cases o <;> simp only [RRel] at h
  subst h; rfl

/-- the buffers below `n` except `a` are the same, nothing is freed -/
def Keep (n : Nat) (S : Nat → Prop) (h h' : Heap) : Prop := h.next ≤ h'.next ∧ ∀ c, c < n → ¬S c → h'.buf c = h.buf c

theorem New.rel {h : Heap} {r : Res BInt} {out : Res (Heap × HInt)} (hn : New h r out) :
    RRel (fun v z => Ext h z.1 ∧ z.2.value z.1 = v ∧ h.next ≤ z.2.addr ∧ z.2.addr < z.1.next) r out := by
  cases r <;> cases out <;> exact hn

theorem Upd.rel {h : Heap} {a : Nat} {r : Res BInt} {out : Res (Heap × HInt)} (hn : Upd h a r out) :
    RRel (fun v z => z.2.addr = a ∧ z.2.value z.1 = v ∧ h.next ≤ z.1.next ∧ ∀ c, c < h.next → c ≠ a → z.1.buf c = h.buf c)
      r out := by
  cases r <;> cases out <;> exact hn

/-! ## `pow`, `pow_mod`, `sqrt` -/

theorem hPowLoop_spec {a p b : Nat} (hap : p ≠ a) (hab : b ≠ a) (hbp : b ≠ p) (n : Nat) : ∀ (i : Nat) (h : Heap),
    RRel (fun v h' => h'.buf a = v ∧ h'.next = h.next ∧ ∀ c, c ≠ a → c ≠ p → h'.buf c = h.buf c)
      (powLoop (h.buf b) n i (h.buf p) (h.buf a)) (hPowLoop a p b n i h) := by
  induction n with
  | zero => intro i h; exact ⟨rfl, rfl, fun _ _ _ => rfl⟩
  | succ n ih =>
    intro i h
    unfold powLoop hPowLoop
    simp only [hMulInner_spec]
    rw [write_buf_ne _ _ hbp]
    cases isSetBit_ (h.buf b) i with
    | error e => exact rfl
    | ok s =>
      cases s
      · have := ih (i + 1) (h.write p (mulInner (h.buf p) (h.buf p)))
        rw [write_buf_ne _ _ hbp, write_buf, write_buf_ne _ _ hap.symm] at this
        exact this.mono fun v h' ⟨e1, e2, e3⟩ => ⟨e1, e2, fun c h1 h2 => by rw [e3 c h1 h2, write_buf_ne _ _ h2]⟩
      · have := ih (i + 1) ((h.write p (mulInner (h.buf p) (h.buf p))).write a
          (mulInner ((h.write p (mulInner (h.buf p) (h.buf p))).buf a) ((h.write p (mulInner (h.buf p) (h.buf p))).buf p)))
        simp only [write_buf, write_buf_ne _ _ hab, write_buf_ne _ _ hbp, write_buf_ne _ _ hap,
          write_buf_ne _ _ hap.symm] at this ⊢
        exact this.mono fun v h' ⟨e1, e2, e3⟩ => ⟨e1, e2, fun c h1 h2 => by
          rw [e3 c h1 h2, write_buf_ne _ _ h1, write_buf_ne _ _ h2]⟩

/-- `out` is the heap after a call that stored `r` in the buffer `a` and touched no other buffer of `h` -/
def UpdN (h : Heap) (a : Nat) : Words → Heap → Prop := fun v h' =>
  h'.buf a = v ∧ h.next ≤ h'.next ∧ ∀ c, c < h.next → c ≠ a → h'.buf c = h.buf c

theorem updN_write (h : Heap) (a : Nat) (v : Words) : UpdN h a v (h.write a v) :=
  ⟨write_buf _ _ _, Nat.le_refl _, fun _ _ h2 => write_buf_ne _ _ h2⟩

/-- a copy is made of an operand in the same buffer -/
theorem copy_ne (h : Heap) (a b : Nat) (ha : a < h.next) (hb : b < h.next)
    (hab : b = a → deepClone (h.buf b) = h.buf b) :
    let c : Heap × Nat := if b = a then h.alloc (deepClone (h.buf b)) else (h, b)
    Ext h c.1 ∧ c.2 ≠ a ∧ c.2 < c.1.next ∧ c.1.buf c.2 = h.buf b := by
  simp only
  split
  · rename_i e
    exact ⟨ext_alloc _ _, by rw [alloc_snd]; omega, by rw [alloc_snd, alloc_next']; omega, by
      rw [alloc_snd, alloc_buf, hab e]⟩
  · exact ⟨Ext.refl _, by assumption, hb, rfl⟩

/-- `pow_inner`, also when the exponent is the same buffer as the base -/
theorem hPowInner_spec (h : Heap) (a b : Nat) (ha : a < h.next) (hb : b < h.next)
    (hab : b = a → deepClone (h.buf b) = h.buf b) :
    RRel (UpdN h a) (powInner (h.buf a) (h.buf b)) (hPowInner h a b) := by
  unfold powInner hPowInner
  split
  · split <;> exact updN_write _ _ _
  split
  · exact updN_write _ _ _
  set c : Heap × Nat := if b = a then h.alloc (deepClone (h.buf b)) else (h, b) with hc
  obtain ⟨e1, e2, e3, e4⟩ := copy_ne h a b ha hb hab
  rw [← hc] at e1 e2 e3 e4
  have en := e1.1
  simp only [alloc_snd]
  rw [alloc_buf_ne _ _ (by omega), e4, e1.2 a ha]
  cases isSetBit_ (h.buf b) 0 with
  | error e => exact rfl
  | ok s =>
    cases s
    · simp only [Bool.false_eq_true, if_false]
      have := hPowLoop_spec (a := a) (p := c.1.next) (b := c.2) (by omega) e2 (by omega) (bitsLen (h.buf b) - 1) 1
        ((c.1.alloc (deepClone (h.buf a))).1.write a [1#32])
      rw [write_buf, write_buf_ne _ _ e2, alloc_buf_ne _ _ (by omega), write_buf_ne _ _ (show c.1.next ≠ a by omega),
        alloc_buf, e4] at this
      refine this.mono fun v h' ⟨f1, f2, f3⟩ => ⟨f1, ?_, fun k k1 k2 => ?_⟩
      · rw [f2, write_next, alloc_next']; omega
      · rw [f3 k k2 (by omega), write_buf_ne _ _ k2, alloc_buf_ne _ _ (by omega), e1.2 k k1]
    · simp only [if_true]
      have := hPowLoop_spec (a := a) (p := c.1.next) (b := c.2) (by omega) e2 (by omega) (bitsLen (h.buf b) - 1) 1
        (c.1.alloc (deepClone (h.buf a))).1
      rw [alloc_buf, alloc_buf_ne _ _ (show c.2 ≠ c.1.next by omega), alloc_buf_ne _ _ (show a ≠ c.1.next by omega),
        e4, e1.2 a ha] at this
      refine this.mono fun v h' ⟨f1, f2, f3⟩ => ⟨f1, ?_, fun k k1 k2 => ?_⟩
      · rw [f2, alloc_next']; omega
      · rw [f3 k k2 (by omega), alloc_buf_ne _ _ (by omega), e1.2 k k1]

/-- a call that made `v` in a new buffer and touched no other -/
def NewN (h : Heap) : Words → Heap × Nat → Prop := fun v z =>
  Ext h z.1 ∧ z.1.buf z.2 = v ∧ h.next ≤ z.2 ∧ z.2 < z.1.next

theorem newN_alloc (h : Heap) (v : Words) : NewN h v (h.alloc v) :=
  ⟨ext_alloc _ _, alloc_buf _ _, Nat.le_refl _, Nat.lt_succ_self _⟩

theorem newN_of_updN {h : Heap} {w : Words} {r : Res Words} {o : Res Heap}
    (hu : RRel (UpdN (h.alloc w).1 h.next) r o) :
    RRel (NewN h) r (o.map fun k => (k, h.next)) := by
  cases r <;> cases o <;> simp only [RRel] at hu ⊢
  · exact hu
  · obtain ⟨e1, e2, e3⟩ := hu
    rw [alloc_next'] at e2 e3
    exact ⟨⟨by simp only; omega, fun c hc => by
      rw [e3 c (by omega) (by omega), alloc_buf_ne _ _ (by omega)]⟩, e1, Nat.le_refl _, by simp only; omega⟩

theorem hPow_spec (h : Heap) (x b : Nat) (hb : b < h.next) :
    RRel (NewN h) (natPow (h.buf x) (h.buf b)) (hPow h x b) := by
  unfold natPow hPow
  split
  · exact newN_alloc _ _
  · have := hPowInner_spec (h.alloc (deepClone (h.buf x))).1 h.next b (Nat.lt_succ_self _) (Nat.lt_succ_of_lt hb)
      (by omega)
    rw [alloc_buf, alloc_buf_ne _ _ (by omega)] at this
    have := newN_of_updN this
    show RRel (NewN h) _ (match hPowInner (h.alloc (deepClone (h.buf x))).1 h.next b with
      | .ok k => .ok (k, h.next) | .error e => .error e)
    generalize hPowInner _ _ _ = o at this ⊢
    cases o <;> exact this

theorem hRem_spec {a n : Nat} (han : n ≠ a) (h : Heap) :
    RRel (fun v k => k = h.write a v) (remInner (h.buf a) (h.buf n)) (hRem h a n) := by
  unfold hRem
  rw [hRemInner_spec han]
  cases remInner (h.buf a) (h.buf n) <;> simp [RRel, Except.map]

theorem hPowModLoop_spec {a m b n : Nat} (hm : m ≠ a) (hb : b ≠ a) (hn : n ≠ a) (i : Nat) : ∀ h : Heap,
    RRel (fun v k => k = h.write a v) (powModLoop (h.buf b) (h.buf n) (h.buf m) i (h.buf a)) (hPowModLoop a m b n i h) := by
  induction i with
  | zero => intro h; exact (write_self _ _).symm
  | succ i ih =>
    intro h
    unfold powModLoop hPowModLoop
    rw [hMulInner_spec]
    have h1 := hRem_spec hn (h.write a (mulInner (h.buf a) (h.buf a)))
    rw [write_buf, write_buf_ne _ _ hn] at h1
    refine h1.bind fun v k hk => ?_
    rw [write_write] at hk
    subst hk
    rw [write_buf_ne _ _ hb]
    cases isSetBit_ (h.buf b) i with
    | error e => exact rfl
    | ok s =>
      simp only [bind, Except.bind]
      cases s
      · have := ih (h.write a v)
        rw [write_buf, write_buf_ne _ _ hb, write_buf_ne _ _ hn, write_buf_ne _ _ hm] at this
        simp only [write_write] at this
        exact this
      · simp only [if_true]
        rw [hMulInner_spec, write_buf, write_buf_ne _ _ hm, write_write]
        have h2 := hRem_spec hn (h.write a (mulInner v (h.buf m)))
        rw [write_buf, write_buf_ne _ _ hn] at h2
        refine h2.bind fun w k hk => ?_
        rw [write_write] at hk
        subst hk
        have := ih (h.write a w)
        rw [write_buf, write_buf_ne _ _ hb, write_buf_ne _ _ hn, write_buf_ne _ _ hm] at this
        simp only [write_write] at this
        exact this

/-- `pow_mod_inner`, also when the operands are the same buffer -/
theorem hPowModInner_spec (h : Heap) (a b n : Nat) (ha : a < h.next) (hb : b < h.next) (hn : n < h.next)
    (hab : b = a → deepClone (h.buf b) = h.buf b) (han : n = a → deepClone (h.buf n) = h.buf n) :
    RRel (UpdN h a) (powModInner (h.buf a) (h.buf b) (h.buf n)) (hPowModInner h a b n) := by
  unfold powModInner hPowModInner
  split
  · exact hPowInner_spec h a b ha hb hab
  split
  · exact updN_write _ _ _
  have hd := copy_ne h a n ha hn han
  simp only at hd ⊢
  generalize (if n = a then h.alloc (deepClone (h.buf n)) else (h, n) : Heap × Nat) = d at hd ⊢
  obtain ⟨d1, d2, d3, d4⟩ := hd
  have dn := d1.1
  have hc := copy_ne d.1 a b (by omega) (by omega) (by rw [d1.2 b hb]; exact hab)
  simp only at hc ⊢
  generalize (if b = a then d.1.alloc (deepClone (d.1.buf b)) else (d.1, b) : Heap × Nat) = c at hc ⊢
  obtain ⟨c1, c2, c3, c4⟩ := hc
  have cn := c1.1
  rw [alloc_snd]
  have h1 := hRem_spec (show d.2 ≠ c.1.next by omega) ((c.1.alloc (deepClone (c.1.buf a))).1.write a [1#32])
  rw [write_buf_ne _ _ (show c.1.next ≠ a by omega), alloc_buf, write_buf_ne _ _ d2, alloc_buf_ne _ _ (by omega),
    c1.2 _ d3, d4, c1.2 a (by omega), d1.2 a ha] at h1
  rw [c1.2 a (by omega), d1.2 a ha]
  refine h1.bind fun v k hk => ?_
  have ea : k.buf a = [1#32] := by rw [hk, write_buf_ne _ _ (by omega), write_buf]
  have eb : k.buf c.2 = h.buf b := by
    rw [hk, write_buf_ne _ _ (by omega), write_buf_ne _ _ c2, alloc_buf_ne _ _ (by omega), c4, d1.2 b hb]
  have en : k.buf d.2 = h.buf n := by
    rw [hk, write_buf_ne _ _ (by omega), write_buf_ne _ _ d2, alloc_buf_ne _ _ (by omega), c1.2 _ d3, d4]
  have em : k.buf c.1.next = v := by rw [hk, write_buf]
  have h2 := hPowModLoop_spec (a := a) (m := c.1.next) (b := c.2) (n := d.2) (by omega) c2 d2 (bitsLen (h.buf b)) k
  rw [ea, eb, en, em] at h2
  rw [eb]
  refine h2.mono fun w k' hk' => ?_
  subst hk'
  refine ⟨write_buf _ _ _, ?_, fun l l1 l2 => ?_⟩
  · rw [write_next, hk]; simp only [write_next, alloc_next']; omega
  · rw [write_buf_ne _ _ l2, hk, write_buf_ne _ _ (by omega), write_buf_ne _ _ l2, alloc_buf_ne _ _ (by omega),
      c1.2 _ (by omega), d1.2 _ l1]

theorem hPowMod_spec (h : Heap) (x b n : Nat) (hb : b < h.next) (hn : n < h.next) :
    RRel (NewN h) (natPowMod (h.buf x) (h.buf b) (h.buf n)) (hPowMod h x b n) := by
  unfold natPowMod hPowMod
  split
  · exact newN_alloc _ _
  · have := hPowModInner_spec (h.alloc (deepClone (h.buf x))).1 h.next b n (Nat.lt_succ_self _) (Nat.lt_succ_of_lt hb)
      (Nat.lt_succ_of_lt hn) (by omega) (by omega)
    rw [alloc_buf, alloc_buf_ne _ _ (by omega), alloc_buf_ne _ _ (by omega)] at this
    have := newN_of_updN this
    show RRel (NewN h) _ (match hPowModInner (h.alloc (deepClone (h.buf x))).1 h.next b n with
      | .ok k => .ok (k, h.next) | .error e => .error e)
    generalize hPowModInner _ _ _ _ = o at this ⊢
    cases o <;> exact this

theorem hOp_rel (op : NatOp) (h : Heap) {a b : Nat} (hb : b < h.next) :
    RRel (fun v z => z = h.alloc v) (opNatR op.fn (h.buf a) (h.buf b)) (hOp op h a b) := by
  rw [hOp_spec op h hb]
  cases opNatR op.fn (h.buf a) (h.buf b) <;> simp [RRel, Except.map]

theorem hSqrtLoop_spec {h0 : Heap} {x : Nat} (hx : x < h0.next) (fuel : Nat) : ∀ (h : Heap) (z : Nat), Ext h0 h →
    h0.next ≤ z → z < h.next → RRel (NewN h0) (sqrtLoop (h0.buf x) fuel (h.buf z)) (hSqrtLoop x fuel h z) := by
  induction fuel with
  | zero => intro h z _ _ _; exact rfl
  | succ fuel ih =>
    intro h z he hz hzn
    unfold sqrtLoop hSqrtLoop
    have h1 := hOp_rel .div h (a := x) hzn
    rw [he.2 x hx] at h1
    refine RRel.bind (P := fun v w => w = h.alloc v) h1 fun v w hw => ?_
    subst hw
    rw [alloc_snd, hAssign_add, alloc_buf, alloc_buf_ne _ _ (show z ≠ h.next by omega)]
    simp only [bind, Except.bind]
    rw [hAssignPrim_eq, write_buf, write_write, write_buf, write_buf_ne _ _ (show z ≠ h.next by omega),
      alloc_buf_ne _ _ (show z ≠ h.next by omega)]
    have e1 : Ext h ((h.alloc v).1.write h.next (assignPrim shrInner (assignNat addInner v (h.buf z)) 1)) :=
      ⟨Nat.le_succ _, fun c hc => by rw [write_buf_ne _ _ (by omega), alloc_buf_ne _ _ (by omega)]⟩
    have hn := he.1
    split
    · exact ⟨he.trans e1, e1.2 _ hzn, hz, Nat.lt_succ_of_lt hzn⟩
    · have := ih _ h.next (he.trans e1) (by omega) (Nat.lt_succ_self _)
      rw [write_buf] at this
      exact this

theorem hSqrt_spec (h : Heap) (x : Nat) (hx : x < h.next) : RRel (NewN h) (natSqrt (h.buf x)) (hSqrt h x) := by
  unfold natSqrt hSqrt
  split
  · exact newN_alloc _ _
  · simp only [alloc_snd, hAssignPrim_eq, alloc_buf, write_buf]
    have := hSqrtLoop_spec hx (val (assignPrim shlInner [1#32] ((bitsLen (h.buf x) + 1) / 2)) + 1)
      ((h.alloc [1#32]).1.write h.next (assignPrim shlInner [1#32] ((bitsLen (h.buf x) + 1) / 2))) h.next
      ⟨Nat.le_succ _, fun c hc => by rw [write_buf_ne _ _ (by omega), alloc_buf_ne _ _ (by omega)]⟩ (Nat.le_refl _)
      (Nat.lt_succ_self _)
    rw [write_buf] at this
    exact this

/-! ## `gcd`, `mod_inverse`, `solve_mod_linear_equation` -/

/-- three numbers are where the calls put them: `x` and `y` in new buffers, `d` in one of `l`, `r` or in a new one, and no two
of them in the same -/
def New3 (h : Heap) (l r : Nat) : BInt × BInt × BInt → Heap × HInt3 → Prop := fun v z =>
  Ext h z.1 ∧ z.2.d.value z.1 = v.1 ∧ z.2.x.value z.1 = v.2.1 ∧ z.2.y.value z.1 = v.2.2 ∧
  h.next ≤ z.2.x.addr ∧ z.2.x.addr < z.1.next ∧ h.next ≤ z.2.y.addr ∧ z.2.y.addr < z.1.next ∧ z.2.x.addr ≠ z.2.y.addr ∧
  (z.2.d.addr = l ∨ z.2.d.addr = r ∨ h.next ≤ z.2.d.addr) ∧ z.2.d.addr < z.1.next ∧ z.2.d.addr ≠ z.2.x.addr ∧
  z.2.d.addr ≠ z.2.y.addr

theorem hbNew3_spec (h : Heap) (d x y : BInt) (l r : Nat) : New3 h l r (d, x, y) (hbNew3 h d x y) := by
  obtain ⟨a1, a2, a3, a4⟩ := hbNew_spec h d
  obtain ⟨b1, b2, b3, b4⟩ := hbNew_spec (hbNew h d).1 x
  obtain ⟨c1, c2, c3, c4⟩ := hbNew_spec (hbNew (hbNew h d).1 x).1 y
  simp only [hbNew3, New3]
  refine ⟨(a1.trans b1).trans c1, ?_, ?_, c4, by omega, by omega, by omega, by omega, by omega, by omega, by omega,
    by omega, by omega⟩
  · rw [(b1.trans c1).value (by omega), a4]
  · rw [c1.value (by omega), b4]

theorem hbGcdExtend_spec (fuel : Nat) : ∀ (h : Heap) (l r : HInt), l.addr < h.next → r.addr < h.next →
    RRel (New3 h l.addr r.addr) (bGcdExtend fuel (l.value h) (r.value h)) (hbGcdExtend fuel h l r) := by
  induction fuel with
  | zero => intro h l r _ _; exact rfl
  | succ fuel ih =>
    intro h l r hl hr
    unfold bGcdExtend hbGcdExtend
    split
    · obtain ⟨b1, b2, b3, b4⟩ := hbNew_spec h bOne
      obtain ⟨c1, c2, c3, c4⟩ := hbNew_spec (hbNew h bOne).1 bZero
      simp only [RRel, New3]
      refine ⟨b1.trans c1, (b1.trans c1).value hl, ?_, c4, by omega, by omega, by omega, by omega, by omega, by simp,
        by omega, by omega, by omega⟩
      rw [c1.value (by omega), b4]
    · refine (hbOp_new .rem h l r hr).rel.bind fun vm m ⟨m1, m2, m3, m4⟩ => ?_
      have mn := m1.1
      have hq := (hbOp_new .div m.1 l r (by omega)).rel
      rw [m1.value hl, m1.value hr] at hq
      refine RRel.bind hq fun vq q ⟨q1, q2, q3, q4⟩ => ?_
      have qn := q1.1
      have hg := ih q.1 r m.2 (by omega) (by omega)
      rw [(m1.trans q1).value hr, q1.value m4, m2] at hg
      refine RRel.bind hg fun vg g hg => ?_
      obtain ⟨g1, g2, g3, g4, g5, g6, g7, g8, g9, g10, g11, g12, g13⟩ := hg
      have gn := g1.1
      obtain ⟨p, hp, p1, p2, p3, p4⟩ := (hbAssign_arith (op := .mul) (by simp) g.1 q.2 g.2.y).rel.ok_left
      have hp' : hbMul g.1 q.2 g.2.y = .ok p := hp
      rw [g1.value q4, q2, g4] at p2
      obtain ⟨s, hs, s1, s2, s3, s4⟩ := (hbAssign_arith (op := .sub) (by simp) p.1 g.2.x p.2).rel.ok_left
      have hs' : hbSub p.1 g.2.x p.2 = .ok s := hs
      have px : g.2.x.value p.1 = g.2.x.value g.1 := by simp only [HInt.value]; rw [p4 _ g6 (by omega)]
      rw [px, g3, p2] at s2
      simp only [bind, Except.bind, hp', hs']
      have keep : ∀ c, c < g.1.next → c ≠ q.2.addr → c ≠ g.2.x.addr → s.1.buf c = g.1.buf c := fun c c1 c2 c3 => by
        rw [s4 c (by omega) c3, p4 c c1 c2]
      have kv : ∀ z : HInt, z.addr < g.1.next → z.addr ≠ q.2.addr → z.addr ≠ g.2.x.addr → z.value s.1 = z.value g.1 :=
        fun z c1 c2 c3 => by simp only [HInt.value]; rw [keep _ c1 c2 c3]
      refine ⟨⟨by simp only; omega, fun c hc => ?_⟩, ?_, ?_, s2, ?_, ?_, ?_, ?_, ?_, ?_, ?_, ?_, ?_⟩
      · simp only
        rw [keep c (by omega) (by omega) (by omega), g1.2 c (by omega), q1.2 c (by omega), m1.2 c hc]
      · simp only
        rw [kv _ g11 (by omega) g12, g2]
      · simp only
        rw [kv _ g8 (by omega) g9.symm, g4]
      all_goals simp only
      all_goals omega

theorem hbNegInner_value (h : Heap) (x : HInt) : (hbNegInner h x).addr = x.addr ∧
    (hbNegInner h x).value h = bNegInner (x.value h) := by
  refine ⟨rfl, ?_⟩
  have e : (bNegInner (x.value h)).nat = h.buf x.addr := by
    unfold bNegInner
    split <;> rfl
  show (⟨h.buf x.addr, (bNegInner (x.value h)).neg⟩ : BInt) = bNegInner (x.value h)
  rw [← e]

/-- three numbers, each in a new buffer of its own -/
def Fresh3 (h : Heap) : BInt × BInt × BInt → Heap × HInt3 → Prop := fun v z =>
  Ext h z.1 ∧ (z.2.d.value z.1, z.2.x.value z.1, z.2.y.value z.1) = v ∧
  (∀ a, a = z.2.d.addr ∨ a = z.2.x.addr ∨ a = z.2.y.addr → h.next ≤ a ∧ a < z.1.next) ∧
  z.2.d.addr ≠ z.2.x.addr ∧ z.2.d.addr ≠ z.2.y.addr ∧ z.2.x.addr ≠ z.2.y.addr

theorem hbNew3_fresh (h : Heap) (d x y : BInt) : Fresh3 h (d, x, y) (hbNew3 h d x y) := by
  obtain ⟨e1, e2, e3, e4, e5, e6, e7, e8, e9, e10, e11, e12, e13⟩ := hbNew3_spec h d x y h.next h.next
  exact ⟨e1, by rw [e2, e3, e4], by omega, e12, e13, e9⟩

theorem hbGcd_spec (h : Heap) (x y : HInt) (hx : x.addr < h.next) (hy : y.addr < h.next) :
    RRel (Fresh3 h) (bGcd (x.value h) (y.value h)) (hbGcd h x y) := by
  unfold bGcd hbGcd
  simp only
  split
  · exact hbNew3_fresh _ _ _ _
  split
  · exact hbNew3_fresh _ _ _ _
  split
  · exact hbNew3_fresh _ _ _ _
  split
  · exact hbNew3_fresh _ _ _ _
  obtain ⟨a1, a2, a3, a4⟩ := hbNew_spec h (if bIsNegative (x.value h) then bNeg (x.value h) else bDeepClone (x.value h))
  generalize hbNew h (if bIsNegative (x.value h) then bNeg (x.value h) else bDeepClone (x.value h)) = l at *
  obtain ⟨b1, b2, b3, b4⟩ := hbNew_spec l.1 (if bIsNegative (y.value h) then bNeg (y.value h) else bDeepClone (y.value h))
  generalize hbNew l.1 (if bIsNegative (y.value h) then bNeg (y.value h) else bDeepClone (y.value h)) = r at *
  have hg := hbGcdExtend_spec (val (r.2.value r.1).nat + 1) r.1 l.2 r.2 (by omega) (by omega)
  rw [b4, b1.value (by omega), a4] at hg
  rw [b4]
  refine RRel.bind hg fun v z hz => ?_
  obtain ⟨e1, e2, e3, e4, e5, e6, e7, e8, e9, e10, e11, e12, e13⟩ := hz
  have en := e1.1
  have key : ∀ (b : Bool) (w : HInt), (if b then hbNegInner z.1 w else w).addr = w.addr ∧
      (if b then hbNegInner z.1 w else w).value z.1 = if b then bNegInner (w.value z.1) else w.value z.1 := by
    intro b w
    cases b
    · exact ⟨rfl, rfl⟩
    · exact hbNegInner_value z.1 w
  obtain ⟨k1, k2⟩ := key (bIsNegative (x.value h)) z.2.x
  obtain ⟨k3, k4⟩ := key (bIsNegative (y.value h)) z.2.y
  refine ⟨(a1.trans b1).trans e1, ?_, ?_, ?_, ?_, ?_⟩ <;> simp only
  · rw [k2, k4, e2, e3, e4]
  · rw [k1, k3]
    intro a ha
    omega
  · rw [k1]; exact e12
  · rw [k3]; exact e13
  · rw [k1, k3]; exact e9

theorem hiOp_rel (op : IntOp) (h : Heap) (x y : HInt) (hy : y.addr < h.next) :
    RRel (fun v z => Ext h z.1 ∧ z.2.value z.1 = v ∧ h.next ≤ z.2.addr ∧ z.2.addr < z.1.next)
      (op.fn (bDeepClone (x.value h)) (y.value h)) (hiOp op h x y) := (hiOp_new op h x y hy).rel

/-- the representative that `mod_inverse` and `solve_mod_linear_equation` go on with -/
theorem reduce_spec (h : Heap) (x n : HInt) (hx : x.addr < h.next) (hn : n.addr < h.next) :
    RRel (fun v z => Ext h z.1 ∧ z.2.value z.1 = v ∧ z.2.addr < z.1.next)
      (if bIsNegative (x.value h) then bRemEuclid (x.value h) (n.value h) else .ok (x.value h))
      (if bIsNegative (x.value h) then hiOp .remEuclid h x n else .ok (h, x) : Res (Heap × HInt)) := by
  split
  · exact (hiOp_rel .remEuclid h x n hn).mono fun v z ⟨e1, e2, _, e4⟩ => ⟨e1, e2, e4⟩
  · exact ⟨Ext.refl _, rfl, hx⟩

theorem hbModInverse_spec (h : Heap) (x n : HInt) (hx : x.addr < h.next) :
    RRel (fun v z => Ext h z.1 ∧ z.2.value z.1 = v ∧ h.next ≤ z.2.addr ∧ z.2.addr < z.1.next)
      (bModInverse (x.value h) (n.value h)) (hbModInverse h x n) := by
  unfold bModInverse hbModInverse
  split
  · exact hbNew_new h bNan
  obtain ⟨a1, a2, a3, a4⟩ := hbNew_spec h (if bIsNegative (n.value h) then bAbs (n.value h) else bDeepClone (n.value h))
  simp only
  generalize hbNew h (if bIsNegative (n.value h) then bAbs (n.value h) else bDeepClone (n.value h)) = m at *
  have hr := reduce_spec m.1 x m.2 (by omega) (by omega)
  rw [a1.value hx, a4] at hr
  rw [a1.value hx]
  refine RRel.bind hr fun vg g ⟨g1, g2, g3⟩ => ?_
  have gn := g1.1
  have hg := hbGcd_spec g.1 g.2 m.2 g3 (by omega)
  rw [g2, g1.value (by omega), a4] at hg
  refine RRel.bind hg fun v z ⟨e1, e2, e3, e4, e5, e6⟩ => ?_
  have en := e1.1
  subst e2
  simp only
  have ex := e3 _ (Or.inr (Or.inl rfl))
  split
  · obtain ⟨p, hp, p1, p2, p3, p4⟩ := (hbAssign_arith (op := .add) (by simp) z.1 z.2.x m.2).rel.ok_left
    have hp' : hbAdd z.1 z.2.x m.2 = .ok p := hp
    rw [hp']
    rw [e1.value (x := m.2) (by omega), g1.value (by omega), a4] at p2
    refine ⟨⟨by omega, fun c hc => ?_⟩, p2, by omega, by omega⟩
    rw [p4 c (by omega) (by omega), ((a1.trans g1).trans e1).2 c hc]
  · exact ⟨(a1.trans g1).trans e1, rfl, by simp only; omega, ex.2⟩

/-- numbers in new buffers, no two in the same -/
def Distinct (n : Nat) (z : Heap × List HInt) : Prop :=
  (∀ x ∈ z.2, n ≤ x.addr ∧ x.addr < z.1.next) ∧ z.2.Pairwise fun x y => x.addr ≠ y.addr

theorem hbSolveLoop_spec (x0 nd n d one : HInt) (fuel : Nat) : ∀ (h : Heap) (i : HInt), x0.addr < h.next → nd.addr < h.next →
    n.addr < h.next → d.addr < h.next → one.addr < h.next → i.addr < h.next → x0.addr ≠ i.addr → nd.addr ≠ i.addr →
    n.addr ≠ i.addr → d.addr ≠ i.addr → one.addr ≠ i.addr → one.value h = bOne →
    RRel (fun v z => h.next ≤ z.1.next ∧ (∀ c, c < h.next → c ≠ i.addr → z.1.buf c = h.buf c) ∧
        z.2.map (HInt.value z.1) = v ∧ Distinct h.next z)
      (bSolveLoop (x0.value h) (nd.value h) (n.value h) (d.value h) fuel (i.value h))
      (hbSolveLoop x0 nd n d one fuel h i) := by
  induction fuel with
  | zero => intros; exact rfl
  | succ fuel ih =>
    intro h i q1 q2 q3 q4 q5 q6 n1 n2 n3 n4 n5 h1
    unfold bSolveLoop hbSolveLoop
    split
    · obtain ⟨t, ht, t1, t2, t3, t4⟩ := (hbOp_new .mul h i nd q2).rel.ok_left
      have tn := t1.1
      obtain ⟨u, hu, u1, u2, u3, u4⟩ := (hbOp_new .add t.1 x0 t.2 t4).rel.ok_left
      have un := u1.1
      rw [t1.value q1, t2] at u2
      have hr := hiOp_rel .remEuclid u.1 u.2 n (by omega)
      rw [(t1.trans u1).value q3, u2] at hr
      rw [ht]
      show RRel _ _ (hbOp .add t.1 x0 t.2 >>= _)
      rw [hu]
      refine RRel.bind hr fun vr r ⟨r1, r2, r3, r4⟩ => ?_
      have rn := r1.1
      have er := (t1.trans u1).trans r1
      obtain ⟨j, hj, j1, j2, j3, j4⟩ := (hbAssign_arith (op := .add) (by simp) r.1 i one).rel.ok_left
      rw [er.value q6, er.value q5, h1] at j2
      rw [hj]
      have keep : ∀ c, c < h.next → c ≠ i.addr → j.1.buf c = h.buf c := fun c c1 c2 => by
        rw [j4 c (by omega) c2, er.2 c c1]
      have kv : ∀ z : HInt, z.addr < h.next → z.addr ≠ i.addr → z.value j.1 = z.value h := fun z c1 c2 => by
        simp only [HInt.value]; rw [keep _ c1 c2]
      have hl := ih j.1 j.2 (by omega) (by omega) (by omega) (by omega) (by omega) (by omega) (by omega) (by omega)
        (by omega) (by omega) (by omega) (by rw [kv _ q5 n5, h1])
      rw [kv _ q1 n1, kv _ q2 n2, kv _ q3 n3, kv _ q4 n4, j2] at hl
      refine RRel.bind hl fun v z ⟨z1, z2, z3, z4, z5⟩ => ?_
      refine ⟨by simp only; omega, fun c c1 c2 => ?_, ?_, fun x hx => ?_, ?_⟩
      · simp only; rw [z2 c (by omega) (by omega), keep c c1 c2]
      · simp only [List.map_cons]
        rw [z3]
        congr 1
        rw [← r2]
        simp only [HInt.value]
        rw [z2 _ (by omega) (by omega), j4 _ r4 (by omega)]
      · simp only [List.mem_cons] at hx
        rcases hx with rfl | hx
        · simp only; omega
        · have := z4 x hx
          simp only; omega
      · refine List.pairwise_cons.2 ⟨fun y hy => ?_, z5⟩
        have := z4 y hy
        omega
    · exact ⟨Nat.le_refl _, fun _ _ _ => rfl, rfl, by simp [Distinct]⟩

/-- solutions in new buffers, no two in the same; no other buffer is touched -/
def NewO (h : Heap) : Option (List BInt) → Heap × Option (List HInt) → Prop := fun v z =>
  Ext h z.1 ∧ match v, z.2 with
    | none, none => True
    | some vs, some zs => zs.map (HInt.value z.1) = vs ∧ Distinct h.next (z.1, zs)
    | _, _ => False

theorem hbSolve_spec (h : Heap) (x b n : HInt) (hx : x.addr < h.next) (hb : b.addr < h.next) (hn : n.addr < h.next) :
    RRel (NewO h) (bSolve (x.value h) (b.value h) (n.value h)) (hbSolve h x b n) := by
  unfold bSolve hbSolve
  split
  · exact ⟨Ext.refl _, trivial⟩
  simp only
  have hm : Ext h (if bIsNegative (n.value h) then hbNew h (bAbs (n.value h)) else (h, n)).1 ∧
      (if bIsNegative (n.value h) then hbNew h (bAbs (n.value h)) else (h, n)).2.addr <
        (if bIsNegative (n.value h) then hbNew h (bAbs (n.value h)) else (h, n)).1.next ∧
      (if bIsNegative (n.value h) then hbNew h (bAbs (n.value h)) else (h, n)).2.value
        (if bIsNegative (n.value h) then hbNew h (bAbs (n.value h)) else (h, n)).1 =
        if bIsNegative (n.value h) then bAbs (n.value h) else n.value h := by
    split
    · obtain ⟨a1, a2, a3, a4⟩ := hbNew_spec h (bAbs (n.value h))
      exact ⟨a1, by omega, a4⟩
    · exact ⟨Ext.refl _, hn, rfl⟩
  generalize (if bIsNegative (n.value h) then hbNew h (bAbs (n.value h)) else (h, n) : Heap × HInt) = m at *
  generalize (if bIsNegative (n.value h) then bAbs (n.value h) else n.value h : BInt) = vm at *
  obtain ⟨m1, m2, m3⟩ := hm
  have mn := m1.1
  have hr := reduce_spec m.1 x m.2 (by omega) m2
  rw [m1.value hx, m3] at hr
  rw [m1.value hx]
  refine RRel.bind hr fun va a ⟨a1, a2, a3⟩ => ?_
  have an := a1.1
  have hg := hbGcd_spec a.1 a.2 m.2 a3 (by omega)
  rw [a2, a1.value m2, m3] at hg
  refine RRel.bind hg fun v g ⟨g1, g2, g3, g4, g5, g6⟩ => ?_
  have gn := g1.1
  subst g2
  have gd := g3 _ (Or.inl rfl)
  have gx := g3 _ (Or.inr (Or.inl rfl))
  simp only
  obtain ⟨o1, o2, o3, o4⟩ := hbNew_spec g.1 bZero
  generalize hbNew g.1 bZero = o at *
  have eo := ((m1.trans a1).trans g1).trans o1
  rw [o4, o1.value gd.2]
  split
  · rw [eo.value hb]
    have hdv : RRel (fun v z => Ext o.1 z.1 ∧ z.2 = v)
        (if bEq (b.value h) bZero then .ok true
          else (do let r ← bRem (b.value h) (g.2.d.value g.1); .ok (bEqW r 0#32)) : Res Bool)
        (if bEq (b.value h) bZero then .ok (o.1, true)
          else (do let r ← hbOp .rem o.1 b g.2.d; .ok (r.1, bEqW (r.2.value r.1) 0#32)) : Res (Heap × Bool)) := by
      split
      · exact ⟨Ext.refl _, rfl⟩
      · have h1 := (hbOp_new .rem o.1 b g.2.d (by omega)).rel
        rw [eo.value hb, o1.value gd.2] at h1
        refine RRel.bind h1 fun v r ⟨r1, r2, _, _⟩ => ⟨r1, by simp only; rw [r2]⟩
    refine RRel.bind hdv fun dv w ⟨w1, w2⟩ => ?_
    subst w2
    have wn := w1.1
    split
    · have h1 := (hbOp_new .div w.1 b g.2.d (by omega)).rel
      rw [(eo.trans w1).value hb, (o1.trans w1).value gd.2] at h1
      refine RRel.bind h1 fun vq q ⟨q1, q2, q3, q4⟩ => ?_
      have qn := q1.1
      obtain ⟨p, hp, p1, p2, p3, p4⟩ := (hbAssign_arith (op := .mul) (by simp) q.1 g.2.x q.2).rel.ok_left
      rw [((o1.trans w1).trans q1).value gx.2, q2] at p2
      rw [hp]
      have kp : ∀ z : HInt, z.addr < q.1.next → z.addr ≠ g.2.x.addr → z.value p.1 = z.value q.1 := fun z c1 c2 => by
        simp only [HInt.value]; rw [p4 _ c1 c2]
      have h2 := hiOp_rel .remEuclid p.1 p.2 m.2 (by omega)
      rw [p2, kp m.2 (by omega) (by omega), (((a1.trans g1).trans (o1.trans w1)).trans q1).value m2, m3] at h2
      refine RRel.bind h2 fun vx x0 ⟨x1, x2, x3, x4⟩ => ?_
      have xn := x1.1
      have h3 := (hbOp_new .div x0.1 m.2 g.2.d (by omega)).rel
      have em : m.2.value x0.1 = vm := by
        rw [x1.value (by omega), kp m.2 (by omega) (by omega), (((a1.trans g1).trans (o1.trans w1)).trans q1).value m2, m3]
      have ed : g.2.d.value x0.1 = g.2.d.value g.1 := by
        rw [x1.value (by omega), kp g.2.d (by omega) g4, ((o1.trans w1).trans q1).value gd.2]
      have ez : o.2.value x0.1 = bZero := by
        rw [x1.value (by omega), kp o.2 (by omega) (by omega), (w1.trans q1).value (by omega), o4]
      rw [em, ed] at h3
      refine RRel.bind h3 fun vn nd ⟨d1, d2, d3, d4⟩ => ?_
      have dn := d1.1
      obtain ⟨i1, i2, i3, i4⟩ := hbNew_spec nd.1 bOne
      generalize hbNew nd.1 bOne = one at *
      have e1 : x0.2.value one.1 = vx := by rw [(d1.trans i1).value (by omega), x2]
      have e2 : nd.2.value one.1 = vn := by rw [i1.value d4, d2]
      have e3 : m.2.value one.1 = vm := by rw [(d1.trans i1).value (by omega), em]
      have e4 : g.2.d.value one.1 = g.2.d.value g.1 := by rw [(d1.trans i1).value (by omega), ed]
      have e5 : o.2.value one.1 = bZero := by rw [(d1.trans i1).value (by omega), ez]
      have h4 := hbSolveLoop_spec x0.2 nd.2 m.2 g.2.d one.2 (val (g.2.d.value one.1).nat + 1) one.1 o.2 (by omega) (by omega)
        (by omega) (by omega) (by omega) (by omega) (by omega) (by omega) (by omega) (by omega) (by omega) i4
      rw [e1, e2, e3, e4, e5] at h4
      rw [e4]
      refine RRel.bind h4 fun vs z ⟨z1, z2, z3, z4, z5⟩ => ?_
      refine ⟨⟨by simp only; omega, fun c hc => ?_⟩, z3, fun y hy => ?_, z5⟩
      · simp only
        rw [z2 c (by omega) (by omega), i1.2 c (by omega), d1.2 c (by omega), x1.2 c (by omega), p4 c (by omega) (by omega),
          q1.2 c (by omega), w1.2 c (by omega), eo.2 c hc]
      · have := z4 y hy
        simp only; omega
    · exact ⟨eo.trans w1, trivial⟩
  · exact ⟨eo, trivial⟩

end RMath
