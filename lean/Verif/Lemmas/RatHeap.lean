import Verif.Lemmas.Heap
import Verif.Model.RatHeap

/-!
# The heap of `Rat`s: the operators never write a buffer they did not make
-/

namespace RMath

open Heap

/-- everything allocated in `h` is as before in `h'` -/
def Ext (h h' : Heap) : Prop := h.next ≤ h'.next ∧ ∀ c, c < h.next → h'.buf c = h.buf c

theorem Ext.refl (h : Heap) : Ext h h := ⟨Nat.le_refl _, fun _ _ => rfl⟩

theorem Ext.trans {h h' h'' : Heap} (h1 : Ext h h') (h2 : Ext h' h'') : Ext h h'' :=
  ⟨Nat.le_trans h1.1 h2.1, fun c hc => by rw [h2.2 c (Nat.lt_of_lt_of_le hc h1.1), h1.2 c hc]⟩

theorem ext_alloc (h : Heap) (v : Words) : Ext h (h.alloc v).1 :=
  ⟨Nat.le_succ _, fun _ hc => alloc_buf_ne _ _ (by omega)⟩

theorem Ext.value {h h' : Heap} (e : Ext h h') {x : HInt} (hx : x.addr < h.next) : x.value h' = x.value h := by
  simp only [HInt.value, e.2 _ hx]

theorem Ext.rvalue {h h' : Heap} (e : Ext h h') {x : HRat} (ha : x.a.addr < h.next) (hb : x.b.addr < h.next) :
    x.value h' = x.value h := by
  simp only [HRat.value, e.value ha, e.value hb]

theorem alloc_snd (h : Heap) (v : Words) : (h.alloc v).2 = h.next := rfl
theorem alloc_next' (h : Heap) (v : Words) : (h.alloc v).1.next = h.next + 1 := rfl

theorem hbNew_spec (h : Heap) (v : BInt) : Ext h (hbNew h v).1 ∧ (hbNew h v).2.addr = h.next ∧
    (hbNew h v).1.next = h.next + 1 ∧ (hbNew h v).2.value (hbNew h v).1 = v := by
  refine ⟨ext_alloc _ _, rfl, rfl, ?_⟩
  simp only [hbNew, HInt.value, alloc_snd, alloc_buf]

theorem hrNew_spec (h : Heap) (v : RatV) : Ext h (hrNew h v).1 ∧ (hrNew h v).2.a.addr = h.next ∧
    (hrNew h v).2.b.addr = h.next + 1 ∧ (hrNew h v).1.next = h.next + 2 ∧ (hrNew h v).2.value (hrNew h v).1 = v := by
  obtain ⟨e1, e2, e3, e4⟩ := hbNew_spec h v.a
  obtain ⟨f1, f2, f3, f4⟩ := hbNew_spec (hbNew h v.a).1 v.b
  refine ⟨e1.trans f1, e2, by rw [← e3]; exact f2, by simp only [hrNew, f3, e3], ?_⟩
  simp only [hrNew, HRat.value, f4]
  rw [f1.value (by omega), e4]

theorem hOp_mul (h : Heap) (a b : Nat) (hb : b < h.next) :
    hOp .mul h a b = .ok (h.alloc (opNat mulInner (h.buf a) (h.buf b))) := by
  rw [hOp_spec .mul h hb]
  unfold opNatR opNat
  split <;> rfl

theorem hrScale_spec (h : Heap) (x : HInt) (f : Nat) (hf : f < h.next) :
    ∃ h' z, hrScale h x f = .ok (h', z) ∧ Ext h h' ∧ h.next ≤ z.addr ∧ z.addr < h'.next ∧
      z.value h' = rScaleDenom (x.value h) (h.buf f) := by
  unfold hrScale rScaleDenom
  split
  · obtain ⟨e1, e2, e3, e4⟩ := hbNew_spec h (bDeepClone (x.value h))
    exact ⟨(hbNew h (bDeepClone (x.value h))).1, (hbNew h (bDeepClone (x.value h))).2, rfl, e1, by omega, by omega, e4⟩
  · rw [hOp_mul h _ _ hf]
    simp only [bind, Except.bind, alloc_snd, alloc_buf]
    obtain ⟨e1, e2, e3, e4⟩ := hbNew_spec (h.alloc (opNat mulInner (h.buf x.addr) (h.buf f))).1
      ⟨deepClone (opNat mulInner (h.buf x.addr) (h.buf f)), x.neg⟩
    rw [alloc_next'] at e2 e3
    generalize hn : hbNew _ _ = n at *
    exact ⟨n.1, n.2, rfl, (ext_alloc _ _).trans e1, by omega, by omega, e4⟩

theorem hrMulDenom_spec (h : Heap) (x y : Nat) (hy : y < h.next) :
    hrMulDenom h x y = .ok (h.alloc (rMulDenom (h.buf x) (h.buf y))) := by
  unfold hrMulDenom rMulDenom
  split
  · rfl
  · split
    · rfl
    · split
      · rfl
      · exact hOp_mul h _ _ hy

/-- `out` is the heap after a call that made `r`, in two buffers of its own, and touched no buffer of `h` -/
def RNew (h : Heap) (r : Res RatV) (out : Res (Heap × HRat)) : Prop :=
  match r, out with
  | .ok v, .ok (h', z) => Ext h h' ∧ z.value h' = v ∧ h.next ≤ z.a.addr ∧ z.a.addr < h'.next ∧ h.next ≤ z.b.addr ∧
      z.b.addr < h'.next ∧ z.a.addr ≠ z.b.addr
  | .error e, .error e' => e = e'
  | _, _ => False

theorem hrNew_new (h : Heap) (v : RatV) : RNew h (.ok v) (.ok (hrNew h v)) := by
  obtain ⟨e1, e2, e3, e4, e5⟩ := hrNew_spec h v
  generalize hrNew h v = n at *
  obtain ⟨h', z⟩ := n
  simp only at *
  exact ⟨e1, e5, by omega, by omega, by omega, by omega, by omega⟩

theorem hrNorm_spec (h0 h : Heap) (x : HRat) (h0h : Ext h0 h) (ha : x.a.addr < h.next) (hb : x.b.addr < h.next)
    (ha0 : h0.next ≤ x.a.addr) (hb0 : h0.next ≤ x.b.addr) (hab : x.a.addr ≠ x.b.addr) :
    RNew h0 (rNorm (x.value h)) (hrNorm h x) := by
  have key : ∀ v, Ext h0 (h.write x.b.addr v) := fun v =>
    ⟨h0h.1, fun c hc => by rw [write_buf_ne _ _ (by omega), h0h.2 c hc]⟩
  unfold rNorm hrNorm
  simp only [HRat.value, HInt.value, bIsNan]
  by_cases hza : (isNan (h.buf x.a.addr) || eqv (h.buf x.a.addr) [0#32]) = true <;>
    by_cases hzb : (isNan (h.buf x.b.addr) || eqv (h.buf x.b.addr) [0#32]) = true <;>
    simp only [hza, hzb, Bool.or_self, Bool.or_true, Bool.true_or, if_true]
  · exact ⟨key _, by simp [HRat.value, HInt.value, write_buf_ne _ _ hab], ha0, ha, hb0, hb, hab⟩
  · exact ⟨h0h, rfl, ha0, ha, hb0, hb, hab⟩
  · exact ⟨key _, by simp [HRat.value, HInt.value, write_buf_ne _ _ hab], ha0, ha, hb0, hb, hab⟩
  · simp only [Bool.false_eq_true, if_false, Bool.or_self, bind, Except.bind]
    cases bGcd ⟨h.buf x.a.addr, false⟩ ⟨h.buf x.b.addr, false⟩ with
    | error e => exact rfl
    | ok g =>
      obtain ⟨e1, e2, e3, e4⟩ := hbNew_spec h g.1
      have e5 : (hbNew h g.1).1.buf (hbNew h g.1).2.addr = g.1.nat := congrArg BInt.nat e4
      simp only [e5]
      have ea := e1.2 _ ha
      have eb := e1.2 _ hb
      split
      · exact ⟨h0h.trans e1, by simp only [HRat.value, HInt.value, ea, eb], ha0, by simp only; omega, hb0,
          by simp only; omega, hab⟩
      · rw [inner_ne .div _ (show (hbNew h g.1).2.addr ≠ x.a.addr by omega), e5, ea]
        have edef : NatOp.fn .div = divInner := rfl
        rw [edef]
        cases hp : divInner (h.buf x.a.addr) g.1.nat with
        | error e => exact rfl
        | ok p =>
          simp only [Except.map]
          rw [inner_ne .div _ (show (hbNew h g.1).2.addr ≠ x.b.addr by omega), edef,
            write_buf_ne _ _ (show (hbNew h g.1).2.addr ≠ x.a.addr by omega), e5, write_buf_ne _ _ hab.symm, eb]
          cases hq : divInner (h.buf x.b.addr) g.1.nat with
          | error e => exact rfl
          | ok q =>
            simp only [Except.map]
            refine ⟨⟨?_, fun c hc => ?_⟩, ?_, ha0, ?_, hb0, ?_, hab⟩
            · have := h0h.1; simp only [write_next]; omega
            · rw [write_buf_ne _ _ (by omega), write_buf_ne _ _ (by omega), (h0h.trans e1).2 c hc]
            · simp only [HRat.value, HInt.value, write_buf, write_buf_ne _ _ hab]
            · simp only [write_next]; omega
            · simp only [write_next]; omega

/-- the functions behind the operators, on values -/
def RatOp.innerFn : RatOp → RatV → RatV → Res RatV
  | .add => rAddInner
  | .sub => rSubInner
  | .mul => rMulInner
  | .div => rDivInner

theorem hrAddSub_spec (sub : Bool) (h : Heap) (x y : HRat) (hxa : x.a.addr < h.next) (hxb : x.b.addr < h.next)
    (hya : y.a.addr < h.next) (hyb : y.b.addr < h.next) :
    RNew h ((if sub then rSubInner else rAddInner) (x.value h) (y.value h)) (hrAddSub sub h x y) := by
  obtain ⟨h1, z1, a1, a2, a3, a4, a5⟩ := hrScale_spec h x.a y.b.addr hyb
  obtain ⟨h2, z2, b1, b2, b3, b4, b5⟩ := hrScale_spec h1 y.a x.b.addr (Nat.lt_of_lt_of_le hxb a2.1)
  rw [a2.2 _ hxb, a2.value hya] at b5
  simp only [hrAddSub, a1, b1, bind, Except.bind]
  have hu := hbAssign_arith (op := if sub then .sub else .add) (by cases sub <;> simp) h2 z1 z2
  rw [b2.value a4, a5, b5] at hu
  have hu' : Upd h2 z1.addr (.ok ((if sub then bSubInner else bAddInner) (rScaleDenom (x.a.value h) (h.buf y.b.addr))
      (rScaleDenom (y.a.value h) (h.buf x.b.addr)))) (hbAssign (if sub then .sub else .add) h2 z1 z2) := by
    cases sub <;> exact hu
  clear hu
  rcases hm : hbAssign (if sub then .sub else .add) h2 z1 z2 with e | ⟨h3, z3⟩
  · rw [hm] at hu'; exact hu'.elim
  · rw [hm] at hu'
    obtain ⟨c1, c2, c3, c4⟩ := hu'
    have e3 : Ext h h3 := ⟨by have := a2.1; have := b2.1; omega, fun c hc => by
      rw [c4 c (by have := a2.1; have := b2.1; omega) (by omega), (a2.trans b2).2 c hc]⟩
    simp only
    rw [hrMulDenom_spec h3 _ _ (Nat.lt_of_lt_of_le hyb e3.1), e3.2 _ hxb, e3.2 _ hyb]
    simp only [alloc_snd]
    have := hrNorm_spec h (h3.alloc (rMulDenom (h.buf x.b.addr) (h.buf y.b.addr))).1 ⟨z3, ⟨h3.next, false⟩⟩
      (e3.trans (ext_alloc _ _)) (by show z3.addr < h3.next + 1; have := b2.1; omega) (by show h3.next < h3.next + 1; omega)
      (by show _ ≤ z3.addr; omega) (by show _ ≤ h3.next; exact e3.1)
      (by show z3.addr ≠ h3.next; have := b2.1; omega)
    have ev : HRat.value (h3.alloc (rMulDenom (h.buf x.b.addr) (h.buf y.b.addr))).1 ⟨z3, ⟨h3.next, false⟩⟩ =
        ⟨(if sub then bSubInner else bAddInner) (rScaleDenom (x.a.value h) (h.buf y.b.addr))
          (rScaleDenom (y.a.value h) (h.buf x.b.addr)), ⟨rMulDenom (h.buf x.b.addr) (h.buf y.b.addr), false⟩⟩ := by
      simp only [HRat.value]
      rw [(ext_alloc h3 _).value (by have := b2.1; omega), c2]
      simp only [HInt.value, alloc_buf]
    rw [ev] at this
    cases sub <;> exact this

theorem hrMul_spec (h : Heap) (x y : HRat) (hxa : x.a.addr < h.next) (hxb : x.b.addr < h.next)
    (hya : y.a.addr < h.next) (hyb : y.b.addr < h.next) : RNew h (rMulInner (x.value h) (y.value h)) (hrMul h x y) := by
  unfold rMulInner hrMul
  split
  · obtain ⟨e1, e2, e3, e4⟩ := hbNew_spec h (bSqr (x.a.value h))
    simp only [e1.2 _ hxb, e1.value hxb]
    obtain ⟨f1, f2, f3, f4⟩ := hbNew_spec (hbNew h (bSqr (x.a.value h))).1
      (if eqv (h.buf x.b.addr) [0#32] then ⟨[1#32], false⟩ else bSqr (x.b.value h))
    have := hrNorm_spec h _ ⟨(hbNew h (bSqr (x.a.value h))).2, (hbNew (hbNew h (bSqr (x.a.value h))).1
      (if eqv (h.buf x.b.addr) [0#32] then ⟨[1#32], false⟩ else bSqr (x.b.value h))).2⟩ (e1.trans f1)
      (by simp only; omega) (by simp only; omega) (by simp only; omega) (by simp only; omega) (by simp only; omega)
    simp only [HRat.value, f4] at this
    rw [f1.value (by omega), e4] at this
    exact this
  · simp only [bind, Except.bind]
    have hu := hbOp_spec .mul h x.a y.a hya
    rcases hm : hbOp .mul h x.a y.a with e | ⟨h3, z3⟩
    · rw [hm] at hu; exact hu.elim
    · rw [hm] at hu
      obtain ⟨c1, c2, c3, c4⟩ := hu
      have c3' : h.next < h3.next := by
        have e := hm
        simp only [hbOp, hbAssign, hbMul, hAssign_mul] at e
        cases e
        simp only [write_next, alloc_next']; omega
      have e3 : Ext h h3 := ⟨c3, fun c hc => c4 c hc (by omega)⟩
      simp only
      rw [hrMulDenom_spec h3 _ _ (Nat.lt_of_lt_of_le hyb e3.1), e3.2 _ hxb, e3.2 _ hyb]
      simp only [alloc_snd, alloc_buf]
      generalize hmd : rMulDenom (h.buf x.b.addr) (h.buf y.b.addr) = d
      obtain ⟨f1, f2, f3, f4⟩ := hbNew_spec (h3.alloc d).1 ⟨deepClone d, false⟩
      rw [alloc_next'] at f2 f3
      have := hrNorm_spec h _ ⟨z3, (hbNew (h3.alloc d).1 ⟨deepClone d, false⟩).2⟩ (e3.trans ((ext_alloc _ _).trans f1))
        (by simp only; omega) (by simp only; omega) (by simp only; omega) (by simp only; omega) (by simp only; omega)
      simp only [HRat.value, f4] at this
      rw [f1.value (by rw [alloc_next']; omega), (ext_alloc h3 d).value (by omega), c2] at this
      rw [← hmd] at this ⊢
      exact this

theorem hrDiv_spec (h : Heap) (x y : HRat) (hxa : x.a.addr < h.next) (hxb : x.b.addr < h.next)
    (hya : y.a.addr < h.next) (hyb : y.b.addr < h.next) : RNew h (rDivInner (x.value h) (y.value h)) (hrDiv h x y) := by
  unfold rDivInner hrDiv
  simp only [show (y.value h).a.nat = h.buf y.a.addr from rfl]
  split
  · exact rfl
  · obtain ⟨h1, z1, a1, a2, a3, a4, a5⟩ := hrScale_spec h x.a y.b.addr hyb
    obtain ⟨h2, z2, b1, b2, b3, b4, b5⟩ := hrScale_spec h1 y.a x.b.addr (Nat.lt_of_lt_of_le hxb a2.1)
    rw [a2.2 _ hxb, a2.value hya] at b5
    simp only [a1, b1, bind, Except.bind]
    have := hrNorm_spec h h2 ⟨⟨z1.addr, z1.neg != z2.neg⟩, z2⟩ (a2.trans b2) (by show z1.addr < _; have := b2.1; omega) b4
      a3 (by have := a2.1; simp only; omega) (by simp only; omega)
    have e1 : z1.neg = (rScaleDenom (x.a.value h) (h.buf y.b.addr)).neg := congrArg BInt.neg a5
    have e2 : z2.neg = (rScaleDenom (y.a.value h) (h.buf x.b.addr)).neg := congrArg BInt.neg b5
    have e3 : h2.buf z1.addr = (rScaleDenom (x.a.value h) (h.buf y.b.addr)).nat := by
      rw [b2.2 _ a4]; exact congrArg BInt.nat a5
    have ev : HRat.value h2 ⟨⟨z1.addr, z1.neg != z2.neg⟩, z2⟩ = ⟨⟨(rScaleDenom (x.a.value h) (h.buf y.b.addr)).nat,
        (rScaleDenom (x.a.value h) (h.buf y.b.addr)).neg != (rScaleDenom (y.a.value h) (h.buf x.b.addr)).neg⟩,
        rScaleDenom (y.a.value h) (h.buf x.b.addr)⟩ := by
      rw [← e1, ← e2, ← e3, ← b5]; rfl
    rw [ev] at this
    exact this

theorem rInner_spec (op : RatOp) (h : Heap) (x y : HRat) (hxa : x.a.addr < h.next) (hxb : x.b.addr < h.next)
    (hya : y.a.addr < h.next) (hyb : y.b.addr < h.next) :
    RNew h (op.innerFn (x.value h) (y.value h)) (op.inner h x y) := by
  cases op
  · exact hrAddSub_spec false h x y hxa hxb hya hyb
  · exact hrAddSub_spec true h x y hxa hxb hya hyb
  · exact hrMul_spec h x y hxa hxb hya hyb
  · exact hrDiv_spec h x y hxa hxb hya hyb

theorem hrOp_spec (op : RatOp) (h : Heap) (x y : HRat) (hxa : x.a.addr < h.next) (hxb : x.b.addr < h.next)
    (hya : y.a.addr < h.next) (hyb : y.b.addr < h.next) : RNew h (op.fn (x.value h) (y.value h)) (hrOp op h x y) := by
  have hf : op.fn (x.value h) (y.value h) = if hrIsNan h x || hrIsNan h y then .ok rNan
      else op.innerFn (x.value h) (y.value h) := by cases op <;> rfl
  rw [hf]
  unfold hrOp
  split
  · exact hrNew_new h rNan
  · exact rInner_spec op h x y hxa hxb hya hyb

theorem hrAssign_spec (op : RatOp) (h : Heap) (x y : HRat) (hxa : x.a.addr < h.next) (hxb : x.b.addr < h.next)
    (hya : y.a.addr < h.next) (hyb : y.b.addr < h.next)
    (hn : (hrIsNan h x || (op != .mul && hrIsNan h y)) = false) :
    RNew h (op.assignFn (x.value h) (y.value h)) (hrAssign op h x y) := by
  have hf : op.assignFn (x.value h) (y.value h) = if hrIsNan h x || (op != .mul && hrIsNan h y) then .ok (rClear (x.value h))
      else op.innerFn (x.value h) (y.value h) := by
    cases op
    · rfl
    · rfl
    · show (if hrIsNan h x then _ else _) = (if (hrIsNan h x || false) then _ else _)
      rw [Bool.or_false]; rfl
    · rfl
  rw [hf]
  unfold hrAssign
  rw [hn]
  exact rInner_spec op h x y hxa hxb hya hyb

theorem hrAssign_nan (op : RatOp) (h : Heap) (x y : HRat) (hab : x.a.addr ≠ x.b.addr)
    (hn : (hrIsNan h x || (op != .mul && hrIsNan h y)) = true) :
    hrAssign op h x y = .ok (h.write x.a.addr [], x) ∧
    op.assignFn (x.value h) (y.value h) = .ok (x.value (h.write x.a.addr [])) := by
  refine ⟨by unfold hrAssign; rw [hn]; rfl, ?_⟩
  have hf : op.assignFn (x.value h) (y.value h) = if hrIsNan h x || (op != .mul && hrIsNan h y) then .ok (rClear (x.value h))
      else op.innerFn (x.value h) (y.value h) := by
    cases op
    · rfl
    · rfl
    · show (if hrIsNan h x then _ else _) = (if (hrIsNan h x || false) then _ else _)
      rw [Bool.or_false]; rfl
    · rfl
  rw [hf, hn]
  simp [rClear, HRat.value, HInt.value, write_buf_ne _ _ hab.symm]

end RMath
