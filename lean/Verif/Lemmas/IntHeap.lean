import Verif.Model.IntHeap
import Verif.Lemmas.RatHeap

/-!
# Lemmas on `Verif.Model.IntHeap`
-/

namespace RMath

open Heap

theorem hbAndNot_ne (h : Heap) (x y : HInt) (hx : x.addr < h.next) (hy : y.addr < h.next) (hxy : y.addr ≠ x.addr) :
    Upd h x.addr (.ok (bAndNotAssign (x.value h) (y.value h))) (hbAndNot h x y) := by
  have hs : seenBy h x y = h.buf y.addr := by rw [seenBy, if_neg hxy]
  unfold hbAndNot bAndNotAssign
  by_cases hn : x.neg = y.neg
  · rw [if_pos hn, if_pos (show (x.value h).neg = (y.value h).neg from hn)]
    by_cases hm : x.neg = true
    · rw [if_pos hm, if_pos (show (x.value h).neg = true from hm)]
      simp only [hAndNotAssign_spec]
      rw [hbBits_neg andNotAssign h x y hx hy, hs]
      exact upd_alloc hx
    · rw [if_neg hm, if_neg (show ¬ (x.value h).neg = true from hm), hAndNotAssign_spec]
      exact ⟨rfl, by simp [HInt.value], Nat.le_refl _, fun c _ hne => write_buf_ne _ _ hne⟩
  · rw [if_neg hn, if_neg (show ¬ (x.value h).neg = (y.value h).neg from hn)]
    by_cases hm : x.neg = true
    · rw [if_pos hm, if_pos (show (x.value h).neg = true from hm)]
      simp only [hAssignPrim_eq, hAssign_or, write_buf, write_write, write_buf_ne _ _ hxy]
      exact ⟨rfl, by simp [HInt.value, incW, decW], Nat.le_refl _, fun c _ hne => write_buf_ne _ _ hne⟩
    · rw [if_neg hm, if_neg (show ¬ (x.value h).neg = true from hm)]
      simp only [hOpPrim_eq, hAssign_and]
      have e1 : (h.alloc (opPrim subInnerBasic (h.buf y.addr) 1#32)).1.buf x.addr = h.buf x.addr :=
        alloc_buf_ne _ _ (by omega)
      have e2 : (h.alloc (opPrim subInnerBasic (h.buf y.addr) 1#32)).1.buf
          (h.alloc (opPrim subInnerBasic (h.buf y.addr) 1#32)).2 = natSubW (h.buf y.addr) 1#32 := alloc_buf _ _
      rw [e1, e2]
      exact upd_alloc hx

theorem hbRemEuclid_ne (h : Heap) (x y : HInt) (hy : y.addr < h.next) (hxy : y.addr ≠ x.addr) :
    Upd h x.addr (bRemEuclidInner (x.value h) (y.value h)) (hbRemEuclid h x y) := by
  have h1 := hbAssign_rem h x y hxy
  unfold hbRemEuclid bRemEuclidInner
  revert h1
  rcases bRemInner (x.value h) (y.value h) with e | v <;> rcases hbRem h x y with e' | ⟨h', x'⟩
  · exact fun h => h
  · exact fun h => h.elim
  · exact fun h => h.elim
  rintro ⟨e1, e2, e3, e4⟩
  have ey : y.value h' = y.value h := by simp only [HInt.value]; rw [e4 _ hy hxy]
  simp only [bind, Except.bind, e2, ey]
  by_cases hn : bIsNegative v = true
  · rw [if_pos hn, if_pos hn]
    by_cases hm : bIsNegative (y.value h) = true
    · rw [if_pos hm, if_pos hm]
      have h2 := hbAssign_arith (op := .sub) (by simp) h' x' y
      rw [e2, ey, e1] at h2
      revert h2
      show Upd h' x.addr (.ok (bSubInner v (y.value h))) (hbSub h' x' y) → _
      rcases hbSub h' x' y with e' | ⟨h'', x''⟩
      · exact fun h => h.elim
      · rintro ⟨f1, f2, f3, f4⟩
        exact ⟨f1, f2, by omega, fun c hc hne => by rw [f4 c (by omega) hne, e4 c hc hne]⟩
    · rw [if_neg hm, if_neg hm]
      have h2 := hbAssign_arith (op := .add) (by simp) h' x' y
      rw [e2, ey, e1] at h2
      revert h2
      show Upd h' x.addr (.ok (bAddInner v (y.value h))) (hbAdd h' x' y) → _
      rcases hbAdd h' x' y with e' | ⟨h'', x''⟩
      · exact fun h => h.elim
      · rintro ⟨f1, f2, f3, f4⟩
        exact ⟨f1, f2, by omega, fun c hc hne => by rw [f4 c (by omega) hne, e4 c hc hne]⟩
  · rw [if_neg hn, if_neg hn]
    exact ⟨e1, e2, e3, e4⟩

/-- `out` is the heap after a call that stored `r` in a new buffer and touched no other -/
def New (h : Heap) (r : Res BInt) (out : Res (Heap × HInt)) : Prop :=
  match r, out with
  | .ok v, .ok (h', x') => Ext h h' ∧ x'.value h' = v ∧ h.next ≤ x'.addr ∧ x'.addr < h'.next
  | .error e, .error e' => e = e'
  | _, _ => False

theorem new_of_upd {h : Heap} {w : Words} {r : Res BInt} {out : Res (Heap × HInt)}
    (hu : Upd (h.alloc w).1 h.next r out) : New h r out := by
  rcases r with e | v <;> rcases out with e' | ⟨h', x'⟩
  · exact hu
  · exact hu
  · exact hu
  · obtain ⟨e1, e2, e3, e4⟩ := hu
    have e3' : h.next + 1 ≤ h'.next := e3
    exact ⟨⟨by omega, fun c hc => by rw [e4 c (Nat.lt_succ_of_lt hc) (by omega), alloc_buf_ne _ _ (by omega)]⟩, e2,
      by omega, by omega⟩

theorem hbOp_new (op : NatOp) (h : Heap) (x y : HInt) (hy : y.addr < h.next) :
    New h (op.bfn (bDeepClone (x.value h)) (y.value h)) (hbOp op h x y) := by
  have := hbAssign_ne op (h.alloc (deepClone (h.buf x.addr))).1 ⟨h.next, x.neg⟩ y (Nat.lt_succ_self _)
    (Nat.lt_succ_of_lt hy) (by show y.addr ≠ h.next; omega)
  have e1 : HInt.value (h.alloc (deepClone (h.buf x.addr))).1 ⟨h.next, x.neg⟩ = bDeepClone (x.value h) := by
    simp [HInt.value, alloc, bDeepClone]
  have e2 : HInt.value (h.alloc (deepClone (h.buf x.addr))).1 y = y.value h := by
    simp only [HInt.value]; rw [alloc_buf_ne _ _ (by omega)]
  rw [e1, e2] at this
  exact new_of_upd this

theorem hbDivEuclid_ne (h : Heap) (x y : HInt) (hx : x.addr < h.next) (hy : y.addr < h.next) (hxy : y.addr ≠ x.addr) :
    Upd h x.addr (bDivEuclidInner (x.value h) (y.value h)) (hbDivEuclid h x y) := by
  have h1 := hbOp_new .rem h x y hy
  unfold hbDivEuclid bDivEuclidInner bRem
  revert h1
  show New h (bRemInner (bDeepClone (x.value h)) (y.value h)) _ → _
  rcases bRemInner (bDeepClone (x.value h)) (y.value h) with e | m <;> rcases hbOp .rem h x y with e' | ⟨h1, m'⟩
  · exact fun h => h
  · exact fun h => h.elim
  · exact fun h => h.elim
  rintro ⟨a1, a2, a3, a4⟩
  have ey : y.value h1 = y.value h := a1.value hy
  have ex : x.value h1 = x.value h := a1.value hx
  have h2 := hbAssign_div h1 x y hxy
  rw [ex, ey] at h2
  simp only [bind, Except.bind, ey]
  revert h2
  rcases bDivInner (x.value h) (y.value h) with e | q <;> rcases hbDiv h1 x y with e' | ⟨h2, q'⟩
  · exact fun h => h
  · exact fun h => h.elim
  · exact fun h => h.elim
  rintro ⟨b1, b2, b3, b4⟩
  have em : m'.value h2 = m := by
    rw [← a2]
    simp only [HInt.value]
    rw [b4 _ a4 (by omega)]
  have hold : ∀ c, c < h.next → c ≠ x.addr → h2.buf c = h.buf c := fun c hc hne => by
    rw [b4 c (Nat.lt_of_lt_of_le hc a1.1) hne, a1.2 c hc]
  have hnext : h.next ≤ h2.next := Nat.le_trans a1.1 b3
  simp only [em]
  by_cases hn : bIsNegative m = true
  swap
  · rw [if_neg hn, if_neg hn]
    exact ⟨b1, b2, hnext, hold⟩
  rw [if_pos hn, if_pos hn]
  obtain ⟨c1, c2, c3⟩ := hbNew_spec h2 bOne
  have eq' : q'.value (hbNew h2 bOne).1 = q := by
    rw [c1.value (by omega), b2]
  by_cases hp : bIsPositive (y.value h) = true
  · rw [if_pos hp, if_pos hp]
    have h3 := hbAssign_arith (op := .sub) (by simp) (hbNew h2 bOne).1 q' (hbNew h2 bOne).2
    rw [eq', show HInt.value (hbNew h2 bOne).1 (hbNew h2 bOne).2 = bOne by first | exact c3 | exact c3.1 | exact c3.2, b1] at h3
    revert h3
    show Upd _ x.addr (.ok (bSubInner q bOne)) (hbSub _ _ _) → _
    rcases hbSub (hbNew h2 bOne).1 q' (hbNew h2 bOne).2 with e' | ⟨h3, x3⟩
    · exact fun h => h.elim
    · rintro ⟨f1, f2, f3, f4⟩
      have := c1.1
      exact ⟨f1, f2, by omega, fun c hc hne => by rw [f4 c (by omega) hne, c1.2 c (by omega), hold c hc hne]⟩
  · rw [if_neg hp, if_neg hp]
    have h3 := hbAssign_arith (op := .add) (by simp) (hbNew h2 bOne).1 q' (hbNew h2 bOne).2
    rw [eq', show HInt.value (hbNew h2 bOne).1 (hbNew h2 bOne).2 = bOne by first | exact c3 | exact c3.1 | exact c3.2, b1] at h3
    revert h3
    show Upd _ x.addr (.ok (bAddInner q bOne)) (hbAdd _ _ _) → _
    rcases hbAdd (hbNew h2 bOne).1 q' (hbNew h2 bOne).2 with e' | ⟨h3, x3⟩
    · exact fun h => h.elim
    · rintro ⟨f1, f2, f3, f4⟩
      have := c1.1
      exact ⟨f1, f2, by omega, fun c hc hne => by rw [f4 c (by omega) hne, c1.2 c (by omega), hold c hc hne]⟩

theorem hiAssign_ne (op : IntOp) (h : Heap) (x y : HInt) (hx : x.addr < h.next) (hy : y.addr < h.next)
    (hxy : y.addr ≠ x.addr) : Upd h x.addr (op.fn (x.value h) (y.value h)) (hiAssign op h x y) := by
  cases op with
  | nat o => exact hbAssign_ne o h x y hx hy hxy
  | andNot => exact hbAndNot_ne h x y hx hy hxy
  | remEuclid => exact hbRemEuclid_ne h x y hy hxy
  | divEuclid => exact hbDivEuclid_ne h x y hx hy hxy

theorem hiOp_new (op : IntOp) (h : Heap) (x y : HInt) (hy : y.addr < h.next) :
    New h (op.fn (bDeepClone (x.value h)) (y.value h)) (hiOp op h x y) := by
  have := hiAssign_ne op (h.alloc (deepClone (h.buf x.addr))).1 ⟨h.next, x.neg⟩ y (Nat.lt_succ_self _)
    (Nat.lt_succ_of_lt hy) (by show y.addr ≠ h.next; omega)
  have e1 : HInt.value (h.alloc (deepClone (h.buf x.addr))).1 ⟨h.next, x.neg⟩ = bDeepClone (x.value h) := by
    simp [HInt.value, alloc, bDeepClone]
  have e2 : HInt.value (h.alloc (deepClone (h.buf x.addr))).1 y = y.value h := by
    simp only [HInt.value]; rw [alloc_buf_ne _ _ (by omega)]
  rw [e1, e2] at this
  exact new_of_upd this

theorem hbShift_upd (left : Bool) (h : Heap) (x : HInt) (s : Nat) :
    Upd h x.addr (.ok (shiftFn left (x.value h) s)) (.ok (hbShift left h x s)) := by
  unfold hbShift shiftFn
  cases left
  · simp only [Bool.false_eq_true, if_false]
    unfold hbShr bShrInner
    by_cases hn : x.neg = true
    · rw [if_pos hn, if_pos (show (x.value h).neg = true from hn)]
      simp only [hAssignPrim_eq, write_buf, write_write]
      exact ⟨rfl, by simp [HInt.value, incW, decW], Nat.le_refl _, fun c _ hne => write_buf_ne _ _ hne⟩
    · rw [if_neg hn, if_neg (show ¬ (x.value h).neg = true from hn), hAssignPrim_eq]
      exact ⟨rfl, by simp [HInt.value, hn], Nat.le_refl _, fun c _ hne => write_buf_ne _ _ hne⟩
  · simp only [if_true]
    unfold hbShl bShlInner
    rw [hAssignPrim_eq]
    exact ⟨rfl, by simp [HInt.value], Nat.le_refl _, fun c _ hne => write_buf_ne _ _ hne⟩

theorem hbShift_new (left : Bool) (h : Heap) (x : HInt) (s : Nat) :
    New h (.ok (shiftFn left (bDeepClone (x.value h)) s))
      (.ok (hbShift left (h.alloc (deepClone (h.buf x.addr))).1 ⟨(h.alloc (deepClone (h.buf x.addr))).2, x.neg⟩ s)) := by
  have := hbShift_upd left (h.alloc (deepClone (h.buf x.addr))).1 ⟨h.next, x.neg⟩ s
  have e1 : HInt.value (h.alloc (deepClone (h.buf x.addr))).1 ⟨h.next, x.neg⟩ = bDeepClone (x.value h) := by
    simp [HInt.value, alloc, bDeepClone]
  rw [e1] at this
  exact new_of_upd this

theorem hbNew_new (h : Heap) (v : BInt) : New h (.ok v) (.ok (hbNew h v)) := by
  refine ⟨ext_alloc h v.nat, ?_, Nat.le_refl _, Nat.lt_succ_self _⟩
  simp [hbNew, HInt.value, alloc]

end RMath
