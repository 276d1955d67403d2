import Verif.Model.Heap
import Verif.Lemmas.BigInt

/-! Lemmas about the heap of buffers. -/

namespace RMath

namespace Heap

theorem ext' {h k : Heap} (h1 : ∀ a, h.buf a = k.buf a) (h2 : h.next = k.next) : h = k := by
  cases h; cases k
  simp only at h1 h2
  rw [h2, funext h1]

@[simp] theorem write_buf (h : Heap) (a : Nat) (v : Words) : (h.write a v).buf a = v := by simp [write]

theorem write_buf_ne (h : Heap) {a b : Nat} (v : Words) (hb : b ≠ a) : (h.write a v).buf b = h.buf b := by
  simp [write, hb]

@[simp] theorem write_next (h : Heap) (a : Nat) (v : Words) : (h.write a v).next = h.next := rfl

@[simp] theorem write_write (h : Heap) (a : Nat) (v w : Words) : (h.write a v).write a w = h.write a w := by
  refine ext' (fun b => ?_) rfl
  by_cases hb : b = a
  · subst hb; simp
  · rw [write_buf_ne _ _ hb, write_buf_ne _ _ hb, write_buf_ne _ _ hb]

theorem write_self (h : Heap) (a : Nat) : h.write a (h.buf a) = h := by
  refine ext' (fun b => ?_) rfl
  by_cases hb : b = a
  · subst hb; simp
  · rw [write_buf_ne _ _ hb]

theorem alloc_buf (h : Heap) (v : Words) : (h.alloc v).1.buf h.next = v := by simp [alloc]

theorem alloc_buf_ne (h : Heap) {b : Nat} (v : Words) (hb : b ≠ h.next) : (h.alloc v).1.buf b = h.buf b := by
  simp [alloc, hb]

end Heap

open Heap

/-- the words a zip loop writes, and the final state -/
def zipS {S : Type} (f : S → W → W → W × S) : S → Words → Words → Words × S
  | s, x :: xs, y :: ys =>
    let r := f s x y
    let t := zipS f r.2 xs ys
    (r.1 :: t.1, t.2)
  | s, _, _ => ([], s)

theorem zipS_length {S : Type} (f : S → W → W → W × S) (xs : Words) :
    ∀ (s : S) (ys : Words), (zipS f s xs ys).1.length = min xs.length ys.length := by
  induction xs with
  | nil => intro s ys; simp [zipS]
  | cons x xs ih =>
    intro s ys
    rcases ys with _ | ⟨y, ys⟩
    · simp [zipS]
    · simp [zipS, ih]

/-- The zip loop gives the same result whether or not the two buffers are the same. -/
theorem hZip_spec {S : Type} (f : S → W → W → W × S) (a b : Nat) (k : Nat) :
    ∀ (s : S) (h : Heap) (pre xs ys : Words), h.buf a = pre ++ xs → (h.buf b).drop pre.length = ys →
      k = min xs.length ys.length →
      hZip f a b k pre.length s h = (h.write a (pre ++ (zipS f s xs ys).1 ++ xs.drop k), (zipS f s xs ys).2) := by
  induction k with
  | zero =>
    intro s h pre xs ys h1 h2 hk
    have hz : zipS f s xs ys = ([], s) := by
      rcases xs with _ | ⟨x, xs⟩
      · rfl
      · rcases ys with _ | ⟨y, ys⟩
        · rfl
        · simp at hk
    rw [hZip, hz, List.drop_zero, List.append_nil, ← h1, write_self]
  | succ k ih =>
    intro s h pre xs ys h1 h2 hk
    rcases xs with _ | ⟨x, xs⟩
    · simp at hk
    rcases ys with _ | ⟨y, ys⟩
    · simp at hk
    have ha : h.word a pre.length = x := by simp [word, h1]
    have hb : h.word b pre.length = y := by
      have := congrArg (fun l : Words => l.getD 0 0#32) h2
      simp only [List.getD_cons_zero] at this
      rw [word, ← this]
      simp [List.getD_eq_getElem?_getD, List.getElem?_drop]
    rw [hZip, ha, hb]
    set r := f s x y with hr
    have hset : (h.setWord a pre.length r.1) = h.write a ((pre ++ [r.1]) ++ xs) := by
      rw [setWord, h1, List.append_assoc, List.set_append_right _ _ (Nat.le_refl _)]
      simp
    rw [hset]
    have hl : (pre ++ [r.1]).length = pre.length + 1 := by simp
    rw [← hl]
    have h3 : ((h.write a (pre ++ [r.1] ++ xs)).buf b).drop (pre ++ [r.1]).length = ys := by
      by_cases hab : b = a
      · subst hab
        rw [write_buf, List.drop_left]
        rw [h1, List.drop_left] at h2
        exact (List.cons.inj h2).2
      · rw [write_buf_ne _ _ hab, hl, ← List.drop_drop, h2]
        rfl
    rw [ih r.2 _ (pre ++ [r.1]) xs ys (by simp) h3 (by simp at hk; omega)]
    rw [write_write, zipS]
    simp only [← hr, List.append_assoc, List.cons_append, List.nil_append, List.drop_succ_cons]

theorem hZip_spec0 {S : Type} (f : S → W → W → W × S) (a b : Nat) (s : S) (h : Heap) :
    hZip f a b (min (h.buf a).length (h.buf b).length) 0 s h =
      (h.write a ((zipS f s (h.buf a) (h.buf b)).1 ++ (h.buf a).drop (h.buf b).length),
        (zipS f s (h.buf a) (h.buf b)).2) := by
  have := hZip_spec f a b _ s h [] (h.buf a) (h.buf b) rfl (by simp) rfl
  rw [List.length_nil, List.nil_append] at this
  rw [this]
  congr 3
  rcases Nat.le_total (h.buf a).length (h.buf b).length with hl | hl
  · rw [Nat.min_eq_left hl, List.drop_eq_nil_of_le (Nat.le_refl _), List.drop_eq_nil_of_le hl]
  · rw [Nat.min_eq_right hl]

theorem hAdcTail_spec (a : Nat) (k : Nat) : ∀ (c : Bool) (h : Heap) (pre xs : Words), h.buf a = pre ++ xs → k = xs.length →
    hAdcTail a k pre.length c h = (h.write a (pre ++ (adcTail c xs).1), (adcTail c xs).2) := by
  induction k with
  | zero =>
    intro c h pre xs h1 hk
    have : xs = [] := List.eq_nil_of_length_eq_zero hk.symm
    subst this
    rw [hAdcTail, adcTail, ← h1, write_self]
  | succ k ih =>
    intro c h pre xs h1 hk
    rcases xs with _ | ⟨x, xs⟩
    · simp at hk
    have ha : h.word a pre.length = x := by simp [word, h1]
    rw [hAdcTail, ha]
    set r := adc c x 0#32 with hr
    have hset : (h.setWord a pre.length r.1) = h.write a ((pre ++ [r.1]) ++ xs) := by
      rw [setWord, h1, List.append_assoc, List.set_append_right _ _ (Nat.le_refl _)]
      simp
    have hl : (pre ++ [r.1]).length = pre.length + 1 := by simp
    rw [hset, ← hl, ih r.2 _ (pre ++ [r.1]) xs (by simp) (by simpa using hk), write_write, adcTail]
    simp only [← hr, List.append_assoc, List.cons_append, List.nil_append]

theorem adc_zero_left (c : Bool) (b : W) : adc c 0#32 b = adc c b 0#32 := by
  simp only [adc, BitVec.toNat_ofNat, Nat.zero_mod, zero_add, add_zero]

theorem hAdcPush_spec {a b : Nat} (hab : b ≠ a) (k : Nat) : ∀ (i : Nat) (c : Bool) (h : Heap) (ys : Words),
    (h.buf b).drop i = ys → k = ys.length →
    hAdcPush a b k i c h = (h.write a (h.buf a ++ (adcTail c ys).1), (adcTail c ys).2) := by
  induction k with
  | zero =>
    intro i c h ys h1 hk
    have : ys = [] := List.eq_nil_of_length_eq_zero hk.symm
    subst this
    rw [hAdcPush, adcTail, List.append_nil, write_self]
  | succ k ih =>
    intro i c h ys h1 hk
    rcases ys with _ | ⟨y, ys⟩
    · simp at hk
    have hb : h.word b i = y := by
      have := congrArg (fun l : Words => l.getD 0 0#32) h1
      simp only [List.getD_cons_zero] at this
      rw [word, ← this]
      simp [List.getD_eq_getElem?_getD, List.getElem?_drop]
    rw [hAdcPush, hb, adc_zero_left]
    set r := adc c y 0#32 with hr
    rw [ih (i + 1) r.2 (h.push a r.1) ys (by
      rw [push, write_buf_ne _ _ hab, ← List.drop_drop, h1]; rfl) (by simpa using hk), push, write_buf, write_write,
      adcTail]
    simp only [← hr, List.append_assoc, List.cons_append, List.nil_append]

theorem adcZip_eq (x : Words) : ∀ (c : Bool) (y : Words), adcZip c x y = zipS adc c x y := by
  induction x with
  | nil => intro c y; simp [adcZip, zipS]
  | cons a x ih =>
    intro c y
    rcases y with _ | ⟨b, y⟩
    · simp [adcZip, zipS]
    · simp only [adcZip, zipS, ih]

/-- `add_inner` does what the value model says, for all pairs of buffers. -/
theorem hAddInner_spec (h : Heap) (a b : Nat) : hAddInner h a b = h.write a (addInner (h.buf a) (h.buf b)) := by
  unfold hAddInner addInner
  simp only [hZip_spec0, adcZip_eq]
  have hlen := zipS_length adc (h.buf a) false (h.buf b)
  set z := zipS adc false (h.buf a) (h.buf b) with hz
  by_cases hl : (h.buf b).length ≤ (h.buf a).length
  · simp only [if_pos hl]
    have hzl : z.1.length = (h.buf b).length := by omega
    have := hAdcTail_spec a ((h.buf a).length - (h.buf b).length) z.2
      (h.write a (z.1 ++ (h.buf a).drop (h.buf b).length)) z.1 ((h.buf a).drop (h.buf b).length) (by simp) (by simp)
    rw [hzl] at this
    rw [this, write_write]
    set t := adcTail z.2 ((h.buf a).drop (h.buf b).length)
    by_cases ht : t.2
    · simp [ht, push]
    · simp [ht]
  · simp only [if_neg hl]
    have hab : b ≠ a := by rintro rfl; omega
    have hd : (h.buf a).drop (h.buf b).length = [] := List.drop_eq_nil_of_le (by omega)
    rw [hd, List.append_nil]
    have := hAdcPush_spec hab ((h.buf b).length - (h.buf a).length) (h.buf a).length z.2 (h.write a z.1)
      ((h.buf b).drop (h.buf a).length) (by rw [write_buf_ne _ _ hab]) (by simp)
    rw [this, write_write, write_buf]
    set t := adcTail z.2 ((h.buf b).drop (h.buf a).length)
    by_cases ht : t.2
    · simp [ht, push]
    · simp [ht]

theorem hSbbTail_spec (a : Nat) (k : Nat) : ∀ (c : Bool) (h : Heap) (pre xs : Words), h.buf a = pre ++ xs → k = xs.length →
    hSbbTail a k pre.length c h = h.write a (pre ++ sbbTail c xs) := by
  induction k with
  | zero =>
    intro c h pre xs h1 hk
    have : xs = [] := List.eq_nil_of_length_eq_zero hk.symm
    subst this
    rw [hSbbTail, sbbTail, ← h1, write_self]
  | succ k ih =>
    intro c h pre xs h1 hk
    rcases xs with _ | ⟨x, xs⟩
    · simp at hk
    have ha : h.word a pre.length = x := by simp [word, h1]
    rw [hSbbTail, ha, sbbTail]
    by_cases hc : c
    · rw [if_pos hc, if_pos hc]
      simp only []
      set r := sbb c x 0#32 with hr
      have hset : (h.setWord a pre.length r.1) = h.write a ((pre ++ [r.1]) ++ xs) := by
        rw [setWord, h1, List.append_assoc, List.set_append_right _ _ (Nat.le_refl _)]
        simp
      have hl : (pre ++ [r.1]).length = pre.length + 1 := by simp
      rw [hset, ← hl, ih r.2 _ (pre ++ [r.1]) xs (by simp) (by simpa using hk), write_write]
      simp only [List.append_assoc, List.cons_append, List.nil_append]
    · rw [if_neg hc, if_neg hc, ← h1, write_self]

theorem sbbZip_eq (g : Bool) (x : Words) : ∀ (c : Bool) (y : Words),
    sbbZip g c x y = zipS (fun c x y => if g then sbb c x y else sbb c y x) c x y := by
  induction x with
  | nil => intro c y; simp [sbbZip, zipS]
  | cons a x ih =>
    intro c y
    rcases y with _ | ⟨b, y⟩
    · simp [sbbZip, zipS]
    · simp only [sbbZip, zipS, ih]

theorem hSubInner_spec (h : Heap) (a b : Nat) : hSubInner h a b = h.write a (subInner (h.buf a) (h.buf b)) := by
  unfold hSubInner subInner subInnerWithSign
  simp only [sbbZip_eq]
  set g := geOp (h.buf a) (h.buf b) with hg
  set f : Bool → W → W → W × Bool := fun c x y => if g then sbb c x y else sbb c y x with hf
  set h0 : Heap := if g then h else h.write a (resize (h.buf a) (h.buf b).length) with hh0
  have ha : (if g then h.buf a else resize (h.buf a) (h.buf b).length) = h0.buf a := by
    rw [hh0]; split <;> simp
  have hb : h.buf b = h0.buf b := by
    rw [hh0]
    split
    · rfl
    · by_cases hab : b = a
      · subst hab
        rw [write_buf, resize]
        simp
      · rw [write_buf_ne _ _ hab]
  have hw : ∀ v, h.write a v = h0.write a v := by
    intro v; rw [hh0]; split
    · rfl
    · rw [write_write]
  rw [ha, hb, hw, hZip_spec0]
  clear_value h0 f
  clear hw hb ha hh0 hf hg
  have hlen := zipS_length f (h0.buf a) false (h0.buf b)
  set z := zipS f false (h0.buf a) (h0.buf b) with hz
  have hd : (h0.buf a).drop (h0.buf b).length = (h0.buf a).drop z.1.length := by
    rw [hlen]
    rcases Nat.le_total (h0.buf a).length (h0.buf b).length with hl | hl
    · rw [Nat.min_eq_left hl, List.drop_eq_nil_of_le (Nat.le_refl _), List.drop_eq_nil_of_le hl]
    · rw [Nat.min_eq_right hl]
  have hbl : ((h0.write a (z.1 ++ (h0.buf a).drop (h0.buf b).length)).buf b).length = (h0.buf b).length := by
    by_cases hab : b = a
    · subst hab
      simp [hlen]
    · rw [write_buf_ne _ _ hab]
  simp only [hbl, write_buf]
  by_cases hc : (g && z.2) = true
  · simp only [hc, if_true]
    rcases Nat.lt_or_ge (h0.buf a).length (h0.buf b).length with hl | hl
    · have e1 : (h0.buf a).drop (h0.buf b).length = [] := List.drop_eq_nil_of_le (by omega)
      have e2 : (z.1 ++ ([] : Words)).length - (h0.buf b).length = 0 := by rw [List.append_nil, hlen]; omega
      rw [← hd, e1, e2, hSbbTail, sbbTail, write_buf, write_write]
    · have hzl : z.1.length = (h0.buf b).length := by omega
      have := hSbbTail_spec a ((z.1 ++ (h0.buf a).drop (h0.buf b).length).length - (h0.buf b).length) z.2
        (h0.write a (z.1 ++ (h0.buf a).drop (h0.buf b).length)) z.1 ((h0.buf a).drop (h0.buf b).length) (by simp)
        (by rw [List.length_append]; omega)
      rw [hzl] at this
      rw [this, write_write, write_buf, write_write, hzl]
  · simp only [hc]
    rw [if_neg (by simp), if_neg (by simp), write_buf, write_write, hd]

theorem hMulInner_spec (h : Heap) (a b : Nat) : hMulInner h a b = h.write a (mulInner (h.buf a) (h.buf b)) := by
  unfold hMulInner mulInner
  split
  · rfl
  split
  · split
    · rfl
    · rename_i hab
      rw [not_not] at hab
      rw [← hab, write_self]
  split
  · rfl
  · rw [write_self]

theorem hBits_spec (f : W → W → W) (h : Heap) (a b : Nat) :
    hBits f h a b = h.write a (zipKeep f (h.buf a) (h.buf b)) := by
  rw [hBits, hZip_spec0]
  refine congrArg (h.write a) ?_
  generalize h.buf a = x
  generalize h.buf b = y
  induction x generalizing y with
  | nil => rcases y with _ | ⟨b, y⟩ <;> simp [zipS, zipKeep]
  | cons a x ih =>
    rcases y with _ | ⟨b, y⟩
    · simp [zipS, zipKeep]
    · simp only [zipS, zipKeep, List.length_cons, List.drop_succ_cons, List.cons_append, ih]

theorem hPushRest_spec {a b : Nat} (hab : b ≠ a) (k : Nat) : ∀ (i : Nat) (h : Heap) (ys : Words),
    (h.buf b).drop i = ys → k = ys.length → hPushRest a b k i h = h.write a (h.buf a ++ ys) := by
  induction k with
  | zero =>
    intro i h ys h1 hk
    have : ys = [] := List.eq_nil_of_length_eq_zero hk.symm
    subst this
    rw [hPushRest, List.append_nil, write_self]
  | succ k ih =>
    intro i h ys h1 hk
    rcases ys with _ | ⟨y, ys⟩
    · simp at hk
    have hb : h.word b i = y := by
      have := congrArg (fun l : Words => l.getD 0 0#32) h1
      simp only [List.getD_cons_zero] at this
      rw [word, ← this]
      simp [List.getD_eq_getElem?_getD, List.getElem?_drop]
    rw [hPushRest, hb]
    rw [ih (i + 1) (h.push a y) ys (by
      rw [push, write_buf_ne _ _ hab, ← List.drop_drop, h1]; rfl) (by simpa using hk), push, write_buf, write_write,
      List.append_assoc]
    rfl

theorem hBitandInner_spec (h : Heap) (a b : Nat) :
    hBitandInner h a b = h.write a (bitandInner (h.buf a) (h.buf b)) := by
  unfold hBitandInner bitandInner
  simp only [hBits_spec, write_buf, write_write]
  have : ((h.write a (zipKeep (· &&& ·) (h.buf a) (h.buf b))).buf b).length = (h.buf b).length := by
    by_cases hab : b = a
    · subst hab; rw [write_buf, zipKeep_length]
    · rw [write_buf_ne _ _ hab]
  rw [this, zipKeep_length]

theorem pushRest_keep (f : W → W → W) (h : Heap) (a b : Nat) :
    (let k := h.write a (zipKeep f (h.buf a) (h.buf b))
     let mi := (k.buf a).length
     let ma := (k.buf b).length
     if mi < ma then hPushRest a b (ma - mi) mi k else k) =
      h.write a (zipKeep f (h.buf a) (h.buf b) ++ (h.buf b).drop (h.buf a).length) := by
  simp only [write_buf, zipKeep_length]
  by_cases hab : b = a
  · subst hab
    rw [write_buf, zipKeep_length, if_neg (by omega), List.drop_eq_nil_of_le (Nat.le_refl _), List.append_nil]
  · rw [write_buf_ne _ _ hab]
    split
    · rw [hPushRest_spec hab _ _ _ ((h.buf b).drop (h.buf a).length) (by rw [write_buf_ne _ _ hab]) (by simp),
        write_buf, write_write]
    · rw [List.drop_eq_nil_of_le (by omega), List.append_nil]

theorem hBitorInner_spec (h : Heap) (a b : Nat) :
    hBitorInner h a b = h.write a (bitorInner (h.buf a) (h.buf b)) := by
  unfold hBitorInner bitorInner
  rw [hBits_spec]
  exact pushRest_keep _ h a b

theorem hBitxorInner_spec (h : Heap) (a b : Nat) :
    hBitxorInner h a b = h.write a (bitxorInner (h.buf a) (h.buf b)) := by
  unfold hBitxorInner bitxorInner
  rw [hBits_spec]
  have := pushRest_keep (· ^^^ ·) h a b
  simp only [] at this ⊢
  rw [this, write_buf, write_write]

theorem hAndNotAssign_spec (h : Heap) (a b : Nat) :
    hAndNotAssign h a b = h.write a (andNotAssign (h.buf a) (h.buf b)) := by
  unfold hAndNotAssign andNotAssign
  simp only [hBits_spec, write_buf, write_write]

theorem hDivLoop_spec {a b : Nat} (hab : b ≠ a) (fuel : Nat) : ∀ (sc : Words) (h : Heap),
    hDivLoop a b (bitsLen (h.buf b)) fuel sc h = (divLoop (h.buf b) fuel sc (h.buf a)).map (h.write a) := by
  induction fuel with
  | zero => intro sc h; rfl
  | succ fuel ih =>
    intro sc h
    rw [hDivLoop, divLoop]
    split
    · simp [Except.map, write_self]
    split
    · rfl
    simp only []
    split
    · rename_i e he
      simp only [he]
      rfl
    · rename_i den shift he
      simp only [he]
      have := ih (subInner sc den) (h.write a (addInner (h.buf a) (u32Shl 1#32 shift)))
      rw [write_buf_ne _ _ hab, write_buf] at this
      rw [this]
      cases divLoop (h.buf b) fuel (subInner sc den) (addInner (h.buf a) (u32Shl 1#32 shift)) with
      | error e => rfl
      | ok v => simp [Except.map, write_write]

theorem hDivInner_spec {a b : Nat} (hab : b ≠ a) (h : Heap) :
    hDivInner h a b = (divInner (h.buf a) (h.buf b)).map (h.write a) := by
  unfold hDivInner divInner
  split
  · rfl
  rw [if_neg hab.symm]
  simp only [write_buf_ne _ _ hab, write_write]
  split
  · rfl
  split
  · rfl
  have := hDivLoop_spec hab (val (deepClone (h.buf a)) + 2) (deepClone (h.buf a)) (h.write a [0#32])
  rw [write_buf_ne _ _ hab, write_buf] at this
  rw [this]
  cases divLoop (h.buf b) (val (deepClone (h.buf a)) + 2) (deepClone (h.buf a)) [0#32] with
  | error e => rfl
  | ok v => simp [Except.map, write_write]

theorem hRemLoop_spec {a b : Nat} (hab : b ≠ a) (fuel : Nat) : ∀ (h : Heap),
    hRemLoop a b (bitsLen (h.buf b)) fuel h = (remLoop (h.buf b) fuel (h.buf a)).map (h.write a) := by
  induction fuel with
  | zero => intro h; rfl
  | succ fuel ih =>
    intro h
    rw [hRemLoop, remLoop]
    split
    · simp [Except.map, write_self]
    split
    · rfl
    simp only []
    generalize (if cmpInner (h.buf a) (shlInner (h.buf b) (bitsLen (h.buf a) - bitsLen (h.buf b))) = Ordering.lt then
      shrInner (shlInner (h.buf b) (bitsLen (h.buf a) - bitsLen (h.buf b))) 1
      else shlInner (h.buf b) (bitsLen (h.buf a) - bitsLen (h.buf b))) = den
    have := ih (h.write a (subInner (h.buf a) den))
    rw [write_buf_ne _ _ hab, write_buf] at this
    rw [this]
    cases remLoop (h.buf b) fuel (subInner (h.buf a) den) with
    | error e => rfl
    | ok v => simp [Except.map, write_write]

theorem hRemInner_spec {a b : Nat} (hab : b ≠ a) (h : Heap) :
    hRemInner (val (h.buf a) + 2) h a b = (remInner (h.buf a) (h.buf b)).map (h.write a) := by
  unfold hRemInner remInner
  split
  · rfl
  split
  · simp [Except.map, write_self]
  rw [hRemLoop_spec hab]
  cases remLoop (h.buf b) (val (h.buf a) + 2) (h.buf a) with
  | error e => rfl
  | ok v => simp [Except.map, write_write]

/-! ## The operators -/

/-- the value model of the functions behind the operators -/
def NatOp.fn : NatOp → Words → Words → Res Words
  | .add, x, y => .ok (addInner x y)
  | .sub, x, y => .ok (subInner x y)
  | .mul, x, y => .ok (mulInner x y)
  | .div, x, y => divInner x y
  | .rem, x, y => remInner x y
  | .and, x, y => .ok (bitandInner x y)
  | .or, x, y => .ok (bitorInner x y)
  | .xor, x, y => .ok (bitxorInner x y)

theorem inner_alias {op : NatOp} (h1 : op ≠ .div) (h2 : op ≠ .rem) (h : Heap) (a b : Nat) :
    op.inner h a b = (op.fn (h.buf a) (h.buf b)).map (h.write a) := by
  cases op <;> first | exact absurd rfl h1 | exact absurd rfl h2 |
    simp only [NatOp.inner, NatOp.fn, Except.map, hAddInner_spec, hSubInner_spec, hMulInner_spec, hBitandInner_spec,
      hBitorInner_spec, hBitxorInner_spec]

theorem inner_ne (op : NatOp) (h : Heap) {a b : Nat} (hab : b ≠ a) :
    op.inner h a b = (op.fn (h.buf a) (h.buf b)).map (h.write a) := by
  by_cases h1 : op = .div
  · subst h1; exact hDivInner_spec hab h
  by_cases h2 : op = .rem
  · subst h2; exact hRemInner_spec hab h
  exact inner_alias h1 h2 h a b

theorem hAssign_ne (op : NatOp) (h : Heap) {a b : Nat} (hab : b ≠ a) :
    hAssign op h a b = (assignNatR op.fn (h.buf a) (h.buf b)).map (h.write a) := by
  unfold hAssign assignNatR
  split
  · rfl
  · exact inner_ne op h hab

theorem hAssign_alias {op : NatOp} (h1 : op ≠ .div) (h2 : op ≠ .rem) (h : Heap) (a b : Nat) :
    hAssign op h a b = (assignNatR op.fn (h.buf a) (h.buf b)).map (h.write a) := by
  unfold hAssign assignNatR
  split
  · rfl
  · exact inner_alias h1 h2 h a b

theorem hRemLoop_frame (a b l fuel : Nat) : ∀ h h' : Heap, hRemLoop a b l fuel h = .ok h' →
    h'.next = h.next ∧ ∀ c, c ≠ a → h'.buf c = h.buf c := by
  induction fuel with
  | zero => intro h h' he; cases he
  | succ fuel ih =>
    intro h h' he
    rw [hRemLoop] at he
    split at he
    · cases he; exact ⟨rfl, fun _ _ => rfl⟩
    split at he
    · cases he
    obtain ⟨e1, e2⟩ := ih _ _ he
    exact ⟨e1, fun c hc => by rw [e2 c hc, write_buf_ne _ _ hc]⟩

/-- no operator touches a buffer other than that of its left operand -/
theorem inner_frame (op : NatOp) (h h' : Heap) (a b : Nat) (he : op.inner h a b = .ok h') :
    h'.next = h.next ∧ ∀ c, c ≠ a → h'.buf c = h.buf c := by
  by_cases hab : b = a
  · subst hab
    by_cases h1 : op = .div
    · subst h1
      simp only [NatOp.inner, hDivInner, if_true] at he
      split at he
      · cases he
      · cases he
        exact ⟨rfl, fun c hc => write_buf_ne _ _ hc⟩
    by_cases h2 : op = .rem
    · subst h2
      simp only [NatOp.inner, hRemInner] at he
      split at he
      · cases he
      split at he
      · cases he; exact ⟨rfl, fun _ _ => rfl⟩
      split at he
      · rename_i k hk
        cases he
        obtain ⟨e1, e2⟩ := hRemLoop_frame _ _ _ _ _ _ hk
        exact ⟨e1, fun c hc => by rw [write_buf_ne _ _ hc, e2 c hc]⟩
      · cases he
    · rw [inner_alias h1 h2] at he
      cases hv : op.fn (h.buf b) (h.buf b) with
      | error e => rw [hv] at he; cases he
      | ok v => rw [hv] at he; cases he; exact ⟨rfl, fun c hc => write_buf_ne _ _ hc⟩
  · rw [inner_ne op h hab] at he
    cases hv : op.fn (h.buf a) (h.buf b) with
    | error e => rw [hv] at he; cases he
    | ok v => rw [hv] at he; cases he; exact ⟨rfl, fun c hc => write_buf_ne _ _ hc⟩

theorem hAssign_frame (op : NatOp) (h h' : Heap) (a b : Nat) (he : hAssign op h a b = .ok h') :
    h'.next = h.next ∧ ∀ c, c ≠ a → h'.buf c = h.buf c := by
  unfold hAssign at he
  split at he
  · cases he; exact ⟨rfl, fun c hc => write_buf_ne _ _ hc⟩
  · exact inner_frame op h h' a b he

theorem hOp_spec (op : NatOp) (h : Heap) {a b : Nat} (hb : b < h.next) :
    hOp op h a b = (opNatR op.fn (h.buf a) (h.buf b)).map h.alloc := by
  unfold hOp opNatR
  split
  · rfl
  simp only [show (h.alloc (deepClone (h.buf a))).2 = h.next from rfl]
  rw [inner_ne op _ (show b ≠ h.next by omega), alloc_buf_ne _ _ (show b ≠ h.next by omega), alloc_buf]
  cases op.fn (deepClone (h.buf a)) (h.buf b) with
  | error e => rfl
  | ok v =>
    simp only [Except.map]
    refine congrArg Except.ok (Prod.ext (ext' ?_ rfl) rfl)
    intro c
    simp only [write, alloc]
    split <;> rfl

theorem fn_enc (op : NatOp) (m n : Nat) (h : op = .div ∨ op = .rem → n ≠ 0) :
    op.fn (enc m) (enc n) = .ok (enc (op.spec m n)) := by
  cases op
  · exact congrArg Except.ok (addInner_enc m n)
  · exact congrArg Except.ok (subInner_enc m n)
  · exact congrArg Except.ok (mulInner_enc m n)
  · exact divInner_enc (h (Or.inl rfl))
  · exact remInner_enc (h (Or.inr rfl))
  · exact congrArg Except.ok (bitandInner_enc m n)
  · exact congrArg Except.ok (bitorInner_enc m n)
  · exact congrArg Except.ok (bitxorInner_enc m n)

theorem hRem_alias_panic {h : Heap} {a n : Nat} (ha : h.buf a = enc n) (hn : 2 ≤ n) (fuel : Nat) :
    hRemInner (fuel + 2) h a a = .error .panic := by
  unfold hRemInner
  rw [ha, ← enc_zero, eqv_enc, if_neg (by simp; omega), cmpInner_enc, if_neg (by simp)]
  rw [hRemLoop, ha, cmpInner_enc, if_neg (by simp), if_neg (by simp)]
  simp only [Nat.sub_self]
  rw [shlInner_enc (by omega), pow_zero, Nat.mul_one, cmpInner_enc, if_neg (by simp), subInner_enc_of_le (Nat.le_refl _),
    Nat.sub_self]
  rw [hRemLoop, write_buf, cmpInner_enc, if_neg (by simp), if_pos]
  rw [bitsLen_enc, bitsLen_enc]
  have h2 := lt_pow_bitLen n
  have h3 : bitLen 0 = 1 := by simp [bitLen]
  rw [h3]
  rcases Nat.lt_or_ge 1 (bitLen n) with h | h
  · exact h
  · have : 2 ^ bitLen n ≤ 2 ^ 1 := Nat.pow_le_pow_right (by norm_num) h
    omega

theorem hRemLoop_zero (a : Nat) (fuel : Nat) : ∀ h : Heap, h.buf a = enc 0 →
    hRemLoop a a 1 fuel h = .error .hang := by
  induction fuel with
  | zero => intro h _; rfl
  | succ fuel ih =>
    intro h ha
    rw [hRemLoop, ha, cmpInner_enc, if_neg (by simp), if_neg (by rw [bitsLen_enc]; simp [bitLen])]
    simp only []
    rw [bitsLen_enc, show bitLen 0 - 1 = 0 by simp [bitLen], shlInner_enc_zero (by norm_num), cmpInner_enc,
      if_neg (by simp), subInner_enc_of_le (Nat.le_refl _)]
    exact ih _ (by simp)

theorem hRem_alias_hang {h : Heap} {a : Nat} (ha : h.buf a = enc 1) (fuel : Nat) :
    hRemInner fuel h a a = .error .hang := by
  unfold hRemInner
  rw [ha, ← enc_zero, eqv_enc, if_neg (by simp), cmpInner_enc, if_neg (by simp)]
  rcases fuel with _ | fuel
  · rfl
  rw [hRemLoop, ha, cmpInner_enc, if_neg (by simp), if_neg (by simp)]
  simp only [Nat.sub_self]
  rw [shlInner_enc (by omega), pow_zero, Nat.mul_one, cmpInner_enc, if_neg (by simp), subInner_enc_of_le (Nat.le_refl _),
    Nat.sub_self, bitsLen_enc, show bitLen 1 = 1 from by decide, hRemLoop_zero a fuel _ (by simp)]

/-! ## Programs -/

/-- every variable is bound to an allocated buffer -/
def State.WF (s : State) : Prop := ∀ v, s.env v < s.heap.next

/-- no variable of `S` shares its buffer with a variable outside of `S` -/
def State.Separated (s : State) (S : Nat → Prop) : Prop := ∀ u v, S u → ¬S v → s.env u ≠ s.env v

/-- The statement assigns only to variables of `S`, rebinds only variables of `S`, and makes no variable of `S` share the
buffer of a variable outside of `S`.  (Reading variables outside of `S` is allowed.) -/
def Cmd.inside (S : Nat → Prop) : Cmd → Prop
  | .clone x y => S x ∧ S y
  | .deepClone x _ => S x
  | .op _ z _ _ => S z
  | .assign _ x _ => S x
  | .andNotAssign x _ => S x
  | .addWord x _ => S x
  | .subWord x _ => S x
  | .shl x _ => S x
  | .shr x _ => S x
  | .const x _ => S x

/-- what is needed from a step -/
def StepOk (s s' : State) (S : Nat → Prop) : Prop :=
  s'.WF ∧ s'.Separated S ∧ ∀ v, ¬S v → s'.env v = s.env v ∧ s'.heap.buf (s.env v) = s.heap.buf (s.env v)

theorem stepA {s : State} {S : Nat → Prop} (hw : s.WF) (hs : s.Separated S) {x : Nat} (hx : S x) {h' : Heap}
    (hf : h'.next = s.heap.next ∧ ∀ c, c ≠ s.env x → h'.buf c = s.heap.buf c) : StepOk s ⟨s.env, h'⟩ S :=
  ⟨fun v => by show s.env v < h'.next; rw [hf.1]; exact hw v, hs,
    fun v hv => ⟨rfl, hf.2 _ fun h => hs x v hx hv h.symm⟩⟩

theorem stepB {s : State} {S : Nat → Prop} (hw : s.WF) (hs : s.Separated S) {x : Nat} (hx : S x) (v : Words) :
    StepOk s (s.bind x (s.heap.alloc v).2 (s.heap.alloc v).1) S := by
  refine ⟨fun u => ?_, fun u v hu hv => ?_, fun u hu => ⟨?_, ?_⟩⟩
  · simp only [State.bind, alloc]
    have := hw u
    split <;> omega
  · simp only [State.bind, alloc]
    have := hw v
    split
    · rw [if_neg (by rintro rfl; exact hv hx)]
      omega
    · rw [if_neg (by rintro rfl; exact hv hx)]
      exact hs u v hu hv
  · simp only [State.bind]
    rw [if_neg (by rintro rfl; exact hu hx)]
  · simp only [State.bind]
    rw [alloc_buf_ne]
    have := hw u
    omega

theorem hAssignPrim_frame {α : Type} (f : Words → α → Words) (h : Heap) (a : Nat) (y : α) :
    (hAssignPrim f h a y).next = h.next ∧ ∀ c, c ≠ a → (hAssignPrim f h a y).buf c = h.buf c := by
  unfold hAssignPrim
  split <;> exact ⟨rfl, fun c hc => write_buf_ne _ _ hc⟩

theorem step_ok {s s' : State} {S : Nat → Prop} (hw : s.WF) (hs : s.Separated S) {c : Cmd} (hc : c.inside S)
    (he : c.step s = .ok s') : StepOk s s' S := by
  cases c with
  | clone x y =>
    cases he
    refine ⟨fun u => ?_, fun u v hu hv => ?_, fun u hu => ⟨?_, rfl⟩⟩
    · simp only [State.bind]
      split <;> exact hw _
    · simp only [State.bind]
      rw [if_neg (show v ≠ x by rintro rfl; exact hv hc.1)]
      split
      · exact hs y v hc.2 hv
      · exact hs u v hu hv
    · simp only [State.bind]
      rw [if_neg (by rintro rfl; exact hu hc.1)]
  | deepClone x y => cases he; exact stepB hw hs hc _
  | op o z x y =>
    simp only [Cmd.step] at he
    rw [hOp_spec o s.heap (hw y)] at he
    cases hv : opNatR o.fn (s.heap.buf (s.env x)) (s.heap.buf (s.env y)) with
    | error e => rw [hv] at he; cases he
    | ok v => rw [hv] at he; cases he; exact stepB hw hs hc _
  | assign o x y =>
    simp only [Cmd.step] at he
    split at he
    · rename_i h' hh
      cases he
      exact stepA hw hs hc (hAssign_frame o _ _ _ _ hh)
    · cases he
  | andNotAssign x y =>
    cases he
    exact stepA hw hs hc (by rw [hAndNotAssign_spec]; exact ⟨rfl, fun c hc => write_buf_ne _ _ hc⟩)
  | addWord x w => cases he; exact stepA hw hs hc (hAssignPrim_frame _ _ _ _)
  | subWord x w => cases he; exact stepA hw hs hc (hAssignPrim_frame _ _ _ _)
  | shl x w => cases he; exact stepA hw hs hc (hAssignPrim_frame _ _ _ _)
  | shr x w => cases he; exact stepA hw hs hc (hAssignPrim_frame _ _ _ _)
  | const x w => cases he; exact stepB hw hs hc _

theorem run_ok {S : Nat → Prop} (cs : List Cmd) : ∀ {s s' : State}, s.WF → s.Separated S →
    (∀ c ∈ cs, c.inside S) → run s cs = .ok s' → StepOk s s' S := by
  induction cs with
  | nil => intro s s' hw hs _ he; cases he; exact ⟨hw, hs, fun _ _ => ⟨rfl, rfl⟩⟩
  | cons c cs ih =>
    intro s s' hw hs hc he
    rw [run] at he
    split at he
    · rename_i s1 h1
      obtain ⟨w1, s1', f1⟩ := step_ok hw hs (hc c (by simp)) h1
      obtain ⟨w2, s2', f2⟩ := ih w1 s1' (fun c hcc => hc c (by simp [hcc])) he
      refine ⟨w2, s2', fun v hv => ?_⟩
      obtain ⟨a1, a2⟩ := f1 v hv
      obtain ⟨b1, b2⟩ := f2 v hv
      rw [a1] at b1 b2
      exact ⟨b1, b2.trans a2⟩
    · cases he

/-- the variable that a statement binds anew -/
def Cmd.defines : Cmd → Option Nat
  | .clone x _ => some x
  | .deepClone x _ => some x
  | .op _ z _ _ => some z
  | .const x _ => some x
  | _ => none

theorem step_env {s s' : State} {c : Cmd} (he : c.step s = .ok s') (v : Nat) (hv : c.defines ≠ some v) :
    s'.env v = s.env v := by
  have key : ∀ (x a : Nat) (h : Heap), some x ≠ some v → (s.bind x a h).env v = s.env v := by
    intro x a h hx
    simp only [State.bind]
    rw [if_neg (by rintro rfl; exact hx rfl)]
  cases c with
  | clone x y => cases he; exact key _ _ _ hv
  | deepClone x y => cases he; exact key _ _ _ hv
  | op o z x y =>
    simp only [Cmd.step] at he
    split at he
    · cases he; exact key _ _ _ hv
    · cases he
  | assign o x y =>
    simp only [Cmd.step] at he
    split at he
    · cases he; rfl
    · cases he
  | andNotAssign x y => cases he; rfl
  | addWord x w => cases he; rfl
  | subWord x w => cases he; rfl
  | shl x w => cases he; rfl
  | shr x w => cases he; rfl
  | const x w => cases he; exact key _ _ _ hv

theorem run_env (cs : List Cmd) : ∀ {s s' : State}, run s cs = .ok s' → ∀ v, (∀ c ∈ cs, c.defines ≠ some v) →
    s'.env v = s.env v := by
  induction cs with
  | nil => intro s s' he v _; cases he; rfl
  | cons c cs ih =>
    intro s s' he v hv
    rw [run] at he
    split at he
    · rename_i s1 h1
      rw [ih he v (fun c hc => hv c (by simp [hc])), step_env h1 v (hv c (by simp))]
    · cases he

/-! ## `BigInt` -/

/-- `out` is the heap after a call that stored `r` in the object at `a` and touched no other allocated buffer -/
def Upd (h : Heap) (a : Nat) (r : Res BInt) (out : Res (Heap × HInt)) : Prop :=
  match r, out with
  | .ok v, .ok (h', x') =>
    x'.addr = a ∧ x'.value h' = v ∧ h.next ≤ h'.next ∧ ∀ c, c < h.next → c ≠ a → h'.buf c = h.buf c
  | .error e, .error e' => e = e'
  | _, _ => False

theorem upd_ok {h : Heap} {a : Nat} {v : BInt} {out : Res (Heap × HInt)} (hu : Upd h a (.ok v) out) :
    ∃ h' x', out = .ok (h', x') ∧ x'.addr = a ∧ x'.value h' = v ∧ ∀ c, c < h.next → c ≠ a → h'.buf c = h.buf c := by
  rcases out with e | ⟨h', x'⟩
  · exact hu.elim
  · obtain ⟨e1, e2, _, e4⟩ := hu
    exact ⟨h', x', rfl, e1, e2, e4⟩

theorem hbSign_value (h : Heap) (x : HInt) (v : Words) (n : Bool) :
    (hbSign (h.write x.addr v) x n).addr = x.addr ∧
    (hbSign (h.write x.addr v) x n).value (h.write x.addr v) = signFix v n := by
  unfold hbSign signFix HInt.value
  rw [write_buf]
  split <;> simp

theorem upd_write {h : Heap} {x : HInt} {v : Words} {n : Bool} :
    Upd h x.addr (.ok (signFix v n)) (.ok (h.write x.addr v, hbSign (h.write x.addr v) x n)) :=
  ⟨(hbSign_value h x v n).1, (hbSign_value h x v n).2, Nat.le_refl _, fun _ _ hc => write_buf_ne _ _ hc⟩

theorem hAssign_add (h : Heap) (a b : Nat) :
    hAssign .add h a b = .ok (h.write a (assignNat addInner (h.buf a) (h.buf b))) := by
  rw [hAssign_alias (by decide) (by decide)]; unfold assignNatR assignNat; split <;> rfl

theorem hAssign_sub (h : Heap) (a b : Nat) :
    hAssign .sub h a b = .ok (h.write a (assignNat subInner (h.buf a) (h.buf b))) := by
  rw [hAssign_alias (by decide) (by decide)]; unfold assignNatR assignNat; split <;> rfl

theorem hAssign_mul (h : Heap) (a b : Nat) :
    hAssign .mul h a b = .ok (h.write a (assignNat mulInner (h.buf a) (h.buf b))) := by
  rw [hAssign_alias (by decide) (by decide)]; unfold assignNatR assignNat; split <;> rfl

theorem hAssign_and (h : Heap) (a b : Nat) :
    hAssign .and h a b = .ok (h.write a (assignNat bitandInner (h.buf a) (h.buf b))) := by
  rw [hAssign_alias (by decide) (by decide)]; unfold assignNatR assignNat; split <;> rfl

theorem hAssign_or (h : Heap) (a b : Nat) :
    hAssign .or h a b = .ok (h.write a (assignNat bitorInner (h.buf a) (h.buf b))) := by
  rw [hAssign_alias (by decide) (by decide)]; unfold assignNatR assignNat; split <;> rfl

theorem hAssign_xor (h : Heap) (a b : Nat) :
    hAssign .xor h a b = .ok (h.write a (assignNat bitxorInner (h.buf a) (h.buf b))) := by
  rw [hAssign_alias (by decide) (by decide)]; unfold assignNatR assignNat; split <;> rfl

theorem hAssign_div (h : Heap) {a b : Nat} (hab : b ≠ a) :
    hAssign .div h a b = (assignNatR divInner (h.buf a) (h.buf b)).map (h.write a) := hAssign_ne .div h hab

theorem hAssign_rem (h : Heap) {a b : Nat} (hab : b ≠ a) :
    hAssign .rem h a b = (assignNatR remInner (h.buf a) (h.buf b)).map (h.write a) := hAssign_ne .rem h hab

theorem hAssignPrim_eq {α : Type} (f : Words → α → Words) (h : Heap) (a : Nat) (y : α) :
    hAssignPrim f h a y = h.write a (assignPrim f (h.buf a) y) := by
  unfold hAssignPrim assignPrim; split <;> rfl

theorem hOpPrim_eq {α : Type} (f : Words → α → Words) (h : Heap) (a : Nat) (y : α) :
    hOpPrim f h a y = h.alloc (opPrim f (h.buf a) y) := by
  unfold hOpPrim opPrim; split <;> rfl

theorem hbAssign_arith {op : NatOp} (h1 : op = .add ∨ op = .sub ∨ op = .mul) (h : Heap) (x y : HInt) :
    Upd h x.addr (op.bfn (x.value h) (y.value h)) (hbAssign op h x y) := by
  rcases h1 with rfl | rfl | rfl
  · simp only [NatOp.bfn, hbAssign, hbAdd]
    by_cases hn : x.neg = y.neg
    · rw [show bAddInner (x.value h) (y.value h) = signFix (assignNat addInner (h.buf x.addr) (h.buf y.addr)) x.neg from
        if_pos hn]
      simp only [if_pos hn, hAssign_add]; exact upd_write
    · rw [show bAddInner (x.value h) (y.value h) = signFix (assignNat subInner (h.buf x.addr) (h.buf y.addr))
        (if ltOp (h.buf x.addr) (h.buf y.addr) then !x.neg else x.neg) from if_neg hn]
      simp only [if_neg hn, hAssign_sub]; exact upd_write
  · simp only [NatOp.bfn, hbAssign, hbSub]
    by_cases hn : x.neg ≠ y.neg
    · rw [show bSubInner (x.value h) (y.value h) = signFix (assignNat addInner (h.buf x.addr) (h.buf y.addr)) x.neg from
        if_pos hn]
      simp only [if_pos hn, hAssign_add]; exact upd_write
    · rw [show bSubInner (x.value h) (y.value h) = signFix (assignNat subInner (h.buf x.addr) (h.buf y.addr))
        (if ltOp (h.buf x.addr) (h.buf y.addr) then !x.neg else x.neg) from if_neg hn]
      simp only [if_neg hn, hAssign_sub]; exact upd_write
  · simp only [NatOp.bfn, hbAssign, hbMul, bMulInner, HInt.value, hAssign_mul]
    exact upd_write

theorem hbAssign_div (h : Heap) (x y : HInt) (hxy : y.addr ≠ x.addr) :
    Upd h x.addr (bDivInner (x.value h) (y.value h)) (hbDiv h x y) := by
  unfold hbDiv bDivInner
  by_cases he : eqv (h.buf y.addr) [0#32] = true
  · rw [if_pos he, if_pos (show eqv (y.value h).nat [0#32] = true from he)]; exact rfl
  rw [if_neg he, if_neg (show ¬eqv (y.value h).nat [0#32] = true from he), hAssign_div h hxy]
  show Upd _ _ (match assignNatR divInner (h.buf x.addr) (h.buf y.addr) with | .ok q => _ | .error e => _) _
  cases assignNatR divInner (h.buf x.addr) (h.buf y.addr) with
  | error e => exact rfl
  | ok v => exact ⟨rfl, by simp only [HInt.value, write_buf]; rfl, Nat.le_refl _, fun _ _ hc => write_buf_ne _ _ hc⟩

theorem hbAssign_rem (h : Heap) (x y : HInt) (hxy : y.addr ≠ x.addr) :
    Upd h x.addr (bRemInner (x.value h) (y.value h)) (hbRem h x y) := by
  unfold hbRem bRemInner
  by_cases he : eqv (h.buf y.addr) [0#32] = true
  · rw [if_pos he, if_pos (show eqv (y.value h).nat [0#32] = true from he)]; exact rfl
  rw [if_neg he, if_neg (show ¬eqv (y.value h).nat [0#32] = true from he), hAssign_rem h hxy]
  show Upd _ _ (match assignNatR remInner (h.buf x.addr) (h.buf y.addr) with | .ok q => _ | .error e => _) _
  cases assignNatR remInner (h.buf x.addr) (h.buf y.addr) with
  | error e => exact rfl
  | ok v => exact ⟨rfl, by simp only [HInt.value, write_buf], Nat.le_refl _, fun _ _ hc => write_buf_ne _ _ hc⟩

/-- two negative operands: what is in the right buffer after the left one has been decremented -/
def seenBy (h : Heap) (x y : HInt) : Words := if y.addr = x.addr then decW (h.buf x.addr) else h.buf y.addr

theorem hbBits_neg (g : Words → Words → Words) (h : Heap) (x y : HInt) (hx : x.addr < h.next) (hy : y.addr < h.next) :
    let h1 := hAssignPrim subInnerBasic h x.addr 1#32
    let r := hOpPrim subInnerBasic h1 y.addr 1#32
    let v := g (decW (h.buf x.addr)) (natSubW (seenBy h x y) 1#32)
    r.1.write x.addr (g (r.1.buf x.addr) (r.1.buf r.2)) =
      (h.alloc (natSubW (seenBy h x y) 1#32)).1.write x.addr v := by
  simp only [hAssignPrim_eq, hOpPrim_eq]
  have e1 : (h.write x.addr (assignPrim subInnerBasic (h.buf x.addr) 1#32)).buf y.addr = seenBy h x y := by
    unfold seenBy
    split
    · rename_i e; rw [e, write_buf]; rfl
    · rename_i e; rw [write_buf_ne _ _ e]
  rw [e1]
  show ((h.write x.addr (decW (h.buf x.addr))).alloc (natSubW (seenBy h x y) 1#32)).1.write x.addr _ = _
  have e2 : ((h.write x.addr (decW (h.buf x.addr))).alloc (natSubW (seenBy h x y) 1#32)).1.buf x.addr =
      decW (h.buf x.addr) := by
    rw [alloc_buf_ne _ _ (by rw [write_next]; omega), write_buf]
  have e3 : ((h.write x.addr (decW (h.buf x.addr))).alloc (natSubW (seenBy h x y) 1#32)).1.buf
      ((h.write x.addr (decW (h.buf x.addr))).alloc (natSubW (seenBy h x y) 1#32)).2 = natSubW (seenBy h x y) 1#32 :=
    alloc_buf _ _
  refine ext' (fun c => ?_) rfl
  have e2' : ((h.write x.addr (assignPrim subInnerBasic (h.buf x.addr) 1#32)).alloc
      (opPrim subInnerBasic (seenBy h x y) 1#32)).1.buf x.addr = decW (h.buf x.addr) := e2
  have e3' : ((h.write x.addr (assignPrim subInnerBasic (h.buf x.addr) 1#32)).alloc
      (opPrim subInnerBasic (seenBy h x y) 1#32)).1.buf ((h.write x.addr (assignPrim subInnerBasic (h.buf x.addr) 1#32)).alloc
      (opPrim subInnerBasic (seenBy h x y) 1#32)).2 = natSubW (seenBy h x y) 1#32 := e3
  rw [e2', e3']
  simp only [write, alloc]
  split
  · rfl
  · split
    · rfl
    · rfl

theorem upd_alloc {h : Heap} {x : HInt} {t v : Words} {n : Bool} (hx : x.addr < h.next) :
    Upd h x.addr (.ok ⟨v, n⟩) (.ok ((h.alloc t).1.write x.addr v, ⟨x.addr, n⟩)) :=
  ⟨rfl, by simp [HInt.value], Nat.le_succ _, fun c hc hne => by
    rw [write_buf_ne _ _ hne, alloc_buf_ne _ _ (by omega)]⟩

/-- the bit operations on two negative operands, shared or not -/
theorem hbAnd_neg (h : Heap) (x y : HInt) (hx : x.addr < h.next) (hy : y.addr < h.next) (hn : x.neg = true)
    (hm : y.neg = true) :
    Upd h x.addr (.ok (let nat := incW (assignNat bitorInner (decW (h.buf x.addr)) (natSubW (seenBy h x y) 1#32))
      ⟨nat, !isNan nat⟩)) (hbAnd h x y) := by
  unfold hbAnd
  rw [if_pos (by rw [hn, hm]), if_pos hn]
  simp only [hAssign_or]
  rw [hbBits_neg (assignNat bitorInner) h x y hx hy, hAssignPrim_eq, write_buf, write_write, write_buf]
  exact upd_alloc hx

theorem hbOr_neg (h : Heap) (x y : HInt) (hx : x.addr < h.next) (hy : y.addr < h.next) (hn : x.neg = true)
    (hm : y.neg = true) :
    Upd h x.addr (.ok (let nat := incW (assignNat bitandInner (decW (h.buf x.addr)) (natSubW (seenBy h x y) 1#32))
      ⟨nat, !isNan nat⟩)) (hbOr h x y) := by
  unfold hbOr
  rw [if_pos (by rw [hn, hm]), if_pos hn]
  simp only [hAssign_and]
  rw [hbBits_neg (assignNat bitandInner) h x y hx hy, hAssignPrim_eq, write_buf, write_write, write_buf]
  exact upd_alloc hx

theorem hbXor_neg (h : Heap) (x y : HInt) (hx : x.addr < h.next) (hy : y.addr < h.next) (hn : x.neg = true)
    (hm : y.neg = true) :
    Upd h x.addr (.ok ⟨assignNat bitxorInner (decW (h.buf x.addr)) (natSubW (seenBy h x y) 1#32), false⟩)
      (hbXor h x y) := by
  unfold hbXor
  rw [if_pos (by rw [hn, hm]), if_pos hn]
  simp only [hAssign_xor]
  rw [hbBits_neg (assignNat bitxorInner) h x y hx hy]
  exact upd_alloc hx

theorem hbMixed_ne (h : Heap) (x y : HInt) (hx : x.addr < h.next) (hy : y.addr < h.next) (hxy : y.addr ≠ x.addr) :
    ∃ t, (hbMixed h x y).1 = (h.alloc t).1.write x.addr (mixed (x.value h) (y.value h)).1 ∧
      (hbMixed h x y).1.buf (hbMixed h x y).2 = (mixed (x.value h) (y.value h)).2 := by
  simp only [hbMixed, hOpPrim_eq]
  by_cases hn : x.neg = true
  · rw [show mixed (x.value h) (y.value h) = (h.buf y.addr, natSubW (h.buf x.addr) 1#32) from if_pos hn]
    simp only [if_pos hn]
    refine ⟨natSubW (h.buf x.addr) 1#32, ?_, ?_⟩
    · rw [write_buf, write_write, List.nil_append, write_buf_ne _ _ hxy, alloc_buf_ne _ _ (by omega)]; rfl
    · rw [write_write, write_buf_ne _ _ (show (h.alloc (opPrim subInnerBasic (h.buf x.addr) 1#32)).2 ≠ x.addr by
        show h.next ≠ _; omega)]
      exact alloc_buf _ _
  · rw [show mixed (x.value h) (y.value h) = (h.buf x.addr, natSubW (h.buf y.addr) 1#32) from if_neg hn]
    simp only [if_neg hn]
    refine ⟨natSubW (h.buf y.addr) 1#32, ?_, alloc_buf _ _⟩
    refine ext' (fun c => ?_) rfl
    simp only [write, alloc]
    split
    · rename_i e; subst e
      rw [if_neg (by omega)]; rfl
    · split
      · rename_i e; rw [e]
      · rfl

theorem hbAssign_bits {op : NatOp} (h1 : op = .and ∨ op = .or ∨ op = .xor) (h : Heap) (x y : HInt)
    (hx : x.addr < h.next) (hy : y.addr < h.next) (hxy : y.addr ≠ x.addr) :
    Upd h x.addr (op.bfn (x.value h) (y.value h)) (hbAssign op h x y) := by
  have hs : seenBy h x y = h.buf y.addr := by rw [seenBy, if_neg hxy]
  by_cases hn : x.neg = y.neg
  · have hn' : (x.value h).neg = (y.value h).neg := hn
    by_cases hm : x.neg = true
    · have hm' : (x.value h).neg = true := hm
      rcases h1 with rfl | rfl | rfl
      · have := hbAnd_neg h x y hx hy hm (hn ▸ hm)
        rw [hs] at this
        simp only [NatOp.bfn, hbAssign, bAndInner]
        rw [if_pos hn', if_pos hm']
        exact this
      · have := hbOr_neg h x y hx hy hm (hn ▸ hm)
        rw [hs] at this
        simp only [NatOp.bfn, hbAssign, bOrInner]
        rw [if_pos hn', if_pos hm']
        exact this
      · have := hbXor_neg h x y hx hy hm (hn ▸ hm)
        rw [hs] at this
        simp only [NatOp.bfn, hbAssign, bXorInner]
        rw [if_pos hn', if_pos hm']
        exact this
    · have hm' : ¬(x.value h).neg = true := hm
      have fin : ∀ v : Words, Upd h x.addr (.ok ⟨v, false⟩) (.ok (h.write x.addr v, ⟨x.addr, false⟩)) := fun v =>
        ⟨rfl, by simp [HInt.value], Nat.le_refl _, fun _ _ hc => write_buf_ne _ _ hc⟩
      rcases h1 with rfl | rfl | rfl
      · simp only [NatOp.bfn, hbAssign, bAndInner, hbAnd, hAssign_and]
        rw [if_pos hn', if_neg hm', if_pos hn, if_neg hm]
        exact fin _
      · simp only [NatOp.bfn, hbAssign, bOrInner, hbOr, hAssign_or]
        rw [if_pos hn', if_neg hm', if_pos hn, if_neg hm]
        exact fin _
      · simp only [NatOp.bfn, hbAssign, bXorInner, hbXor, hAssign_xor]
        rw [if_pos hn', if_neg hm', if_pos hn, if_neg hm]
        exact fin _
  · have hn' : ¬(x.value h).neg = (y.value h).neg := hn
    obtain ⟨t, e1, e2⟩ := hbMixed_ne h x y hx hy hxy
    have e3 : (hbMixed h x y).1.buf x.addr = (mixed (x.value h) (y.value h)).1 := by rw [e1, write_buf]
    rcases h1 with rfl | rfl | rfl
    · simp only [NatOp.bfn, hbAssign, bAndInner, hbAnd, hAndNotAssign_spec, e2, e3]
      rw [if_neg hn', if_neg hn, e1, write_write]
      exact upd_alloc hx
    · simp only [NatOp.bfn, hbAssign, bOrInner, hbOr, hAndNotAssign_spec, e2, e3, hAssignPrim_eq, write_buf, write_write]
      rw [if_neg hn', if_neg hn, e1, write_write]
      exact upd_alloc hx
    · simp only [NatOp.bfn, hbAssign, bXorInner, hbXor, hAssign_xor, e2, e3, hAssignPrim_eq, write_buf, write_write]
      rw [if_neg hn', if_neg hn, e1, write_write]
      exact upd_alloc hx

/-- The assigning operators of `BigInt` on operands that do not share their magnitude. -/
theorem hbAssign_ne (op : NatOp) (h : Heap) (x y : HInt) (hx : x.addr < h.next) (hy : y.addr < h.next)
    (hxy : y.addr ≠ x.addr) : Upd h x.addr (op.bfn (x.value h) (y.value h)) (hbAssign op h x y) := by
  cases op
  · exact hbAssign_arith (by simp) h x y
  · exact hbAssign_arith (by simp) h x y
  · exact hbAssign_arith (by simp) h x y
  · exact hbAssign_div h x y hxy
  · exact hbAssign_rem h x y hxy
  · exact hbAssign_bits (by simp) h x y hx hy hxy
  · exact hbAssign_bits (by simp) h x y hx hy hxy
  · exact hbAssign_bits (by simp) h x y hx hy hxy

/-- The value operators of `BigInt`, for all sharing patterns. -/
theorem hbOp_spec (op : NatOp) (h : Heap) (x y : HInt) (hy : y.addr < h.next) :
    Upd h h.next (op.bfn (bDeepClone (x.value h)) (y.value h)) (hbOp op h x y) := by
  have := hbAssign_ne op (h.alloc (deepClone (h.buf x.addr))).1 ⟨h.next, x.neg⟩ y (Nat.lt_succ_self _)
    (Nat.lt_succ_of_lt hy) (by show y.addr ≠ h.next; omega)
  have e1 : HInt.value (h.alloc (deepClone (h.buf x.addr))).1 ⟨h.next, x.neg⟩ = bDeepClone (x.value h) := by
    simp [HInt.value, alloc, bDeepClone]
  have e2 : HInt.value (h.alloc (deepClone (h.buf x.addr))).1 y = y.value h := by
    simp only [HInt.value]; rw [alloc_buf_ne _ _ (by omega)]
  rw [e1, e2] at this
  unfold hbOp
  revert this
  show Upd _ _ _ (hbAssign op _ ⟨h.next, x.neg⟩ y) → Upd _ _ _ (hbAssign op _ ⟨h.next, x.neg⟩ y)
  generalize hbAssign op (h.alloc (deepClone (h.buf x.addr))).1 ⟨h.next, x.neg⟩ y = out
  generalize op.bfn (bDeepClone (x.value h)) (y.value h) = r
  intro hu
  rcases r with e | v <;> rcases out with e' | ⟨h', x'⟩
  · exact hu
  · exact hu
  · exact hu
  · obtain ⟨a1, a2, a3, a4⟩ := hu
    refine ⟨a1, a2, Nat.le_of_succ_le a3, fun c hc hne => ?_⟩
    rw [a4 c (Nat.lt_succ_of_lt hc) hne, alloc_buf_ne _ _ hne]

end RMath
