import Verif.Lemmas.Basic
import Verif.Model.NatCore

/-! Lemmas on the core of the `Nat` model: trimming, comparison, addition, subtraction. -/

namespace RMath

/-! ### trim -/

theorem all_zero_eq_replicate {l : Words} (h : ∀ x ∈ l, x = 0#32) :
    l = List.replicate l.length 0#32 := List.eq_replicate_iff.2 ⟨rfl, h⟩

theorem trim_cons (w : W) (ws : Words) :
    trim (w :: ws) = w :: ((ws.reverse.dropWhile (· == 0#32)).reverse) := by
  unfold trim
  simp only [List.drop_succ_cons, List.drop_zero, List.length_cons]
  have h := List.takeWhile_append_dropWhile (p := (· == 0#32)) (l := ws.reverse)
  have hl : (ws.reverse.takeWhile (· == 0#32)).length + (ws.reverse.dropWhile (· == 0#32)).length
      = ws.length := by
    rw [← List.length_append, h, List.length_reverse]
  have e : ws = (ws.reverse.dropWhile (· == 0#32)).reverse ++ (ws.reverse.takeWhile (· == 0#32)).reverse := by
    rw [← List.reverse_append, h, List.reverse_reverse]
  have hk : ws.length + 1 - (ws.reverse.takeWhile (· == 0#32)).length
      = (ws.reverse.dropWhile (· == 0#32)).length + 1 := by omega
  rw [hk, List.take_succ_cons]
  congr 1
  conv_lhs => rw [e]
  rw [List.take_left']
  simp

@[simp] theorem trim_nil : trim [] = [] := rfl

theorem takeWhile_all {α : Type} (p : α → Bool) (l : List α) : ∀ x ∈ l.takeWhile p, p x = true := by
  induction l with
  | nil => simp
  | cons a l ih =>
    intro x hx
    rw [List.takeWhile_cons] at hx
    split at hx
    · rcases List.mem_cons.1 hx with rfl | hx
      · assumption
      · exact ih x hx
    · simp at hx

theorem val_strip (ws : Words) : val (ws.reverse.dropWhile (· == 0#32)).reverse = val ws := by
  have h := List.takeWhile_append_dropWhile (p := (· == 0#32)) (l := ws.reverse)
  have e : ws = (ws.reverse.dropWhile (· == 0#32)).reverse ++ (ws.reverse.takeWhile (· == 0#32)).reverse := by
    rw [← List.reverse_append, h, List.reverse_reverse]
  conv_rhs => rw [e]
  rw [val_append]
  have : (ws.reverse.takeWhile (· == 0#32)).reverse
      = List.replicate (ws.reverse.takeWhile (· == 0#32)).reverse.length 0#32 := by
    apply all_zero_eq_replicate
    intro x hx
    have := takeWhile_all _ _ x (List.mem_reverse.1 hx)
    simpa using this
  rw [this]; simp

@[simp] theorem val_trim (v : Words) : val (trim v) = val v := by
  cases v with
  | nil => rfl
  | cons w ws => rw [trim_cons, val_cons, val_strip, val_cons]

theorem canon_trim {v : Words} (h : v ≠ []) : Canon (trim v) := by
  cases v with
  | nil => exact absurd rfl h
  | cons w ws =>
    rw [trim_cons]
    refine ⟨by simp, ?_⟩
    by_cases hd : ws.reverse.dropWhile (· == 0#32) = []
    · left; simp [hd]
    · right
      rw [List.getLast_cons (by simpa using hd)]
      rw [List.getLast_reverse]
      have := List.head_dropWhile_not (p := (· == 0#32)) (l := ws.reverse) (w := hd)
      simpa using this

theorem trim_eq_enc {v : Words} (h : v ≠ []) : trim v = enc (val v) :=
  enc_eq_iff.2 ⟨canon_trim h, val_trim v⟩

theorem trim_of_canon {v : Words} (h : Canon v) : trim v = v := by
  rw [trim_eq_enc h.ne_nil, ← canon_eq_enc h]

@[simp] theorem trim_enc (n : Nat) : trim (enc n) = enc n := trim_of_canon (canon_enc n)

@[simp] theorem deepClone_enc (n : Nat) : deepClone (enc n) = enc n := trim_enc n

@[simp] theorem isNan_enc (n : Nat) : isNan (enc n) = false := by
  simp [isNan, enc_ne_nil]

@[simp] theorem isNan_nil : isNan [] = true := rfl

theorem isNan_iff {x : Words} : isNan x = true ↔ x = [] := by simp [isNan]

/-! ### comparison -/

theorem cmpRev_concat {xs ys : Words} (h : xs.length = ys.length) (a b : W) :
    cmpRev (xs ++ [a]) (ys ++ [b]) = (cmpRev xs ys).then (compare a.toNat b.toNat) := by
  induction xs generalizing ys with
  | nil =>
    cases ys with
    | nil =>
      simp only [List.nil_append, cmpRev, Ordering.then, BitVec.lt_def]
      rcases Nat.lt_trichotomy a.toNat b.toNat with h | h | h
      · simp [h, Nat.compare_eq_lt.2 h]
      · simp [h]
      · simp [h, Nat.compare_eq_gt.2 h, Nat.not_lt_of_gt h]
    | cons y ys => simp at h
  | cons x xs ih =>
    cases ys with
    | nil => simp at h
    | cons y ys =>
      simp only [List.length_cons, Nat.add_right_cancel_iff] at h
      simp only [List.cons_append, cmpRev]
      split
      · rfl
      · split
        · rfl
        · exact ih h

theorem cmpRev_reverse {xs ys : Words} (h : xs.length = ys.length) :
    cmpRev xs.reverse ys.reverse = compare (val xs) (val ys) := by
  induction xs generalizing ys with
  | nil =>
    cases ys with
    | nil => rfl
    | cons y ys => simp at h
  | cons x xs ih =>
    cases ys with
    | nil => simp at h
    | cons y ys =>
      simp only [List.length_cons, Nat.add_right_cancel_iff] at h
      simp only [List.reverse_cons]
      rw [cmpRev_concat (by simpa using h), ih h, val_cons, val_cons]
      have h1 := x.isLt
      have h2 := y.isLt
      rcases Nat.lt_trichotomy (val xs) (val ys) with h3 | h3 | h3
      · have h5 : x.toNat + 2 ^ 32 * val xs < y.toNat + 2 ^ 32 * val ys := by omega
        rw [Nat.compare_eq_lt.2 h3, Nat.compare_eq_lt.2 h5]; rfl
      · rw [h3]
        simp only [Nat.compare_eq_eq.2 rfl, Ordering.then]
        rcases Nat.lt_trichotomy x.toNat y.toNat with h4 | h4 | h4
        · have h5 : x.toNat + 2 ^ 32 * val ys < y.toNat + 2 ^ 32 * val ys := by omega
          rw [Nat.compare_eq_lt.2 h4, Nat.compare_eq_lt.2 h5]
        · rw [h4, Nat.compare_eq_eq.2 rfl, Nat.compare_eq_eq.2 rfl]
        · have h5 : y.toNat + 2 ^ 32 * val ys < x.toNat + 2 ^ 32 * val ys := by omega
          rw [Nat.compare_eq_gt.2 h4, Nat.compare_eq_gt.2 h5]
      · have h5 : y.toNat + 2 ^ 32 * val ys < x.toNat + 2 ^ 32 * val xs := by omega
        rw [Nat.compare_eq_gt.2 h3, Nat.compare_eq_gt.2 h5]; rfl

theorem cmpInner_of_length_eq {xs ys : Words} (h : xs.length = ys.length) :
    cmpInner xs ys = compare (val xs) (val ys) := by
  unfold cmpInner
  rw [if_neg (by omega), if_neg (by omega), cmpRev_reverse h]

theorem Canon.val_lt_of_length_lt {xs ys : Words} (hy : Canon ys)
    (h0 : xs ≠ []) (h : xs.length < ys.length) : val xs < val ys := by
  have h1 := val_lt xs
  have hpos : 0 < xs.length := List.length_pos_iff.2 h0
  have h2 := hy.le_val (by omega)
  have h3 : 2 ^ (32 * xs.length) ≤ 2 ^ (32 * (ys.length - 1)) :=
    Nat.pow_le_pow_right (by norm_num) (by omega)
  omega

theorem cmpInner_canon {xs ys : Words} (hx : Canon xs) (hy : Canon ys) :
    cmpInner xs ys = compare (val xs) (val ys) := by
  by_cases h : xs.length = ys.length
  · exact cmpInner_of_length_eq h
  · unfold cmpInner
    by_cases h1 : xs.length < ys.length
    · rw [if_pos h1, Nat.compare_eq_lt.2 (hy.val_lt_of_length_lt hx.ne_nil h1)]
    · have h2 : ys.length < xs.length := by omega
      rw [if_neg h1, if_pos h2, Nat.compare_eq_gt.2 (hx.val_lt_of_length_lt hy.ne_nil h2)]

@[simp] theorem cmpInner_enc (a b : Nat) : cmpInner (enc a) (enc b) = compare a b := by
  rw [cmpInner_canon (canon_enc a) (canon_enc b), val_enc, val_enc]

@[simp] theorem partialCmp_enc (a b : Nat) : partialCmp (enc a) (enc b) = some (compare a b) := by
  simp [partialCmp]

@[simp] theorem geOp_enc (a b : Nat) : geOp (enc a) (enc b) = decide (b ≤ a) := by
  unfold geOp
  rw [partialCmp_enc]
  rcases Nat.lt_trichotomy a b with h | h | h
  · rw [Nat.compare_eq_lt.2 h]; simp; omega
  · subst h; simp
  · rw [Nat.compare_eq_gt.2 h]; simp; omega

@[simp] theorem ltOp_enc (a b : Nat) : ltOp (enc a) (enc b) = decide (a < b) := by
  unfold ltOp
  rw [partialCmp_enc]
  rcases Nat.lt_trichotomy a b with h | h | h
  · rw [Nat.compare_eq_lt.2 h]; simp; omega
  · subst h; simp
  · rw [Nat.compare_eq_gt.2 h]; simp; omega

@[simp] theorem eqv_enc (a b : Nat) : eqv (enc a) (enc b) = decide (a = b) := by
  unfold eqv
  rw [isNan_enc]
  simp only [Bool.false_eq_true, if_false]
  by_cases h : a = b
  · subst h; simp
  · simp [h]

theorem enc_zero : enc 0 = [0#32] := by rw [enc_lt (by norm_num)]
theorem enc_one : enc 1 = [1#32] := by rw [enc_lt (by norm_num)]
theorem enc_two : enc 2 = [2#32] := by rw [enc_lt (by norm_num)]

theorem singleton_eq_enc (w : W) : [w] = enc w.toNat := by
  rw [enc_lt w.isLt]; simp

/-! ### carries -/

theorem adc_spec (c : Bool) (a b : W) :
    (adc c a b).1.toNat + 2 ^ 32 * (adc c a b).2.toNat = a.toNat + b.toNat + c.toNat := by
  have h1 := a.isLt
  have h2 := b.isLt
  have h3 : c.toNat ≤ 1 := Bool.toNat_le c
  simp only [adc, BitVec.toNat_ofNat]
  by_cases h : 2 ^ 32 ≤ a.toNat + b.toNat + c.toNat
  · simp only [h, decide_true, Bool.toNat_true]
    omega
  · simp only [h, decide_false, Bool.toNat_false]
    omega

theorem sbb_spec (c : Bool) (a b : W) :
    (sbb c a b).1.toNat + b.toNat + c.toNat = a.toNat + 2 ^ 32 * (sbb c a b).2.toNat := by
  have h1 := a.isLt
  have h2 := b.isLt
  have h3 : c.toNat ≤ 1 := Bool.toNat_le c
  simp only [sbb, BitVec.toNat_sub, BitVec.toNat_ofNat]
  by_cases h : a.toNat < b.toNat + c.toNat
  · simp only [h, decide_true, Bool.toNat_true]
    omega
  · simp only [h, decide_false, Bool.toNat_false]
    omega

theorem overflowingAdd_spec (a b : W) :
    (overflowingAdd a b).1.toNat + 2 ^ 32 * (overflowingAdd a b).2.toNat = a.toNat + b.toNat := by
  have h1 := a.isLt
  have h2 := b.isLt
  simp only [overflowingAdd, BitVec.toNat_add]
  by_cases h : 2 ^ 32 ≤ a.toNat + b.toNat
  · simp only [h, decide_true, Bool.toNat_true]; omega
  · simp only [h, decide_false, Bool.toNat_false]; omega

theorem overflowingSub_spec (a b : W) :
    (overflowingSub a b).1.toNat + b.toNat = a.toNat + 2 ^ 32 * (overflowingSub a b).2.toNat := by
  have h1 := a.isLt
  have h2 := b.isLt
  simp only [overflowingSub, BitVec.toNat_sub]
  by_cases h : a.toNat < b.toNat
  · simp only [h, decide_true, Bool.toNat_true]; omega
  · simp only [h, decide_false, Bool.toNat_false]; omega

/-! ### addition -/

theorem adcZip_length (c : Bool) (x y : Words) : (adcZip c x y).1.length = min x.length y.length := by
  induction x generalizing c y with
  | nil => simp [adcZip]
  | cons a as ih =>
    cases y with
    | nil => simp [adcZip]
    | cons b bs => simp only [adcZip, List.length_cons, ih]; omega

theorem adcTail_length (c : Bool) (x : Words) : (adcTail c x).1.length = x.length := by
  induction x generalizing c with
  | nil => simp [adcTail]
  | cons a as ih => simp only [adcTail, List.length_cons, ih]

theorem adcTail_val (c : Bool) (x : Words) :
    val (adcTail c x).1 + 2 ^ (32 * x.length) * (adcTail c x).2.toNat = val x + c.toNat := by
  induction x generalizing c with
  | nil => simp [adcTail]
  | cons a as ih =>
    have h := adc_spec c a 0#32
    have h' := ih (adc c a 0#32).2
    simp only [adcTail, val_cons, List.length_cons, Nat.mul_add, Nat.pow_add, Nat.mul_one] at *
    simp only [BitVec.toNat_zero] at h
    generalize (adcTail (adc c a 0#32).2 as).2.toNat = C at *
    generalize 2 ^ (32 * as.length) = P at *
    have : P * 2 ^ 32 * C = 2 ^ 32 * (P * C) := by ring
    rw [this]
    omega

theorem adcZip_val (c : Bool) (x y : Words) :
    val (adcZip c x y).1 + 2 ^ (32 * min x.length y.length) * (adcZip c x y).2.toNat
      = val (x.take y.length) + val (y.take x.length) + c.toNat := by
  induction x generalizing c y with
  | nil => simp [adcZip]
  | cons a as ih =>
    cases y with
    | nil => simp [adcZip]
    | cons b bs =>
      have h := adc_spec c a b
      have h' := ih (adc c a b).2 bs
      simp only [adcZip, val_cons, List.length_cons, List.take_succ_cons, Nat.add_min_add_right,
        Nat.mul_add, Nat.pow_add, Nat.mul_one] at *
      generalize (adcZip (adc c a b).2 as bs).2.toNat = C at *
      generalize 2 ^ (32 * min as.length bs.length) = P at *
      have : P * 2 ^ 32 * C = 2 ^ 32 * (P * C) := by ring
      rw [this]
      omega

theorem val_take_add_drop (x : Words) (n : Nat) (h : n ≤ x.length) :
    val x = val (x.take n) + 2 ^ (32 * n) * val (x.drop n) := by
  conv_lhs => rw [← List.take_append_drop n x]
  rw [val_append, List.length_take, Nat.min_eq_left h]

theorem val_ite_carry (c : Bool) : val (if c then [1#32] else []) = c.toNat := by
  cases c <;> simp

theorem addInner_val (x y : Words) : val (addInner x y) = val x + val y := by
  unfold addInner
  simp only
  have hz := adcZip_val false x y
  have hl := adcZip_length false x y
  by_cases h : y.length ≤ x.length
  · rw [if_pos h]
    have ht := adcTail_val (adcZip false x y).2 (x.drop y.length)
    have htl := adcTail_length (adcZip false x y).2 (x.drop y.length)
    rw [val_append, val_append, List.length_append, hl, htl, val_ite_carry,
      val_take_add_drop x y.length h]
    rw [List.take_of_length_le (l := y) h] at hz
    rw [Nat.min_eq_right h] at *
    simp only [List.length_drop, Bool.toNat_false, Nat.mul_add, Nat.pow_add] at *
    generalize (adcTail (adcZip false x y).2 (List.drop y.length x)).2.toNat = C at *
    generalize (adcZip false x y).2.toNat = c at *
    generalize val (adcTail (adcZip false x y).2 (List.drop y.length x)).1 = V at *
    generalize 2 ^ (32 * y.length) = P at *
    generalize 2 ^ (32 * (x.length - y.length)) = Q at *
    have h1 : P * Q * C = P * (Q * C) := by ring
    have h2 : P * (V + Q * C) = P * (val (List.drop y.length x) + c) := by rw [ht]
    rw [h1]
    rw [Nat.mul_add, Nat.mul_add] at h2
    omega
  · rw [if_neg h]
    have ht := adcTail_val (adcZip false x y).2 (y.drop x.length)
    have htl := adcTail_length (adcZip false x y).2 (y.drop x.length)
    have h' : x.length ≤ y.length := by omega
    rw [val_append, val_append, List.length_append, hl, htl, val_ite_carry,
      val_take_add_drop y x.length h']
    rw [List.take_of_length_le (l := x) h'] at hz
    rw [Nat.min_eq_left h'] at *
    simp only [List.length_drop, Bool.toNat_false, Nat.mul_add, Nat.pow_add] at *
    generalize (adcTail (adcZip false x y).2 (List.drop x.length y)).2.toNat = C at *
    generalize (adcZip false x y).2.toNat = c at *
    generalize val (adcTail (adcZip false x y).2 (List.drop x.length y)).1 = V at *
    generalize 2 ^ (32 * x.length) = P at *
    generalize 2 ^ (32 * (y.length - x.length)) = Q at *
    have h1 : P * Q * C = P * (Q * C) := by ring
    have h2 : P * (V + Q * C) = P * (val (List.drop x.length y) + c) := by rw [ht]
    rw [h1]
    rw [Nat.mul_add, Nat.mul_add] at h2
    omega

theorem addInner_length (x y : Words) :
    (addInner x y).length = max x.length y.length ∨
    ((addInner x y).length = max x.length y.length + 1 ∧ (addInner x y).getLast? = some 1#32) := by
  unfold addInner
  simp only
  have hl := adcZip_length false x y
  split
  · rename_i h
    have htl := adcTail_length (adcZip false x y).2 (x.drop y.length)
    split
    · right
      constructor
      · simp [hl, htl]; omega
      · simp
    · left; simp [hl, htl]; omega
  · rename_i h
    have htl := adcTail_length (adcZip false x y).2 (y.drop x.length)
    split
    · right
      constructor
      · simp [hl, htl]; omega
      · simp
    · left; simp [hl, htl]; omega

/-- A vector is canonical iff it is as short as its value allows. -/
theorem canon_of_le_val {xs : Words} (h0 : xs ≠ [])
    (h : 1 < xs.length → 2 ^ (32 * (xs.length - 1)) ≤ val xs) : Canon xs := by
  refine ⟨h0, ?_⟩
  by_cases h1 : xs.length = 1
  · exact Or.inl h1
  · right
    intro hl
    have hpos : 0 < xs.length := List.length_pos_iff.2 h0
    have hd := List.dropLast_concat_getLast h0
    have hv : val xs = val xs.dropLast := by
      conv_lhs => rw [← hd]
      rw [val_append, hl]; simp
    have := val_lt xs.dropLast
    rw [List.length_dropLast] at this
    have := h (by omega)
    omega

theorem canon_iff_le_val {xs : Words} :
    Canon xs ↔ xs ≠ [] ∧ (1 < xs.length → 2 ^ (32 * (xs.length - 1)) ≤ val xs) :=
  ⟨fun h => ⟨h.ne_nil, h.le_val⟩, fun h => canon_of_le_val h.1 h.2⟩

theorem addInner_canon {x y : Words} (hx : Canon x) (hy : Canon y) : Canon (addInner x y) := by
  have hxp := hx.length_pos
  have hyp := hy.length_pos
  rcases addInner_length x y with h | ⟨h, hl⟩
  · apply canon_of_le_val
    · intro h0; rw [h0] at h; simp at h; omega
    · intro h1
      rw [addInner_val, h]
      rw [h] at h1
      rcases Nat.le_total x.length y.length with hxy | hxy
      · rw [Nat.max_eq_right hxy] at *
        have := hy.le_val h1
        omega
      · rw [Nat.max_eq_left hxy] at *
        have := hx.le_val h1
        omega
  · refine ⟨?_, Or.inr ?_⟩
    · intro h0; rw [h0] at h; simp at h
    · rw [List.getLast?_eq_some_getLast (by intro h0; rw [h0] at h; simp at h)] at hl
      simp at hl
      rw [hl]; decide

@[simp] theorem addInner_enc (a b : Nat) : addInner (enc a) (enc b) = enc (a + b) :=
  enc_eq_iff.2 ⟨addInner_canon (canon_enc a) (canon_enc b), by rw [addInner_val, val_enc, val_enc]⟩

/-! ### subtraction -/

theorem resize_length (v : Words) (n : Nat) : (resize v n).length = n := by
  simp [resize]; omega

theorem resize_val {v : Words} {n : Nat} (h : v.length ≤ n) : val (resize v n) = val v := by
  unfold resize
  rw [val_append, List.take_of_length_le h]; simp

theorem sbbZip_length (g c : Bool) (x y : Words) :
    (sbbZip g c x y).1.length = min x.length y.length := by
  induction x generalizing c y with
  | nil => simp [sbbZip]
  | cons a as ih =>
    cases y with
    | nil => simp [sbbZip]
    | cons b bs => simp only [sbbZip, List.length_cons, ih]; omega

theorem sbbZip_val_true (c : Bool) (x y : Words) :
    val (sbbZip true c x y).1 + val (y.take x.length) + c.toNat
      = val (x.take y.length) + 2 ^ (32 * min x.length y.length) * (sbbZip true c x y).2.toNat := by
  induction x generalizing c y with
  | nil => simp [sbbZip]
  | cons a as ih =>
    cases y with
    | nil => simp [sbbZip]
    | cons b bs =>
      have h := sbb_spec c a b
      have h' := ih (sbb c a b).2 bs
      simp only [sbbZip, if_true, val_cons, List.length_cons, List.take_succ_cons,
        Nat.add_min_add_right, Nat.mul_add, Nat.pow_add, Nat.mul_one] at *
      generalize (sbbZip true (sbb c a b).2 as bs).2.toNat = C at *
      generalize 2 ^ (32 * min as.length bs.length) = P at *
      have : P * 2 ^ 32 * C = 2 ^ 32 * (P * C) := by ring
      rw [this]
      omega

theorem sbbZip_false (c : Bool) (x y : Words) : sbbZip false c x y = sbbZip true c y x := by
  induction x generalizing c y with
  | nil => cases y <;> simp [sbbZip]
  | cons a as ih =>
    cases y with
    | nil => simp [sbbZip]
    | cons b bs => simp only [sbbZip, Bool.false_eq_true, if_false, if_true, ih]

theorem sbbTail_length (c : Bool) (x : Words) : (sbbTail c x).length = x.length := by
  induction x generalizing c with
  | nil => simp [sbbTail]
  | cons a as ih =>
    simp only [sbbTail]
    split <;> simp [ih]

theorem sbbTail_val (c : Bool) (x : Words) (h : c.toNat ≤ val x) :
    val (sbbTail c x) + c.toNat = val x := by
  induction x generalizing c with
  | nil => simp at h; simp [sbbTail, h]
  | cons a as ih =>
    unfold sbbTail
    split
    · have h1 := sbb_spec c a 0#32
      simp only [val_cons, BitVec.toNat_zero] at *
      have hc : c.toNat ≤ 1 := Bool.toNat_le c
      have hb : (sbb c a 0#32).2.toNat ≤ 1 := Bool.toNat_le _
      have ha := a.isLt
      have hs := (sbb c a 0#32).1.isLt
      have := ih (sbb c a 0#32).2 (by omega)
      omega
    · rename_i hc
      simp at hc
      subst hc; simp

/-- the body of `sub_inner_with_sign` when `x ≥ y` in value and `x` is at least as long -/
theorem sub_ge_val {x y : Words} (hl : y.length ≤ x.length) (h : val y ≤ val x) :
    val ((sbbZip true false x y).1 ++
      (if (sbbZip true false x y).2 then sbbTail (sbbZip true false x y).2 (x.drop y.length)
       else x.drop y.length)) = val x - val y := by
  have hz := sbbZip_val_true false x y
  have hzl := sbbZip_length true false x y
  rw [List.take_of_length_le (l := y) hl] at hz
  rw [Nat.min_eq_right hl] at *
  have hx := val_take_add_drop x y.length hl
  have hvl := val_lt (sbbZip true false x y).1
  rw [hzl] at hvl
  have hlt := val_lt (x.take y.length)
  rw [List.length_take, Nat.min_eq_left hl] at hlt
  rw [val_append, hzl]
  simp only [Bool.toNat_false, Nat.add_zero] at hz
  cases hc : (sbbZip true false x y).2 with
  | false =>
    rw [hc] at hz
    simp at hz ⊢
    omega
  | true =>
    rw [hc] at hz
    simp only [if_true]
    simp at hz
    have hpos : 1 ≤ val (x.drop y.length) := by
      rcases Nat.eq_zero_or_pos (val (x.drop y.length)) with h0 | h0
      · rw [h0] at hx; omega
      · exact h0
    have ht := sbbTail_val true (x.drop y.length) (by simpa using hpos)
    simp at ht
    generalize val (sbbTail true (List.drop y.length x)) = T at *
    generalize val (List.drop y.length x) = T' at *
    generalize 2 ^ (32 * y.length) = P at *
    subst ht
    rw [Nat.mul_add] at hx
    omega

/-- Value of the absolute difference, for operands whose comparison agrees with their values and
with a sufficiently long minuend. -/
theorem subInnerWithSign_enc (a b : Nat) :
    subInnerWithSign (enc a) (enc b) = (enc (a - b + (b - a)), decide (b ≤ a)) := by
  unfold subInnerWithSign
  simp only [geOp_enc]
  have hca := canon_enc a
  have hcb := canon_enc b
  by_cases h : b ≤ a
  · have hlen : (enc b).length ≤ (enc a).length := by
      by_contra hcon
      have := hcb.val_lt_of_length_lt hca.ne_nil (by omega)
      simp at this; omega
    have hzl := sbbZip_length true false (enc a) (enc b)
    have hv := sub_ge_val hlen (by simpa using h)
    simp only [h, decide_true, if_true, Bool.true_and]
    rw [hzl, Nat.min_eq_right hlen]
    rw [trim_eq_enc]
    · rw [hv, val_enc, val_enc]
      congr 2; omega
    · intro h0
      have h1 := congrArg List.length h0
      rw [List.length_append, hzl, Nat.min_eq_right hlen, List.length_nil] at h1
      have := hcb.length_pos
      omega
  · have hlen : (enc a).length ≤ (enc b).length := by
      by_contra hcon
      have := hca.val_lt_of_length_lt hcb.ne_nil (by omega)
      simp at this; omega
    simp only [h, decide_false, Bool.false_eq_true, if_false, Bool.false_and]
    rw [sbbZip_false]
    have hrl := resize_length (enc a) (enc b).length
    have hrv := resize_val hlen
    have hzl := sbbZip_length true false (enc b) (resize (enc a) (enc b).length)
    have hv := sub_ge_val (x := enc b) (y := resize (enc a) (enc b).length) (by rw [hrl])
      (by rw [hrv]; simp; omega)
    rw [hzl, hrl, Nat.min_self]
    rw [hrl] at hv
    rw [List.drop_of_length_le (by rw [hrl]), List.append_nil]
    have hnil : List.drop (enc b).length (enc b) = [] := List.drop_of_length_le (Nat.le_refl _)
    rw [hnil] at hv
    have : (if (sbbZip true false (enc b) (resize (enc a) (enc b).length)).2 = true then
        sbbTail (sbbZip true false (enc b) (resize (enc a) (enc b).length)).2 [] else []) = [] := by
      split <;> rfl
    rw [this, List.append_nil] at hv
    rw [trim_eq_enc]
    · rw [hv, val_enc, hrv, val_enc]
      congr 2; omega
    · intro h0
      have h1 := congrArg List.length h0
      rw [hzl, hrl, Nat.min_self, List.length_nil] at h1
      have := hcb.length_pos
      omega

theorem subInner_enc (a b : Nat) : subInner (enc a) (enc b) = enc (a - b + (b - a)) := by
  unfold subInner; rw [subInnerWithSign_enc]

theorem subInner_enc_of_le {a b : Nat} (h : b ≤ a) : subInner (enc a) (enc b) = enc (a - b) := by
  rw [subInner_enc]; congr 1; omega

end RMath
