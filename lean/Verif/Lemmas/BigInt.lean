import Verif.Lemmas.NatText
import Verif.Model.BigInt
import Mathlib.Data.Int.Bitwise
import Mathlib.Data.Int.GCD

/-! Proofs about `BigInt`: arithmetic, comparison, bit operations. -/

namespace RMath

/-! ## canonical integers -/

@[simp] theorem ival_encI (z : Int) : ival (encI z) = z := by
  unfold ival encI
  simp only [val_enc, decide_eq_true_eq]
  split <;> omega

theorem canonI_encI (z : Int) : CanonI (encI z) := by
  refine ⟨canon_enc _, ?_⟩
  simp only [encI, decide_eq_true_eq, val_enc]
  omega

theorem canonI_eq_encI {x : BInt} (h : CanonI x) : x = encI (ival x) := by
  obtain ⟨nat, neg⟩ := x
  obtain ⟨h1, h2⟩ := h
  simp only at h1 h2
  obtain ⟨n, rfl⟩ := canon_iff_enc.1 h1
  rw [val_enc] at h2
  cases neg with
  | false => simp [ival, encI]
  | true =>
    have := h2 rfl
    simp only [ival, encI, val_enc, if_true, Int.natAbs_neg, Int.natAbs_natCast, BInt.mk.injEq, true_and]
    symm
    simp only [decide_eq_true_eq]
    omega

theorem canonI_iff_encI {x : BInt} : CanonI x ↔ ∃ z, x = encI z :=
  ⟨fun h => ⟨_, canonI_eq_encI h⟩, fun ⟨z, h⟩ => h ▸ canonI_encI z⟩

theorem encI_inj {a b : Int} : encI a = encI b ↔ a = b :=
  ⟨fun h => by rw [← ival_encI a, h, ival_encI], fun h => by rw [h]⟩

theorem encI_ofNat (n : Nat) : encI (n : Int) = ⟨enc n, false⟩ := by
  simp [encI]

theorem encI_negSucc (n : Nat) : encI (Int.negSucc n) = ⟨enc (n + 1), true⟩ := by
  simp [encI]

theorem bOne_eq : bOne = encI 1 := by simp [bOne, encI, enc_one]
theorem bZero_eq : bZero = encI 0 := by simp [bZero, encI, enc_zero]
theorem bMinusOne_eq : bMinusOne = encI (-1) := by simp [bMinusOne, encI, enc_one]

@[simp] theorem bIsNan_encI (z : Int) : bIsNan (encI z) = false := by simp [bIsNan, encI]
@[simp] theorem bDeepClone_encI (z : Int) : bDeepClone (encI z) = encI z := by simp [bDeepClone, encI]
@[simp] theorem bIsNegative_encI (z : Int) : bIsNegative (encI z) = decide (z < 0) := by
  simp [bIsNegative]; simp [encI]
@[simp] theorem bIsPositive_encI (z : Int) : bIsPositive (encI z) = decide (0 < z) := by
  simp only [bIsPositive, bIsNan_encI, Bool.not_false, Bool.true_and]
  simp only [encI, ← enc_zero, eqv_enc]
  by_cases h1 : z < 0
  · simp [h1]; omega
  · by_cases h2 : z = 0
    · simp [h2]
    · simp [h1, h2]; omega
@[simp] theorem bAbs_encI (z : Int) : bAbs (encI z) = encI |z| := by
  simp only [bAbs, encI, deepClone_enc, Int.natAbs_abs, BInt.mk.injEq, true_and]
  have := abs_nonneg z
  symm
  simp only [decide_eq_false_iff_not]
  omega
@[simp] theorem bEqW_zero_encI (z : Int) : bEqW (encI z) 0#32 = decide (z = 0) := by
  simp only [bEqW, encI, ← enc_zero, eqv_enc]
  by_cases h1 : z < 0
  · simp [h1]; omega
  · simp [h1]
@[simp] theorem bEqW_one_encI (z : Int) : bEqW (encI z) 1#32 = decide (z = 1) := by
  simp only [bEqW, encI, ← enc_one, eqv_enc]
  by_cases h1 : z < 0
  · simp [h1]; omega
  · simp [h1]; omega
@[simp] theorem bEq_encI (a b : Int) : bEq (encI a) (encI b) = decide (a = b) := by
  simp only [bEq, encI, eqv_enc]
  rw [Bool.eq_iff_iff]
  simp only [Bool.and_eq_true, beq_iff_eq, decide_eq_decide, decide_eq_true_eq]
  omega
theorem bSignnum_encI (z : Int) : bSignnum (encI z) = some z.sign := by
  unfold bSignnum
  rw [bIsNan_encI, if_neg (by simp)]
  simp only [encI, ← enc_zero, eqv_enc, decide_eq_true_eq]
  by_cases h1 : z < 0
  · rw [if_pos h1, Int.sign_eq_neg_one_of_neg h1]
  · rw [if_neg h1]
    by_cases h2 : z = 0
    · simp [h2]
    · rw [if_neg (by omega), Int.sign_eq_one_of_pos (by omega)]

theorem compare_natAbs (a b : Int) : bCmp (encI a) (encI b) = some (compare a b) := by
  unfold bCmp
  rw [bIsNan_encI, bIsNan_encI, if_neg (by simp)]
  simp only [encI, cmpInner_enc]
  congr 1
  by_cases ha : a < 0 <;> by_cases hb : b < 0
  · simp only [ha, hb, decide_true, signCmp, if_true, Ordering.then]
    rcases lt_trichotomy a b with h | h | h
    · rw [compare_lt_iff_lt.2 h, compare_gt_iff_gt.2 (by omega)]; rfl
    · subst h; simp
    · rw [compare_gt_iff_gt.2 h, compare_lt_iff_lt.2 (by omega)]; rfl
  · simp only [ha, hb, decide_true, decide_false, signCmp, Ordering.then]
    rw [compare_lt_iff_lt.2 (by omega)]
  · simp only [ha, hb, decide_true, decide_false, signCmp, Ordering.then]
    rw [compare_gt_iff_gt.2 (by omega)]
  · simp only [ha, hb, decide_false, signCmp, Bool.false_eq_true, if_false, Ordering.then]
    rcases lt_trichotomy a b with h | h | h
    · rw [compare_lt_iff_lt.2 h, compare_lt_iff_lt.2 (by omega)]
    · subst h; simp
    · rw [compare_gt_iff_gt.2 h, compare_gt_iff_gt.2 (by omega)]

@[simp] theorem bLt_encI (a b : Int) : bLt (encI a) (encI b) = decide (a < b) := by
  rw [bLt, compare_natAbs, Bool.eq_iff_iff]
  simp [compare_lt_iff_lt]
@[simp] theorem bGt_encI (a b : Int) : bGt (encI a) (encI b) = decide (b < a) := by
  rw [bGt, compare_natAbs, Bool.eq_iff_iff]
  simp [compare_gt_iff_gt]
@[simp] theorem bGe_encI (a b : Int) : bGe (encI a) (encI b) = decide (b ≤ a) := by
  rw [bGe, compare_natAbs, Bool.eq_iff_iff]
  simp [compare_gt_iff_gt, compare_eq_iff_eq]
  omega

/-! ## sum, difference, product -/

theorem signFix_enc (n : Nat) (neg : Bool) : signFix (enc n) neg = encI (if neg then -(n : Int) else n) := by
  unfold signFix
  rw [isNan_enc, ← enc_zero, eqv_enc, Bool.false_or]
  by_cases h : n = 0
  · subst h; simp [encI]
  · rw [if_neg (by simpa using h)]
    cases neg with
    | false => simp [encI]
    | true =>
      simp only [encI, if_true, Int.natAbs_neg, Int.natAbs_natCast, BInt.mk.injEq, true_and]
      symm
      simp only [decide_eq_true_eq]
      omega

theorem assign_add_enc (a b : Nat) : assignNat addInner (enc a) (enc b) = enc (a + b) := by
  simp [assignNat]
theorem assign_sub_enc (a b : Nat) : assignNat subInner (enc a) (enc b) = enc (a - b + (b - a)) := by
  simp [assignNat, subInner_enc]
theorem assign_mul_enc (a b : Nat) : assignNat mulInner (enc a) (enc b) = enc (a * b) := by
  simp [assignNat, mulInner_enc]

theorem bAddInner_encI (a b : Int) : bAddInner (encI a) (encI b) = encI (a + b) := by
  unfold bAddInner
  simp only [encI, assign_add_enc, assign_sub_enc, signFix_enc, ltOp_enc]
  by_cases ha : a < 0 <;> by_cases hb : b < 0
  · simp only [ha, hb, decide_true, if_true]
    exact encI_inj.2 (by omega)
  · simp only [ha, hb, decide_true, decide_false, Bool.true_eq_false, if_false, Bool.not_true]
    by_cases h : a.natAbs < b.natAbs
    · simp only [h, decide_true, if_true, Bool.false_eq_true, if_false]
      exact encI_inj.2 (by omega)
    · simp only [h, decide_false, Bool.false_eq_true, if_false, if_true]
      exact encI_inj.2 (by omega)
  · simp only [ha, hb, decide_true, decide_false, Bool.false_eq_true, if_false, Bool.not_false]
    by_cases h : a.natAbs < b.natAbs
    · simp only [h, decide_true, if_true]
      exact encI_inj.2 (by omega)
    · simp only [h, decide_false, Bool.false_eq_true, if_false]
      exact encI_inj.2 (by omega)
  · simp only [ha, hb, decide_false, if_true, Bool.false_eq_true, if_false]
    exact encI_inj.2 (by omega)

theorem bSubInner_encI (a b : Int) : bSubInner (encI a) (encI b) = encI (a - b) := by
  unfold bSubInner
  simp only [encI, assign_add_enc, assign_sub_enc, signFix_enc, ltOp_enc]
  by_cases ha : a < 0 <;> by_cases hb : b < 0
  · simp only [ha, hb, decide_true, ne_eq, not_true, if_false, Bool.not_true]
    by_cases h : a.natAbs < b.natAbs
    · simp only [h, decide_true, if_true, Bool.false_eq_true, if_false]
      exact encI_inj.2 (by omega)
    · simp only [h, decide_false, Bool.false_eq_true, if_false, if_true]
      exact encI_inj.2 (by omega)
  · simp only [ha, hb, decide_true, decide_false, ne_eq, Bool.true_eq_false, not_false_iff, if_true]
    exact encI_inj.2 (by omega)
  · simp only [ha, hb, decide_true, decide_false, ne_eq, Bool.false_eq_true, not_false_iff, if_true, if_false]
    exact encI_inj.2 (by omega)
  · simp only [ha, hb, decide_false, ne_eq, not_true, if_false, Bool.not_false]
    by_cases h : a.natAbs < b.natAbs
    · simp only [h, decide_true, if_true]
      exact encI_inj.2 (by omega)
    · simp only [h, decide_false, Bool.false_eq_true, if_false]
      exact encI_inj.2 (by omega)

theorem bMulInner_encI (a b : Int) : bMulInner (encI a) (encI b) = encI (a * b) := by
  unfold bMulInner
  simp only [encI, assign_mul_enc, signFix_enc]
  apply encI_inj.2
  rw [Nat.cast_mul]
  by_cases ha : a < 0 <;> by_cases hb : b < 0
  · simp only [ha, hb, decide_true, bne_self_eq_false, Bool.false_eq_true, if_false, Int.ofNat_natAbs_of_nonpos ha.le,
      Int.ofNat_natAbs_of_nonpos hb.le]
    ring
  · simp only [ha, hb, decide_true, decide_false, Bool.bne_false, if_true, Int.ofNat_natAbs_of_nonpos ha.le,
      Int.natAbs_of_nonneg (not_lt.1 hb)]
    ring
  · simp only [ha, hb, decide_true, decide_false, Bool.false_bne, if_true, Int.ofNat_natAbs_of_nonpos hb.le,
      Int.natAbs_of_nonneg (not_lt.1 ha)]
    ring
  · simp only [ha, hb, decide_false, bne_self_eq_false, Bool.false_eq_true, if_false,
      Int.natAbs_of_nonneg (not_lt.1 ha), Int.natAbs_of_nonneg (not_lt.1 hb)]

@[simp] theorem bAdd_encI (a b : Int) : bAdd (encI a) (encI b) = encI (a + b) := by
  rw [bAdd, bDeepClone_encI, bAddInner_encI]
@[simp] theorem bSub_encI (a b : Int) : bSub (encI a) (encI b) = encI (a - b) := by
  rw [bSub, bDeepClone_encI, bSubInner_encI]
@[simp] theorem bMul_encI (a b : Int) : bMul (encI a) (encI b) = encI (a * b) := by
  rw [bMul, bDeepClone_encI, bMulInner_encI]
@[simp] theorem bNegInner_encI (a : Int) : bNegInner (encI a) = encI (-a) := by
  unfold bNegInner
  simp only [bIsNan_encI, bEqW_zero_encI, Bool.not_false, Bool.true_and]
  by_cases h : a = 0
  · subst h; rfl
  · rw [if_pos (by simpa using h)]
    simp only [encI, Int.natAbs_neg, BInt.mk.injEq, true_and]
    by_cases h1 : a < 0
    · simp [h1]; omega
    · simp [h1]; omega
@[simp] theorem bNeg_encI (a : Int) : bNeg (encI a) = encI (-a) := by rw [bNeg, bDeepClone_encI, bNegInner_encI]

/-! ## quotient and remainder -/

/-- the quotient, with the sign that the code gives it: `-0` is possible -/
theorem bDivInner_encI (a : Int) {b : Int} (hb : b ≠ 0) : bDivInner (encI a) (encI b)
    = .ok ⟨enc (a.natAbs / b.natAbs), decide ((a < 0) ≠ (b < 0) ∧ a ≠ 0)⟩ := by
  unfold bDivInner
  simp only [encI]
  have hb' : b.natAbs ≠ 0 := by omega
  have hz : eqv (enc b.natAbs) [0#32] = false := by rw [← enc_zero, eqv_enc]; simpa using hb
  rw [show partialCmp (enc a.natAbs) [0#32] = some (compare a.natAbs 0) by rw [← enc_zero, partialCmp_enc]]
  simp only [hz, assignNatR, isNan_enc, Bool.or_self, Bool.false_eq_true, if_false, divInner_enc hb', Except.ok.injEq,
    BInt.mk.injEq, true_and]
  by_cases h0 : a.natAbs = 0
  · have : a = 0 := by omega
    subst this
    simp
  · rw [compare_gt_iff_gt.2 (by omega : a.natAbs > 0)]
    have : a ≠ 0 := by omega
    by_cases ha : a < 0 <;> by_cases hb : b < 0 <;> simp [ha, hb, this]

theorem bRemInner_encI (a : Int) {b : Int} (hb : b ≠ 0) : bRemInner (encI a) (encI b)
    = .ok ⟨enc (a.natAbs % b.natAbs), decide (a < 0)⟩ := by
  unfold bRemInner
  simp only [encI]
  have hb' : b.natAbs ≠ 0 := by omega
  have hz : eqv (enc b.natAbs) [0#32] = false := by rw [← enc_zero, eqv_enc]; simpa using hb
  simp only [hz, assignNatR, isNan_enc, Bool.or_self, Bool.false_eq_true, if_false, remInner_enc hb']

theorem bDivInner_zero (a : BInt) : bDivInner a (encI 0) = .error .panic := by
  simp [bDivInner, encI, ← enc_zero]

theorem bRemInner_zero (a : BInt) : bRemInner a (encI 0) = .error .panic := by
  simp [bRemInner, encI, ← enc_zero]

theorem bDiv_eq (a : Int) (b : BInt) : bDiv (encI a) b = bDivInner (encI a) b := by rw [bDiv, bDeepClone_encI]
theorem bRem_eq (a : Int) (b : BInt) : bRem (encI a) b = bRemInner (encI a) b := by rw [bRem, bDeepClone_encI]

/-- quotient of non-negative numbers -/
theorem bDiv_nonneg {a b : Int} (ha : 0 ≤ a) (hb : 0 < b) : bDiv (encI a) (encI b) = .ok (encI (a / b)) := by
  rw [bDiv_eq, bDivInner_encI a (by omega)]
  have h1 : a.natAbs / b.natAbs = (a / b).natAbs := by
    obtain ⟨a, rfl⟩ := Int.eq_ofNat_of_zero_le ha
    obtain ⟨b, rfl⟩ := Int.eq_ofNat_of_zero_le hb.le
    norm_cast
  have h2 : ¬(a / b < 0) := by have := Int.ediv_nonneg ha hb.le; omega
  rw [h1, encI]
  simp only [Except.ok.injEq, BInt.mk.injEq, true_and, h2, decide_false, decide_eq_false_iff_not]
  rintro ⟨h, -⟩
  apply h
  simp only [eq_iff_iff]
  omega

theorem bRem_nonneg {a b : Int} (ha : 0 ≤ a) (hb : 0 < b) : bRem (encI a) (encI b) = .ok (encI (a % b)) := by
  rw [bRem_eq, bRemInner_encI a (by omega)]
  have h1 : a.natAbs % b.natAbs = (a % b).natAbs := by
    obtain ⟨a, rfl⟩ := Int.eq_ofNat_of_zero_le ha
    obtain ⟨b, rfl⟩ := Int.eq_ofNat_of_zero_le hb.le
    norm_cast
  have h2 : ¬(a % b < 0) := by have := Int.emod_nonneg a (by omega : b ≠ 0); omega
  rw [h1, encI]
  simp only [Except.ok.injEq, BInt.mk.injEq, true_and, h2, decide_false, decide_eq_false_iff_not]
  omega

/-! ## vectors with a possible zero word on top, after `-= 1u32` -/

/-- at most one superfluous zero word, and then one more fills it -/
def Almost (v : Words) : Prop := v ≠ [] ∧ (1 < v.length → 2 ^ (32 * (v.length - 1)) ≤ val v + 1)

theorem almost_of_canon {v : Words} (h : Canon v) : Almost v :=
  ⟨h.ne_nil, fun h1 => by have := h.le_val h1; omega⟩

theorem subInnerBasic_length (x : Words) (r : W) : (subInnerBasic x r).length = x.length := by
  match x with
  | [] => rfl
  | [w] => rfl
  | a :: b :: cs => simp [subInnerBasic, sbbBasic_length]

theorem decW_spec (m : Nat) : val (decW (enc (m + 1))) = m ∧ (decW (enc (m + 1))).length = (enc (m + 1)).length ∧
    Almost (decW (enc (m + 1))) := by
  have e : decW (enc (m + 1)) = subInnerBasic (enc (m + 1)) 1#32 := by
    simp [decW, assignPrim]
  have hv : val (decW (enc (m + 1))) = m := by
    rw [e, subInnerBasic_val (canon_enc _), val_enc]
    simp
  have hl : (decW (enc (m + 1))).length = (enc (m + 1)).length := by rw [e, subInnerBasic_length]
  refine ⟨hv, hl, ?_, ?_⟩
  · intro h
    rw [h] at hl
    exact enc_ne_nil (m + 1) (List.length_eq_zero_iff.1 hl.symm)
  · intro h1
    rw [hl] at h1 ⊢
    have := (canon_enc (m + 1)).le_val h1
    rw [val_enc] at this
    omega

theorem natSubW_one (m : Nat) : natSubW (enc (m + 1)) 1#32 = decW (enc (m + 1)) := by
  simp [natSubW, opPrim, decW, assignPrim]

theorem incW_eq {v : Words} (h : Almost v) : incW v = enc (val v + 1) := by
  obtain ⟨h0, h⟩ := h
  have e : incW v = addInnerBasic v 1#32 := by
    have : isNan v = false := by simp [isNan, h0]
    simp [incW, assignPrim, this]
  have hv : val (addInnerBasic v 1#32) = val v + 1 := by rw [addInnerBasic_val h0]; rfl
  rw [e]
  refine enc_eq_iff.2 ⟨?_, hv⟩
  have hl := adcBasic_length false 1#32 v
  have hpos := List.length_pos_iff.2 h0
  by_cases hc : (adcBasic false 1#32 v).2 = true
  · unfold addInnerBasic
    simp only [hc, if_true]
    exact ⟨by simp, Or.inr (by simp)⟩
  · have el : (addInnerBasic v 1#32).length = v.length := by
      unfold addInnerBasic
      simp [hc, hl]
    apply canon_of_le_val
    · intro h0'
      rw [h0'] at el
      simp at el
      omega
    · intro h1
      rw [el] at h1 ⊢
      rw [hv]
      exact h h1

theorem isNan_encf (n : Nat) : (!isNan (enc n)) = true := by simp

/-! ## bit operations -/

theorem or_almost {x y : Words} (hx : Almost x) (hy : Almost y) : Almost (bitorInner x y) := by
  have hl := bitorInner_length x y
  refine ⟨?_, ?_⟩
  · intro h
    rw [h] at hl
    have := List.length_pos_iff.2 hx.1
    simp at hl
    omega
  · intro h1
    rw [hl] at h1 ⊢
    rw [bitorInner_val]
    have h2 : val x ≤ val x ||| val y := Nat.left_le_or
    have h3 : val y ≤ val x ||| val y := Nat.right_le_or
    rcases Nat.le_total x.length y.length with h | h
    · rw [Nat.max_eq_right h] at h1 ⊢
      have := hy.2 h1
      omega
    · rw [Nat.max_eq_left h] at h1 ⊢
      have := hx.2 h1
      omega

theorem assignNat_ne {f : Words → Words → Words} {x y : Words} (hx : x ≠ []) (hy : y ≠ []) :
    assignNat f x y = f x y := by
  simp [assignNat, isNan, hx, hy]

theorem andNot_eq {x y : Words} (hx : x ≠ []) : andNotAssign x y = enc (Nat.ldiff (val x) (val y)) := by
  refine enc_eq_iff.2 ⟨andNotAssign_canon hx, Nat.eq_of_testBit_eq fun i => ?_⟩
  rw [andNotAssign_testBit, Nat.testBit_ldiff]

theorem and_eq {x y : Words} (hx : x ≠ []) (hy : y ≠ []) : bitandInner x y = enc (val x &&& val y) :=
  enc_eq_iff.2 ⟨bitandInner_canon hx hy, bitandInner_val x y⟩

theorem xor_eq {x y : Words} (hx : x ≠ []) : bitxorInner x y = enc (val x ^^^ val y) :=
  enc_eq_iff.2 ⟨bitxorInner_canon hx, bitxorInner_val x y⟩

theorem bAnd_encI (a b : Int) : bAnd (encI a) (encI b) = encI (Int.land a b) := by
  rw [bAnd, bDeepClone_encI]
  rcases a with m | m <;> rcases b with n | n
  · simp only [Int.ofNat_eq_natCast, encI_ofNat, bAndInner, if_true, Bool.false_eq_true, if_false]
    rw [assignNat_ne (enc_ne_nil _) (enc_ne_nil _), bitandInner_enc, ← encI_ofNat]
    rfl
  · obtain ⟨h1, h2, h3⟩ := decW_spec n
    simp only [Int.ofNat_eq_natCast, encI_ofNat, encI_negSucc, bAndInner, Bool.false_eq_true, if_false, mixed]
    rw [natSubW_one, andNot_eq (enc_ne_nil _), h1, val_enc, ← encI_ofNat]
    rfl
  · obtain ⟨h1, h2, h3⟩ := decW_spec m
    simp only [Int.ofNat_eq_natCast, encI_ofNat, encI_negSucc, bAndInner, Bool.true_eq_false, if_false, mixed, if_true]
    rw [natSubW_one, andNot_eq (enc_ne_nil _), h1, val_enc, ← encI_ofNat]
    rfl
  · obtain ⟨h1, h2, h3⟩ := decW_spec m
    obtain ⟨k1, k2, k3⟩ := decW_spec n
    simp only [encI_negSucc, bAndInner, if_true]
    rw [natSubW_one, assignNat_ne h3.1 k3.1, incW_eq (or_almost h3 k3), isNan_encf, bitorInner_val, h1, k1,
      ← encI_negSucc]
    rfl

/-- what `|` computes when the signs differ: the operands of the difference are exchanged -/
def orMixed : Int → Int → Int
  | .ofNat m, .negSucc n => .negSucc (Nat.ldiff m n)
  | .negSucc m, .ofNat n => .negSucc (Nat.ldiff n m)
  | a, b => Int.lor a b

theorem bOr_encI (a b : Int) : bOr (encI a) (encI b) = encI (orMixed a b) := by
  rw [bOr, bDeepClone_encI]
  rcases a with m | m <;> rcases b with n | n
  · simp only [Int.ofNat_eq_natCast, encI_ofNat, bOrInner, if_true, Bool.false_eq_true, if_false]
    rw [assignNat_ne (enc_ne_nil _) (enc_ne_nil _), bitorInner_enc, ← encI_ofNat]
    rfl
  · obtain ⟨h1, h2, h3⟩ := decW_spec n
    simp only [Int.ofNat_eq_natCast, encI_ofNat, encI_negSucc, bOrInner, Bool.false_eq_true, if_false, mixed]
    rw [natSubW_one, andNot_eq (enc_ne_nil _), h1, val_enc, incW_eq (almost_of_canon (canon_enc _)), isNan_encf,
      val_enc, ← encI_negSucc]
    rfl
  · obtain ⟨h1, h2, h3⟩ := decW_spec m
    simp only [Int.ofNat_eq_natCast, encI_ofNat, encI_negSucc, bOrInner, Bool.true_eq_false, if_false, mixed, if_true]
    rw [natSubW_one, andNot_eq (enc_ne_nil _), h1, val_enc, incW_eq (almost_of_canon (canon_enc _)), isNan_encf,
      val_enc, ← encI_negSucc]
    rfl
  · obtain ⟨h1, h2, h3⟩ := decW_spec m
    obtain ⟨k1, k2, k3⟩ := decW_spec n
    simp only [encI_negSucc, bOrInner, if_true]
    rw [natSubW_one, assignNat_ne h3.1 k3.1, and_eq h3.1 k3.1, incW_eq (almost_of_canon (canon_enc _)), isNan_encf,
      val_enc, h1, k1, ← encI_negSucc]
    rfl

theorem bXor_encI (a b : Int) : bXor (encI a) (encI b) = encI (Int.xor a b) := by
  rw [bXor, bDeepClone_encI]
  rcases a with m | m <;> rcases b with n | n
  · simp only [Int.ofNat_eq_natCast, encI_ofNat, bXorInner, if_true, Bool.false_eq_true, if_false]
    rw [assignNat_ne (enc_ne_nil _) (enc_ne_nil _), bitxorInner_enc, ← encI_ofNat]
    rfl
  · obtain ⟨h1, h2, h3⟩ := decW_spec n
    simp only [Int.ofNat_eq_natCast, encI_ofNat, encI_negSucc, bXorInner, Bool.false_eq_true, if_false, mixed]
    rw [natSubW_one, assignNat_ne (enc_ne_nil _) h3.1, xor_eq (enc_ne_nil _), h1, val_enc,
      incW_eq (almost_of_canon (canon_enc _)), isNan_encf, val_enc, ← encI_negSucc]
    rfl
  · obtain ⟨h1, h2, h3⟩ := decW_spec m
    simp only [Int.ofNat_eq_natCast, encI_ofNat, encI_negSucc, bXorInner, Bool.true_eq_false, if_false, mixed, if_true]
    rw [natSubW_one, assignNat_ne (enc_ne_nil _) h3.1, xor_eq (enc_ne_nil _), h1, val_enc,
      incW_eq (almost_of_canon (canon_enc _)), isNan_encf, val_enc, ← encI_negSucc, Nat.xor_comm]
    rfl
  · obtain ⟨h1, h2, h3⟩ := decW_spec m
    obtain ⟨k1, k2, k3⟩ := decW_spec n
    simp only [encI_negSucc, bXorInner, if_true]
    rw [natSubW_one, assignNat_ne h3.1 k3.1, xor_eq h3.1, h1, k1, ← encI_ofNat]
    rfl

/-- what `and_not` computes: for two negative operands the difference is taken the wrong way round -/
def andNotCode : Int → Int → Int
  | .negSucc m, .negSucc n => .ofNat (Nat.ldiff m n)
  | a, b => Int.ldiff a b

theorem bAndNot_encI (a b : Int) : bAndNot (encI a) (encI b) = encI (andNotCode a b) := by
  rw [bAndNot, bDeepClone_encI]
  rcases a with m | m <;> rcases b with n | n
  · simp only [Int.ofNat_eq_natCast, encI_ofNat, bAndNotAssign, if_true, Bool.false_eq_true, if_false]
    rw [andNotAssign_enc, ← encI_ofNat]
    rfl
  · obtain ⟨h1, h2, h3⟩ := decW_spec n
    simp only [Int.ofNat_eq_natCast, encI_ofNat, encI_negSucc, bAndNotAssign, Bool.false_eq_true, if_false]
    rw [natSubW_one, assignNat_ne (enc_ne_nil _) h3.1, and_eq (enc_ne_nil _) h3.1, h1, val_enc, ← encI_ofNat]
    rfl
  · obtain ⟨h1, h2, h3⟩ := decW_spec m
    simp only [Int.ofNat_eq_natCast, encI_ofNat, encI_negSucc, bAndNotAssign, Bool.true_eq_false, if_false, if_true]
    rw [assignNat_ne h3.1 (enc_ne_nil _), incW_eq (or_almost h3 (almost_of_canon (canon_enc _))), isNan_encf,
      bitorInner_val, h1, val_enc, ← encI_negSucc]
    rfl
  · obtain ⟨h1, h2, h3⟩ := decW_spec m
    obtain ⟨k1, k2, k3⟩ := decW_spec n
    simp only [encI_negSucc, bAndNotAssign, if_true]
    rw [natSubW_one, andNot_eq h3.1, h1, k1, ← encI_ofNat]
    rfl

/-! ## shifts -/

theorem bShl_encI {a : Int} {s : Nat} (h : a ≠ 0 ∨ s < 32) : bShl (encI a) s = encI (a * 2 ^ s) := by
  rw [bShl, bDeepClone_encI]
  simp only [bShlInner, encI, assignPrim, isNan_enc, Bool.false_eq_true, if_false]
  have h1 : shlInner (enc a.natAbs) s = enc (a * 2 ^ s).natAbs := by
    rw [Int.natAbs_mul, Int.natAbs_pow]
    rcases h with h | h
    · exact shlInner_enc (by omega) s
    · exact shl3_enc _ _ h
  rw [h1]
  congr 1
  have hp : (0:Int) < 2 ^ s := by positivity
  by_cases ha : a < 0
  · simp only [ha, decide_true]
    symm
    simp only [decide_eq_true_eq]
    exact mul_neg_of_neg_of_pos ha hp
  · simp only [ha, decide_false]
    symm
    simp only [decide_eq_false_iff_not, not_lt]
    exact mul_nonneg (not_lt.1 ha) hp.le

theorem shr_almost {v : Words} {s : Nat} (hv : Almost v) (h : s < 32) : Almost (shrInner v s) := by
  obtain ⟨hv, hle⟩ := hv
  by_cases h0 : s = 0
  · subst h0
    have : shrInner v 0 = v := by
      unfold shrInner
      simp [hv]
    rw [this]; exact ⟨hv, hle⟩
  by_cases htop : v.getLast hv >>> s = 0#32
  · obtain ⟨x, xs, rfl⟩ : ∃ x xs, v = x :: xs := by
      cases v with
      | nil => exact absurd rfl hv
      | cons x xs => exact ⟨x, xs, rfl⟩
    have hs32 : s / 32 = 0 := by omega
    have hs : s % 32 = s := by omega
    have hval := (shrInner_small hv h).1
    have hsnd := shrLoop_snd (by omega : 0 < s) h x xs
    have hsl := shrLoop_length s (x >>> s) xs
    have hz : (shrLoop s (x >>> s) xs).2 = 0#32 := by rw [hsnd]; exact htop
    have hdl : (((shrLoop s (x >>> s) xs).1 ++
          (x :: xs).drop (shrLoop s (x >>> s) xs).1.length).take ((x :: xs).length - 0)).dropLast
        = (shrLoop s (x >>> s) xs).1 := by
      rw [List.dropLast_eq_take, List.take_take]
      rw [List.take_left']
      simp only [List.length_take, List.length_append, hsl, List.length_drop, List.length_cons]
      omega
    have hres : shrInner (x :: xs) s =
        if (shrLoop s (x >>> s) xs).1 = [] then [0#32] else (shrLoop s (x >>> s) xs).1 := by
      unfold shrInner
      simp only [hs32, hs]
      have hs0 : s > 0 := by omega
      rw [if_neg (by simp), if_pos hs0, List.drop_zero]
      simp only
      rw [if_neg (by rw [hz]; simp), if_pos (by simp; omega), hdl]
    by_cases hxs : (shrLoop s (x >>> s) xs).1 = []
    · rw [hres, if_pos hxs]
      exact ⟨by simp, by simp⟩
    · rw [if_neg hxs] at hres
      rw [hres] at hval ⊢
      refine ⟨hxs, ?_⟩
      intro h1
      rw [hsl] at h1 ⊢
      rw [hval]
      have h2 := hle (by simp; omega)
      simp only [List.length_cons, Nat.add_sub_cancel] at h2
      generalize val (x :: xs) = X at *
      generalize xs.length = n at *
      have e1 : 2 ^ (32 * n) = 2 ^ (32 * n - s) * 2 ^ s := by rw [← Nat.pow_add]; congr 1; omega
      have e2 : 2 ^ (32 * (n - 1)) ≤ 2 ^ (32 * n - s) := Nat.pow_le_pow_right (by norm_num) (by omega)
      have e3 : 2 ^ (32 * n - s) - 1 ≤ X / 2 ^ s := by
        rw [Nat.le_div_iff_mul_le (Nat.two_pow_pos _), Nat.sub_mul, ← e1]
        have := Nat.two_pow_pos s
        omega
      omega
  · have := shrInner_carry (v := v) (s := s) (by have := List.length_pos_iff.2 hv; omega) (by omega)
      (by rw [Nat.mod_eq_of_lt h]; exact htop)
    exact almost_of_canon this.2

/-- top word and value -/
theorem top_shift {v : Words} (hv : v ≠ []) (r : Nat) (h : 2 ^ (32 * (v.length - 1) + r) ≤ val v) :
    v.getLast hv >>> r ≠ 0#32 := by
  obtain ⟨y, w, rfl⟩ := exists_concat hv
  rw [List.getLast_append_singleton]
  intro h0
  have h1 := congrArg BitVec.toNat h0
  rw [BitVec.toNat_ushiftRight, Nat.shiftRight_eq_div_pow] at h1
  have h2 : w.toNat < 2 ^ r := by
    by_contra h3
    have := (Nat.div_pos (not_lt.1 h3) (Nat.two_pow_pos r))
    simp at h1
    omega
  rw [val_append, List.length_append] at h
  simp only [List.length_cons, List.length_nil, Nat.zero_add, Nat.add_sub_cancel, val, Nat.mul_zero, Nat.add_zero] at h
  have h3 := val_lt y
  rw [Nat.pow_add] at h
  have h4 : 2 ^ (32 * y.length) * (w.toNat + 1) ≤ 2 ^ (32 * y.length) * 2 ^ r := Nat.mul_le_mul_left _ h2
  rw [Nat.mul_add, Nat.mul_one] at h4
  omega

/-- the shift counts for which `>>` works on a vector of length `L` and value `m` -/
def ShrOk (L m s : Nat) : Prop := s < 32 ∨ 32 * L ≤ s ∨ (s % 32 ≠ 0 ∧ 2 ^ (32 * (L - 1) + s % 32) ≤ m)

theorem shr_ok {v : Words} {s : Nat} (hv : Almost v) (h : ShrOk v.length (val v) s) :
    Almost (shrInner v s) ∧ val (shrInner v s) = val v / 2 ^ s := by
  by_cases hall : v.length ≤ s / 32
  · rw [shrInner_all hall]
    refine ⟨almost_of_canon (canon_enc _), ?_⟩
    rw [val_enc, Nat.div_eq_of_lt]
    exact lt_of_lt_of_le (val_lt v) (Nat.pow_le_pow_right (by norm_num) (by omega))
  rcases h with h | h | ⟨h0, h1⟩
  · exact ⟨shr_almost hv h, (shrInner_small hv.1 h).1⟩
  · omega
  · have := shrInner_carry (v := v) (s := s) (by omega) (by omega) (top_shift hv.1 _ h1)
    exact ⟨almost_of_canon this.2, this.1⟩

theorem bShr_encI {a : Int} {s : Nat} (h : ShrOk (enc a.natAbs).length (if a < 0 then a.natAbs - 1 else a.natAbs) s)  :
    bShr (encI a) s = encI (a / 2 ^ s) := by
  rw [bShr, bDeepClone_encI]
  rcases a with m | m
  · simp only [Int.ofNat_eq_natCast, Int.natAbs_natCast] at h
    rw [if_neg (by omega)] at h
    simp only [Int.ofNat_eq_natCast, encI_ofNat, bShrInner, Bool.false_eq_true, if_false, assignPrim, isNan_enc]
    have e : ((m : Int) / 2 ^ s) = ((m / 2 ^ s : Nat) : Int) := by norm_cast
    rw [e, encI_ofNat]
    have hv : val (shrInner (enc m) s) = m / 2 ^ s ∧ Canon (shrInner (enc m) s) := by
      by_cases hall : (enc m).length ≤ s / 32
      · rw [shrInner_all hall]
        refine ⟨?_, canon_enc _⟩
        have := val_lt (enc m)
        rw [val_enc] at this
        rw [val_enc, Nat.div_eq_of_lt]
        exact lt_of_lt_of_le this (Nat.pow_le_pow_right (by norm_num) (by omega))
      rcases h with h | h | ⟨h0, h1⟩
      · have := shrInner_small (enc_ne_nil m) h
        rw [val_enc] at this
        exact ⟨this.1, this.2 (canon_enc m)⟩
      · omega
      · have := shrInner_carry (v := enc m) (s := s) (by omega) (by omega) (top_shift (enc_ne_nil m) _ (by rw [val_enc]; exact h1))
        rw [val_enc] at this
        exact this
    rw [enc_eq_iff.2 ⟨hv.2, hv.1⟩]
  · obtain ⟨h1, h2, h3⟩ := decW_spec m
    simp only [Int.natAbs_negSucc, Nat.succ_eq_add_one, Int.negSucc_lt_zero, if_true, Nat.add_sub_cancel] at h
    rw [← h2] at h
    conv at h => arg 2; rw [← h1]
    have := shr_ok h3 h
    simp only [encI_negSucc, bShrInner, if_true]
    have hn : isNan (decW (enc (m + 1))) = false := by simp [isNan, h3.1]
    simp only [assignPrim, hn, Bool.false_eq_true, if_false]
    rw [incW_eq this.1, this.2, h1, isNan_encf, ← encI_negSucc]
    congr 1
    rw [Int.negSucc_ediv _ (by positivity)]
    rw [Int.negSucc_eq]
    have : ((m : Int) / 2 ^ s) = ((m / 2 ^ s : Nat) : Int) := by norm_cast
    rw [show ((m : Int).ediv (2 ^ s)) = (m : Int) / 2 ^ s from rfl, this]

end RMath
