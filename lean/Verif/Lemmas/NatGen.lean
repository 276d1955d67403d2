import Verif.Lemmas.NatMul

/-! # The portable back end computes the same results as the x86 one -/

namespace RMath

theorem boolW_toNat (b : Bool) : (boolW b).toNat = b.toNat := by cases b <;> rfl

theorem boolW_pos (b : Bool) : boolW b > 0#32 ↔ b = true := by cases b <;> decide

/-- Two `overflowing_add` are one add with carry. -/
theorem ovAdd_adc (a b : W) (c : Bool) :
    let x := overflowingAdd a b
    let y := overflowingAdd x.1 (boolW c)
    (y.1, x.2 || y.2) = adc c a b := by
  have h1 := overflowingAdd_spec a b
  have h2 := overflowingAdd_spec (overflowingAdd a b).1 (boolW c)
  have h3 := adc_spec c a b
  rw [boolW_toNat] at h2
  have k1 := (overflowingAdd (overflowingAdd a b).1 (boolW c)).1.isLt
  have k2 := (adc c a b).1.isLt
  have k3 := a.isLt
  have k4 := b.isLt
  have kc : c.toNat ≤ 1 := Bool.toNat_le c
  simp only
  generalize overflowingAdd (overflowingAdd a b).1 (boolW c) = y at h2 k1
  generalize overflowingAdd a b = x at h1 h2
  generalize adc c a b = z at h3 k2
  have kx : x.2.toNat ≤ 1 := Bool.toNat_le _
  have ky : y.2.toNat ≤ 1 := Bool.toNat_le _
  have kz : z.2.toNat ≤ 1 := Bool.toNat_le _
  have e1 : y.1.toNat = z.1.toNat := by omega
  have e2 : x.2.toNat + y.2.toNat = z.2.toNat := by omega
  apply Prod.ext
  · exact BitVec.eq_of_toNat_eq e1
  · simp only
    rcases x with ⟨_, x2⟩; rcases y with ⟨_, y2⟩; rcases z with ⟨_, z2⟩
    cases x2 <;> cases y2 <;> cases z2 <;> simp_all

theorem ovSub_sbb (a b : W) (c : Bool) :
    let x := overflowingSub a b
    let y := overflowingSub x.1 (boolW c)
    (y.1, y.2 || x.2) = sbb c a b := by
  have h1 := overflowingSub_spec a b
  have h2 := overflowingSub_spec (overflowingSub a b).1 (boolW c)
  have h3 := sbb_spec c a b
  rw [boolW_toNat] at h2
  have k0 := (overflowingSub a b).1.isLt
  have k1 := (overflowingSub (overflowingSub a b).1 (boolW c)).1.isLt
  have k2 := (sbb c a b).1.isLt
  have k3 := a.isLt
  have k4 := b.isLt
  have kc : c.toNat ≤ 1 := Bool.toNat_le c
  simp only
  generalize overflowingSub (overflowingSub a b).1 (boolW c) = y at h2 k1
  generalize overflowingSub a b = x at h1 h2 k0
  generalize sbb c a b = z at h3 k2
  have kx : x.2.toNat ≤ 1 := Bool.toNat_le _
  have ky : y.2.toNat ≤ 1 := Bool.toNat_le _
  have kz : z.2.toNat ≤ 1 := Bool.toNat_le _
  have e1 : y.1.toNat = z.1.toNat := by omega
  have e2 : x.2.toNat + y.2.toNat = z.2.toNat := by omega
  apply Prod.ext
  · exact BitVec.eq_of_toNat_eq e1
  · simp only
    rcases x with ⟨_, x2⟩; rcases y with ⟨_, y2⟩; rcases z with ⟨_, z2⟩
    cases x2 <;> cases y2 <;> cases z2 <;> simp_all

theorem ovAdd_adc0 (a : W) (c : Bool) : overflowingAdd a (boolW c) = adc c a 0#32 := by
  have h2 := overflowingAdd_spec a (boolW c)
  have h3 := adc_spec c a 0#32
  rw [boolW_toNat] at h2
  have k1 := (overflowingAdd a (boolW c)).1.isLt
  have k2 := (adc c a 0#32).1.isLt
  generalize overflowingAdd a (boolW c) = y at *
  generalize adc c a 0#32 = z at *
  have ky : y.2.toNat ≤ 1 := Bool.toNat_le _
  have kz : z.2.toNat ≤ 1 := Bool.toNat_le _
  simp only [BitVec.toNat_ofNat, Nat.zero_mod, Nat.add_zero] at h3
  have e1 : y.1.toNat = z.1.toNat := by omega
  have e2 : y.2.toNat = z.2.toNat := by omega
  apply Prod.ext
  · exact BitVec.eq_of_toNat_eq e1
  · rcases y with ⟨_, y2⟩; rcases z with ⟨_, z2⟩
    cases y2 <;> cases z2 <;> simp_all

theorem ovSub_sbb0 (a : W) (c : Bool) : overflowingSub a (boolW c) = sbb c a 0#32 := by
  have h2 := overflowingSub_spec a (boolW c)
  have h3 := sbb_spec c a 0#32
  rw [boolW_toNat] at h2
  have k1 := (overflowingSub a (boolW c)).1.isLt
  have k2 := (sbb c a 0#32).1.isLt
  generalize overflowingSub a (boolW c) = y at *
  generalize sbb c a 0#32 = z at *
  have ky : y.2.toNat ≤ 1 := Bool.toNat_le _
  have kz : z.2.toNat ≤ 1 := Bool.toNat_le _
  simp only [BitVec.toNat_ofNat, Nat.zero_mod, Nat.add_zero] at h3
  have e1 : y.1.toNat = z.1.toNat := by omega
  have e2 : y.2.toNat = z.2.toNat := by omega
  apply Prod.ext
  · exact BitVec.eq_of_toNat_eq e1
  · rcases y with ⟨_, y2⟩; rcases z with ⟨_, z2⟩
    cases y2 <;> cases z2 <;> simp_all

namespace Gen

theorem addZip_eq (c : Bool) (x y : Words) :
    addZip (boolW c) x y = ((adcZip c x y).1, boolW (adcZip c x y).2) := by
  induction x generalizing c y with
  | nil => simp [addZip, adcZip]
  | cons a as ih =>
    cases y with
    | nil => simp [addZip, adcZip]
    | cons b bs =>
      have h := ovAdd_adc a b c
      simp only at h
      have e1 := congrArg Prod.fst h
      have e2 := congrArg Prod.snd h
      simp only at e1 e2
      simp only [addZip, adcZip, e1, e2, ih]

theorem addTail_eq (c : Bool) (x : Words) :
    addTail (boolW c) x = ((adcTail c x).1, boolW (adcTail c x).2) := by
  induction x generalizing c with
  | nil => simp [addTail, adcTail]
  | cons a as ih => simp only [addTail, adcTail, ovAdd_adc0, ih]

theorem subZip_eq (g c : Bool) (x y : Words) :
    subZip g (boolW c) x y = ((sbbZip g c x y).1, boolW (sbbZip g c x y).2) := by
  induction x generalizing c y with
  | nil => simp [subZip, sbbZip]
  | cons a as ih =>
    cases y with
    | nil => simp [subZip, sbbZip]
    | cons b bs =>
      cases g
      · have h := ovSub_sbb b a c
        simp only at h
        have e1 := congrArg Prod.fst h
        have e2 := congrArg Prod.snd h
        simp only at e1 e2
        simp only [subZip, sbbZip, Bool.false_eq_true, if_false, e1, e2, ih]
      · have h := ovSub_sbb a b c
        simp only at h
        have e1 := congrArg Prod.fst h
        have e2 := congrArg Prod.snd h
        simp only at e1 e2
        simp only [subZip, sbbZip, if_true, e1, e2, ih]

theorem sbb_false_zero (a : W) : sbb false a 0#32 = (a, false) := by
  simp [sbb]

theorem subTail_eq (c : Bool) (x : Words) : subTail (boolW c) x = sbbTail c x := by
  induction x generalizing c with
  | nil => simp [subTail, sbbTail]
  | cons a as ih =>
    simp only [subTail, sbbTail, ovSub_sbb0, ih]
    cases c
    · rw [sbb_false_zero]
      simp only [Bool.false_eq_true, if_false]
      congr 1
      cases as <;> simp [sbbTail]
    · simp

theorem subInnerWithSign_eq (x y : Words) :
    Gen.subInnerWithSign x y = RMath.subInnerWithSign x y := by
  unfold Gen.subInnerWithSign RMath.subInnerWithSign
  have h0 : (0#32 : W) = boolW false := rfl
  rw [h0]
  simp only [subZip_eq]
  simp only [subTail_eq]
  rw [← h0]
  simp only [boolW_pos, Bool.decide_eq_true]

theorem subInner_eq (x y : Words) : Gen.subInner x y = RMath.subInner x y := by
  unfold Gen.subInner RMath.subInner; rw [subInnerWithSign_eq]

theorem geOp_true_length {x y : Words} (h : geOp x y = true) : y.length ≤ x.length := by
  by_contra hlt
  have hc : cmpInner x y = .lt := by unfold cmpInner; rw [if_pos (by omega)]
  unfold geOp partialCmp at h
  rw [hc] at h
  split at h <;> simp_all

theorem geOp_false_length {x y : Words} (hx : x ≠ []) (hy : y ≠ []) (h : geOp x y = false) :
    x.length ≤ y.length := by
  by_contra hlt
  have hc : cmpInner x y = .gt := by
    unfold cmpInner; rw [if_neg (show ¬ x.length < y.length by omega), if_pos (by omega)]
  unfold geOp partialCmp at h
  rw [hc] at h
  simp [isNan, hx, hy] at h

theorem adcZip_replicate (c : Bool) (x y : Words) (h : x.length ≤ y.length) :
    adcZip c (resize x y.length) y =
      ((adcZip c x y).1 ++ (adcTail (adcZip c x y).2 (y.drop x.length)).1,
        (adcTail (adcZip c x y).2 (y.drop x.length)).2) := by
  induction x generalizing c y with
  | nil =>
    simp only [resize, List.take_nil, List.length_nil, Nat.sub_zero, List.nil_append, adcZip,
      List.drop_zero, Prod.mk.eta]
    induction y generalizing c with
    | nil => simp [adcZip, adcTail]
    | cons b bs ih =>
      have hc : adc c 0#32 b = adc c b 0#32 := by
        unfold adc; simp [Nat.add_comm]
      simp only [List.length_cons, List.replicate_succ, adcZip, adcTail, hc]
      rw [ih _ (by simp)]
  | cons a as ih =>
    cases y with
    | nil => simp at h
    | cons b bs =>
      simp only [List.length_cons, Nat.add_le_add_iff_right] at h
      have := ih (adc c a b).2 bs h
      simp only [resize, List.length_cons, List.take_succ_cons, Nat.add_sub_add_right,
        List.cons_append, adcZip, List.drop_succ_cons] at this ⊢
      rw [this]

theorem addInner_eq {x y : Words} (hx : x ≠ []) (hy : y ≠ []) :
    Gen.addInner x y = RMath.addInner x y := by
  unfold Gen.addInner RMath.addInner
  have h0 : (0#32 : W) = boolW false := rfl
  rw [h0]
  simp only [addZip_eq, addTail_eq]
  rw [← h0]
  simp only [boolW_pos]
  by_cases hg : geOp x y = true
  · have hl := geOp_true_length hg
    rw [if_pos hg, if_pos hl]
    congr 1
    cases (adcTail (adcZip false x y).2 (List.drop y.length x)).2 <;> rfl
  · have hl := geOp_false_length hx hy (by simpa using hg)
    rw [if_neg hg, adcZip_replicate _ _ _ hl]
    have hd : (resize x y.length).drop y.length = [] := by
      apply List.drop_eq_nil_of_le; rw [resize_length]
    rw [hd]
    simp only [adcTail, List.append_nil]
    by_cases he : y.length ≤ x.length
    · have : x.length = y.length := by omega
      rw [if_pos he]
      rw [this, List.drop_eq_nil_of_le (le_refl _), List.drop_eq_nil_of_le (le_of_eq this)]
      simp only [adcTail]
      cases (adcZip false x y).2 <;> simp [boolW]
    · rw [if_neg he]
      cases (adcTail (adcZip false x y).2 (List.drop x.length y)).2 <;> simp [boolW]

theorem addBasicLoop_eq (c : Bool) (r : W) (x : Words) :
    addBasicLoop (boolW c) r x = ((adcBasic c r x).1, boolW (adcBasic c r x).2) := by
  induction x generalizing c r with
  | nil => simp [addBasicLoop, adcBasic]
  | cons a as ih =>
    have h := ovAdd_adc a r c
    simp only at h
    have e1 := congrArg Prod.fst h
    have e2 := congrArg Prod.snd h
    simp only at e1 e2
    simp only [addBasicLoop, adcBasic, e1, e2, ih]

theorem addInnerBasic_eq (x : Words) (r : W) : Gen.addInnerBasic x r = RMath.addInnerBasic x r := by
  unfold Gen.addInnerBasic RMath.addInnerBasic
  have h0 : (0#32 : W) = boolW false := rfl
  rw [h0, addBasicLoop_eq, ← h0]
  simp only [boolW_pos]
  cases (adcBasic false r x).2 <;> simp [boolW]

theorem subBasicLoop_eq (c : Bool) (r : W) (x : Words) :
    subBasicLoop (boolW c) r x = sbbBasic c r x := by
  induction x generalizing c r with
  | nil => simp [subBasicLoop, sbbBasic]
  | cons a as ih =>
    unfold subBasicLoop sbbBasic
    by_cases hr : r > 0#32
    · have h := ovSub_sbb a r c
      simp only at h
      have e1 := congrArg Prod.fst h
      have e2 := congrArg Prod.snd h
      simp only at e1 e2
      rw [if_pos hr]
      simp only [e1, Bool.or_comm (overflowingSub a r).2, e2, ih]
    · have : r = 0#32 := by
        have : ¬ (0#32).toNat < r.toNat := hr
        apply BitVec.eq_of_toNat_eq; simp at this ⊢; omega
      subst this
      rw [if_neg hr]
      simp only [ovSub_sbb0, ih]

/-- The portable subtraction of a word trims its result, the x86 one does not. -/
theorem subInnerBasic_eq (x : Words) (r : W) :
    Gen.subInnerBasic x r = trim (RMath.subInnerBasic x r) := by
  match x with
  | [] => rfl
  | [w] => simp only [Gen.subInnerBasic, RMath.subInnerBasic, trim_of_canon (canon_singleton _)]
  | a :: b :: as =>
    simp only [Gen.subInnerBasic, RMath.subInnerBasic]
    have h0 : (0#32 : W) = boolW false := rfl
    rw [h0, subBasicLoop_eq]

theorem roundLoop_val (a carry : W) (x : Words) :
    val (roundLoop (toD a) carry x) = a.toNat * val x + carry.toNat := by
  induction x generalizing carry with
  | nil => simp [roundLoop]
  | cons b bs ih =>
    have hm := mul_lt_64 a b
    have hc := carry.isLt
    have h0 := toD_mul_toNat a b
    have hk := toD_toNat carry
    unfold roundLoop
    simp only
    rw [if_neg (by rw [h0, hk]; simp; omega)]
    simp only [val, ih, toW_toNat, mask64_and, shr32_toNat]
    rw [BitVec.toNat_add, h0, hk]
    have : a.toNat * (b.toNat + 2 ^ 32 * val bs) = a.toNat * b.toNat + 2 ^ 32 * (a.toNat * val bs) := by ring
    rw [this]
    omega

theorem roundLoop_ne_nil (a : D) (carry : W) (x : Words) : roundLoop a carry x ≠ [] := by
  cases x
  · simp [roundLoop]
  · unfold roundLoop; simp only; split <;> simp

theorem mulLoop_enc (max : Words) (i acc : Nat) (x : Words) :
    mulLoop max i (enc acc) x = enc (acc + 2 ^ (32 * i) * (val x * val max)) := by
  induction x generalizing i acc with
  | nil => simp [mulLoop]
  | cons a as ih =>
    rw [mulLoop, trim_eq_enc (by simp [roundLoop_ne_nil]), addInner_eq (enc_ne_nil _) (enc_ne_nil _),
      addInner_enc, ih]
    congr 1
    rw [val_append, roundLoop_val, List.length_replicate, val_replicate_zero, pow32_succ]
    simp only [val]
    simp; ring

theorem mulInner_spec (x y : Words) : Gen.mulInner x y = enc (val x * val y) := by
  unfold Gen.mulInner
  simp only
  rw [← enc_zero, mulLoop_enc, trim_enc]
  congr 1
  rw [minMax_val]; simp

end Gen

end RMath
