import Verif.Lemmas.NatBits

/-! # Operations with a machine word -/

namespace RMath

theorem pow32_succ (n : Nat) : 2 ^ (32 * (n + 1)) = 2 ^ 32 * 2 ^ (32 * n) := by
  rw [← Nat.pow_add]; congr 1; ring

theorem adcBasic_length (c : Bool) (r : W) (x : Words) : (adcBasic c r x).1.length = x.length := by
  induction x generalizing c r with
  | nil => rfl
  | cons a as ih => simp [adcBasic, ih]

theorem adcBasic_val (c : Bool) (r : W) {x : Words} (hx : x ≠ []) :
    val (adcBasic c r x).1 + 2 ^ (32 * x.length) * (adcBasic c r x).2.toNat
      = val x + r.toNat + c.toNat := by
  induction x generalizing c r with
  | nil => exact absurd rfl hx
  | cons a as ih =>
    have h := adc_spec c a r
    simp only [adcBasic, val, List.length_cons, pow32_succ]
    by_cases has : as = []
    · subst has; simp [adcBasic, val]; omega
    · have h' := ih (adc c a r).2 0#32 has
      simp only [BitVec.toNat_ofNat, Nat.zero_mod, Nat.add_zero] at h'
      rw [Nat.mul_assoc]
      omega

theorem addInnerBasic_val {x : Words} (hx : x ≠ []) (r : W) :
    val (addInnerBasic x r) = val x + r.toNat := by
  have h := adcBasic_val false r hx
  unfold addInnerBasic
  rw [val_append, adcBasic_length, val_ite_carry]
  simpa using h

theorem addInnerBasic_canon {x : Words} (hx : Canon x) (r : W) : Canon (addInnerBasic x r) := by
  have hv := addInnerBasic_val hx.ne_nil r
  have hp := hx.length_pos
  have hl := adcBasic_length false r x
  by_cases hc : (adcBasic false r x).2 = true
  · have e : addInnerBasic x r = (adcBasic false r x).1 ++ [1#32] := by simp [addInnerBasic, hc]
    rw [e]
    refine ⟨by simp, Or.inr (by simp)⟩
  · have e : addInnerBasic x r = (adcBasic false r x).1 := by simp [addInnerBasic, hc]
    rw [e] at hv ⊢
    apply canon_of_le_val
    · intro h; rw [h] at hl; simp at hl; omega
    · intro h1
      rw [hl] at h1 ⊢
      have := hx.le_val h1
      omega

theorem addInnerBasic_enc (a : Nat) (r : W) : addInnerBasic (enc a) r = enc (a + r.toNat) :=
  enc_eq_iff.2 ⟨addInnerBasic_canon (canon_enc a) r, by rw [addInnerBasic_val (enc_ne_nil a)]; simp⟩

theorem sbbBasic_length (c : Bool) (r : W) (x : Words) : (sbbBasic c r x).length = x.length := by
  induction x generalizing c r with
  | nil => rfl
  | cons a as ih => simp [sbbBasic, ih]

theorem sbbBasic_val (c : Bool) (r : W) {x : Words} (hx : x ≠ []) (h : r.toNat + c.toNat ≤ val x) :
    val (sbbBasic c r x) + r.toNat + c.toNat = val x := by
  induction x generalizing c r with
  | nil => exact absurd rfl hx
  | cons a as ih =>
    have hs := sbb_spec c a r
    have h1 := (sbb c a r).1.isLt
    have h2 := a.isLt
    simp only [sbbBasic, val] at h ⊢
    have hb : (sbb c a r).2.toNat ≤ 1 := Bool.toNat_le _
    by_cases has : as = []
    · subst has; simp [sbbBasic, val] at h ⊢; omega
    · have h' := ih (sbb c a r).2 0#32 has (by simp; omega)
      simp only [BitVec.toNat_ofNat, Nat.zero_mod, Nat.add_zero] at h'
      omega

theorem subInnerBasic_val {x : Words} (hx : Canon x) (r : W) :
    val (subInnerBasic x r) = (val x - r.toNat) + (r.toNat - val x) := by
  match x, hx with
  | [], hx => exact absurd rfl hx.ne_nil
  | [w], _ =>
    have h1 := w.isLt
    have h2 := r.isLt
    simp only [subInnerBasic, val, Nat.mul_zero, Nat.add_zero]
    split
    · rename_i h
      have h : w.toNat < r.toNat := h
      rw [BitVec.toNat_sub_of_le (BitVec.le_of_lt ‹_›)]
      omega
    · rename_i h
      have h : ¬ w.toNat < r.toNat := h
      have h3 : r ≤ w := by rw [BitVec.le_def]; omega
      rw [BitVec.toNat_sub_of_le h3]
      omega
  | a :: b :: as, hx =>
    have h := hx.le_val (by simp)
    have h2 := r.isLt
    have h3 : 2 ^ 32 ≤ val (a :: b :: as) := by
      refine le_trans (Nat.pow_le_pow_right (by norm_num) ?_) h
      simp
    have := sbbBasic_val false r (x := a :: b :: as) (by simp) (by simp only [Bool.toNat_false]; omega)
    simp only [subInnerBasic]
    simp only [Bool.toNat_false] at this
    omega

theorem subInnerBasic_ne_nil {x : Words} (hx : x ≠ []) (r : W) : subInnerBasic x r ≠ [] := by
  match x with
  | [] => exact absurd rfl hx
  | [w] => simp [subInnerBasic]
  | a :: b :: as => simp [subInnerBasic, sbbBasic]

/-! ### multiplication -/

theorem toD_toNat (w : W) : (toD w).toNat = w.toNat := by
  have := w.isLt
  simp [toD]; omega

theorem toW_toNat (d : D) : (toW d).toNat = d.toNat % 2 ^ 32 := by simp [toW]

theorem mask64_and (d : D) : (d &&& 0xffffffff#64).toNat = d.toNat % 2 ^ 32 := by
  rw [BitVec.toNat_and]
  exact Nat.and_two_pow_sub_one_eq_mod _ 32

theorem shr32_toNat (d : D) : (d >>> 32).toNat = d.toNat / 2 ^ 32 := by
  rw [BitVec.toNat_ushiftRight, Nat.shiftRight_eq_div_pow]

theorem mul_lt_64 (a b : W) : a.toNat * b.toNat ≤ (2 ^ 32 - 1) * (2 ^ 32 - 1) :=
  Nat.mul_le_mul (by have := a.isLt; omega) (by have := b.isLt; omega)

theorem toD_mul_toNat (a b : W) : (toD a * toD b).toNat = a.toNat * b.toNat := by
  have := mul_lt_64 a b
  rw [BitVec.toNat_mul, toD_toNat, toD_toNat, Nat.mod_eq_of_lt]
  omega

theorem mulBasicLoop_length (r pre : D) (x : Words) : (mulBasicLoop r pre x).1.length = x.length := by
  induction x generalizing pre with
  | nil => rfl
  | cons a as ih => simp [mulBasicLoop, ih]

theorem mulBasicLoop_val (r : W) (pre : D) (x : Words) (hp : pre.toNat < 2 ^ 32) :
    val (mulBasicLoop (toD r) pre x).1 + 2 ^ (32 * x.length) * (mulBasicLoop (toD r) pre x).2.toNat
      = val x * r.toNat + pre.toNat ∧ (mulBasicLoop (toD r) pre x).2.toNat < 2 ^ 32 := by
  induction x generalizing pre with
  | nil => simp [mulBasicLoop]; exact hp
  | cons a as ih =>
    have hm := mul_lt_64 a r
    have h0 := toD_mul_toNat a r
    generalize hX : toD a * toD r = X at h0
    have e1 : ((X &&& 0xffffffff#64) + pre).toNat = X.toNat % 2 ^ 32 + pre.toNat := by
      rw [BitVec.toNat_add, mask64_and, Nat.mod_eq_of_lt (by omega)]
    generalize hV : (X &&& 0xffffffff#64) + pre = V at e1
    have e2 : ((V >>> 32) + (X >>> 32)).toNat = V.toNat / 2 ^ 32 + X.toNat / 2 ^ 32 := by
      rw [BitVec.toNat_add, shr32_toNat, shr32_toNat, Nat.mod_eq_of_lt (by omega)]
    have e3 : ((V >>> 32) + (X >>> 32)).toNat < 2 ^ 32 := by rw [e2]; omega
    obtain ⟨h1, h2⟩ := ih _ e3
    simp only [mulBasicLoop, val, List.length_cons, hX, hV, toW_toNat, mask64_and, Nat.mod_mod]
    refine ⟨?_, h2⟩
    rw [pow32_succ, Nat.mul_assoc]
    have h3 : (a.toNat + 2 ^ 32 * val as) * r.toNat = X.toNat + 2 ^ 32 * (val as * r.toNat) := by
      rw [h0]; ring
    rw [h3]
    rw [e2] at h1
    omega

theorem mulInnerBasic_val (x : Words) (r : W) : val (mulInnerBasic x r) = val x * r.toNat := by
  obtain ⟨h1, h2⟩ := mulBasicLoop_val r 0#64 x (by simp)
  unfold mulInnerBasic
  have h3 : ¬ (mulBasicLoop (toD r) 0#64 x).2 > 0xffffffff#64 := by
    intro h
    have : (0xffffffff#64).toNat < _ := h
    simp at this
    omega
  simp only [if_neg h3]
  rw [val_append, mulBasicLoop_length]
  simp only [val, toW_toNat, Nat.mod_eq_of_lt h2]
  simpa using h1

theorem mulInnerBasic_ne_nil (x : Words) (r : W) : mulInnerBasic x r ≠ [] := by
  unfold mulInnerBasic; simp only; split <;> simp

/-! ### division -/

theorem divBasicLoop_length (r pre : D) (x : Words) : (divBasicLoop r pre x).1.length = x.length := by
  induction x generalizing pre with
  | nil => rfl
  | cons a as ih => simp [divBasicLoop, ih]

theorem divBasicLoop_val (r : W) (hr : r ≠ 0#32) (pre : D) (x : Words) (hp : pre.toNat < r.toNat) :
    val (divBasicLoop (toD r) pre x).1.reverse = (pre.toNat * 2 ^ (32 * x.length) + val x.reverse) / r.toNat
      ∧ (divBasicLoop (toD r) pre x).2.toNat
        = (pre.toNat * 2 ^ (32 * x.length) + val x.reverse) % r.toNat := by
  have hr0 : 0 < r.toNat := Nat.pos_of_ne_zero (by simpa [← BitVec.toNat_inj] using hr)
  induction x generalizing pre with
  | nil =>
    simp [divBasicLoop]
    rw [Nat.mod_eq_of_lt hp, Nat.div_eq_of_lt hp]; simp
  | cons a as ih =>
    have ha := a.isLt
    have hr32 := r.isLt
    have e0 : ((pre <<< 32) + toD a).toNat = pre.toNat * 2 ^ 32 + a.toNat := by
      rw [BitVec.toNat_add, BitVec.toNat_shiftLeft, Nat.shiftLeft_eq, toD_toNat]
      rw [Nat.mod_eq_of_lt (by omega : pre.toNat * 2 ^ 32 < 2 ^ 64)]
      exact Nat.mod_eq_of_lt (by omega)
    generalize hV : (pre <<< 32) + toD a = V at e0
    have e1 : (V % toD r).toNat = V.toNat % r.toNat := by rw [BitVec.toNat_umod, toD_toNat]
    have e2 : (V / toD r).toNat = V.toNat / r.toNat := by rw [BitVec.toNat_udiv, toD_toNat]
    have hlt : (V % toD r).toNat < r.toNat := by rw [e1]; exact Nat.mod_lt _ hr0
    obtain ⟨h1, h2⟩ := ih _ hlt
    simp only [divBasicLoop, hV, List.reverse_cons, List.length_cons]
    rw [val_append, List.length_reverse, divBasicLoop_length, h1, h2, val_append, List.length_reverse]
    simp only [val, Nat.mul_zero, Nat.add_zero, toW_toNat, e2]
    have hq : V.toNat / r.toNat < 2 ^ 32 := by
      apply Nat.div_lt_of_lt_mul
      calc V.toNat = pre.toNat * 2 ^ 32 + a.toNat := e0
        _ < (pre.toNat + 1) * 2 ^ 32 := by omega
        _ ≤ r.toNat * 2 ^ 32 := Nat.mul_le_mul_right _ hp
    rw [Nat.mod_eq_of_lt hq, e1]
    have key : pre.toNat * 2 ^ (32 * (as.length + 1)) + (val as.reverse + 2 ^ (32 * as.length) * a.toNat)
        = (V.toNat % r.toNat * 2 ^ (32 * as.length) + val as.reverse)
          + r.toNat * (2 ^ (32 * as.length) * (V.toNat / r.toNat)) := by
      have h3 := Nat.mod_add_div V.toNat r.toNat
      calc _ = (pre.toNat * 2 ^ 32 + a.toNat) * 2 ^ (32 * as.length) + val as.reverse := by
              rw [pow32_succ]; ring
        _ = V.toNat * 2 ^ (32 * as.length) + val as.reverse := by rw [e0]
        _ = (V.toNat % r.toNat + r.toNat * (V.toNat / r.toNat)) * 2 ^ (32 * as.length) + val as.reverse := by
              rw [h3]
        _ = _ := by ring
    rw [key, Nat.add_mul_mod_self_left, Nat.add_mul_div_left _ _ hr0]
    exact ⟨rfl, rfl⟩

theorem divInnerBasic_enc (a : Nat) {r : W} (hr : r ≠ 0#32) :
    divInnerBasic (enc a) r = .ok (enc (a / r.toNat)) := by
  have hr0 : 0 < r.toNat := Nat.pos_of_ne_zero (by simpa [← BitVec.toNat_inj] using hr)
  unfold divInnerBasic
  rw [if_neg hr]
  split
  · exact absurd ‹_› (enc_ne_nil a)
  · rename_i w h
    rw [singleton_eq_enc, enc_inj] at h
    subst h
    rw [singleton_eq_enc, BitVec.toNat_udiv]
  · congr 1
    have hl : (enc a).reverse ≠ [] := by simp [enc_ne_nil]
    obtain ⟨h1, -⟩ := divBasicLoop_val r hr 0#64 (enc a).reverse (by simpa using hr0)
    rw [trim_eq_enc]
    · rw [h1]; simp
    · intro h
      have := congrArg List.length h
      simp [divBasicLoop_length, enc_ne_nil] at this

theorem remInnerBasic_enc (a : Nat) {r : W} (hr : r ≠ 0#32) :
    remInnerBasic (enc a) r = .ok (enc (a % r.toNat)) := by
  have hr0 : 0 < r.toNat := Nat.pos_of_ne_zero (by simpa [← BitVec.toNat_inj] using hr)
  have hr1 := r.isLt
  unfold remInnerBasic
  rw [if_neg hr]
  split
  · exact absurd ‹_› (enc_ne_nil a)
  · rename_i w h
    rw [singleton_eq_enc, enc_inj] at h
    subst h
    rw [singleton_eq_enc, BitVec.toNat_umod]
  · congr 1
    obtain ⟨-, h1⟩ := divBasicLoop_val r hr 0#64 (enc a).reverse (by simpa using hr0)
    rw [singleton_eq_enc, toW_toNat, h1]
    simp only [BitVec.toNat_ofNat, Nat.zero_mod, Nat.zero_mul, Nat.zero_add, List.reverse_reverse, val_enc]
    rw [Nat.mod_eq_of_lt (lt_trans (Nat.mod_lt _ hr0) hr1)]

end RMath
