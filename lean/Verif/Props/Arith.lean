import Verif.Model.Arith
import Verif.Lemmas.NatKara
import Verif.Lemmas.FloatWords

/-!
# Properties C90 and C91: the kernels on word vectors

`val` reads a vector of words with the least significant word first (`Verif.Spec`).
-/

namespace RMath

/-! ## C90 the kernels are exact -/

/-- `mul_ww`, `mul_add_www`: the double word is the product, plus the word added. -/
theorem C90_mul_words (x y c : W) :
    2 ^ 32 * (mulWW x y).1.toNat + (mulWW x y).2.toNat = x.toNat * y.toNat ∧
    2 ^ 32 * (mulAddWWW x y c).1.toNat + (mulAddWWW x y c).2.toNat = x.toNat * y.toNat + c.toNat := by
  have h1 := mulWW_spec x y
  have h2 := mulAddWWW_spec x y c
  omega

/-- `add_vv`, `sub_vv` for vectors of the same length: words and carry (or borrow, at most one) are exact. -/
theorem C90_add_sub_vectors (x y : Words) (h : x.length = y.length) :
    (addVV x y).1.length = x.length ∧ (addVV x y).2.toNat ≤ 1 ∧
    val (addVV x y).1 + 2 ^ (32 * x.length) * (addVV x y).2.toNat = val x + val y ∧
    (subVV x y).1.length = x.length ∧ (subVV x y).2.toNat ≤ 1 ∧
    val (subVV x y).1 + val y = val x + 2 ^ (32 * x.length) * (subVV x y).2.toNat :=
  ⟨addVV_length h, (addVV_val h).2, (addVV_val h).1, subVV_length h, (subVV_val h).2, (subVV_val h).1⟩

/-- `add_vw`, `sub_vw`: a vector and a word. -/
theorem C90_add_sub_word (y : W) (x : Words) :
    (addVW y x).1.length = x.length ∧ val (addVW y x).1 + 2 ^ (32 * x.length) * (addVW y x).2.toNat = val x + y.toNat ∧
    (subVW y x).1.length = x.length ∧ val (subVW y x).1 + y.toNat = val x + 2 ^ (32 * x.length) * (subVW y x).2.toNat :=
  ⟨addVW_length y x, addVW_val y x, subVW_length y x, subVW_val y x⟩

theorem addVWLarge_eq (y : W) (x : Words) : addVWLarge y x = addVW y x := by
  induction x generalizing y with
  | nil => rfl
  | cons a as ih =>
    simp only [addVWLarge, addVW, ih]
    split
    · rename_i h
      subst h
      have : overflowingAdd a 0#32 = (a, false) := by
        have := a.isLt
        simp [overflowingAdd]
        omega
      rw [this]
      rfl
    · rfl

theorem subVWLarge_eq (y : W) (x : Words) : subVWLarge y x = subVW y x := by
  induction x generalizing y with
  | nil => rfl
  | cons a as ih =>
    simp only [subVWLarge, subVW, ih]
    split
    · rename_i h
      subst h
      have : overflowingSub a 0#32 = (a, false) := by simp [overflowingSub]
      rw [this]
      rfl
    · rfl

/-- The variants for long vectors do the same. -/
theorem C90_large_variants (y : W) (x : Words) : addVWLarge y x = addVW y x ∧ subVWLarge y x = subVW y x :=
  ⟨addVWLarge_eq y x, subVWLarge_eq y x⟩

/-- `mul_add_vww`, `add_mul_vvw` -/
theorem C90_mul_vectors (y c : W) (z x : Words) (h : z.length = x.length) :
    (mulAddVWW y c x).1.length = x.length ∧
    val (mulAddVWW y c x).1 + 2 ^ (32 * x.length) * (mulAddVWW y c x).2.toNat = val x * y.toNat + c.toNat ∧
    (addMulVVW z x y).1.length = z.length ∧
    val (addMulVVW z x y).1 + 2 ^ (32 * x.length) * (addMulVVW z x y).2.toNat = val z + val x * y.toNat :=
  ⟨mulAddVWW_length y c x, mulAddVWW_val y c x, addMulVVW_length h y, addMulVVW_val h y⟩

/-- `shl_vu_inner` by less than a word: the words and the bits returned are the product with `2^s`. -/
theorem C90_shl (x : Words) (s : Nat) (hs : s < 32) :
    (shlVu x s).1.length = x.length ∧ val (shlVu x s).1 + 2 ^ (32 * x.length) * (shlVu x s).2.toNat = val x * 2 ^ s := by
  by_cases hx : x = []
  · subst hx; simp [shlVu]
  by_cases h0 : s = 0
  · subst h0; simp [shlVu]
  · rw [shlVu_eq (by omega) hs hx]
    have := shlLoop_val hs 0#32 x (by simp)
    exact ⟨shlLoop_length s _ x, by simpa using this⟩

theorem shrVuLoop_length (s ss : Nat) (x : Words) : (shrVuLoop s ss x).length = x.length := by
  induction x with
  | nil => rfl
  | cons a as ih => cases as with
    | nil => rfl
    | cons b bs => simp only [shrVuLoop, List.length_cons] at ih ⊢; omega

theorem shrVuLoop_val {s : Nat} (h0 : 0 < s) (hs : s < 32) (x : Words) : val (shrVuLoop s (32 - s) x) = val x / 2 ^ s := by
  induction x with
  | nil => simp [shrVuLoop]
  | cons a as ih => cases as with
    | nil => simp [shrVuLoop, Nat.shiftRight_eq_div_pow]
    | cons b bs =>
      simp only [shrVuLoop]
      rw [val_cons, ih, val_cons a]
      have e32 : (2 : Nat) ^ 32 = 2 ^ s * 2 ^ (32 - s) := by rw [← pow_add]; congr 1; omega
      have hb : val (b :: bs) % 2 ^ s = b.toNat % 2 ^ s := by
        rw [val_cons, e32, mul_assoc, Nat.add_mul_mod_self_left]
      have h : (a >>> s ||| b <<< (32 - s)).toNat = a.toNat / 2 ^ s + 2 ^ (32 - s) * (b.toNat % 2 ^ s) := by
        rw [BitVec.toNat_or, BitVec.toNat_ushiftRight, BitVec.toNat_shiftLeft, Nat.shiftRight_eq_div_pow, Nat.shiftLeft_eq]
        have e : b.toNat * 2 ^ (32 - s) % 2 ^ 32 = 2 ^ (32 - s) * (b.toNat % 2 ^ s) := by
          rw [e32, Nat.mul_mod_mul_right, Nat.mul_comm]
        have : a.toNat / 2 ^ s < 2 ^ (32 - s) := by
          rw [Nat.div_lt_iff_lt_mul (by positivity), mul_comm, ← e32]; exact a.isLt
        rw [e, Nat.lor_comm, ← Nat.two_pow_add_eq_or_of_lt this]
        omega
      rw [h, ← hb]
      generalize val (b :: bs) = v
      have hv := Nat.div_add_mod v (2 ^ s)
      have ha := Nat.div_add_mod a.toNat (2 ^ s)
      have hlt : a.toNat % 2 ^ s < 2 ^ s := Nat.mod_lt _ (by positivity)
      generalize v / 2 ^ s = q at *
      generalize v % 2 ^ s = r at *
      rw [e32]
      generalize 2 ^ (32 - s) = T at *
      generalize 2 ^ s = S at *
      generalize a.toNat / S = A at *
      generalize a.toNat % S = ra at *
      rw [← ha, ← hv]
      symm
      apply Nat.div_eq_of_lt_le
      · calc (A + T * r + S * T * q) * S = S * A + S * T * (S * q + r) := by ring
          _ ≤ _ := by omega
      · calc S * A + ra + S * T * (S * q + r) < S * A + S + S * T * (S * q + r) := by omega
          _ = _ := by ring

/-- `shr_vu`, `shr_vu_inner` by less than a word: the words are the quotient by `2^s`, and the bits returned are the
remainder, at the top of the word. -/
theorem C90_shr (x : Words) (s : Nat) (hs : s < 32) :
    (shrVuFull x s).1.length = x.length ∧ val (shrVuFull x s).1 = val x / 2 ^ s ∧
    (shrVuFull x s).2.toNat = val x % 2 ^ s * 2 ^ (32 - s) := by
  cases x with
  | nil => simp [shrVuFull]
  | cons a as =>
    by_cases h0 : s = 0
    · subst h0; simp [shrVuFull, Nat.mod_one]
    · have e1 : s % 32 = s := Nat.mod_eq_of_lt hs
      have e2 : (32 - s) % 32 = 32 - s := Nat.mod_eq_of_lt (by omega)
      simp only [shrVuFull, e1, e2]
      rw [if_neg (by simp [h0])]
      refine ⟨shrVuLoop_length _ _ _, shrVuLoop_val (by omega) hs _, ?_⟩
      have e32 : (2 : Nat) ^ 32 = 2 ^ s * 2 ^ (32 - s) := by rw [← pow_add]; congr 1; omega
      have hb : val (a :: as) % 2 ^ s = a.toNat % 2 ^ s := by
        rw [val_cons, e32, mul_assoc, Nat.add_mul_mod_self_left]
      rw [hb]
      simp only [List.headD_cons, BitVec.toNat_shiftLeft, Nat.shiftLeft_eq]
      rw [e32, Nat.mul_mod_mul_right]

/-- `div_ww` with `u1 < v`: quotient and remainder. -/
theorem C90_div_words (u1 u0 v : W) (h : u1 < v) :
    ∃ q r, divWW u1 u0 v = .ok (q, r) ∧ 2 ^ 32 * u1.toNat + u0.toNat = q.toNat * v.toNat + r.toNat ∧ r.toNat < v.toNat := by
  have hlt : u1.toNat < v.toNat := h
  have hv : v ≠ 0#32 := by rintro rfl; simp at hlt
  have h1 := u1.isLt
  have h2 := u0.isLt
  have h3 := v.isLt
  have ez : ((toD u1 <<< 32) + toD u0).toNat = 2 ^ 32 * u1.toNat + u0.toNat := by
    simp only [toD, BitVec.toNat_add, BitVec.toNat_shiftLeft, BitVec.toNat_setWidth, Nat.shiftLeft_eq]
    omega
  have ev : (toD v).toNat = v.toNat := by simp only [toD, BitVec.toNat_setWidth]; omega
  refine ⟨_, _, by simp only [divWW]; rw [if_neg hv], ?_⟩
  have hq : (2 ^ 32 * u1.toNat + u0.toNat) / v.toNat < 2 ^ 32 := by
    rw [Nat.div_lt_iff_lt_mul (by omega)]
    nlinarith
  have hr := Nat.mod_lt (2 ^ 32 * u1.toNat + u0.toNat) (show 0 < v.toNat by omega)
  simp only [toW, BitVec.toNat_setWidth, BitVec.toNat_udiv, BitVec.toNat_umod, ez, ev]
  rw [Nat.mod_eq_of_lt hq, Nat.mod_eq_of_lt (by omega : (2 ^ 32 * u1.toNat + u0.toNat) % v.toNat < 2 ^ 32)]
  refine ⟨?_, hr⟩
  have := Nat.div_add_mod (2 ^ 32 * u1.toNat + u0.toNat) v.toNat
  rw [mul_comm] at this
  exact this.symm

theorem val_append_one (x : Words) (w : W) : val (x ++ [w]) = val x + 2 ^ (32 * x.length) * w.toNat := by
  induction x with
  | nil => simp [val_cons]
  | cons a as ih => simp only [List.cons_append, val_cons, ih, List.length_cons, pow32_succ]; ring

/-- `div_wvw` divides correctly if the vector is stored with the most significant word first.  Missing: the order in which
this code base stores numbers, for which it is wrong (`C90_div_violated`). -/
theorem C90_div_vector_partial (y : W) (xn : W) (x : Words) (h : xn < y) :
    ∃ z r, divWVW y xn x = .ok (z, r) ∧ z.length = x.length ∧ r.toNat < y.toNat ∧
      2 ^ (32 * x.length) * xn.toNat + val x.reverse = val z.reverse * y.toNat + r.toNat := by
  induction x generalizing xn with
  | nil => exact ⟨[], xn, rfl, rfl, h, by simp⟩
  | cons a as ih =>
    obtain ⟨q, r, e1, e2, e3⟩ := C90_div_words xn a y h
    obtain ⟨z, r', e4, e5, e6, e7⟩ := ih r e3
    refine ⟨q :: z, r', by simp only [divWVW, bind, Except.bind, e1, e4], by simp [e5], e6, ?_⟩
    simp only [List.reverse_cons, val_append_one, List.length_reverse, List.length_cons, pow32_succ, e5]
    generalize 2 ^ (32 * as.length) = P at *
    have : P * (2 ^ 32 * xn.toNat + a.toNat) = P * (q.toNat * y.toNat + r.toNat) := by rw [e2]
    nlinarith

/-- The code violates C90 for `div_wvw`: dividing `2^32` (least significant word first, as everywhere in this code) by 2 gives
quotient 0 and remainder 1 instead of quotient `2^31` and remainder 0. -/
theorem C90_div_violated : divWVW 2#32 0#32 [0#32, 1#32] = .ok ([0#32, 0#32], 1#32) ∧ val [0#32, 1#32] = 2 ^ 32 := by
  refine ⟨by decide +kernel, by norm_num [val]⟩

/-- The code violates C90 for `shl_vu`: the words are those of `shl_vu_inner`, but the value returned is not the bits shifted
out.  For `2^31 + 1`, shifted by 1, it is `2^30`, not 1. -/
theorem C90_shl_slice_violated :
    (∀ x s, (shlVuSlice x s).1 = (shlVu x s).1) ∧ (shlVuSlice [0x80000001#32] 1).2 = 0x40000000#32 ∧
    (shlVu [0x80000001#32] 1).2 = 1#32 := by
  refine ⟨fun x s => ?_, by decide, by decide⟩
  unfold shlVuSlice shlVu
  split <;> rfl

/-! ## C91 the two implementations agree -/

theorem subVVc_eq (c : Bool) (x y : Words) : subVVc (boolW c) x y = ((sbbZip2 c x y).1, boolW (sbbZip2 c x y).2) := by
  induction x generalizing c y with
  | nil => simp [subVVc, sbbZip2]
  | cons a as ih =>
    cases y with
    | nil => simp [subVVc, sbbZip2]
    | cons b bs =>
      have h := ovSub_sbb a b c
      simp only [Prod.ext_iff] at h
      simp only [subVVc, sbbZip2, Bool.or_comm (overflowingSub a b).2, h.2, ih, h.1]

/-- `add_vv`, `sub_vv`, `mul_ww`: the two implementations return the same for all arguments. -/
theorem C91_agree (x y : Words) (a b : W) :
    sseAddVV x y = addVV x y ∧ sseSubVV x y = subVV x y ∧ sseMulWW a b = mulWW a b := by
  refine ⟨(addVVc_eq false x y).symm, (subVVc_eq false x y).symm, ?_⟩
  have h1 := mulWW_spec a b
  have hl := (mulWW a b).2.isLt
  have hm := mul_lt_64 a b
  have e : (toW (toD a * toD b)).toNat = (mulWW a b).2.toNat := by
    simp only [toW_toNat, toD_mul_toNat]
    omega
  exact Prod.ext rfl (BitVec.eq_of_toNat_eq e)

theorem addVW_bool (c : Bool) (x : Words) : addVW (boolW c) x = ((adcBasic c 0#32 x).1, boolW (adcBasic c 0#32 x).2) := by
  induction x generalizing c with
  | nil => rfl
  | cons a as ih => simp only [addVW, adcBasic, ovAdd_adc0, ih]

theorem subVW_bool (c : Bool) (x : Words) : subVW (boolW c) x = ((sbbBasic2 c 0#32 x).1, boolW (sbbBasic2 c 0#32 x).2) := by
  induction x generalizing c with
  | nil => rfl
  | cons a as ih => simp only [subVW, sbbBasic2, ovSub_sbb0, ih]

theorem adcLarge_eq (c : Bool) (x : Words) : adcLarge c x = adcBasic c 0#32 x := by
  induction x generalizing c with
  | nil => rfl
  | cons a as ih =>
    simp only [adcLarge, adcBasic, ih]
    cases c
    · have : adc false a 0#32 = (a, false) := by
        have := a.isLt
        simp [adc]
        omega
      simp [this]
    · simp

theorem sbbLarge_eq (c : Bool) (x : Words) : sbbLarge c x = sbbBasic2 c 0#32 x := by
  induction x generalizing c with
  | nil => rfl
  | cons a as ih =>
    simp only [sbbLarge, sbbBasic2, ih]
    cases c
    · have : sbb false a 0#32 = (a, false) := by simp [sbb]
      simp [this]
    · simp

theorem ovAdd_first (a y : W) : overflowingAdd a y = adc false a y := by
  have h := ovAdd_adc a y false
  simp only [Prod.ext_iff] at h
  have e : overflowingAdd (overflowingAdd a y).1 (boolW false) = ((overflowingAdd a y).1, false) := by
    generalize (overflowingAdd a y).1 = t
    have := t.isLt
    simp [overflowingAdd, boolW]
    omega
  rw [e] at h
  exact Prod.ext h.1 (by simpa using h.2)

theorem ovSub_first (a y : W) : overflowingSub a y = sbb false a y := by
  have h := ovSub_sbb a y false
  simp only [Prod.ext_iff] at h
  have e : overflowingSub (overflowingSub a y).1 (boolW false) = ((overflowingSub a y).1, false) := by
    generalize (overflowingSub a y).1 = t
    simp [overflowingSub, boolW]
  rw [e] at h
  exact Prod.ext h.1 (by simpa using h.2)

/-- `add_vw`, `sub_vw` and their variants for long vectors: the two implementations return the same for all vectors that are
not empty.  Missing: the empty vector (`C91_empty_differs`), which no caller passes. -/
theorem C91_agree_word_partial (y : W) (x : Words) (hx : x ≠ []) :
    sseAddVW y x = addVW y x ∧ sseSubVW y x = subVW y x ∧
    sseAddVWLarge y x = addVWLarge y x ∧ sseSubVWLarge y x = subVWLarge y x := by
  cases x with
  | nil => exact absurd rfl hx
  | cons a as =>
    have h1 : sseAddVW y (a :: as) = addVW y (a :: as) := by
      simp only [sseAddVW, addVW, adcBasic, ovAdd_first, addVW_bool]
    have h2 : sseSubVW y (a :: as) = subVW y (a :: as) := by
      simp only [sseSubVW, subVW, sbbBasic2, ovSub_first, subVW_bool]
    refine ⟨h1, h2, ?_, ?_⟩
    · rw [addVWLarge_eq, ← h1]; simp only [sseAddVWLarge, adcLarge_eq, sseAddVW, adcBasic]
    · rw [subVWLarge_eq, ← h2]; simp only [sseSubVWLarge, sbbLarge_eq, sseSubVW, sbbBasic2]
example : ([5#32, 0xffffffff#32] : Words) ≠ [] ∧ sseAddVW 0xffffffff#32 [5#32, 0xffffffff#32] = ([4#32, 0#32], 1#32) := by
  decide

/-- For the empty vector, one returns the word, the other zero. -/
theorem C91_empty_differs (y : W) : addVW y [] = ([], y) ∧ sseAddVW y [] = ([], 0#32) := ⟨rfl, rfl⟩

/-- The code violates C91: `mul_add_www` of `arith_amd64.rs` returns the word added in both halves, whatever the factors are.
With the flag set, multiplying a vector by a word gives the word that was to be added, in every place. -/
theorem C91_violated (x y c : W) (v : Words) :
    sseMulAddWWW x y c = (c, c) ∧ sseMulAddVWW y c v = (List.replicate v.length c, c) := by
  refine ⟨rfl, ?_⟩
  induction v with
  | nil => rfl
  | cons a as ih => simp only [sseMulAddVWW, sseMulAddWWW, ih, List.length_cons, List.replicate_succ]

theorem sseAddMulLoop_val (y : W) : ∀ (z x : Words) (c : W), z.length = x.length → (∀ w ∈ z, w ≠ 0xffffffff#32) →
    (sseAddMulLoop y c z x).1.length = z.length ∧
    val (sseAddMulLoop y c z x).1 + 2 ^ (32 * z.length) * (sseAddMulLoop y c z x).2.toNat =
      (2 ^ 32 + 1) * val z + c.toNat := by
  intro z
  induction z with
  | nil => intro x c _ _; cases x <;> simp [sseAddMulLoop, val]
  | cons w ws ih =>
    intro x c hl hz
    cases x with
    | nil => simp at hl
    | cons x xs =>
      obtain ⟨h1, h2⟩ := ih xs (w + boolW (adc false w c).2) (by simpa using hl) (fun v hv => hz v (by simp [hv]))
      have h3 := adc_spec false w c
      have hw : w.toNat + 1 < 2 ^ 32 := by
        have := w.isLt
        have : w.toNat ≠ 2 ^ 32 - 1 := fun h => hz w (by simp) (BitVec.eq_of_toNat_eq (by rw [h, BitVec.toNat_ofNat]; norm_num))
        omega
      have h4 : (w + boolW (adc false w c).2).toNat = w.toNat + (adc false w c).2.toNat := by
        rw [BitVec.toNat_add, Nat.mod_eq_of_lt]
        · cases (adc false w c).2 <;> rfl
        · cases (adc false w c).2 <;> simp only [boolW, if_true, if_false, Bool.false_eq_true, BitVec.toNat_ofNat] <;> omega
      rw [h4] at h2
      simp only [sseAddMulLoop, sseMulAddWWW, List.length_cons, val]
      refine ⟨by rw [h1], ?_⟩
      rw [show 32 * (ws.length + 1) = 32 + 32 * ws.length by ring, Nat.pow_add]
      simp only [Bool.toNat_false, Nat.add_zero] at h3
      generalize hA : (2 : Nat) ^ 32 = A at *
      generalize (2 : Nat) ^ (32 * ws.length) = B at *
      generalize val ws = V at *
      generalize (sseAddMulLoop y (w + boolW (adc false w c).2) ws xs).2.toNat = C at *
      generalize val (sseAddMulLoop y (w + boolW (adc false w c).2) ws xs).1 = D at *
      calc (adc false w c).1.toNat + A * D + A * B * C
          = (adc false w c).1.toNat + A * (D + B * C) := by ring
        _ = (adc false w c).1.toNat + A * (adc false w c).2.toNat + (A * (A + 1) * V + A * w.toNat) := by rw [h2]; ring
        _ = (A + 1) * (w.toNat + A * V) + c.toNat := by rw [h3]; ring

/-- What `add_mul_vvw` of `arith_amd64.rs` computes instead of `z + x·y`: `z·(2^32 + 1)`, if no word of `z` is `2^32 - 1` (otherwise a
sum may overflow); neither `x` nor `y` matters. -/
theorem C91_add_mul_described (z x : Words) (y : W) (hl : z.length = x.length) (hz : ∀ w ∈ z, w ≠ 0xffffffff#32) :
    (sseAddMulVVW z x y).1.length = z.length ∧
    val (sseAddMulVVW z x y).1 + 2 ^ (32 * z.length) * (sseAddMulVVW z x y).2.toNat = (2 ^ 32 + 1) * val z := by
  have := sseAddMulLoop_val y z x 0#32 hl hz
  simpa [sseAddMulVVW] using this

example : ([1#32, 5#32] : Words).length = [3#32, 9#32].length ∧ (∀ w ∈ [1#32, 5#32], w ≠ 0xffffffff#32) ∧
    sseAddMulVVW [1#32, 5#32] [3#32, 9#32] 7#32 = ([1#32, 6#32], 5#32) :=
  ⟨rfl, by simp, by decide⟩

/-- … 3 · 5 + 7 is 22 in one implementation, and `7·2^32 + 7` in the other. -/
theorem C91_violated_witness : mulAddWWW 3#32 5#32 7#32 = (0#32, 22#32) ∧ sseMulAddWWW 3#32 5#32 7#32 = (7#32, 7#32) ∧
    addMulVVW [1#32] [3#32] 5#32 = ([16#32], 0#32) ∧ sseAddMulVVW [1#32] [3#32] 5#32 = ([1#32], 1#32) := by decide

/-! ### samples -/

example : ([1#32, 0xffffffff#32] : Words).length = [0xffffffff#32, 7#32].length ∧
    addVV [1#32, 0xffffffff#32] [0xffffffff#32, 7#32] = ([0#32, 7#32], 1#32) := by decide
example : addMulVVW [1#32, 2#32] [0xffffffff#32, 7#32] 0xffffffff#32 = ([2#32, 0xfffffff9#32], 7#32) := by decide
example : shlVu [0x80000001#32, 3#32] 4 = ([16#32, 56#32], 0#32) ∧ shrVuFull [0x80000001#32, 3#32] 4 = ([0x38000000#32, 0#32], 0x10000000#32) := by
  decide
example : (1#32 : W) < 5#32 ∧ divWW 1#32 3#32 5#32 = .ok (858993459#32, 4#32) ∧
    divWVW 5#32 1#32 [3#32, 7#32] = .ok ([858993459#32, 3435973838#32], 1#32) := by decide +kernel

end RMath
