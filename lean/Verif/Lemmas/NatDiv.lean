import Verif.Lemmas.NatShift

/-! Division and remainder. -/

namespace RMath

theorem u32Shl_one (s : Nat) : u32Shl 1#32 s = enc (2 ^ s) := by
  unfold u32Shl
  have hn : s % 32 < 32 := Nat.mod_lt _ (by norm_num)
  have hw : (1#32 <<< (s % 32)).toNat = 2 ^ (s % 32) := by
    rw [BitVec.toNat_shiftLeft, Nat.shiftLeft_eq]
    have : 2 ^ (s % 32) < 2 ^ 32 := Nat.pow_lt_pow_right (by norm_num) hn
    simp only [BitVec.toNat_ofNat]
    omega
  apply enc_eq_iff.2
  refine ⟨⟨by simp, Or.inr ?_⟩, ?_⟩
  · simp only [List.getLast_append_singleton]
    intro h
    rw [h] at hw
    simp at hw
    have : 0 < 2 ^ (s % 32) := by positivity
    omega
  · rw [val_append, val_replicate_zero, List.length_replicate]
    simp only [val_cons, val_nil, hw, Nat.mul_zero, Nat.add_zero, Nat.zero_add]
    rw [← Nat.pow_add]; congr 1; omega

/-- facts about the alignment shift of the division loops -/
theorem align_facts {a b : Nat} (hb : b ≠ 0) (h : b ≤ a) :
    bitLen b ≤ bitLen a ∧ a < 2 * (b * 2 ^ (bitLen a - bitLen b)) ∧
    b * 2 ^ (bitLen a - bitLen b) ≤ 2 * a ∧
    (a < b * 2 ^ (bitLen a - bitLen b) → bitLen a ≠ bitLen b) := by
  have h1 := bitLen_mono h
  have ha := lt_pow_bitLen a
  have hb' := pow_bitLen_le hb
  have hbp := bitLen_pos b
  refine ⟨h1, ?_, ?_, ?_⟩
  · have : 2 ^ (bitLen b - 1) * 2 ^ (bitLen a - bitLen b) ≤ b * 2 ^ (bitLen a - bitLen b) :=
      Nat.mul_le_mul_right _ hb'
    rw [← Nat.pow_add] at this
    have e : 2 ^ bitLen a = 2 * 2 ^ (bitLen b - 1 + (bitLen a - bitLen b)) := by
      rw [← Nat.pow_succ']; congr 1; omega
    omega
  · have h2 : b * 2 ^ (bitLen a - bitLen b) ≤ 2 ^ bitLen b * 2 ^ (bitLen a - bitLen b) :=
      Nat.mul_le_mul_right _ (Nat.le_of_lt (lt_pow_bitLen b))
    rw [← Nat.pow_add] at h2
    have h3 := pow_bitLen_le (n := a) (by omega)
    have e : 2 ^ (bitLen b + (bitLen a - bitLen b)) = 2 * 2 ^ (bitLen a - 1) := by
      rw [← Nat.pow_succ']; congr 1; omega
    omega
  · intro h2 h3
    rw [h3] at h2
    simp at h2
    omega

theorem half_shift {b k : Nat} (hk : 0 < k) : b * 2 ^ k / 2 ^ 1 = b * 2 ^ (k - 1) := by
  obtain ⟨j, rfl⟩ : ∃ j, k = j + 1 := ⟨k - 1, by omega⟩
  simp only [Nat.add_sub_cancel, Nat.pow_succ, Nat.pow_zero, Nat.one_mul]
  rw [← Nat.mul_assoc, Nat.mul_div_cancel _ (by norm_num)]

theorem compare_lt_iff {a b : Nat} : compare a b = .lt ↔ a < b := Nat.compare_eq_lt
theorem compare_gt_iff {a b : Nat} : compare a b = .gt ↔ b < a := Nat.compare_eq_gt

/-- One subtraction step: the aligned divisor `d` satisfies `d ≤ a < 2 d` and is `b * 2^j`. -/
theorem step_lt {a d f : Nat} (h1 : d ≤ a) (h2 : a < 2 * d) (hf : a < 2 ^ (f + 1)) : a - d < 2 ^ f := by
  rw [Nat.pow_succ] at hf
  omega

theorem remLoop_enc {b : Nat} (hb : b ≠ 0) (f a : Nat) (hf : a < 2 ^ f) :
    remLoop (enc b) (f + 1) (enc a) = .ok (enc (a % b)) := by
  induction f generalizing a with
  | zero =>
    have : a = 0 := by simpa using hf
    subst this
    unfold remLoop
    rw [cmpInner_enc, if_pos (compare_lt_iff.2 (by omega))]
    simp
  | succ f ih =>
    unfold remLoop
    rw [cmpInner_enc]
    by_cases hlt : a < b
    · rw [if_pos (compare_lt_iff.2 hlt), Nat.mod_eq_of_lt hlt]
    · rw [if_neg (by rw [compare_lt_iff]; exact hlt)]
      have hle : b ≤ a := by omega
      obtain ⟨h1, h2, h4, h3⟩ := align_facts hb hle
      rw [bitsLen_enc, bitsLen_enc, if_neg (by omega)]
      simp only [shlInner_enc hb, cmpInner_enc, compare_lt_iff]
      by_cases hc : a < b * 2 ^ (bitLen a - bitLen b)
      · rw [if_pos hc, shrInner_enc_lt (by norm_num)]
        have hk : 0 < bitLen a - bitLen b := by have := h3 hc; omega
        rw [half_shift hk]
        have e : b * 2 ^ (bitLen a - bitLen b) = 2 * (b * 2 ^ (bitLen a - bitLen b - 1)) := by
          obtain ⟨j, hj⟩ : ∃ j, bitLen a - bitLen b = j + 1 := ⟨bitLen a - bitLen b - 1, by omega⟩
          rw [hj, Nat.add_sub_cancel, Nat.pow_succ]; ring
        have hd : b * 2 ^ (bitLen a - bitLen b - 1) ≤ a := by omega
        rw [subInner_enc_of_le hd, ih _ (step_lt hd (by omega) hf)]
        congr 2
        rw [Nat.sub_mul_mod hd]
      · rw [if_neg hc]
        have hd : b * 2 ^ (bitLen a - bitLen b) ≤ a := by omega
        rw [subInner_enc_of_le hd, ih _ (step_lt hd h2 hf)]
        congr 2
        rw [Nat.sub_mul_mod hd]

theorem remInner_enc {a b : Nat} (hb : b ≠ 0) : remInner (enc a) (enc b) = .ok (enc (a % b)) := by
  unfold remInner
  rw [← enc_zero, eqv_enc]
  simp only [hb, decide_false, Bool.false_eq_true, if_false, cmpInner_enc, compare_lt_iff]
  split
  · rw [Nat.mod_eq_of_lt (by assumption)]
  · rw [val_enc, remLoop_enc hb _ _ (Nat.lt_two_pow_self.trans (Nat.pow_lt_pow_right (by norm_num) (Nat.lt_succ_self a)))]
    simp

theorem remInner_zero (x : Words) : remInner x (enc 0) = .error .panic := by
  unfold remInner
  rw [← enc_zero, eqv_enc]
  simp

theorem divAdjust_enc {b a : Nat} (fuel k : Nat) (hfu : 1 < fuel)
    (h2 : b * 2 ^ k ≤ 2 * a) (hab : b ≤ a) :
    divAdjust fuel (enc (b * 2 ^ k)) (enc a) k
      = .ok (if a < b * 2 ^ k then (enc (b * 2 ^ (k - 1)), k - 1) else (enc (b * 2 ^ k), k)) := by
  obtain ⟨g, rfl⟩ : ∃ g, fuel = g + 2 := ⟨fuel - 2, by omega⟩
  unfold divAdjust
  rw [cmpInner_enc]
  simp only [compare_gt_iff]
  split
  · rename_i hc
    cases k with
    | zero => simp at hc; omega
    | succ k =>
      simp only
      rw [shrInner_enc_lt (by norm_num), half_shift (by omega), Nat.add_sub_cancel]
      unfold divAdjust
      rw [cmpInner_enc]
      simp only [compare_gt_iff]
      rw [if_neg]
      rw [Nat.pow_succ] at h2 hc
      have : b * (2 ^ k * 2) = 2 * (b * 2 ^ k) := by ring
      omega
  · rfl

theorem divLoop_enc {b : Nat} (hb : b ≠ 0) (f a q : Nat) (hf : a < 2 ^ f) :
    divLoop (enc b) (f + 1) (enc a) (enc q) = .ok (enc (q + a / b)) := by
  induction f generalizing a q with
  | zero =>
    have : a = 0 := by simpa using hf
    subst this
    unfold divLoop
    rw [cmpInner_enc, if_pos (compare_lt_iff.2 (by omega))]
    simp
  | succ f ih =>
    unfold divLoop
    rw [cmpInner_enc]
    by_cases hlt : a < b
    · rw [if_pos (compare_lt_iff.2 hlt), Nat.div_eq_of_lt hlt]; simp
    · rw [if_neg (by rw [compare_lt_iff]; exact hlt)]
      have hle : b ≤ a := by omega
      obtain ⟨h1, h2, h4, h3⟩ := align_facts hb hle
      rw [bitsLen_enc, bitsLen_enc, if_neg (by omega)]
      simp only [shlInner_enc hb]
      rw [divAdjust_enc _ _ (by omega) h4 hle]
      by_cases hc : a < b * 2 ^ (bitLen a - bitLen b)
      · rw [if_pos hc]
        simp only
        have hk : 0 < bitLen a - bitLen b := by have := h3 hc; omega
        have e : b * 2 ^ (bitLen a - bitLen b) = 2 * (b * 2 ^ (bitLen a - bitLen b - 1)) := by
          obtain ⟨j, hj⟩ : ∃ j, bitLen a - bitLen b = j + 1 := ⟨bitLen a - bitLen b - 1, by omega⟩
          rw [hj, Nat.add_sub_cancel, Nat.pow_succ]; ring
        have hd : b * 2 ^ (bitLen a - bitLen b - 1) ≤ a := by omega
        rw [subInner_enc_of_le hd, u32Shl_one, addInner_enc, ih _ _ (step_lt hd (by omega) hf)]
        congr 2
        have := Nat.sub_mul_div a b (2 ^ (bitLen a - bitLen b - 1))
        have h5 : 2 ^ (bitLen a - bitLen b - 1) ≤ a / b :=
          (Nat.le_div_iff_mul_le (by omega)).2 (by rw [Nat.mul_comm]; exact hd)
        omega
      · rw [if_neg hc]
        simp only
        have hd : b * 2 ^ (bitLen a - bitLen b) ≤ a := by omega
        rw [subInner_enc_of_le hd, u32Shl_one, addInner_enc, ih _ _ (step_lt hd h2 hf)]
        congr 2
        have := Nat.sub_mul_div a b (2 ^ (bitLen a - bitLen b))
        have h5 : 2 ^ (bitLen a - bitLen b) ≤ a / b :=
          (Nat.le_div_iff_mul_le (by omega)).2 (by rw [Nat.mul_comm]; exact hd)
        omega

theorem divInner_enc {a b : Nat} (hb : b ≠ 0) : divInner (enc a) (enc b) = .ok (enc (a / b)) := by
  unfold divInner
  rw [← enc_zero, eqv_enc]
  simp only [hb, decide_false, Bool.false_eq_true, if_false, deepClone_enc, cmpInner_enc,
    compare_lt_iff]
  split
  · rw [Nat.div_eq_of_lt (by assumption)]
  · rename_i h
    rw [bitsLen_enc, bitsLen_enc]
    split
    · rename_i hl
      rw [← enc_one]
      congr 2
      have h1 := (align_facts hb (by omega : b ≤ a)).2.1
      rw [hl] at h1
      simp at h1
      have h2 : a / b < 2 := (Nat.div_lt_iff_lt_mul (by omega)).2 (by omega)
      have h3 : 1 ≤ a / b := (Nat.le_div_iff_mul_le (by omega)).2 (by omega)
      omega
    · rw [val_enc, divLoop_enc hb _ _ _ (Nat.lt_two_pow_self.trans (Nat.pow_lt_pow_right (by norm_num) (Nat.lt_succ_self a)))]
      simp

theorem divInner_zero (x : Words) : divInner x (enc 0) = .error .panic := by
  unfold divInner
  rw [← enc_zero, eqv_enc]
  simp

end RMath
