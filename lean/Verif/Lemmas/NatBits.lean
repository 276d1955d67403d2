import Verif.Lemmas.NatDiv
import Mathlib.Data.Nat.Bitwise

/-! # Bit operations -/

namespace RMath

theorem word_testBit_ge (w : W) {i : Nat} (h : 32 ≤ i) : w.toNat.testBit i = false :=
  Nat.testBit_lt_two_pow (lt_of_lt_of_le w.isLt (Nat.pow_le_pow_right (by norm_num) h))

theorem testBit_cons (w : W) (ws : Words) (i : Nat) :
    (val (w :: ws)).testBit i = if i < 32 then w.toNat.testBit i else (val ws).testBit (i - 32) := by
  rw [val, Nat.add_comm, Nat.testBit_two_pow_mul_add _ w.isLt]

theorem testBit_val (ws : Words) (i : Nat) :
    (val ws).testBit i = ((ws[i / 32]?).getD 0#32).toNat.testBit (i % 32) := by
  induction ws generalizing i with
  | nil => simp
  | cons w ws ih =>
    rw [testBit_cons]
    split
    · rename_i h
      rw [Nat.div_eq_of_lt h, Nat.mod_eq_of_lt h]; simp
    · rename_i h
      rw [ih]
      have h1 : i / 32 = (i - 32) / 32 + 1 := by omega
      have h2 : (i - 32) % 32 = i % 32 := by omega
      rw [h1, h2]; simp

theorem val_zipKeep_testBit (f : W → W → W) (g : Bool → Bool → Bool)
    (hf : ∀ (a b : W) (i : Nat), i < 32 → (f a b).toNat.testBit i = g (a.toNat.testBit i) (b.toNat.testBit i))
    (x y : Words) (i : Nat) :
    (val (zipKeep f x y)).testBit i
      = if i < 32 * min x.length y.length then g ((val x).testBit i) ((val y).testBit i)
        else (val x).testBit i := by
  induction x generalizing y i with
  | nil => cases y <;> simp [zipKeep]
  | cons a as ih =>
    cases y with
    | nil => simp [zipKeep]
    | cons b bs =>
      rw [zipKeep, testBit_cons, testBit_cons, testBit_cons]
      simp only [List.length_cons]
      by_cases h : i < 32
      · rw [if_pos h, if_pos h, if_pos h, if_pos (by omega), hf _ _ _ h]
      · rw [if_neg h, if_neg h, if_neg h, ih]
        have : (i - 32 < 32 * min as.length bs.length) ↔ i < 32 * min (as.length + 1) (bs.length + 1) := by
          omega
        simp only [this]

theorem testBit_val_ge (x : Words) {i : Nat} (h : 32 * x.length ≤ i) : (val x).testBit i = false :=
  Nat.testBit_lt_two_pow (lt_of_lt_of_le (val_lt x) (Nat.pow_le_pow_right (by norm_num) h))

theorem zipKeep_length (f : W → W → W) (x y : Words) : (zipKeep f x y).length = x.length := by
  induction x generalizing y with
  | nil => cases y <;> simp [zipKeep]
  | cons a as ih => cases y <;> simp [zipKeep, ih]

theorem testBit_append (x y : Words) (i : Nat) :
    (val (x ++ y)).testBit i
      = if i < 32 * x.length then (val x).testBit i else (val y).testBit (i - 32 * x.length) := by
  rw [val_append, Nat.add_comm, Nat.testBit_two_pow_mul_add _ (val_lt x)]

theorem testBit_take (x : Words) (n i : Nat) :
    (val (x.take n)).testBit i = (decide (i < 32 * n) && (val x).testBit i) := by
  rw [testBit_val, testBit_val, List.getElem?_take]
  by_cases h : i < 32 * n
  · rw [if_pos (by omega)]; simp [h]
  · rw [if_neg (by omega)]; simp [h]

theorem testBit_drop (x : Words) (n i : Nat) :
    (val (x.drop n)).testBit i = (val x).testBit (i + 32 * n) := by
  rw [testBit_val, testBit_val, List.getElem?_drop]
  have h1 : (i + 32 * n) / 32 = n + i / 32 := by omega
  have h2 : (i + 32 * n) % 32 = i % 32 := by omega
  rw [h1, h2]

theorem bitandInner_val (x y : Words) : val (bitandInner x y) = val x &&& val y := by
  apply Nat.eq_of_testBit_eq
  intro i
  unfold bitandInner
  rw [val_trim, testBit_take, val_zipKeep_testBit _ (· && ·) (by intros; simp), Nat.testBit_and]
  by_cases h : i < 32 * min x.length y.length
  · simp [h]
  · simp only [h, decide_false, Bool.false_and]
    by_cases h1 : 32 * x.length ≤ i
    · rw [testBit_val_ge x h1]; simp
    · rw [testBit_val_ge y (by omega)]; simp

theorem bitorInner_val (x y : Words) : val (bitorInner x y) = val x ||| val y := by
  apply Nat.eq_of_testBit_eq
  intro i
  unfold bitorInner
  rw [testBit_append, zipKeep_length, val_zipKeep_testBit _ (· || ·) (by intros; simp), Nat.testBit_or,
    testBit_drop]
  by_cases h : i < 32 * min x.length y.length
  · rw [if_pos (by omega), if_pos h]
  · by_cases h1 : 32 * x.length ≤ i
    · rw [if_neg (by omega), testBit_val_ge x h1, Nat.sub_add_cancel h1]; simp
    · rw [if_pos (by omega), if_neg h, testBit_val_ge y (by omega)]; simp

theorem bitxorInner_val (x y : Words) : val (bitxorInner x y) = val x ^^^ val y := by
  apply Nat.eq_of_testBit_eq
  intro i
  unfold bitxorInner
  rw [val_trim, testBit_append, zipKeep_length, val_zipKeep_testBit _ (· ^^ ·) (by intros; simp),
    Nat.testBit_xor, testBit_drop]
  by_cases h : i < 32 * min x.length y.length
  · rw [if_pos (by omega), if_pos h]
  · by_cases h1 : 32 * x.length ≤ i
    · rw [if_neg (by omega), testBit_val_ge x h1, Nat.sub_add_cancel h1]; simp
    · rw [if_pos (by omega), if_neg h, testBit_val_ge y (by omega)]; simp

theorem andNotAssign_testBit (x y : Words) (i : Nat) :
    (val (andNotAssign x y)).testBit i = ((val x).testBit i && !(val y).testBit i) := by
  unfold andNotAssign
  rw [val_trim, val_zipKeep_testBit _ (fun a b => a && !b)]
  · by_cases h : i < 32 * min x.length y.length
    · rw [if_pos h]
    · rw [if_neg h]
      by_cases h1 : 32 * x.length ≤ i
      · rw [testBit_val_ge x h1]; simp
      · rw [testBit_val_ge y (by omega)]; simp
  · intro a b i hi
    rw [BitVec.testBit_toNat, BitVec.testBit_toNat, BitVec.testBit_toNat]; simp [hi]

theorem bitandInner_canon {x y : Words} (hx : x ≠ []) (hy : y ≠ []) : Canon (bitandInner x y) := by
  apply canon_trim
  intro h
  have := congrArg List.length h
  simp [zipKeep_length] at this
  rcases this with h | h
  · exact hx h
  · exact hy h

theorem bitxorInner_canon {x y : Words} (hx : x ≠ []) : Canon (bitxorInner x y) := by
  apply canon_trim
  intro h
  have := congrArg List.length h
  simp [zipKeep_length] at this
  exact hx this.1

theorem andNotAssign_canon {x y : Words} (hx : x ≠ []) : Canon (andNotAssign x y) := by
  apply canon_trim
  intro h
  have := congrArg List.length h
  simp [zipKeep_length] at this
  exact hx this

theorem bitorInner_length (x y : Words) : (bitorInner x y).length = max x.length y.length := by
  unfold bitorInner
  simp [zipKeep_length]; omega

theorem bitorInner_canon {x y : Words} (hx : Canon x) (hy : Canon y) : Canon (bitorInner x y) := by
  have hxp := hx.length_pos
  have hl := bitorInner_length x y
  apply canon_of_le_val
  · intro h0; rw [h0] at hl; simp at hl; omega
  · intro h1
    rw [bitorInner_val, hl]
    rcases Nat.le_total x.length y.length with h | h
    · rw [Nat.max_eq_right h]
      exact (hy.le_val (by omega)).trans Nat.right_le_or
    · rw [Nat.max_eq_left h]
      exact (hx.le_val (by omega)).trans Nat.left_le_or

theorem bitandInner_enc (a b : Nat) : bitandInner (enc a) (enc b) = enc (a &&& b) :=
  enc_eq_iff.2 ⟨bitandInner_canon (enc_ne_nil _) (enc_ne_nil _), by rw [bitandInner_val]; simp⟩

theorem bitorInner_enc (a b : Nat) : bitorInner (enc a) (enc b) = enc (a ||| b) :=
  enc_eq_iff.2 ⟨bitorInner_canon (canon_enc _) (canon_enc _), by rw [bitorInner_val]; simp⟩

theorem bitxorInner_enc (a b : Nat) : bitxorInner (enc a) (enc b) = enc (a ^^^ b) :=
  enc_eq_iff.2 ⟨bitxorInner_canon (enc_ne_nil _), by rw [bitxorInner_val]; simp⟩

theorem andNotAssign_enc (a b : Nat) : andNotAssign (enc a) (enc b) = enc (Nat.ldiff a b) := by
  refine enc_eq_iff.2 ⟨andNotAssign_canon (enc_ne_nil _), Nat.eq_of_testBit_eq fun i => ?_⟩
  rw [andNotAssign_testBit, Nat.testBit_ldiff]; simp

theorem val_map_not (x : Words) : val (x.map (~~~ ·)) + val x + 1 = 2 ^ (32 * x.length) := by
  induction x with
  | nil => simp
  | cons a as ih =>
    have h := a.isLt
    simp only [List.map_cons, val, List.length_cons, BitVec.toNat_not]
    have : 2 ^ (32 * (as.length + 1)) = 2 ^ 32 * 2 ^ (32 * as.length) := by rw [← Nat.pow_add]; congr 1; ring
    rw [this, ← ih]
    omega

theorem mask_toNat {r : Nat} (hr : r < 32) : ((1#32 <<< r) - 1#32 : W).toNat = 2 ^ r - 1 := by
  interval_cases r <;> rfl

theorem and_mask_toNat (w : W) {r : Nat} (hr : r < 32) :
    (w &&& ((1#32 <<< r) - 1#32)).toNat = w.toNat % 2 ^ r := by
  rw [BitVec.toNat_and, mask_toNat hr, Nat.and_two_pow_sub_one_eq_mod]

/-- Masking the top word reduces the value modulo a power of two. -/
theorem val_mask_last {v : Words} (hv : v ≠ []) {r : Nat} (hr : r < 32) :
    val (v.dropLast ++ [v.getLast hv &&& ((1#32 <<< r) - 1#32)])
      = val v % 2 ^ (32 * (v.length - 1) + r) := by
  rw [val_append]
  conv_rhs => rw [← List.dropLast_concat_getLast hv, val_append]
  simp only [val, List.length_dropLast, and_mask_toNat _ hr, Nat.mul_zero, Nat.add_zero]
  rw [List.dropLast_concat_getLast hv, Nat.pow_add, Nat.mod_mul]
  have h := val_lt v.dropLast
  rw [List.length_dropLast] at h
  rw [Nat.add_mul_mod_self_left, Nat.mod_eq_of_lt h, Nat.add_mul_div_left _ _ (by positivity),
    Nat.div_eq_of_lt h, Nat.zero_add]

theorem canon_bitLen {x : Words} (hx : Canon x) :
    32 * (x.length - 1) < bitLen (val x) ∧ bitLen (val x) ≤ 32 * x.length := by
  have hp := hx.length_pos
  constructor
  · by_cases h1 : x.length = 1
    · rw [h1]; unfold bitLen; split <;> omega
    · have h := hx.le_val (by omega)
      have h2 := lt_pow_bitLen (val x)
      exact (Nat.pow_lt_pow_iff_right (by norm_num : 1 < 2)).1 (lt_of_le_of_lt h h2)
  · exact bitLen_le_of_lt (by omega) (val_lt x)

theorem notInner_canon {x : Words} (hx : Canon x) : Canon (notInner x) := by
  unfold notInner
  apply canon_trim
  split
  · split <;> simp [hx.ne_nil]
  · simp [hx.ne_nil]

theorem notInner_val {x : Words} (hx : Canon x) :
    val (notInner x) + val x + 1 = 2 ^ bitLen (val x) := by
  have hp := hx.length_pos
  obtain ⟨h1, h2⟩ := canon_bitLen hx
  have hm := val_map_not x
  unfold notInner
  rw [val_trim, bitsLen_canon hx]
  by_cases hr : bitLen (val x) % 32 > 0
  · rw [if_pos hr]
    have hne : x.map (~~~ ·) ≠ [] := by simp [hx.ne_nil]
    rw [List.getLast?_eq_some_getLast hne]
    simp only
    rw [val_mask_last hne (Nat.mod_lt _ (by norm_num)), List.length_map]
    have e : 32 * (x.length - 1) + bitLen (val x) % 32 = bitLen (val x) := by omega
    rw [e]
    have h3 := lt_pow_bitLen (val x)
    have h4 : val (x.map (~~~ ·)) = (2 ^ bitLen (val x) - 1 - val x)
        + 2 ^ bitLen (val x) * (2 ^ (32 * x.length - bitLen (val x)) - 1) := by
      have : 2 ^ (32 * x.length) = 2 ^ bitLen (val x) * 2 ^ (32 * x.length - bitLen (val x)) := by
        rw [← Nat.pow_add]; congr 1; omega
      have h5 : 1 ≤ 2 ^ (32 * x.length - bitLen (val x)) := Nat.one_le_two_pow
      rw [Nat.mul_sub, ← this]
      have h6 : 2 ^ bitLen (val x) * 1 ≤ 2 ^ (32 * x.length) := by
        rw [this]; exact Nat.mul_le_mul_left _ h5
      omega
    rw [h4, Nat.add_mul_mod_self_left, Nat.mod_eq_of_lt (by omega)]
    omega
  · rw [if_neg hr]
    have : bitLen (val x) = 32 * x.length := by omega
    rw [this]; exact hm

theorem natNot_enc (a : Nat) : natNot (enc a) = enc (2 ^ bitLen a - 1 - a) := by
  have h := notInner_canon (canon_enc a)
  have hv := notInner_val (canon_enc a)
  rw [val_enc] at hv
  unfold natNot
  rw [if_neg (by simp [isNan, enc_ne_nil]), trim_of_canon h]
  exact enc_eq_iff.2 ⟨h, by omega⟩

end RMath
