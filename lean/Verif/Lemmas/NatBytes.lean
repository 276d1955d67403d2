import Verif.Model.NatBytes
import Verif.Lemmas.NatSqr
import Verif.Lemmas.NatBits

/-! Proofs about byte import and export. -/

namespace RMath

theorem bytesVal_append (a b : List Byte) : bytesVal (a ++ b) = bytesVal a + 256 ^ a.length * bytesVal b := by
  induction a with
  | nil => simp [bytesVal]
  | cons x xs ih =>
    simp only [List.cons_append, bytesVal, ih, List.length_cons, Nat.pow_succ]
    ring

theorem bytesVal_lt (a : List Byte) : bytesVal a < 256 ^ a.length := by
  induction a with
  | nil => simp [bytesVal]
  | cons x xs ih =>
    have := x.isLt
    simp only [bytesVal, List.length_cons, Nat.pow_succ]
    omega

theorem byte_shl_toNat (e : Byte) {j : Nat} (hj : j < 4) :
    (e.setWidth 32 <<< (j * 8) : W).toNat = e.toNat * 2 ^ (8 * j) := by
  have := e.isLt
  rw [BitVec.toNat_shiftLeft, BitVec.toNat_setWidth, Nat.shiftLeft_eq, Nat.mul_comm j 8]
  rw [Nat.mod_eq_of_lt (by omega : e.toNat < 2 ^ 32)]
  apply Nat.mod_eq_of_lt
  interval_cases j <;> omega

theorem byte_or_toNat (tmp : W) (e : Byte) {j : Nat} (hj : j < 4) (ht : tmp.toNat < 2 ^ (8 * j)) :
    (tmp ||| (e.setWidth 32 <<< (j * 8))).toNat = tmp.toNat + e.toNat * 2 ^ (8 * j) := by
  rw [BitVec.toNat_or, byte_shl_toNat e hj, Nat.or_comm, or_eq_add ht, Nat.add_comm]

theorem byte_sum_lt (tmp : W) (e : Byte) {j : Nat} (ht : tmp.toNat < 2 ^ (8 * j)) :
    tmp.toNat + e.toNat * 2 ^ (8 * j) < 2 ^ (8 * (j + 1)) := by
  have := e.isLt
  rw [Nat.mul_add, Nat.pow_add, Nat.mul_comm (2 ^ (8 * j))]
  have : (e.toNat + 1) * 2 ^ (8 * j) ≤ 2 ^ (8 * 1) * 2 ^ (8 * j) := Nat.mul_le_mul_right _ (by omega)
  rw [Nat.add_mul] at this
  omega

theorem packOr_val (bs : List Byte) : ∀ (j : Nat) (tmp : W), j < 4 → tmp.toNat < 2 ^ (8 * j) →
    val (packOr j tmp bs).1 + 2 ^ (32 * (packOr j tmp bs).1.length) * (packOr j tmp bs).2.toNat
      = tmp.toNat + 2 ^ (8 * j) * bytesVal bs := by
  induction bs with
  | nil => intro j tmp _ _; simp [packOr, bytesVal]
  | cons e es ih =>
    intro j tmp hj ht
    have hor := byte_or_toNat tmp e hj ht
    have hlt := byte_sum_lt tmp e ht
    rw [packOr]
    simp only
    by_cases h3 : j = 3
    · rw [if_pos h3]
      have := ih 0 0#32 (by omega) (by simp)
      subst h3
      simp only [val_cons, List.length_cons, hor, pow32_succ, bytesVal]
      generalize packOr 0 0#32 es = s at *
      simp only [Nat.mul_zero, Nat.pow_zero, Nat.one_mul, BitVec.toNat_ofNat, Nat.zero_mod, Nat.zero_add] at this
      rw [← this]
      ring
    · rw [if_neg h3]
      rw [ih (j + 1) _ (by omega) (by rw [hor]; exact hlt), hor]
      simp only [bytesVal, Nat.mul_add, Nat.pow_add]
      ring

theorem packAdd_eq (bs : List Byte) : ∀ (j : Nat) (tmp : W), j < 4 → tmp.toNat < 2 ^ (8 * j) →
    packAdd j tmp bs = .ok (packOr j tmp bs) := by
  induction bs with
  | nil => intro j tmp _ _; rfl
  | cons e es ih =>
    intro j tmp hj ht
    have hor := byte_or_toNat tmp e hj ht
    have hlt := byte_sum_lt tmp e ht
    have hlt2 : tmp.toNat + e.toNat * 2 ^ (8 * j) < 2 ^ 32 :=
      lt_of_lt_of_le hlt (Nat.pow_le_pow_right (by norm_num) (by omega))
    have hadd : tmp + (e.setWidth 32 <<< (j * 8)) = tmp ||| (e.setWidth 32 <<< (j * 8)) := by
      apply BitVec.eq_of_toNat_eq
      rw [hor, BitVec.toNat_add, byte_shl_toNat e hj, Nat.mod_eq_of_lt hlt2]
    rw [packAdd, packOr, if_neg (by rw [byte_shl_toNat e hj]; omega)]
    simp only [hadd]
    by_cases h3 : j = 3
    · rw [if_pos h3, if_pos h3, ih 0 0#32 (by omega) (by simp)]
    · rw [if_neg h3, if_neg h3, ih (j + 1) _ (by omega) (by rw [hor]; exact hlt)]

theorem gt_zero_iff (w : W) : w > 0#32 ↔ w.toNat ≠ 0 := by
  show 0#32 < w ↔ _
  rw [BitVec.lt_def]
  simp only [BitVec.toNat_ofNat, Nat.zero_mod]
  omega

theorem fromLeOrBeBytes_eq (bs : List Byte) : fromLeOrBeBytes bs = enc (bytesVal bs) := by
  unfold fromLeOrBeBytes
  have := packOr_val bs 0 0#32 (by omega) (by simp)
  simp only [Nat.mul_zero, Nat.pow_zero, Nat.one_mul, BitVec.toNat_ofNat, Nat.zero_mod, Nat.zero_add] at this
  simp only
  generalize packOr 0 0#32 bs = r at *
  have hr := gt_zero_iff r.2
  split
  · rw [trim_eq_enc (by simp), val_append, ← this]
    simp [val_cons]
  · next h =>
    rw [hr] at h
    push Not at h
    rw [h] at this
    split
    · next h0 =>
      rw [h0] at this
      simp at this
      rw [← this, ← enc_zero, trim_enc]
    · next h0 =>
      rw [trim_eq_enc h0, ← this]
      simp

theorem fromLeBytes_eq {bs : List Byte} (h : bs ≠ []) : fromLeBytes bs = enc (bytesVal bs) := by
  unfold fromLeBytes
  rw [if_neg (by simpa using h), fromLeOrBeBytes_eq]

theorem fromBeBytes_eq {bs : List Byte} (h : bs ≠ []) : fromBeBytes bs = enc (bytesVal bs.reverse) := by
  unfold fromBeBytes
  rw [if_neg (by simpa using h), fromLeOrBeBytes_eq]

theorem fromBytes_eq {bs : List Byte} (h : bs ≠ []) : fromBytes bs = .ok (enc (bytesVal bs)) := by
  unfold fromBytes
  rw [packAdd_eq _ _ _ (by omega) (by simp)]
  have := packOr_val bs 0 0#32 (by omega) (by simp)
  simp only [Nat.mul_zero, Nat.pow_zero, Nat.one_mul, BitVec.toNat_ofNat, Nat.zero_mod, Nat.zero_add] at this
  simp only
  generalize packOr 0 0#32 bs = r at *
  have e : (if r.2 > 0#32 then r.1 ++ [r.2] else if bs ≠ [] then r.1 ++ [r.2] else r.1) = r.1 ++ [r.2] := by
    simp [h]
  rw [e, trim_eq_enc (by simp), val_append, ← this]
  simp [val_cons]

theorem fromBytes_nil : fromBytes [] = .ok [] := by simp [fromBytes, packAdd]

/-! ## export -/

theorem byte_toNat (w : W) (k : Nat) : ((w >>> k).setWidth 8 : Byte).toNat = w.toNat / 2 ^ k % 256 := by
  rw [BitVec.toNat_setWidth, BitVec.toNat_ushiftRight, Nat.shiftRight_eq_div_pow]

theorem leBytes_val (w : W) : bytesVal (leBytes w) = w.toNat := by
  have h0 := byte_toNat w 0
  rw [BitVec.ushiftRight_zero] at h0
  have := w.isLt
  simp only [leBytes, bytesVal, h0, byte_toNat]
  omega

theorem topBytes_spec (w : W) :
    1 ≤ topBytes w ∧ topBytes w ≤ 4 ∧ w.toNat < 256 ^ topBytes w ∧ (1 < topBytes w → 256 ^ (topBytes w - 1) ≤ w.toNat) := by
  have := w.isLt
  unfold topBytes
  simp only [gt_iff_lt, BitVec.lt_def, BitVec.toNat_ofNat]
  norm_num
  split
  · norm_num; omega
  · split
    · norm_num; omega
    · split
      · norm_num; omega
      · norm_num; omega

theorem leBytes_take_val (w : W) : bytesVal ((leBytes w).take (topBytes w)) = w.toNat := by
  obtain ⟨h1, h2, h3, _⟩ := topBytes_spec w
  have hv := leBytes_val w
  have hsplit : leBytes w = (leBytes w).take (topBytes w) ++ (leBytes w).drop (topBytes w) := by simp
  rw [hsplit, bytesVal_append, List.length_take] at hv
  have hl : (leBytes w).length = 4 := rfl
  rw [hl, Nat.min_eq_left h2] at hv
  have : bytesVal ((leBytes w).drop (topBytes w)) = 0 := by
    by_contra hne
    have : 256 ^ topBytes w * 1 ≤ 256 ^ topBytes w * bytesVal ((leBytes w).drop (topBytes w)) :=
      Nat.mul_le_mul_left _ (by omega)
    omega
  rw [this] at hv
  omega

theorem flatMap_leBytes_length (x : Words) : (x.flatMap leBytes).length = 4 * x.length := by
  induction x with
  | nil => rfl
  | cons w ws ih => rw [List.flatMap_cons, List.length_append, ih, List.length_cons]; simp [leBytes]; ring

theorem pow256 (n : Nat) : 256 ^ (4 * n) = 2 ^ (32 * n) := by
  rw [show (256 : Nat) = 2 ^ 8 by norm_num, ← Nat.pow_mul]; congr 1; ring

theorem flatMap_leBytes_val (x : Words) : bytesVal (x.flatMap leBytes) = val x := by
  induction x with
  | nil => rfl
  | cons w ws ih =>
    rw [List.flatMap_cons, bytesVal_append, ih, leBytes_val]
    simp [leBytes]

theorem toLeBytes_append (x : Words) (w : W) :
    toLeBytes (x ++ [w]) = x.flatMap leBytes ++ (leBytes w).take (topBytes w) := by
  unfold toLeBytes
  simp [isNan]

theorem toBeBytes_append (x : Words) (w : W) :
    toBeBytes (x ++ [w]) = (toLeBytes (x ++ [w])).reverse := by
  rw [toLeBytes_append]
  unfold toBeBytes
  have e1 : ∀ k, k ≤ 4 → (leBytes w).reverse.drop (4 - k) = ((leBytes w).take k).reverse := by
    intro k hk
    rw [List.reverse_take]
    rfl
  have e2 : (if w > 0xffffff#32 then 0 else if w > 0xffff#32 then 1 else if w > 0xff#32 then 2 else 3)
      = 4 - topBytes w := by
    unfold topBytes
    split
    · rfl
    · split
      · rfl
      · split <;> rfl
  rw [List.getLast?_append]
  simp only [List.getLast?_singleton, Option.some_or]
  rw [e2, e1 _ (topBytes_spec w).2.1, if_neg (by simp [isNan]), List.reverse_append, List.reverse_append]
  congr 1
  simp only [List.reverse_singleton, List.singleton_append, List.drop_succ_cons, List.drop_zero]
  rw [List.reverse_flatMap]
  rfl

theorem exists_concat {x : Words} (h : x ≠ []) : ∃ y w, x = y ++ [w] :=
  ⟨x.dropLast, x.getLast h, (List.dropLast_concat_getLast h).symm⟩

theorem toLeBytes_val (x : Words) : bytesVal (toLeBytes x) = val x := by
  by_cases h : x = []
  · subst h; rfl
  · obtain ⟨y, w, rfl⟩ := exists_concat h
    rw [toLeBytes_append, bytesVal_append, flatMap_leBytes_val, leBytes_take_val, flatMap_leBytes_length, pow256,
      val_append]
    simp

theorem toLeBytes_length (y : Words) (w : W) : (toLeBytes (y ++ [w])).length = 4 * y.length + topBytes w := by
  rw [toLeBytes_append, List.length_append, flatMap_leBytes_length, List.length_take]
  have := (topBytes_spec w).2.1
  have hl : (leBytes w).length = 4 := rfl
  rw [hl, Nat.min_eq_left this]

theorem toBeBytes_eq (x : Words) : toBeBytes x = (toLeBytes x).reverse := by
  by_cases h : x = []
  · subst h; rfl
  · obtain ⟨y, w, rfl⟩ := exists_concat h
    exact toBeBytes_append y w

/-- length of the export of a canonical number -/
theorem toLeBytes_enc_length (a : Nat) :
    0 < (toLeBytes (enc a)).length ∧ a < 256 ^ (toLeBytes (enc a)).length ∧
    (1 < (toLeBytes (enc a)).length → 256 ^ ((toLeBytes (enc a)).length - 1) ≤ a) := by
  have hc := canon_enc a
  obtain ⟨y, w, hw⟩ := exists_concat (enc_ne_nil a)
  have hlen := toLeBytes_length y w
  have hv := toLeBytes_val (enc a)
  have hlt := bytesVal_lt (toLeBytes (enc a))
  rw [hv, val_enc] at hlt
  obtain ⟨h1, h2, h3, h4⟩ := topBytes_spec w
  rw [hw] at hlt ⊢
  rw [hlen] at hlt ⊢
  refine ⟨by omega, hlt, ?_⟩
  intro h
  have ha : a = val y + 2 ^ (32 * y.length) * w.toNat := by
    have := val_enc a
    rw [hw, val_append] at this
    simpa using this.symm
  rw [show 4 * y.length + topBytes w - 1 = 4 * y.length + (topBytes w - 1) by omega, Nat.pow_add, pow256]
  by_cases ht : 1 < topBytes w
  · have := Nat.mul_le_mul_left (2 ^ (32 * y.length)) (h4 ht)
    omega
  · have ht1 : topBytes w = 1 := by omega
    rw [ht1]
    rw [ht1] at h
    have hle := hc.le_val (by rw [hw, List.length_append, List.length_singleton]; omega)
    rw [val_enc, hw, List.length_append, List.length_singleton] at hle
    simpa using hle

/-! ## conversion from machine integers -/

theorem leBytes64_val (d : D) : bytesVal (leBytes64 d) = d.toNat := by
  have e : ∀ k, ((d >>> k).setWidth 8 : Byte).toNat = d.toNat / 2 ^ k % 256 := by
    intro k
    rw [BitVec.toNat_setWidth, BitVec.toNat_ushiftRight, Nat.shiftRight_eq_div_pow]
  have := d.isLt
  simp only [leBytes64, List.range, List.range.loop, List.map_cons, List.map_nil, bytesVal, e]
  omega

theorem leBytes128_val (d : BitVec 128) : bytesVal (leBytes128 d) = d.toNat := by
  have e : ∀ k, ((d >>> k).setWidth 8 : Byte).toNat = d.toNat / 2 ^ k % 256 := by
    intro k
    rw [BitVec.toNat_setWidth, BitVec.toNat_ushiftRight, Nat.shiftRight_eq_div_pow]
  have := d.isLt
  simp only [leBytes128, List.range, List.range.loop, List.map_cons, List.map_nil, bytesVal, e]
  omega

theorem fromU64_eq (d : D) : fromU64 d = .ok (enc d.toNat) := by
  unfold fromU64
  rw [fromBytes_eq (by simp [leBytes64]), leBytes64_val]

theorem fromU128_eq (d : BitVec 128) : fromU128 d = .ok (enc d.toNat) := by
  unfold fromU128
  rw [fromBytes_eq (by simp [leBytes128]), leBytes128_val]

theorem fromU32_eq (w : W) : fromU32 w = enc w.toNat := singleton_eq_enc w

end RMath
