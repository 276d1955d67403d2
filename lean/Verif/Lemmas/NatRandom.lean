import Verif.Lemmas.NatFun
import Verif.Lemmas.NatBytes
import Mathlib.Algebra.BigOperators.Intervals
import Mathlib.Algebra.BigOperators.GroupWithZero.Finset

/-! Proofs about random numbers and range products. -/

namespace RMath

/-! ## random numbers -/

/-- the words delivered by a sequence of draws: the failed draws are left out -/
def delivered : List (Option W) → Words
  | [] => []
  | none :: ds => delivered ds
  | some x :: ds => x :: delivered ds

theorem delivered_append (a b : List (Option W)) : delivered (a ++ b) = delivered a ++ delivered b := by
  induction a with
  | nil => rfl
  | cons d ds ih => cases d <;> simp [delivered, ih]

theorem drawWords_some {n : Nat} {ds : List (Option W)} {v : Words} {rest : List (Option W)}
    (h : drawWords n ds = some (v, rest)) :
    v.length = n ∧ ∃ pre, ds = pre ++ rest ∧ delivered pre = v ∧ n ≤ pre.length := by
  induction ds generalizing n v with
  | nil =>
    cases n with
    | zero => simp [drawWords] at h; obtain ⟨rfl, rfl⟩ := h; exact ⟨rfl, [], by simp [delivered]⟩
    | succ n => simp [drawWords] at h
  | cons d ds ih =>
    cases n with
    | zero => simp [drawWords] at h; obtain ⟨rfl, rfl⟩ := h; exact ⟨rfl, [], by simp [delivered]⟩
    | succ n =>
      cases d with
      | none =>
        rw [drawWords] at h
        obtain ⟨h1, pre, h2, h3, h4⟩ := ih h
        exact ⟨h1, none :: pre, by simp [h2], by simpa [delivered] using h3, by simp; omega⟩
      | some x =>
        rw [drawWords, Option.map_eq_some_iff] at h
        obtain ⟨⟨v', r'⟩, h1, h2⟩ := h
        simp only [Prod.mk.injEq] at h2
        obtain ⟨rfl, rfl⟩ := h2
        obtain ⟨h1, pre, h2, h3, h4⟩ := ih h1
        exact ⟨by simp [h1], some x :: pre, by simp [h2], by simpa [delivered] using h3, by simp; omega⟩

theorem drawWords_none {n : Nat} {ds : List (Option W)} (h : drawWords n ds = none) :
    (delivered ds).length < n := by
  induction ds generalizing n with
  | nil => cases n with
    | zero => simp [drawWords] at h
    | succ n => simp [delivered]
  | cons d ds ih =>
    cases n with
    | zero => simp [drawWords] at h
    | succ n =>
      cases d with
      | none => rw [drawWords] at h; simpa [delivered] using ih h
      | some x =>
        rw [drawWords, Option.map_eq_none_iff] at h
        have := ih h
        simpa [delivered] using this

theorem maskLast_val {n : Nat} {v : Words} (hv : v.length = (enc n).length) :
    val (maskLast v (randomMask (enc n))) = val v % 2 ^ bitLen n ∧
    (maskLast v (randomMask (enc n))).length = v.length := by
  have hb := canon_bitLen (canon_enc n)
  rw [val_enc, ← hv] at hb
  have hne : v ≠ [] := by
    intro h; subst h; simp at hb; have := bitLen_pos n; omega
  have hpos : 0 < v.length := List.length_pos_iff.2 hne
  unfold maskLast randomMask
  rw [bitsLen_enc, List.getLast?_eq_some_getLast hne]
  simp only
  by_cases hr : bitLen n % 32 = 0
  · rw [if_pos hr]
    have hall : v.getLast hne &&& 0xffffffff#32 = v.getLast hne := by
      rw [show (0xffffffff#32 : W) = BitVec.allOnes 32 by rfl, BitVec.and_allOnes]
    rw [hall, List.dropLast_concat_getLast hne]
    refine ⟨?_, rfl⟩
    rw [Nat.mod_eq_of_lt]
    have := val_lt v
    rw [show bitLen n = 32 * v.length by omega]
    exact this
  · rw [if_neg hr, val_mask_last hne (Nat.mod_lt _ (by omega))]
    refine ⟨by congr 2; omega, ?_⟩
    rw [List.length_append, List.length_dropLast, List.length_singleton]
    omega

theorem ltOp_of_length_eq {x y : Words} (hx : x ≠ []) (h : x.length = y.length) :
    ltOp x y = decide (val x < val y) := by
  have hy : y ≠ [] := by rw [← List.length_pos_iff, ← h, List.length_pos_iff]; exact hx
  unfold ltOp partialCmp
  simp only [isNan, List.isEmpty_eq_false_iff.2 hx, List.isEmpty_eq_false_iff.2 hy, Bool.or_self,
    Bool.false_eq_true, if_false, cmpInner_of_length_eq h]
  rcases Nat.lt_trichotomy (val x) (val y) with h | h | h
  · rw [Nat.compare_eq_lt.2 h]; simp [h]
  · rw [Nat.compare_eq_eq.2 h]; simp; omega
  · rw [Nat.compare_eq_gt.2 h]; simp; omega

/-- the `j`-th candidate: the `j`-th group of `len` delivered words, reduced to the bit length of `n` -/
def candidate (n len : Nat) (ws : Words) (j : Nat) : Nat := val ((ws.drop (j * len)).take len) % 2 ^ bitLen n

theorem candidate_append (n : Nat) {len : Nat} {v ws : Words} (hv : v.length = len) (j : Nat) :
    candidate n len (v ++ ws) (j + 1) = candidate n len ws j := by
  unfold candidate
  congr 3
  rw [show (j + 1) * len = v.length + j * len by rw [hv]; ring, ← List.drop_drop, List.drop_left]

theorem candidate_zero (n : Nat) {len : Nat} {v ws : Words} (hv : v.length = len) :
    candidate n len (v ++ ws) 0 = val v % 2 ^ bitLen n := by
  unfold candidate
  rw [Nat.zero_mul, List.drop_zero, List.take_left' hv]

theorem randomLoop_some {n : Nat} (fuel : Nat) : ∀ {ds r rest},
    randomLoop (enc n) (enc n).length (randomMask (enc n)) fuel ds = some (r, rest) →
    r.length = (enc n).length ∧ val r < n ∧
    ∃ pre k, ds = pre ++ rest ∧ (delivered pre).length = (k + 1) * (enc n).length ∧
      val r = candidate n (enc n).length (delivered pre) k ∧
      ∀ j, j < k → n ≤ candidate n (enc n).length (delivered pre) j := by
  induction fuel with
  | zero => intro ds r rest h; simp [randomLoop] at h
  | succ fuel ih =>
    intro ds r rest h
    rw [randomLoop] at h
    rcases hd : drawWords (enc n).length ds with _ | ⟨v, ds'⟩
    · rw [hd] at h; simp at h
    · rw [hd] at h
      simp only at h
      obtain ⟨hl, pre, hpre, hdel, _⟩ := drawWords_some hd
      obtain ⟨hm1, hm2⟩ := maskLast_val hl
      have hne : maskLast v (randomMask (enc n)) ≠ [] := by
        rw [← List.length_pos_iff, hm2, hl, List.length_pos_iff]; exact enc_ne_nil n
      rw [ltOp_of_length_eq hne (by rw [hm2, hl]), val_enc, hm1] at h
      by_cases hlt : val v % 2 ^ bitLen n < n
      · rw [if_pos (by simpa using hlt)] at h
        simp only [Option.some.injEq, Prod.mk.injEq] at h
        obtain ⟨rfl, rfl⟩ := h
        refine ⟨by rw [hm2, hl], by rw [hm1]; exact hlt, pre, 0, hpre, ?_, ?_, ?_⟩
        · rw [hdel, hl]; ring
        · rw [hm1, hdel]
          have := candidate_zero n (ws := []) hl
          rw [List.append_nil] at this
          exact this.symm
        · intro j hj; omega
      · rw [if_neg (by simpa using hlt)] at h
        obtain ⟨h1, h2, pre', k, h3, h4, h5, h6⟩ := ih h
        refine ⟨h1, h2, pre ++ pre', k + 1, by rw [hpre, h3, List.append_assoc], ?_, ?_, ?_⟩
        · simp only [delivered_append, List.length_append] at *
          rw [h4, hdel, hl]; ring
        · rw [h5]
          simp only [delivered_append] at *
          rw [hdel, candidate_append n hl]
        · intro j hj
          simp only [delivered_append] at *
          rw [hdel]
          cases j with
          | zero => rw [candidate_zero n hl]; omega
          | succ j => rw [candidate_append n hl]; exact h6 j (by omega)

theorem randomLoop_none {n : Nat} (fuel : Nat) : ∀ {ds}, ds.length < fuel →
    randomLoop (enc n) (enc n).length (randomMask (enc n)) fuel ds = none →
    ∀ j, (j + 1) * (enc n).length ≤ (delivered ds).length → n ≤ candidate n (enc n).length (delivered ds) j := by
  induction fuel with
  | zero => intro ds hf; omega
  | succ fuel ih =>
    intro ds hf h j hj
    rw [randomLoop] at h
    rcases hd : drawWords (enc n).length ds with _ | ⟨v, ds'⟩
    · have := drawWords_none hd
      have : 1 * (enc n).length ≤ (j + 1) * (enc n).length := Nat.mul_le_mul_right _ (by omega)
      omega
    · rw [hd] at h
      simp only at h
      obtain ⟨hl, pre, hpre, hdel, hle⟩ := drawWords_some hd
      obtain ⟨hm1, hm2⟩ := maskLast_val hl
      have hne : maskLast v (randomMask (enc n)) ≠ [] := by
        rw [← List.length_pos_iff, hm2, hl, List.length_pos_iff]; exact enc_ne_nil n
      have hlpos : 0 < (enc n).length := List.length_pos_iff.2 (enc_ne_nil n)
      rw [ltOp_of_length_eq hne (by rw [hm2, hl]), val_enc, hm1] at h
      by_cases hlt : val v % 2 ^ bitLen n < n
      · rw [if_pos (by simpa using hlt)] at h; simp at h
      · rw [if_neg (by simpa using hlt)] at h
        have hds' : ds'.length < fuel := by
          rw [hpre, List.length_append] at hf; omega
        have := ih hds' h
        have hdd : delivered ds = v ++ delivered ds' := by
          rw [hpre]; simp only [delivered_append] at *; rw [hdel]
        rw [hdd] at hj ⊢
        cases j with
        | zero => rw [candidate_zero n hl]; omega
        | succ j =>
          rw [candidate_append n hl]
          apply this
          rw [List.length_append, hl] at hj
          have : (j + 1 + 1) * (enc n).length = (j + 1) * (enc n).length + (enc n).length := by ring
          omega

/-! ## range product -/

theorem mulRangeStep_enc (v : Nat) (e : D) : mulRangeStep (enc v) e = enc (v * e.toNat) := by
  unfold mulRangeStep
  simp only
  rw [mulAddWW_spec (enc_ne_nil v), mulAddWW_spec (enc_ne_nil v), val_enc, toW_toNat, toW_toNat, shr32_toNat, mask64_and]
  have he := e.isLt
  have h1 : e.toNat / 2 ^ 32 % 2 ^ 32 = e.toNat / 2 ^ 32 := Nat.mod_eq_of_lt (by omega)
  rw [h1, Nat.mod_mod]
  generalize hh : v * (e.toNat / 2 ^ 32) + (0#32).toNat = hi
  generalize hlo : v * (e.toNat % 2 ^ 32) + (0#32).toNat = lo
  simp only [BitVec.toNat_ofNat, Nat.zero_mod, Nat.add_zero] at hh hlo
  generalize hH : shlInner (enc hi) 32 = H
  have hHv : val H = hi * 2 ^ 32 := by rw [← hH, shlInner_val, val_enc]
  generalize hlen : max H.length (enc lo).length = len
  have hr := addVV_val (x := resize H len) (y := resize (enc lo) len) (by rw [resize_length, resize_length])
  have hrl := addVV_length (x := resize H len) (y := resize (enc lo) len) (by rw [resize_length, resize_length])
  rw [resize_length] at hr hrl
  rw [resize_val (by omega), resize_val (by omega), hHv, val_enc] at hr
  rw [trim_eq_enc (by simp), val_append, hrl, val_cons, val_nil, Nat.mul_zero, Nat.add_zero, hr.1, ← hh, ← hlo]
  congr 1
  have := Nat.div_add_mod e.toNat (2 ^ 32)
  generalize e.toNat / 2 ^ 32 = a at *
  generalize e.toNat % 2 ^ 32 = b at *
  rw [← this]; ring

theorem mulRangeLoop_enc (n : Nat) : ∀ (e : D) (v : Nat), e.toNat + n < 2 ^ 64 →
    mulRangeLoop n e (enc v) = enc (v * ∏ i ∈ Finset.range n, (e.toNat + i)) := by
  induction n with
  | zero => intro e v _; simp [mulRangeLoop]
  | succ n ih =>
    intro e v h
    have he : (e + 1#64).toNat = e.toNat + 1 := by
      rw [BitVec.toNat_add]; simp only [BitVec.toNat_ofNat]; omega
    rw [mulRangeLoop, mulRangeStep_enc, ih _ _ (by rw [he]; omega), he, Finset.prod_range_succ']
    congr 1
    rw [Nat.add_zero, Nat.mul_assoc, Nat.mul_comm (e.toNat)]
    congr 2
    apply Finset.prod_congr rfl
    intro i _; ring

theorem natMulRange_eq (a b : D) :
    natMulRange a b = .ok (enc (∏ i ∈ Finset.Icc a.toNat b.toNat, i)) := by
  unfold natMulRange
  by_cases h0 : a = 0#64
  · rw [if_pos h0, h0, ← enc_zero]
    congr 2
    symm
    apply Finset.prod_eq_zero (i := 0) (by simp) rfl
  · rw [if_neg h0]
    by_cases h1 : a > b
    · rw [if_pos h1, ← enc_one]
      have : b.toNat < a.toNat := BitVec.lt_def.1 h1
      rw [Finset.Icc_eq_empty (by omega), Finset.prod_empty]
    · rw [if_neg h1]
      have hle : a.toNat ≤ b.toNat := by
        by_contra hc; exact h1 (BitVec.lt_def.2 (by omega))
      by_cases h2 : a = b
      · rw [if_pos h2, fromU64_eq, h2]; simp
      · rw [if_neg h2, fromU64_eq]
        simp only
        have hb := b.isLt
        rw [mulRangeLoop_enc _ _ _ (by omega)]
        congr 2
        rw [← Finset.prod_Ico_eq_prod_range (fun i => i), Nat.mul_comm]
        have hI : Finset.Icc a.toNat b.toNat = Finset.Ico a.toNat (b.toNat + 1) := by
          ext i; simp only [Finset.mem_Icc, Finset.mem_Ico]; omega
        rw [hI, Finset.prod_Ico_succ_top hle]

end RMath
