import Verif.Props.Residue
import Verif.Props.Corners
import Verif.Lemmas.PrimeAll
import Mathlib.NumberTheory.LucasLehmer

/-!
# C117: division by a zero that is not in canonical form

`0 << s` with `s ≥ 32` is a zero of several words (C05), and the test for a zero divisor in `div_inner` and
`rem_inner` compares with the one-word zero.  The theorems describe completely what `a / (0 << s)` and
`a % (0 << s)` do, and which other operations inherit it.
-/

namespace RMath

/-- a zero written with `l` words -/
private abbrev zeros (l : Nat) : Words := List.replicate l 0#32

private theorem shlLoop_zeros (nom l : Nat) : shlLoop nom 0#32 (zeros l) = (zeros l, 0#32) := by
  induction l with
  | zero => rfl
  | succ l ih =>
    have : (0#32 >>> (32 - nom) : W) = 0#32 := by simp
    simp only [List.replicate_succ, shlLoop, this]
    simp only [zeros] at ih
    simp [ih]

private theorem shlInner_zeros (l s : Nat) : shlInner (zeros l) s = zeros (l + s / 32) := by
  unfold shlInner
  simp only [shlLoop_zeros]
  simp only [ne_eq, not_true_eq_false, if_false, List.append_nil, ite_self]
  split
  · rw [List.replicate_append_replicate, Nat.add_comm]
  · rw [show s / 32 = 0 by omega]; rfl

private theorem shrLoop_zeros (l : Nat) : shrLoop 1 0#32 (zeros l) = (zeros l, 0#32) := by
  induction l with
  | zero => rfl
  | succ l ih =>
    simp only [List.replicate_succ, shrLoop]
    have h1 : ((0#32 : W).rotateRight 1 &&& ((1#32 <<< (32 - 1)) - 1#32)) = 0#32 := by decide
    have h2 : ((0#32 : W).rotateRight 1 &&& (((1#32 <<< 1) - 1#32) <<< (32 - 1)) ||| 0#32) = 0#32 := by decide
    simp only [zeros] at ih
    rw [h1, h2, ih]

private theorem shrInner_zeros (m : Nat) (hm : 1 ≤ m) : shrInner (zeros (m + 1)) 1 = zeros m := by
  rw [shrInner, if_neg (by simp)]
  have h1 : (0#32 >>> 1 : W) = 0#32 := by decide
  have h2 := shrLoop_zeros m
  simp only [zeros] at h2
  have h3 : List.drop m (List.replicate (m + 1) 0#32) = [0#32] := by
    rw [List.drop_replicate, show m + 1 - m = 1 by omega]; rfl
  have h4 : List.take (m + 1) (List.replicate m 0#32 ++ [0#32]) = List.replicate (m + 1) 0#32 := by
    rw [← List.replicate_succ', List.take_of_length_le (by simp)]
  have h6 : List.drop (1 / 32) (List.replicate (m + 1) 0#32) = 0#32 :: List.replicate m 0#32 := by
    rw [← List.replicate_succ]; rfl
  have h5 : List.replicate m 0#32 ≠ ([] : Words) := by simp; omega
  simp only [h6, Nat.reduceMod, gt_iff_lt, Nat.one_pos, if_true, h1, h2, List.length_replicate, h3, Nat.reduceDiv,
    Nat.sub_zero, h4, ne_eq, not_true_eq_false, if_false, List.dropLast_replicate, Nat.add_sub_cancel, h5,
    decide_true, beq_self_eq_true, Bool.and_self]

private theorem bitsLen_zeros (l : Nat) (hl : 2 ≤ l) : bitsLen (zeros l) = (l - 1) * 32 := by
  obtain ⟨k, rfl⟩ : ∃ k, l = k + 1 := ⟨l - 1, by omega⟩
  unfold bitsLen zeros
  rw [List.replicate_succ', List.getLast?_append]
  simp
  omega

private theorem val_zeros (l : Nat) : val (zeros l) = 0 := by
  induction l with
  | zero => rfl
  | succ l ih => simp only [zeros, List.replicate_succ, val] at *; simp [ih]

private theorem sbbZip_zeros (a : Words) : sbbZip true false a (zeros a.length) = (a, false) := by
  induction a with
  | nil => rfl
  | cons w a ih =>
    simp only [List.length_cons, List.replicate_succ, sbbZip, if_true]
    have : sbb false w 0#32 = (w, false) := by
      unfold sbb; simp
    simp only [zeros] at ih
    rw [this, ih]

/-- facts about the dividend: at least two words, the top one not zero -/
private theorem big_bits {a : Words} (ha : Canon a) (hl : 2 ≤ a.length) :
    32 * (a.length - 1) < bitsLen a ∧ bitsLen a ≤ 32 * a.length ∧ 0 < val a := by
  obtain ⟨hne, h⟩ := ha
  have h0 : a.getLast hne ≠ 0 := by rcases h with h | h; omega; exact h
  refine ⟨?_, bitsLen_le_length hne, ?_⟩
  · unfold bitsLen
    rw [List.getLast?_eq_some_getLast hne]
    have h0' : a.getLast hne ≠ 0#32 := h0
    simp only [h0', if_false]
    have hlz := leadingZeros_toNat h0'
    omega
  · rcases Nat.eq_zero_or_pos (val a) with h1 | h1
    · have := canon_eq_enc ⟨hne, h⟩
      rw [h1, enc_zero] at this
      rw [this] at hl
      simp at hl
    · exact h1

private theorem cmp_zeros {a : Words} {l : Nat} (h0 : 0 < val a) (hl : l ≤ a.length) : cmpInner a (zeros l) = .gt := by
  rcases Nat.lt_or_eq_of_le hl with h | h
  · unfold cmpInner; rw [if_neg (by simp; omega), if_pos (by simpa using h)]
  · rw [cmpInner_of_length_eq (by simp [h]), val_zeros]
    exact Nat.compare_eq_gt.2 h0

private theorem cmp_zeros_lt {a : Words} {l : Nat} (hl : a.length < l) : cmpInner a (zeros l) = .lt := by
  unfold cmpInner; rw [if_pos (by simpa using hl)]

private theorem zeros_cmp {a : Words} (h0 : 0 < val a) : cmpInner (zeros a.length) a = .lt := by
  rw [cmpInner_of_length_eq (by simp), val_zeros]
  exact Nat.compare_eq_lt.2 h0

private theorem zeros_cmp_gt {a : Words} : cmpInner (zeros (a.length + 1)) a = .gt := by
  unfold cmpInner; rw [if_neg (by simp), if_pos (by simp)]

private theorem sub_zeros {a : Words} (ha : Canon a) : subInner a (zeros a.length) = a := by
  have hge : geOp a (zeros a.length) = true := by
    rw [geOp_of_length_eq ha.ne_nil (by simp), val_zeros]; simp
  unfold subInner subInnerWithSign
  simp only [hge, if_true, sbbZip_zeros, Bool.and_false, Bool.false_eq_true, if_false, List.drop_length,
    List.append_nil]
  exact trim_of_canon ha

private theorem shift_zeros {a : Words} {l : Nat} (ha : Canon a) (hl2 : 2 ≤ l) (hl : l ≤ a.length) :
    ¬ bitsLen a < bitsLen (zeros l) ∧ 0 < bitsLen a - bitsLen (zeros l) ∧
    (shlInner (zeros l) (bitsLen a - bitsLen (zeros l)) = zeros a.length ∨
     shlInner (zeros l) (bitsLen a - bitsLen (zeros l)) = zeros (a.length + 1)) := by
  obtain ⟨h1, h2, -⟩ := big_bits ha (by omega)
  rw [bitsLen_zeros l hl2, shlInner_zeros]
  refine ⟨by omega, by omega, ?_⟩
  have : l + (bitsLen a - (l - 1) * 32) / 32 = a.length ∨ l + (bitsLen a - (l - 1) * 32) / 32 = a.length + 1 := by
    omega
  rcases this with h | h
  · exact .inl (by rw [h])
  · exact .inr (by rw [h])

/-- the loop of `rem_inner` does not get anywhere -/
theorem remLoop_zeros {a : Words} {l : Nat} (ha : Canon a) (hl2 : 2 ≤ l) (hl : l ≤ a.length) (rounds : Nat) :
    remLoop (List.replicate l 0#32) rounds a = .error .hang := by
  obtain ⟨-, -, h0⟩ := big_bits ha (by omega)
  obtain ⟨s1, -, s2⟩ := shift_zeros ha hl2 hl
  induction rounds with
  | zero => rfl
  | succ n ih =>
    have hd : (if cmpInner a (shlInner (zeros l) (bitsLen a - bitsLen (zeros l))) = .lt then
        shrInner (shlInner (zeros l) (bitsLen a - bitsLen (zeros l))) 1
        else shlInner (zeros l) (bitsLen a - bitsLen (zeros l))) = zeros a.length := by
      rcases s2 with h | h
      · rw [h, cmp_zeros h0 le_rfl]; rfl
      · rw [h, cmp_zeros_lt (by omega), if_pos rfl, shrInner_zeros _ (by omega)]
    rw [remLoop, cmp_zeros h0 hl, if_neg (by decide), if_neg s1]
    simp only [hd, sub_zeros ha]
    exact ih

/-- nor does the loop of `div_inner` -/
theorem divLoop_zeros {a : Words} {l : Nat} (ha : Canon a) (hl2 : 2 ≤ l) (hl : l ≤ a.length) (rounds : Nat) :
    ∀ acc, divLoop (List.replicate l 0#32) rounds a acc = .error .hang := by
  obtain ⟨-, -, h0⟩ := big_bits ha (by omega)
  obtain ⟨s1, s3, s2⟩ := shift_zeros ha hl2 hl
  induction rounds with
  | zero => intro _; rfl
  | succ n ih =>
    intro acc
    have hd : ∃ t, divAdjust (bitsLen a - bitsLen (zeros l) + 2)
        (shlInner (zeros l) (bitsLen a - bitsLen (zeros l))) a (bitsLen a - bitsLen (zeros l)) =
        .ok (zeros a.length, t) := by
      generalize bitsLen a - bitsLen (zeros l) = sh at *
      rcases s2 with h | h
      · rw [h, divAdjust.eq_def]; simp only; rw [zeros_cmp h0]; exact ⟨_, rfl⟩
      · obtain ⟨k, rfl⟩ : ∃ k, sh = k + 1 := ⟨sh - 1, by omega⟩
        rw [h, divAdjust.eq_def]
        simp only
        rw [zeros_cmp_gt, if_pos rfl, shrInner_zeros _ (by omega), divAdjust.eq_def]
        simp only
        rw [zeros_cmp h0]
        exact ⟨_, rfl⟩
    obtain ⟨t, hd⟩ := hd
    rw [divLoop, cmp_zeros h0 hl, if_neg (by decide), if_neg s1]
    simp only [hd, sub_zeros ha]
    exact ih _

private theorem eqv_zeros {l : Nat} (hl : 2 ≤ l) : eqv (zeros l) [0#32] = false := by
  rw [Bool.eq_false_iff]
  intro h
  rw [eqv_iff (by simp; omega)] at h
  have := congrArg List.length h
  simp at this
  omega

theorem remInner_zeros {a : Words} {l : Nat} (ha : Canon a) (hl : 2 ≤ l) :
    remInner a (List.replicate l 0#32) = if l ≤ a.length then .error .hang else .ok a := by
  rw [remInner, eqv_zeros hl, if_neg (by simp)]
  by_cases h : l ≤ a.length
  · rw [if_neg (by rw [cmp_zeros (big_bits ha (by omega)).2.2 h]; decide), remLoop_zeros ha hl h, if_pos h]
  · rw [if_pos (cmp_zeros_lt (by omega)), if_neg h]

theorem divInner_zeros {a : Words} {l : Nat} (ha : Canon a) (hl : 2 ≤ l) :
    divInner a (List.replicate l 0#32) = if l ≤ a.length then .error .hang else .ok [0#32] := by
  rw [divInner, eqv_zeros hl, deepClone, trim_of_canon ha]
  by_cases h : l ≤ a.length
  · obtain ⟨s1, s2, -⟩ := shift_zeros ha hl h
    simp only [Bool.false_eq_true, if_false, h, if_true]
    rw [if_neg (by rw [cmp_zeros (big_bits ha (by omega)).2.2 h]; decide), if_neg (by simp only [zeros] at s2; omega), divLoop_zeros ha hl h]
  · simp only [Bool.false_eq_true, if_false, h]
    rw [if_pos (cmp_zeros_lt (by omega))]

/-- `0 << s` has `s / 32 + 1` words -/
theorem natShl_zero (s : Nat) : natShl [0#32] s = List.replicate (s / 32 + 1) 0#32 := by
  have : natShl [0#32] s = shlInner (zeros 1) s := by
    rw [natShl, ← enc_zero, opPrim_enc, enc_zero]; rfl
  rw [this, shlInner_zeros, Nat.add_comm]

/-! ## C117 -/

/-- For operands in canonical form division and remainder end: they return, or panic, and they panic exactly for a zero
divisor.  Missing from the full property: operands that are not in canonical form, of which the next two theorems
describe the zeros that shifting makes. -/
theorem C117_ends_partial (a b : Words) (ha : Canon a) (hb : Canon b) :
    ((∃ q, natDiv a b = .ok q) ∨ natDiv a b = .error .panic) ∧ ((∃ r, natRem a b = .ok r) ∨ natRem a b = .error .panic) ∧
    (natDiv a b = .error .panic ↔ val b = 0) ∧ (natRem a b = .error .panic ↔ val b = 0) := by
  by_cases h : val b = 0
  · obtain ⟨h1, h2⟩ := C04_div_zero a b ha hb h
    exact ⟨.inr h1, .inr h2, by simp [h1, h], by simp [h2, h]⟩
  · obtain ⟨q, r, h1, h2, -⟩ := C04_div_rem a b ha hb h
    exact ⟨.inl ⟨q, h1⟩, .inl ⟨r, h2⟩, by simp [h1, h], by simp [h2, h]⟩

example : Canon sampleA ∧ Canon [7#32] ∧ natDiv sampleA [0#32] = .error .panic :=
  ⟨sampleA_canon, ⟨by decide, by decide⟩,
    (C117_ends_partial sampleA [0#32] sampleA_canon ⟨by decide, by decide⟩).2.2.1.2 rfl⟩

/-- `a % (0 << s)` for every `a` in canonical form and every `s`: a panic only for `s < 32`; for larger `s` the loop
goes on for ever, however many rounds it is given, when `a` has more than `s / 32` words (that is `a ≥ 2^(32·(s/32))`);
otherwise `a` is returned. -/
theorem C117_rem_by_shifted_zero (a : Words) (ha : Canon a) (s : Nat) :
    (s < 32 → natRem a (natShl [0#32] s) = .error .panic) ∧
    (32 ≤ s → 2 ^ (32 * (s / 32)) ≤ val a →
      natRem a (natShl [0#32] s) = .error .hang ∧ ∀ rounds, remLoop (natShl [0#32] s) rounds a = .error .hang) ∧
    (32 ≤ s → val a < 2 ^ (32 * (s / 32)) → natRem a (natShl [0#32] s) = .ok a) := by
  have hnan : ∀ l, 1 ≤ l → isNan (zeros l) = false := by
    intro l hl; obtain ⟨k, rfl⟩ : ∃ k, l = k + 1 := ⟨l - 1, by omega⟩; rfl
  have ha0 : isNan a = false := by rw [canon_eq_enc ha]; simp
  have e : ∀ l, 1 ≤ l → natRem a (zeros l) = remInner a (zeros l) := by
    intro l hl
    rw [natRem, opNatR, ha0, hnan l hl, deepClone, trim_of_canon ha]; rfl
  rw [natShl_zero]
  refine ⟨fun h => ?_, fun h hl => ?_, fun h hl => ?_⟩
  · rw [show s / 32 = 0 by omega, e 1 le_rfl]; rfl
  · have hlen : s / 32 + 1 ≤ a.length := by
      by_contra hc
      have h1 := val_lt a
      have h2 : 2 ^ (32 * a.length) ≤ 2 ^ (32 * (s / 32)) := Nat.pow_le_pow_right (by norm_num) (by omega)
      omega
    rw [e _ (by omega), remInner_zeros ha (by omega), if_pos hlen]
    exact ⟨rfl, remLoop_zeros ha (by omega) hlen⟩
  · have hlen : ¬ s / 32 + 1 ≤ a.length := by
      have := enc_length_le (by omega) hl
      rw [← canon_eq_enc ha] at this
      omega
    rw [e _ (by omega), remInner_zeros ha (by omega), if_neg hlen]

example : natRem [5#32, 7#32] (natShl [0#32] 40) = .error .hang ∧ natRem [5#32] (natShl [0#32] 40) = .ok [5#32] ∧
    natRem [5#32, 7#32] (natShl [0#32] 31) = .error .panic :=
  ⟨((C117_rem_by_shifted_zero _ ⟨by decide, by decide⟩ 40).2.1 (by norm_num) (by decide)).1,
   (C117_rem_by_shifted_zero _ ⟨by decide, by decide⟩ 40).2.2 (by norm_num) (by decide),
   (C117_rem_by_shifted_zero _ ⟨by decide, by decide⟩ 31).1 (by norm_num)⟩

/-- `a / (0 << s)` for every `a` in canonical form and every `s`: the same with the quotient 0. -/
theorem C117_div_by_shifted_zero (a : Words) (ha : Canon a) (s : Nat) :
    (s < 32 → natDiv a (natShl [0#32] s) = .error .panic) ∧
    (32 ≤ s → 2 ^ (32 * (s / 32)) ≤ val a →
      natDiv a (natShl [0#32] s) = .error .hang ∧
      ∀ rounds, divLoop (natShl [0#32] s) rounds a [0#32] = .error .hang) ∧
    (32 ≤ s → val a < 2 ^ (32 * (s / 32)) → natDiv a (natShl [0#32] s) = .ok [0#32]) := by
  have hnan : ∀ l, 1 ≤ l → isNan (zeros l) = false := by
    intro l hl; obtain ⟨k, rfl⟩ : ∃ k, l = k + 1 := ⟨l - 1, by omega⟩; rfl
  have ha0 : isNan a = false := by rw [canon_eq_enc ha]; simp
  have e : ∀ l, 1 ≤ l → natDiv a (zeros l) = divInner a (zeros l) := by
    intro l hl
    rw [natDiv, opNatR, ha0, hnan l hl, deepClone, trim_of_canon ha]; rfl
  rw [natShl_zero]
  refine ⟨fun h => ?_, fun h hl => ?_, fun h hl => ?_⟩
  · rw [show s / 32 = 0 by omega, e 1 le_rfl]; rfl
  · have hlen : s / 32 + 1 ≤ a.length := by
      by_contra hc
      have h1 := val_lt a
      have h2 : 2 ^ (32 * a.length) ≤ 2 ^ (32 * (s / 32)) := Nat.pow_le_pow_right (by norm_num) (by omega)
      omega
    rw [e _ (by omega), divInner_zeros ha (by omega), if_pos hlen]
    exact ⟨rfl, fun n => divLoop_zeros ha (by omega) hlen n _⟩
  · have hlen : ¬ s / 32 + 1 ≤ a.length := by
      have := enc_length_le (by omega) hl
      rw [← canon_eq_enc ha] at this
      omega
    rw [e _ (by omega), divInner_zeros ha (by omega), if_neg hlen]

example : natDiv [5#32, 7#32] (natShl [0#32] 40) = .error .hang ∧ natDiv [5#32] (natShl [0#32] 40) = .ok [0#32] :=
  ⟨((C117_div_by_shifted_zero _ ⟨by decide, by decide⟩ 40).2.1 (by norm_num) (by decide)).1,
   (C117_div_by_shifted_zero _ ⟨by decide, by decide⟩ 40).2.2 (by norm_num) (by decide)⟩

/-- An odd multiple `q` of a power `2^(32·k)` of the word base shifted right by `32·k` becomes zero when `q < 2^(32·k)`:
the low words are kept instead of the high ones (C06). -/
theorem shrInner_low_zeros {k q : Nat} (hk : 1 ≤ k) (hq0 : q ≠ 0) (hq : q < 2 ^ (32 * k)) :
    shrInner (enc (2 ^ (32 * k) * q)) (32 * k) = List.replicate (enc q).length 0#32 := by
  have e : enc (2 ^ (32 * k) * q) = List.replicate k 0#32 ++ enc q := by
    symm
    rw [enc_eq_iff]
    refine ⟨?_, ?_⟩
    · obtain ⟨hne, h⟩ := canon_enc q
      refine ⟨by simp [hne], .inr ?_⟩
      rw [List.getLast_append_of_ne_nil _ hne]
      rcases h with h | h
      · intro h0
        apply hq0
        obtain ⟨w, hw⟩ := List.length_eq_one_iff.1 h
        have hv := val_enc q
        rw [hw] at hv
        simp only [hw, List.getLast_singleton] at h0
        rw [← hv, h0]
        rfl
      · exact h
    · rw [val_append, List.length_replicate, val_zeros, val_enc]; simp
  have hlen : (enc q).length ≤ k := enc_length_le hk hq
  have hpos : 0 < (enc q).length := List.length_pos_iff.2 (canon_enc q).ne_nil
  rw [e, shrInner, if_neg (by rw [List.length_append, List.length_replicate]; omega)]
  have h1 : 32 * k % 32 = 0 := by omega
  have h2 : 32 * k / 32 = k := by omega
  simp only [h1, h2, gt_iff_lt, Nat.lt_irrefl, if_false, List.length_nil, List.drop_zero, List.nil_append, ne_eq,
    not_true_eq_false, List.length_append, List.length_replicate, decide_false, Bool.false_and, Bool.false_eq_true,
    Nat.add_sub_cancel_left]
  rw [List.take_append_of_le_length (by simpa using hlen), List.take_replicate, Nat.min_eq_left hlen]

/-- `jacobi(a, b)` with `b > 0` and `a mod b = 2^(32·k)·q` for an odd `q < 2^(32·k)`: the call never returns when `q`
needs more than one word, whatever the number of rounds, and panics otherwise. -/
theorem C46_jacobi_hangs (k q : Nat) (hk : 1 ≤ k) (hodd : q % 2 = 1) (hq : q < 2 ^ (32 * k)) (x y : BInt)
    (hx : CanonI x) (hy : CanonI y) (hpos : 0 < ival y) (hmod : ival x % ival y = 2 ^ (32 * k) * q) :
    (2 ^ 32 ≤ q → bJacobi x y = .error .hang ∧ ∀ rounds j, bJacobiLoop rounds x y j = .error .hang) ∧
    (q < 2 ^ 32 → bJacobi x y = .error .panic) := by
  obtain ⟨a, rfl⟩ := canonI_iff_encI.1 hx
  obtain ⟨b, rfl⟩ := canonI_iff_encI.1 hy
  rw [ival_encI] at hmod hpos
  rw [ival_encI] at hmod
  obtain ⟨b, rfl⟩ : ∃ n : Nat, b = n := ⟨b.toNat, by omega⟩
  have hr1 : 2 ^ (32 * k) * q < b := by
    have := Int.emod_lt_of_pos a hpos
    rw [hmod] at this
    exact_mod_cast this
  have hr0 : 2 ^ (32 * k) * q ≠ 0 := Nat.mul_ne_zero (by positivity) (by omega)
  have hnd : ¬ ((b : Int) ∣ a) := by
    intro hd
    rw [Int.emod_eq_zero_of_dvd hd] at hmod
    exact hr0 (by exact_mod_cast hmod.symm)
  have ha : a ≠ 0 := by rintro rfl; exact hnd (dvd_zero _)
  have hb1 : ¬ ((b : Int) = 1) := by omega
  have hb0 : (b : Int) ≠ 0 := by omega
  have hnat : ∀ n : Nat, (encI (n : Int)).nat = enc n := fun n => by rw [encI_ofNat]
  have hcast : (2 ^ (32 * k) * (q : Int) : Int) = ((2 ^ (32 * k) * q : Nat) : Int) := by push_cast; ring
  have hlenq : 0 < (enc q).length := List.length_pos_iff.2 (canon_enc q).ne_nil
  have hlenb : (enc q).length ≤ (enc b).length := by
    have h1 : 1 ≤ 2 ^ (32 * k) := Nat.one_le_two_pow
    have h2 : q ≤ b := by nlinarith
    rw [enc_length_log2 (by omega), enc_length_log2 (by omega)]
    have := (Nat.le_log2 (by omega : b ≠ 0)).2 ((Nat.log2_self_le (by omega : q ≠ 0)).trans h2)
    omega
  -- the first round leaves a zero of as many words as `q` has
  have hstep : ∀ fuel j, ∃ j', bJacobiLoop (fuel + 1) (encI a) (encI b) j =
      bJacobiLoop fuel (encI b) ⟨List.replicate (enc q).length 0#32, false⟩ j' := by
    intro fuel j
    rw [bJacobiLoop, bEqW_one_encI, encI_nat_eqv]
    simp only [hb1, ha, decide_false, Bool.false_eq_true, if_false]
    rw [bRemEuclidInner_ok hb0 (Or.inr hnd), hmod, hcast]
    simp only [bind, Except.bind, encI_nat_eqv, decide_eq_true_eq]
    rw [if_neg (by exact_mod_cast hr0)]
    obtain ⟨w, hw, -⟩ := word0_enc b
    rw [hnat, hnat, traillingZeros_eq hodd, hw]
    simp only []
    have hs : bShrInner (encI ((2 ^ (32 * k) * q : Nat) : Int)) (32 * k) =
        ⟨List.replicate (enc q).length 0#32, false⟩ := by
      rw [encI_ofNat]
      unfold bShrInner
      simp [assignPrim, shrInner_low_zeros hk (by omega) hq]
    rw [hs]
    have hw0 : word0 (List.replicate (enc q).length 0#32) = .ok 0#32 := by
      obtain ⟨n, hn⟩ : ∃ n, (enc q).length = n + 1 := ⟨(enc q).length - 1, by omega⟩
      rw [hn]; rfl
    simp only [hw0]
    exact ⟨_, rfl⟩
  have hne1 : bEqW ⟨List.replicate (enc q).length 0#32, false⟩ 1#32 = false := by
    obtain ⟨n, hn⟩ : ∃ n, (enc q).length = n + 1 := ⟨(enc q).length - 1, by omega⟩
    rw [hn, List.replicate_succ]
    simp [bEqW, eqv, isNan]
  have hnext : ∀ fuel j, bJacobiLoop (fuel + 1) (encI b) ⟨List.replicate (enc q).length 0#32, false⟩ j =
      .error (if 2 ^ 32 ≤ q then .hang else .panic) := by
    intro fuel j
    rw [bJacobiLoop, hne1, encI_nat_eqv]
    simp only [hb0, decide_false, Bool.false_eq_true, if_false]
    have hrem : bRemInner (encI b) ⟨List.replicate (enc q).length 0#32, false⟩ =
        .error (if 2 ^ 32 ≤ q then .hang else .panic) := by
      rw [bRemInner]
      by_cases h : 2 ^ 32 ≤ q
      · have hl2 : 2 ≤ (enc q).length := by
          rw [enc_length_log2 (by omega)]
          have := (Nat.le_log2 (by omega)).2 h
          omega
        simp only [eqv_zeros hl2, Bool.false_eq_true, if_false, h, if_true]
        rw [hnat, assignNatR]
        have h1 : isNan (List.replicate (enc q).length 0#32) = false := by
          obtain ⟨n, hn⟩ : ∃ n, (enc q).length = n + 1 := ⟨(enc q).length - 1, by omega⟩
          rw [hn]; rfl
        rw [h1, isNan_enc, remInner_zeros (canon_enc b) hl2, if_pos hlenb]
        rfl
      · have hl1 : (enc q).length = 1 := by
          have := enc_length_le (L := 1) (v := q) le_rfl (by omega)
          omega
        rw [hl1, if_neg h]
        rfl
    rw [bRemEuclidInner, hrem]
    rfl
  have hloop : ∀ fuel j, bJacobiLoop (fuel + 2) (encI a) (encI b) j = .error (if 2 ^ 32 ≤ q then .hang else .panic) := by
    intro fuel j
    obtain ⟨j', h⟩ := hstep (fuel + 1) j
    rw [h, hnext]
  have htop : bJacobi (encI a) (encI b) = .error (if 2 ^ 32 ≤ q then .hang else .panic) := by
    unfold bJacobi
    have hneg : ¬ ((b : Int) < 0) := by omega
    simp only [bIsNan_encI, Bool.or_self, bEqW_zero_encI, hb0, decide_false, Bool.false_eq_true, if_false,
      bIsNegative_encI, hneg, bDeepClone_encI]
    rw [hloop]
  refine ⟨fun h => ?_, fun h => ?_⟩
  · rw [htop, if_pos h]
    refine ⟨rfl, fun rounds j => ?_⟩
    match rounds with
    | 0 => rfl
    | 1 => obtain ⟨j', h'⟩ := hstep 0 j; rw [h']; rfl
    | n + 2 => rw [hloop, if_pos h]
  · rw [htop, if_neg (by omega)]

/-- the Mersenne prime `2^127 - 1` -/
private theorem mersenne127 : Nat.Prime (2 ^ 127 - 1) :=
  lucas_lehmer_sufficiency 127 (by norm_num) (by norm_num)

/-- an instance: `jacobi(2^96 + 2^64, 2^127 - 1)` never returns, although the modulus is an odd prime -/
example : (∀ rounds j, bJacobiLoop rounds (encI (2 ^ 96 + 2 ^ 64)) (encI (2 ^ 127 - 1)) j = .error .hang) ∧
    bJacobi (encI (2 ^ 96 + 2 ^ 64)) (encI (2 ^ 127 - 1)) = .error .hang ∧ Nat.Prime (2 ^ 127 - 1) := by
  have h := (C46_jacobi_hangs 2 (2 ^ 32 + 1) (by norm_num) (by norm_num) (by norm_num) (encI (2 ^ 96 + 2 ^ 64))
    (encI (2 ^ 127 - 1)) (canonI_encI _) (canonI_encI _) (by rw [ival_encI]; norm_num)
    (by rw [ival_encI, ival_encI]; norm_num)).1 (by norm_num)
  exact ⟨h.2, h.1, mersenne127⟩

/-- `a.mod_sqrt(p)` inherits it, in every build: for an odd prime `p` (or any other positive modulus) and
`a mod p = 2^(32·k)·q` as above, the call never returns, or panics. -/
theorem C47_mod_sqrt_hangs (checks : Bool) (k q : Nat) (hk : 1 ≤ k) (hodd : q % 2 = 1) (hq : q < 2 ^ (32 * k))
    (x y : BInt) (hx : CanonI x) (hy : CanonI y) (hpos : 0 < ival y) (hmod : ival x % ival y = 2 ^ (32 * k) * q) :
    (2 ^ 32 ≤ q → bModSqrt checks x y = .error .hang) ∧ (q < 2 ^ 32 → bModSqrt checks x y = .error .panic) := by
  obtain ⟨h1, h2⟩ := C46_jacobi_hangs k q hk hodd hq x y hx hy hpos hmod
  refine ⟨fun h => ?_, fun h => ?_⟩
  · rw [bModSqrt, (h1 h).1]; rfl
  · rw [bModSqrt, h2 h]; rfl

example : bModSqrt false (encI (2 ^ 96 + 2 ^ 64)) (encI (2 ^ 127 - 1)) = .error .hang :=
  (C47_mod_sqrt_hangs false 2 (2 ^ 32 + 1) (by norm_num) (by norm_num) (by norm_num) (encI (2 ^ 96 + 2 ^ 64))
    (encI (2 ^ 127 - 1)) (canonI_encI _) (canonI_encI _) (by rw [ival_encI]; norm_num)
    (by rw [ival_encI, ival_encI]; norm_num)).1 (by norm_num)

end RMath
