import Verif.Props.NonCanon
import Verif.Props.BigInt

/-!
# Property C126: BigInts with leading zero words and the negative zero

`0 << s`, `a >> s`, random numbers and `BigInt::from` of a `Nat` with leading zero words are BigInts with leading zero words; `a % b` with a
negative `a` may be a zero with the sign set (C37).  The theorems say what the operators do with such operands.
-/

namespace RMath

/-! ## Proof -/

theorem not_nan_of_ne {x : Words} (hx : x ≠ NaN) : isNan x = false := by
  rw [Bool.eq_false_iff]; intro h; exact hx (isNan_iff.1 h)

theorem bDeepClone_any {x : BInt} (hx : x.nat ≠ NaN) : bDeepClone x = ⟨enc (val x.nat), x.neg⟩ := by
  rw [bDeepClone, deepClone, trim_eq_enc hx]

theorem ival_signFix (z : Words) (s : Bool) : ival (signFix z s) = if s then -(val z : Int) else val z := by
  unfold signFix
  by_cases hz : z = NaN
  · rw [hz]
    cases s <;> decide
  by_cases h : eqv z [0#32] = true
  · rw [(eqv_iff hz).1 h]
    cases s <;> decide
  · rw [Bool.not_eq_true] at h
    simp [not_nan_of_ne hz, h, ival]

theorem assignNat_num {f : Words → Words → Words} {x y : Words} (hx : x ≠ NaN) (hy : y ≠ NaN) : assignNat f x y = f x y := by
  rw [assignNat, not_nan_of_ne hx, not_nan_of_ne hy]; rfl

theorem ltOp_any {x : Nat} {y : Words} (hy : y ≠ NaN) : ltOp (enc x) y = true ↔
    (x < val y ∨ x < 2 ^ (32 * (y.length - 1)) ∧ 2 ≤ y.length) := by
  have hypos : 0 < y.length := List.length_pos_iff.2 hy
  have hlen : (enc x).length < y.length ↔ 2 ≤ y.length ∧ x < 2 ^ (32 * (y.length - 1)) := by
    have hpos : 0 < (enc x).length := List.length_pos_iff.2 (enc_ne_nil x)
    constructor
    · intro h
      exact ⟨by omega, (enc_length_iff x (by omega)).1 (by omega)⟩
    · rintro ⟨h3, h4⟩
      have := (enc_length_iff x (l := y.length - 1) (by omega)).2 h4
      omega
  have hylt := val_lt y
  have hl2 : y.length < (enc x).length → val y < x := by
    intro h
    by_contra hc
    have := (enc_length_iff x (l := y.length) hypos).2 (by omega)
    omega
  have e : ltOp (enc x) y = true ↔ partialCmp (enc x) y = some .lt := by
    unfold ltOp
    cases partialCmp (enc x) y with
    | none => simp
    | some o => cases o <;> simp
  rw [e, (C118_compare (enc x) y (enc_ne_nil x) hy).1, val_enc]
  by_cases h1 : (enc x).length < y.length
  · simp only [h1, if_true, true_iff]
    exact .inr ⟨(hlen.1 h1).2, (hlen.1 h1).1⟩
  · rw [if_neg h1]
    have h1' : ¬ (x < 2 ^ (32 * (y.length - 1)) ∧ 2 ≤ y.length) := fun h => h1 (hlen.2 ⟨h.2, h.1⟩)
    by_cases h2 : y.length < (enc x).length
    · have := hl2 h2
      rw [if_pos h2]
      simp only [Option.some.injEq, reduceCtorEq, false_iff, not_or]
      exact ⟨by omega, h1'⟩
    · rw [if_neg h2]
      simp only [Option.some.injEq, compare_lt_iff_lt]
      exact ⟨.inl, fun h => h.resolve_right h1'⟩

/-- adding numbers of different signs: what the code computes from the magnitudes -/
theorem diff_any {x : Nat} {y : Words} (hy : y ≠ NaN) (s : Bool) :
    (¬ (val y < x ∧ x < 2 ^ (32 * (y.length - 1))) →
      ival (signFix (assignNat subInner (enc x) y) (if ltOp (enc x) y then !s else s)) = if s then (val y : Int) - x else x - val y) ∧
    (val y < x → x < 2 ^ (32 * (y.length - 1)) →
      ival (signFix (assignNat subInner (enc x) y) (if ltOp (enc x) y then !s else s)) =
        if s then 2 ^ (32 * y.length) - ((x : Int) - val y) else -(2 ^ (32 * y.length) - ((x : Int) - val y))) := by
  have he := enc_ne_nil x
  have hsub : assignNat subInner (enc x) y = natSub (enc x) y := by
    rw [assignNat_num he hy, natSub, opNat, not_nan_of_ne he, not_nan_of_ne hy, deepClone_enc]; rfl
  obtain ⟨-, h1, h2⟩ := C118_sub (enc x) y he hy
  rw [val_enc] at h1 h2
  have hlt := ltOp_any (x := x) hy
  rw [hsub, ival_signFix]
  constructor
  · intro h
    rw [h1 h]
    by_cases hc : ltOp (enc x) y = true
    · have : x ≤ val y := by
        rcases hlt.1 hc with g | g
        · omega
        · by_contra k; exact h ⟨by omega, g.1⟩
      rw [if_pos hc]
      cases s <;> simp <;> omega
    · have : val y ≤ x := by
        by_contra k; exact hc (hlt.2 (.inl (by omega)))
      rw [if_neg hc]
      cases s <;> simp <;> omega
  · intro g1 g2
    rw [h2 g1 g2]
    have hl : 2 ≤ y.length := by
      by_contra k
      have : y.length - 1 = 0 := by omega
      rw [this] at g2
      simp at g2
      omega
    have hpow : 2 ^ (32 * (y.length - 1)) ≤ 2 ^ (32 * y.length) := Nat.pow_le_pow_right (by norm_num) (by omega)
    rw [if_pos (hlt.2 (.inr ⟨g2, hl⟩))]
    have hc : ((2 ^ (32 * y.length) - (x - val y) : Nat) : Int) = 2 ^ (32 * y.length) - ((x : Int) - val y) := by
      rw [Nat.cast_sub (by omega), Nat.cast_sub (by omega)]
      push_cast
      rfl
    rw [hc]
    cases s <;> simp

/-! ## C126 -/

/-- Products, left shifts, `-x` and `abs` have the right value for all operands. -/
theorem C126_values (x y : BInt) (s : Nat) (hx : x.nat ≠ NaN) (hy : y.nat ≠ NaN) :
    ival (bMul x y) = ival x * ival y ∧ ival (bShl x s) = ival x * 2 ^ s ∧ ival (bNeg x) = - ival x ∧ ival (bAbs x) = |ival x| := by
  have he : enc (val x.nat) ≠ NaN := enc_ne_nil _
  refine ⟨?_, ?_, ?_, ?_⟩
  · rw [bMul, bMulInner, bDeepClone_any hx]
    dsimp only
    rw [assignNat_num he hy, ival_signFix, mulInner_val he hy, val_enc]
    unfold ival
    cases x.neg <;> cases y.neg <;> simp
  · rw [bShl, bShlInner, bDeepClone_any hx]
    dsimp only
    rw [assignPrim, not_nan_of_ne he]
    unfold ival
    simp only [Bool.false_eq_true, if_false, shlInner_val, val_enc]
    split <;> push_cast <;> ring
  · rw [bNeg, bNegInner, bDeepClone_any hx]
    dsimp only
    unfold bIsNan bEqW ival
    rw [not_nan_of_ne he]
    dsimp only
    by_cases h : x.neg = false ∧ eqv (enc (val x.nat)) [0#32] = true
    · have h0 : val x.nat = 0 := by
        have := (eqv_iff he).1 h.2
        rw [← val_enc (val x.nat), this]; decide
      rw [h.1, h.2]
      simp [h0]
    · cases hn : x.neg <;> simp [hn] at h ⊢
      simp [h]
  · rw [bAbs, ival, deepClone, trim_eq_enc hx]
    simp only [Bool.false_eq_true, if_false, val_enc]
    unfold ival
    split
    · rw [abs_neg]; simp
    · simp

/-- Sums of numbers of equal sign and differences of numbers of different signs have the right value for all operands; otherwise they are
right unless the first magnitude is the greater one but less than `2^(32(n-1))`, where `n` is the number of words of the second one: then
the result has wrapped around and has the wrong sign. -/
theorem C126_add_sub (x y : BInt) (hx : x.nat ≠ NaN) (hy : y.nat ≠ NaN) :
    (x.neg = y.neg ∨ ¬ (val y.nat < val x.nat ∧ val x.nat < 2 ^ (32 * (y.nat.length - 1))) → ival (bAdd x y) = ival x + ival y) ∧
    (x.neg ≠ y.neg ∨ ¬ (val y.nat < val x.nat ∧ val x.nat < 2 ^ (32 * (y.nat.length - 1))) → ival (bSub x y) = ival x - ival y) ∧
    (val y.nat < val x.nat → val x.nat < 2 ^ (32 * (y.nat.length - 1)) →
      (x.neg ≠ y.neg → ival (bAdd x y) = ival x + ival y + (if x.neg then 2 ^ (32 * y.nat.length) else -2 ^ (32 * y.nat.length))) ∧
      (x.neg = y.neg → ival (bSub x y) = ival x - ival y + (if x.neg then 2 ^ (32 * y.nat.length) else -2 ^ (32 * y.nat.length)))) := by
  have he : enc (val x.nat) ≠ NaN := enc_ne_nil _
  obtain ⟨d1, d2⟩ := diff_any (x := val x.nat) hy x.neg
  have hadd : ival (signFix (assignNat addInner (enc (val x.nat)) y.nat) x.neg) =
      if x.neg then -((val x.nat : Int) + val y.nat) else (val x.nat : Int) + val y.nat := by
    rw [ival_signFix, assignNat_num he hy, addInner_val, val_enc]
    push_cast
    rfl
  rw [bAdd, bSub, bAddInner, bSubInner, bDeepClone_any hx]
  dsimp only
  refine ⟨?_, ?_, ?_⟩
  · intro h
    by_cases hs : x.neg = y.neg
    · rw [if_pos hs, hadd]
      unfold ival
      rw [← hs]
      split <;> ring
    · rw [if_neg hs, d1 (h.resolve_left hs)]
      unfold ival
      cases h1 : x.neg <;> cases h2 : y.neg <;> simp [h1, h2] at hs ⊢ <;> ring
  · intro h
    by_cases hs : x.neg = y.neg
    · rw [if_neg (by simpa using hs), d1 (h.resolve_left (by simpa using hs))]
      unfold ival
      cases h1 : x.neg <;> cases h2 : y.neg <;> simp [h1, h2] at hs ⊢ <;> ring
    · rw [if_pos hs, hadd]
      unfold ival
      cases h1 : x.neg <;> cases h2 : y.neg <;> simp [h1, h2] at hs ⊢ <;> ring
  · intro g1 g2
    refine ⟨fun hs => ?_, fun hs => ?_⟩
    · rw [if_neg hs, d2 g1 g2]
      unfold ival
      cases h1 : x.neg <;> cases h2 : y.neg <;> simp [h1, h2] at hs ⊢ <;> ring
    · rw [if_neg (by simpa using hs), d2 g1 g2]
      unfold ival
      cases h1 : x.neg <;> cases h2 : y.neg <;> simp [h1, h2] at hs ⊢ <;> ring

/-- Comparison looks at the signs first, also those of zeros, then at the numbers of words, and then at the numbers; `==` compares the signs
and the words. -/
theorem C126_compare (x y : BInt) (hx : x.nat ≠ NaN) (hy : y.nat ≠ NaN) :
    (bCmp x y = some (if x.neg = true ∧ y.neg = false then .lt else if x.neg = false ∧ y.neg = true then .gt
      else if x.nat.length < y.nat.length then (if x.neg then .gt else .lt)
      else if y.nat.length < x.nat.length then (if x.neg then .lt else .gt) else compare (ival x) (ival y))) ∧
    (bEq x y = true ↔ x.neg = y.neg ∧ x.nat.length = y.nat.length ∧ val x.nat = val y.nat) := by
  obtain ⟨h1, h2⟩ := C118_compare x.nat y.nat hx hy
  rw [partialCmp, not_nan_of_ne hx, not_nan_of_ne hy] at h1
  simp only [Bool.or_self, Bool.false_eq_true, if_false, Option.some.injEq] at h1
  refine ⟨?_, ?_⟩
  · unfold bCmp bIsNan
    rw [not_nan_of_ne hx, not_nan_of_ne hy, h1]
    simp only [Bool.or_self, Bool.false_eq_true, if_false]
    congr 1
    unfold ival
    by_cases l1 : x.nat.length < y.nat.length
    · cases x.neg <;> cases y.neg <;> simp [l1, signCmp]
    by_cases l2 : y.nat.length < x.nat.length
    · cases x.neg <;> cases y.neg <;> simp [l1, l2, signCmp]
    rcases lt_trichotomy (val x.nat) (val y.nat) with g | g | g
    · cases x.neg <;> cases y.neg <;> simp [l1, l2, signCmp, g, compare_lt_iff_lt.2, compare_gt_iff_gt.2]
    · cases x.neg <;> cases y.neg <;> simp [l1, l2, signCmp, g]
    · cases x.neg <;> cases y.neg <;> simp [l1, l2, signCmp, g, compare_lt_iff_lt.2, compare_gt_iff_gt.2]
  · unfold bEq
    rw [Bool.and_eq_true, h2]
    simp

/-- Division for all operands: it panics exactly for a divisor stored as the single word zero, never ends exactly for a zero of several words
and a dividend with at least as many, and otherwise gives quotient and remainder of which `x = q·y + r` holds, with `|r| < |y|` if the words
of `y` are in canonical form. -/
theorem C126_div (x y : BInt) (hx : x.nat ≠ NaN) (hy : y.nat ≠ NaN) :
    (bDiv x y = .error .panic ↔ y.nat = [0#32]) ∧ (bRem x y = .error .panic ↔ y.nat = [0#32]) ∧
    (bRem x y = .error .hang ↔ 2 ≤ y.nat.length ∧ ival y = 0 ∧ 2 ^ (32 * (y.nat.length - 1)) ≤ |ival x|) ∧
    (bDiv x y = .error .hang ↔ bRem x y = .error .hang) ∧
    (ival y ≠ 0 → ∃ q r, bDiv x y = .ok q ∧ bRem x y = .ok r ∧ Canon q.nat ∧ Canon r.nat ∧ ival x = ival q * ival y + ival r ∧
      r.neg = x.neg ∧ (Canon y.nat → |ival r| < |ival y|) ∧ (¬ Canon y.nat → |ival r| < 2 ^ (32 * (y.nat.length - 1)))) := by
  have he : enc (val x.nat) ≠ NaN := enc_ne_nil _
  have hav : ∀ z : BInt, |ival z| = val z.nat := fun z => by
    unfold ival; split
    · rw [abs_neg]; simp
    · simp
  have h0 : ∀ z : BInt, ival z = 0 ↔ val z.nat = 0 := fun z => by
    rw [← abs_eq_zero, hav]; simp
  obtain ⟨c1, c2, c3, c4, c5⟩ := C117_all x.nat y.nat hx hy
  have ed : natDiv x.nat y.nat = assignNatR divInner (enc (val x.nat)) y.nat := by
    rw [natDiv, opNatR, assignNatR, not_nan_of_ne hx, not_nan_of_ne he, deepClone, trim_eq_enc hx]
  have er : natRem x.nat y.nat = assignNatR remInner (enc (val x.nat)) y.nat := by
    rw [natRem, opNatR, assignNatR, not_nan_of_ne hx, not_nan_of_ne he, deepClone, trim_eq_enc hx]
  rw [ed] at c2 c4
  rw [er] at c1 c2 c3
  rw [ed, er] at c5
  rw [bDiv, bRem, bDivInner, bRemInner, bDeepClone_any hx]
  dsimp only
  by_cases hz : y.nat = [0#32]
  · have hev : eqv y.nat [0#32] = true := (eqv_iff hy).2 hz
    have hv : val y.nat = 0 := by rw [hz]; decide
    rw [if_pos hev, if_pos hev, h0 y]
    simp [hz, h0]
  · have hev : ¬ eqv y.nat [0#32] = true := fun h => hz ((eqv_iff hy).1 h)
    rw [if_neg hev, if_neg hev]
    rw [hav, h0 y]
    have hpow : ((2 : Int) ^ (32 * (y.nat.length - 1)) ≤ (val x.nat : Int)) ↔ 2 ^ (32 * (y.nat.length - 1)) ≤ val x.nat := by
      exact_mod_cast Iff.rfl
    rw [hpow]
    cases hd : assignNatR divInner (enc (val x.nat)) y.nat with
    | error e =>
      cases hr : assignNatR remInner (enc (val x.nat)) y.nat with
      | error e' =>
        simp only [hd, hr, Except.error.injEq] at c1 c2 c3 c4 c5 ⊢
        refine ⟨c4, c3, c1, c2, fun h => ?_⟩
        obtain ⟨q, r, k, -⟩ := c5 (fun g => h ((h0 y).2 g))
        cases k
      | ok r =>
        simp only [hd, hr, Except.error.injEq, reduceCtorEq] at c1 c2 c3 c4 c5 ⊢
        refine ⟨c4, c3, c1, c2, fun h => ?_⟩
        obtain ⟨q, r, k, -⟩ := c5 (fun g => h ((h0 y).2 g))
        exact k.elim
    | ok q =>
      cases hr : assignNatR remInner (enc (val x.nat)) y.nat with
      | error e' =>
        simp only [hd, hr, Except.error.injEq, reduceCtorEq] at c1 c2 c3 c4 c5 ⊢
        refine ⟨c4, c3, c1, c2, fun h => ?_⟩
        obtain ⟨q, r, -, k, -⟩ := c5 (fun g => h ((h0 y).2 g))
        exact k.elim
      | ok r =>
        simp only [hd, hr, reduceCtorEq] at c1 c2 c3 c4 c5 ⊢
        refine ⟨c4, c3, c1, c2, fun h => ?_⟩
        obtain ⟨q', r', k1, k2, k3, k4, k5, k6, k7⟩ := c5 (fun g => h ((h0 y).2 g))
        cases k1
        cases k2
        refine ⟨_, _, rfl, rfl, k3, k4, ?_, rfl, fun g => ?_, fun g => ?_⟩
        · have hq0 : val x.nat = 0 → val q = 0 := by
            intro g
            rw [g] at k5
            rcases Nat.mul_eq_zero.1 (by omega : val q * val y.nat = 0) with k | k
            · exact k
            · exact absurd ((h0 y).2 k) h
          have k5' : (val x.nat : Int) = val q * val y.nat + val r := by exact_mod_cast k5
          have hp : ∀ n : Nat, partialCmp (enc n) [0#32] = some .eq ↔ n = 0 := by
            intro n
            rw [← enc_zero, partialCmp_enc]
            simp
          unfold ival
          by_cases hs : x.neg = y.neg
          · rw [if_pos hs, hs]
            cases y.neg <;> simp <;> linarith
          · rw [if_neg hs]
            by_cases hx0 : val x.nat = 0
            · rw [(hp _).2 hx0]
              have := hq0 hx0
              have hr0 : val r = 0 := by rw [hx0, this] at k5; omega
              simp [hx0, this, hr0]
            · have hne : ¬ partialCmp (enc (val x.nat)) [0#32] = some .eq := fun g => hx0 ((hp _).1 g)
              have hn2 : partialCmp (enc (val x.nat)) [0#32] ≠ none := by rw [← enc_zero, partialCmp_enc]; simp
              cases hpc : partialCmp (enc (val x.nat)) [0#32] with
              | none => exact absurd hpc hn2
              | some o =>
                rw [hpc] at hne
                cases o
                · cases h1 : x.neg <;> cases h2 : y.neg <;> simp [h1, h2] at hs ⊢ <;> linarith
                · exact absurd rfl hne
                · cases h1 : x.neg <;> cases h2 : y.neg <;> simp [h1, h2] at hs ⊢ <;> linarith
        · rw [hav, hav]; exact_mod_cast k6 g
        · rw [hav]; exact_mod_cast k7 g

/-! ### Bit operations -/

theorem encI_ival_any {x : BInt} (h : x.neg = true → ival x ≠ 0) : encI (ival x) = ⟨enc (val x.nat), x.neg⟩ := by
  obtain ⟨n, s⟩ := x
  unfold ival at h ⊢
  unfold encI
  cases s
  · simp
  · simp at h ⊢
    omega

theorem natSubW_any {x : BInt} (hx : x.nat ≠ NaN) (u : W) : natSubW x.nat u = natSubW (enc (val x.nat)) u :=
  (C118_left x.nat (enc (val x.nat)) [] u 0 hx (canon_enc _) (val_enc _)).2.2.2.2.2.2.2.2.2.2.2.1

theorem natAddW_any {x : BInt} (hx : x.nat ≠ NaN) (u : W) : natAddW x.nat u = natAddW (enc (val x.nat)) u :=
  (C118_left x.nat (enc (val x.nat)) [] u 0 hx (canon_enc _) (val_enc _)).2.2.2.2.2.2.2.2.2.2.1

theorem and_right {a y : Words} (hy : y ≠ NaN) : assignNat bitandInner a y = assignNat bitandInner a (enc (val y)) := by
  have he := enc_ne_nil (val y)
  by_cases ha : a = NaN
  · simp [assignNat, ha]
  · rw [assignNat_num ha hy, assignNat_num ha he, and_eq ha hy, and_eq ha he, val_enc]

theorem xor_right {a y : Words} (hy : y ≠ NaN) : assignNat bitxorInner a y = assignNat bitxorInner a (enc (val y)) := by
  have he := enc_ne_nil (val y)
  by_cases ha : a = NaN
  · simp [assignNat, ha]
  · rw [assignNat_num ha hy, assignNat_num ha he, xor_eq ha, xor_eq ha, val_enc]

theorem xor_left {a y : Words} (hy : y ≠ NaN) : assignNat bitxorInner y a = assignNat bitxorInner (enc (val y)) a := by
  have he := enc_ne_nil (val y)
  by_cases ha : a = NaN
  · simp [assignNat, ha]
  · rw [assignNat_num hy ha, assignNat_num he ha, xor_eq hy, xor_eq he, val_enc]

theorem andNot_left {a y : Words} (hy : y ≠ NaN) : andNotAssign y a = andNotAssign (enc (val y)) a := by
  rw [andNot_eq hy, andNot_eq (enc_ne_nil _), val_enc]

theorem andNot_right {a y : Words} (ha : a ≠ NaN) : andNotAssign a y = andNotAssign a (enc (val y)) := by
  rw [andNot_eq ha, andNot_eq ha, val_enc]

theorem incW_num {v : Words} (h : v ≠ NaN) : val (incW v) = val v + 1 ∧ isNan (incW v) = false := by
  have e : incW v = addInnerBasic v 1#32 := by simp [incW, assignPrim, not_nan_of_ne h]
  have hv : val (addInnerBasic v 1#32) = val v + 1 := by rw [addInnerBasic_val h]; rfl
  rw [e]
  refine ⟨hv, not_nan_of_ne fun g => ?_⟩
  rw [g] at hv
  simp [val] at hv

/-- the bit operations, `!x` and `x >> s` depend on the values of the operands only, unless one is a zero with the sign set -/
theorem bits_any (x y : BInt) (hx : x.nat ≠ NaN) (hy : y.nat ≠ NaN) (h1 : x.neg = true → ival x ≠ 0) (h2 : y.neg = true → ival y ≠ 0) :
    bAnd x y = bAnd (encI (ival x)) (encI (ival y)) ∧ ival (bOr x y) = ival (bOr (encI (ival x)) (encI (ival y))) ∧
    bXor x y = bXor (encI (ival x)) (encI (ival y)) ∧
    ival (bAndNot x y) = ival (bAndNot (encI (ival x)) (encI (ival y))) ∧ bNot x = bNot (encI (ival x)) := by
  have h0 : x.neg = true → val x.nat ≠ 0 := by
    intro h g
    exact h1 h (by simp [ival, g])
  rw [encI_ival_any h1, encI_ival_any h2]
  have he := enc_ne_nil (val y.nat)
  have hex := enc_ne_nil (val x.nat)
  refine ⟨?_, ?_, ?_, ?_, ?_⟩
  · simp only [bAnd, bDeepClone_any hx, bDeepClone_any (x := ⟨enc (val x.nat), x.neg⟩) hex, val_enc, bAndInner, natSubW_any hy, mixed]
    rw [and_right hy]
    by_cases hs : x.neg = y.neg
    · rw [if_pos hs, if_pos hs]
    · rw [if_neg hs, if_neg hs]
      cases hn : x.neg
      · rfl
      · simp only [if_true]
        rw [andNot_left hy]
  · simp only [bOr, bDeepClone_any hx, bDeepClone_any (x := ⟨enc (val x.nat), x.neg⟩) hex, val_enc, bOrInner, natSubW_any hy, mixed]
    by_cases hs : x.neg = y.neg
    · rw [if_pos hs, if_pos hs]
      cases hn : x.neg
      · simp only [Bool.false_eq_true, if_false, ival]
        rw [assignNat_num hex hy, assignNat_num hex he, bitorInner_val, bitorInner_val, val_enc, val_enc]
      · rfl
    · rw [if_neg hs, if_neg hs]
      cases hn : x.neg
      · rfl
      · simp only [if_true]
        rw [andNot_left hy]
  · simp only [bXor, bDeepClone_any hx, bDeepClone_any (x := ⟨enc (val x.nat), x.neg⟩) hex, val_enc, bXorInner, natSubW_any hy, mixed]
    by_cases hs : x.neg = y.neg
    · rw [if_pos hs, if_pos hs, xor_right hy]
    · rw [if_neg hs, if_neg hs]
      cases hn : x.neg
      · rfl
      · simp only [if_true]
        rw [xor_left hy]
  · simp only [bAndNot, bDeepClone_any hx, bDeepClone_any (x := ⟨enc (val x.nat), x.neg⟩) hex, val_enc, bAndNotAssign, natSubW_any hy]
    by_cases hs : x.neg = y.neg
    · rw [if_pos hs, if_pos hs, andNot_right hex]
    · rw [if_neg hs, if_neg hs]
      cases hn : x.neg
      · rfl
      · simp only [if_true]
        obtain ⟨m, hm⟩ := Nat.exists_eq_succ_of_ne_zero (h0 hn)
        have hd : decW (enc (val x.nat)) ≠ NaN := by
          rw [hm]
          exact (decW_spec m).2.2.1
        have ho : ∀ w : Words, w ≠ NaN → bitorInner (decW (enc (val x.nat))) w ≠ NaN := by
          intro w hw g
          have hl : (bitorInner (decW (enc (val x.nat))) w).length = 0 := by rw [g]; rfl
          have := List.length_pos_iff.2 hd
          rw [bitorInner, List.length_append, zipKeep_length] at hl
          omega
        rw [assignNat_num hd hy, assignNat_num hd he]
        obtain ⟨k1, k2⟩ := incW_num (ho _ hy)
        obtain ⟨k3, k4⟩ := incW_num (ho _ he)
        simp only [ival, k1, k2, k3, k4, bitorInner_val, val_enc]
  · simp only [bNot, bIsNan, natSubW_any hx, natAddW_any hx, not_nan_of_ne hx, not_nan_of_ne hex]

/-- The bit operations have the right bits for all operands other than a zero with the sign set, with leading zero words or without, where
they have them for canonical operands (C39): not for `|` with mixed signs and `and_not` of two negative numbers. -/
theorem C126_bits_partial (x y : BInt) (hx : x.nat ≠ NaN) (hy : y.nat ≠ NaN) (h1 : x.neg = true → ival x ≠ 0)
    (h2 : y.neg = true → ival y ≠ 0) (i : Nat) :
    (ival (bAnd x y)).testBit i = ((ival x).testBit i && (ival y).testBit i) ∧
    (ival (bXor x y)).testBit i = ((ival x).testBit i ^^ (ival y).testBit i) ∧
    (ival (bOr x y)).testBit i = (if x.neg = y.neg then (ival x).testBit i || (ival y).testBit i
      else !((ival x).testBit i && (ival y).testBit i)) ∧
    (ival (bAndNot x y)).testBit i = (if x.neg = true ∧ y.neg = true then (ival y).testBit i && !(ival x).testBit i
      else (ival x).testBit i && !(ival y).testBit i) ∧
    (ival (bNot x)).testBit i = !(ival x).testBit i := by
  obtain ⟨e1, e2, e3, e4, e5⟩ := bits_any x y hx hy h1 h2
  have cx := canonI_encI (ival x)
  have cy := canonI_encI (ival y)
  have sx : (encI (ival x)).neg = x.neg := by rw [encI_ival_any h1]
  have sy : (encI (ival y)).neg = y.neg := by rw [encI_ival_any h2]
  rw [e1, e2, e3, e4, e5]
  refine ⟨?_, ?_, ?_, ?_, ?_⟩
  · rw [(C39_and _ _ cx cy).2 i, ival_encI, ival_encI]
  · rw [(C39_xor _ _ cx cy).2 i, ival_encI, ival_encI]
  · split
    · rename_i h
      rw [(C39_or_partial _ _ cx cy (by rw [sx, sy, h])).2 i, ival_encI, ival_encI]
    · rename_i h
      rw [C39_or_wrong_on_mixed_signs _ _ cx cy (by rw [sx, sy]; exact h) i, ival_encI, ival_encI]
  · split
    · rename_i h
      rw [C39_and_not_wrong_on_negatives _ _ cx cy (by rw [sx, sy]; exact h) i, ival_encI, ival_encI]
    · rename_i h
      rw [(C39_and_not_partial _ _ cx cy (by rw [sx, sy]; exact h)).2 i, ival_encI, ival_encI]
  · rw [(C39_not _ cx).1 i, ival_encI]

/-- `x >> s` depends on the value of `x` only (C40 says what it is), unless it is a zero with the sign set; for `s < 32` it is `⌊x / 2^s⌋`. -/
theorem C126_shr (x x' : BInt) (s : Nat) (hx : x.nat ≠ NaN) (h1 : x.neg = true → ival x ≠ 0) (hx' : CanonI x') (hv : ival x' = ival x) :
    bShr x s = bShr x' s ∧ (s < 32 → CanonI (bShr x s) ∧ ival (bShr x s) = ival x / 2 ^ s) := by
  have e : bShr x s = bShr x' s := by
    rw [canonI_eq_encI hx', hv, encI_ival_any h1, bShr, bShr, bDeepClone_any hx,
      bDeepClone_any (x := ⟨enc (val x.nat), x.neg⟩) (enc_ne_nil _), val_enc]
  refine ⟨e, fun h => ?_⟩
  rw [e, ← hv]
  exact C40_shr_partial x' hx' s (.inl h)

/-- What goes wrong: a zero with the sign set is less than zero and differs from it, `-0 & 2` is 2, `!(-0)` is 1, and `10 + (-3)` with
a `-3` of two words is `-(2^64 - 7)`. -/
theorem C126_violated :
    bRem ⟨[4#32], true⟩ ⟨[2#32], false⟩ = .ok ⟨[0#32], true⟩ ∧ ival ⟨[0#32], true⟩ = 0 ∧
    bCmp ⟨[0#32], true⟩ ⟨[0#32], false⟩ = some .lt ∧ bEq ⟨[0#32], true⟩ ⟨[0#32], false⟩ = false ∧
    ival (bAnd ⟨[0#32], true⟩ ⟨[2#32], false⟩) = 2 ∧ ival (bNot ⟨[0#32], true⟩) = 1 ∧
    ival (bAdd ⟨[10#32], false⟩ ⟨[3#32, 0#32], true⟩) = -(2 ^ 64 - 7) ∧
    bRem ⟨[10#32], false⟩ ⟨[3#32, 0#32], true⟩ = .ok ⟨[10#32], false⟩ := by
  decide

example : ([3#32, 0#32] : Words) ≠ NaN ∧ ival ⟨[3#32, 0#32], true⟩ = -3 ∧ ¬ Canon [3#32, 0#32] ∧
    bMul ⟨[3#32, 0#32], true⟩ ⟨[5#32], false⟩ = ⟨[15#32], true⟩ ∧ bAnd ⟨[10#32], false⟩ ⟨[3#32, 0#32], true⟩ = ⟨[8#32], false⟩ := by
  refine ⟨by decide, by decide, by unfold Canon; decide, by decide, by decide⟩
example : CanonI (encI (-3)) ∧ ival (encI (-3)) = ival ⟨[3#32, 0#32], true⟩ := ⟨canonI_encI _, by rw [ival_encI]; decide⟩

end RMath
