import Verif.Props.DivHang
import Verif.Lemmas.DivAll

/-!
# C117 for all vectors, and C118: operands with leading zero words

`a * u` and `a - u` with a machine word, `0 << s`, `a >> s` and random numbers are numbers with leading zero words (C05,
C06, C12, C29).  The theorems describe what the operators do when such a number is an operand.
-/

namespace RMath

/-! ## C117 for every divisor -/

/-- `a / y` and `a % y` for every number `a` and every divisor, also one with leading zero words:
* they never end exactly if `y` is a zero of several words and `a` has at least as many;
* they panic exactly if `y` is the one-word zero;
* otherwise they return a quotient and a remainder, in canonical form, of which `a = q·y + r` holds, and `r < y` if `y` is in canonical form;
  if it is not, `r` is only bounded by the words of `y`. -/
theorem C117_all (a y : Words) (ha : a ≠ NaN) (hy : y ≠ NaN) :
    (natRem a y = .error .hang ↔ 2 ≤ y.length ∧ val y = 0 ∧ 2 ^ (32 * (y.length - 1)) ≤ val a) ∧
    (natDiv a y = .error .hang ↔ natRem a y = .error .hang) ∧
    (natRem a y = .error .panic ↔ y = [0#32]) ∧ (natDiv a y = .error .panic ↔ y = [0#32]) ∧
    (val y ≠ 0 → ∃ q r, natDiv a y = .ok q ∧ natRem a y = .ok r ∧ Canon q ∧ Canon r ∧ val a = val q * val y + val r ∧
      (Canon y → val r < val y) ∧ (¬ Canon y → val r < 2 ^ (32 * (y.length - 1)))) := by
  have hN : ∀ z : Words, z ≠ NaN → isNan z = false := fun z hz => by
    rw [Bool.eq_false_iff]; intro h; exact hz (isNan_iff.1 h)
  have er : natRem a y = remInner (enc (val a)) y := by
    rw [natRem, opNatR, hN a ha, hN y hy, deepClone, trim_eq_enc ha]; rfl
  have ed : natDiv a y = divInner (enc (val a)) y := by
    rw [natDiv, opNatR, hN a ha, hN y hy, deepClone, trim_eq_enc ha]; rfl
  rw [er, ed]
  generalize val a = n
  by_cases hc : Canon y
  · obtain ⟨m, rfl⟩ := canon_iff_enc.1 hc
    have hz : enc m = [0#32] ↔ m = 0 := by
      rw [← enc_zero]
      exact ⟨fun h => by simpa using congrArg val h, fun h => by rw [h]⟩
    have h2 : 2 ≤ (enc m).length → m ≠ 0 := by
      rintro h rfl; rw [enc_zero] at h; simp at h
    by_cases h0 : m = 0
    · subst h0
      rw [remInner_zero, divInner_zero, val_enc, enc_zero]
      simp
    · rw [remInner_enc h0, divInner_enc h0, val_enc]
      refine ⟨by simp [h0], by simp, by simp [hz, h0], by simp [hz, h0], fun _ =>
        ⟨_, _, rfl, rfl, canon_enc _, canon_enc _, by rw [val_enc, val_enc]; exact (Nat.div_add_mod' n m).symm, fun _ => ?_, fun h => absurd hc h⟩⟩
      rw [val_enc]
      exact Nat.mod_lt _ (by omega)
  · have hp := (not_canon_iff_padded hy).1 hc
    have hl2 := hp.1
    have hlen : y.length ≤ (enc n).length ↔ 2 ^ (32 * (y.length - 1)) ≤ n := by
      have := enc_length_iff n (l := y.length - 1) (by omega)
      omega
    have hne : y ≠ [0#32] := by rintro rfl; simp at hl2
    by_cases h0 : val y = 0
    · have hyz : y = List.replicate y.length 0#32 := by
        apply all_zero_eq_replicate
        intro w hw
        obtain ⟨i, hi, rfl⟩ := List.getElem_of_mem hw
        have h1 := getD_toNat y i
        rw [h0] at h1
        simp only [Nat.zero_div, Nat.zero_mod] at h1
        apply BitVec.eq_of_toNat_eq
        simpa [List.getD_eq_getElem?_getD, hi] using h1
      rw [hyz, remInner_zeros (canon_enc n) hl2, divInner_zeros (canon_enc n) hl2, ← hyz]
      by_cases h : y.length ≤ (enc n).length
      · simp [h, hl2, h0, hne, hlen.1 h]
      · have h' : ¬ 2 ^ (32 * (y.length - 1)) ≤ n := fun h1 => h (hlen.2 h1)
        simp only [h, if_false, h0, hne, h']
        simp
    · obtain ⟨q, r, h1, h2, h3, h4⟩ := loops_padded hp h0 (n + 2) n (by omega)
      have hev : eqv y [0#32] = false := by
        rw [Bool.eq_false_iff]; intro h; exact hne ((eqv_iff hy).1 h)
      have hr : ∃ r', remInner (enc n) y = .ok r' ∧ r' = enc r := by
        rw [remInner, hev, if_neg (by simp)]
        split
        · rename_i hlt
          rw [remLoop, if_pos hlt] at h1
          exact ⟨_, rfl, Except.ok.inj h1⟩
        · rw [val_enc, h1]
          exact ⟨_, rfl, trim_enc r⟩
      have hq : ∃ q', divInner (enc n) y = .ok q' ∧ q' = enc q := by
        rw [divInner, hev, if_neg (by simp)]
        simp only [deepClone_enc]
        by_cases hlt : cmpInner (enc n) y = .lt
        · rw [if_pos hlt]
          have h5 := h2 0
          rw [divLoop, if_pos hlt, Nat.zero_add] at h5
          exact ⟨_, rfl, by rw [← enc_zero, Except.ok.inj h5]⟩
        · have hge : y.length ≤ (enc n).length := by
            by_contra h; exact hlt (cmpInner_length_lt (by omega)).1
          rw [if_neg hlt, if_neg (by have := (div_round hp hge).1; omega), val_enc, ← enc_zero, h2 0, Nat.zero_add]
          exact ⟨_, rfl, rfl⟩
      obtain ⟨r', hr1, hr2⟩ := hr
      obtain ⟨q', hq1, hq2⟩ := hq
      rw [hr1, hq1]
      refine ⟨by simp [h0], by simp, by simp [hne], by simp [hne], fun _ =>
        ⟨_, _, rfl, rfl, by rw [hq2]; exact canon_enc _, by rw [hr2]; exact canon_enc _,
          by rw [hq2, hr2, val_enc, val_enc]; exact h3, fun h => absurd h hc, fun _ => by rw [hr2, val_enc]; exact h4⟩⟩

example : natRem [10#32] (natMulW [3#32] 1#32) = .ok [10#32] ∧ natDiv [10#32] (natMulW [3#32] 1#32) = .ok [0#32] ∧
    natMulW [3#32] 1#32 = [3#32, 0#32] := ⟨by rfl, by rfl, by rfl⟩

example : natRem [5#32, 7#32] [0#32, 0#32] = .error .hang :=
  (C117_all [5#32, 7#32] [0#32, 0#32] (by simp [NaN]) (by simp [NaN])).1.2 (by decide)

/-! ## C118 -/

/-- The left operand of a value operator may be stored with leading zero words: the result is that of the same number in
canonical form, word for word. -/
theorem C118_left (x x' y : Words) (u : W) (s : Nat) (hx : x ≠ NaN) (hx' : Canon x') (hv : val x' = val x) :
    natAdd x y = natAdd x' y ∧ natSub x y = natSub x' y ∧ natMul x y = natMul x' y ∧ natDiv x y = natDiv x' y ∧
    natRem x y = natRem x' y ∧ natAnd x y = natAnd x' y ∧ natOr x y = natOr x' y ∧ natXor x y = natXor x' y ∧
    natShl x s = natShl x' s ∧ natShr x s = natShr x' s ∧ natAddW x u = natAddW x' u ∧ natSubW x u = natSubW x' u ∧
    natMulW x u = natMulW x' u ∧ natDivW x u = natDivW x' u ∧ natRemW x u = natRemW x' u := by
  have h1 : isNan x = false := by rw [Bool.eq_false_iff]; intro h; exact hx (isNan_iff.1 h)
  have h2 : isNan x' = false := by rw [Bool.eq_false_iff]; intro h; exact hx'.ne_nil (isNan_iff.1 h)
  have h3 : deepClone x = deepClone x' := by
    rw [deepClone, deepClone, trim_eq_enc hx, trim_eq_enc hx'.ne_nil, hv]
  simp only [natAdd, natSub, natMul, natDiv, natRem, natAnd, natOr, natXor, natShl, natShr, natAddW, natSubW, natMulW,
    natDivW, natRemW, opNat, opNatR, opPrim, opPrimR, h1, h2, h3, and_self]

example : natSub (natMulW [10#32] 1#32) [3#32] = natSub [10#32] [3#32] :=
  (C118_left (natMulW [10#32] 1#32) [10#32] [3#32] 0#32 0 (by decide) ⟨by decide, by decide⟩ (by decide)).2.1

/-- With leading zero words in either operand, sums, products, the bit operations and left shifts still have the right
value, also in their assigning forms.  Missing from the full property: `-`, `/`, `%`, `==`, `<` and `!`, on which the code
is wrong; see the next theorems and `C117_all`. -/
theorem C118_values_partial (x y : Words) (s : Nat) (hx : x ≠ NaN) (hy : y ≠ NaN) :
    val (natAdd x y) = val x + val y ∧ val (natMul x y) = val x * val y ∧ val (natAnd x y) = val x &&& val y ∧
    val (natOr x y) = val x ||| val y ∧ val (natXor x y) = val x ^^^ val y ∧ val (natShl x s) = val x * 2 ^ s ∧
    val (assignNat addInner x y) = val x + val y ∧ val (assignNat mulInner x y) = val x * val y ∧
    val (assignNat bitandInner x y) = val x &&& val y ∧ val (assignNat bitorInner x y) = val x ||| val y ∧
    val (assignNat bitxorInner x y) = val x ^^^ val y ∧ val (assignPrim shlInner x s) = val x * 2 ^ s := by
  have h1 : isNan x = false := by rw [Bool.eq_false_iff]; intro h; exact hx (isNan_iff.1 h)
  have h2 : isNan y = false := by rw [Bool.eq_false_iff]; intro h; exact hy (isNan_iff.1 h)
  have ht : trim x ≠ [] := trim_ne_nil hx
  simp only [natAdd, natMul, natAnd, natOr, natXor, natShl, opNat, opPrim, assignNat, assignPrim, h1, h2, Bool.or_self,
    Bool.false_eq_true, if_false, deepClone, addInner_val, bitandInner_val, bitorInner_val, bitxorInner_val,
    shlInner_val, val_trim, mulInner_val hx hy, mulInner_val ht hy, and_self]

example : val (natAdd [10#32] (natMulW [3#32] 1#32)) = 13 ∧ val (natMul (natMulW [3#32] 1#32) (natMulW [5#32] 1#32)) = 15 := by
  have h := C118_values_partial [10#32] (natMulW [3#32] 1#32) 0 (by simp [NaN]) (by decide)
  have h' := C118_values_partial (natMulW [3#32] 1#32) (natMulW [5#32] 1#32) 0 (by decide) (by decide)
  exact ⟨h.1.trans (by decide), h'.2.1.trans (by decide)⟩

/-- `x - y` for every number `x` and every subtrahend, also one with leading zero words: the result is in canonical form, and
it is `|x - y|` unless `x` is greater but has fewer words than the vector of `y`; then the difference has wrapped around. -/
theorem C118_sub (x y : Words) (hx : x ≠ NaN) (hy : y ≠ NaN) :
    Canon (natSub x y) ∧
    (¬ (val y < val x ∧ val x < 2 ^ (32 * (y.length - 1))) → val (natSub x y) = val x - val y + (val y - val x)) ∧
    (val y < val x → val x < 2 ^ (32 * (y.length - 1)) → val (natSub x y) = 2 ^ (32 * y.length) - (val x - val y)) := by
  have h1 : isNan x = false := by rw [Bool.eq_false_iff]; intro h; exact hx (isNan_iff.1 h)
  have h2 : isNan y = false := by rw [Bool.eq_false_iff]; intro h; exact hy (isNan_iff.1 h)
  have e : natSub x y = subInner (enc (val x)) y := by
    rw [natSub, opNat, h1, h2, deepClone, trim_eq_enc hx]; rfl
  rw [e]
  generalize val x = a
  have hypos : 0 < y.length := List.length_pos_iff.2 hy
  have hapos : 0 < (enc a).length := List.length_pos_iff.2 (enc_ne_nil a)
  have hlen : (enc a).length < y.length ↔ 2 ≤ y.length ∧ a < 2 ^ (32 * (y.length - 1)) := by
    constructor
    · intro h
      exact ⟨by omega, (enc_length_iff a (by omega)).1 (by omega)⟩
    · rintro ⟨h3, h4⟩
      have := (enc_length_iff a (l := y.length - 1) (by omega)).2 h4
      omega
  have hcan : ∀ z : Words, z ≠ [] → ∀ v, val z = v → trim z = enc v := by
    rintro z hz v rfl; exact trim_eq_enc hz
  by_cases hge : geOp (enc a) y = true
  · -- the minuend counts as the greater one
    have hle : y.length ≤ (enc a).length := by
      by_contra hc
      unfold geOp partialCmp at hge
      rw [isNan_enc, h2, (cmpInner_length_lt (by omega)).1] at hge
      simp at hge
    have hle2 : val y ≤ a := by
      rcases Nat.lt_or_eq_of_le hle with hc | hc
      · have h3 := val_lt y
        by_contra h4
        have := (enc_length_iff a (l := y.length) hypos).2 (by omega)
        omega
      · rw [geOp_of_length_eq (enc_ne_nil a) hc.symm, val_enc] at hge
        simpa using hge
    rw [subInner_of_le hy hle hle2]
    refine ⟨canon_enc _, fun _ => by rw [val_enc]; omega, fun h3 h4 => ?_⟩
    have h5 : (enc a).length < y.length := hlen.2 ⟨by
      by_contra h6
      have : y.length - 1 = 0 := by omega
      rw [this] at h4
      simp at h4
      omega, h4⟩
    omega
  · rw [Bool.not_eq_true] at hge
    have hle : (enc a).length ≤ y.length := by
      by_contra hc
      unfold geOp partialCmp at hge
      rw [isNan_enc, h2, (cmpInner_length_lt (by omega)).2] at hge
      simp at hge
    have hr : (resize (enc a) y.length).length = y.length := resize_length _ _
    have hrv : val (resize (enc a) y.length) = a := by rw [resize_val hle, val_enc]
    have hs : subInner (enc a) y = trim (sbbZip true false y (resize (enc a) y.length)).1 := by
      unfold subInner subInnerWithSign
      simp only [hge, Bool.false_eq_true, if_false, Bool.false_and, sbbZip_false]
      rw [sbbZip_length, hr, Nat.min_self, List.drop_of_length_le (by omega), List.append_nil]
    have hz := sbbZip_val_true false y (resize (enc a) y.length)
    have hzl := sbbZip_length true false y (resize (enc a) y.length)
    rw [hr, List.take_of_length_le (by omega), List.take_of_length_le (by omega), Nat.min_self, hrv] at hz
    rw [hr, Nat.min_self] at hzl
    have hzlt := val_lt (sbbZip true false y (resize (enc a) y.length)).1
    rw [hzl] at hzlt
    have hne : (sbbZip true false y (resize (enc a) y.length)).1 ≠ [] := by
      rw [← List.length_pos_iff, hzl]; exact hypos
    rw [hs]
    refine ⟨canon_trim hne, fun h3 => ?_, fun h3 h4 => ?_⟩
    · have hya : a ≤ val y := by
        by_contra hc
        rcases Nat.lt_or_eq_of_le hle with h4 | h4
        · exact h3 ⟨by omega, (hlen.1 h4).2⟩
        · rw [geOp_of_length_eq (enc_ne_nil a) h4, val_enc] at hge
          simp at hge
          omega
      rw [val_trim]
      have hylt := val_lt y
      cases hb : (sbbZip true false y (resize (enc a) y.length)).2 <;> rw [hb] at hz <;> simp at hz <;> omega
    · rw [val_trim]
      have hylt := val_lt y
      cases hb : (sbbZip true false y (resize (enc a) y.length)).2 <;> rw [hb] at hz <;> simp at hz <;> omega

/-- the wrong case is met by two ordinary operations: `10 - 3 * 1u32` is `2^64 - 7` -/
theorem C118_violated : natMulW [3#32] 1#32 = [3#32, 0#32] ∧ val (natSub [10#32] (natMulW [3#32] 1#32)) = 2 ^ 64 - 7 ∧
    eqv (natMulW [3#32] 1#32) [3#32] = false ∧ partialCmp [10#32] (natMulW [3#32] 1#32) = some .lt ∧
    natRem [10#32] (natMulW [3#32] 1#32) = .ok [10#32] ∧ natDiv [10#32] (natMulW [3#32] 1#32) = .ok [0#32] ∧
    val (natNot (natMulW [3#32] 1#32)) = 2 ^ 64 - 4 ∧ natNot [3#32] = [0#32] := by
  decide

/-- It is met by every product with a machine word that does not need one word more: for all `a` and `u` with
`a·u < 2^(32·n)`, where `n` is the number of words of `a`, and every greater `x < 2^(32·n)`, the difference `x - a * u` is
wrong. -/
theorem C118_sub_product (a x : Words) (u : W) (ha : Canon a) (hx : Canon x)
    (hsmall : val a * u.toNat < val x) (hbig : val x < 2 ^ (32 * a.length)) :
    val (natSub x (natMulW a u)) = 2 ^ (32 * (a.length + 1)) - (val x - val a * u.toNat) := by
  have hpos := ha.length_pos
  have e : natMulW a u = mulInnerBasic a u := by
    obtain ⟨n, rfl⟩ := canon_iff_enc.1 ha
    exact opPrim_enc _ _ _
  obtain ⟨hv, hlen⟩ : val (natMulW a u) = val a * u.toNat ∧ (natMulW a u).length = a.length + 1 := by
    rw [e]
    refine ⟨mulInnerBasic_val a u, ?_⟩
    have h1 := (mulBasicLoop_val u 0#64 a (by decide)).2
    unfold mulInnerBasic
    simp only
    rw [if_neg]
    · simp [mulBasicLoop_length]
    · rw [gt_iff_lt, BitVec.lt_def]
      simp only [BitVec.toNat_ofNat]
      omega
  have := (C118_sub x (natMulW a u) hx.ne_nil (by rintro h; rw [h] at hlen; simp [NaN] at hlen)).2.2
    (by omega) (by rw [hlen]; simpa using hbig)
  rw [this, hlen, hv]

example : val (natSub [10#32] (natMulW [3#32] 2#32)) = 2 ^ 64 - 4 :=
  (C118_sub_product [3#32] [10#32] 2#32 ⟨by decide, by decide⟩ ⟨by decide, by decide⟩ (by decide) (by decide)).trans (by decide)

/-- a number is determined by its words and their count -/
theorem words_eq_of_val : ∀ {x y : Words}, x.length = y.length → val x = val y → x = y
  | [], [], _, _ => rfl
  | a :: x, b :: y, h1, h2 => by
    have ha := a.isLt
    have hb := b.isLt
    rw [val_cons, val_cons] at h2
    have h3 : a = b := by
      apply BitVec.eq_of_toNat_eq
      omega
    have h4 : val x = val y := by rw [h3] at h2; omega
    rw [h3, words_eq_of_val (by simpa using h1) h4]
  | [], _ :: _, h, _ => by simp at h
  | _ :: _, [], h, _ => by simp at h

/-- Comparison looks at the number of words first: `x < y` for every `x` with fewer words, and `==` compares the words. -/
theorem C118_compare (x y : Words) (hx : x ≠ NaN) (hy : y ≠ NaN) :
    (partialCmp x y = some (if x.length < y.length then .lt else if y.length < x.length then .gt
      else compare (val x) (val y))) ∧
    (eqv x y = true ↔ x.length = y.length ∧ val x = val y) := by
  have h1 : isNan x = false := by rw [Bool.eq_false_iff]; intro h; exact hx (isNan_iff.1 h)
  have h2 : isNan y = false := by rw [Bool.eq_false_iff]; intro h; exact hy (isNan_iff.1 h)
  refine ⟨?_, ?_⟩
  · rw [partialCmp, h1, h2, if_neg (by simp)]
    congr 1
    by_cases h3 : x.length < y.length
    · rw [if_pos h3, (cmpInner_length_lt h3).1]
    · by_cases h4 : y.length < x.length
      · rw [if_neg h3, if_pos h4, (cmpInner_length_lt h4).2]
      · rw [if_neg h3, if_neg h4, cmpInner_of_length_eq (by omega)]
  · rw [eqv_iff hx]
    constructor
    · rintro rfl; exact ⟨rfl, rfl⟩
    · rintro ⟨h3, h4⟩
      exact words_eq_of_val h3 h4

example : partialCmp [10#32] [3#32, 0#32] = some .lt ∧ (eqv [3#32, 0#32] [3#32] = true ↔ False) := by
  have h := C118_compare [10#32] [3#32, 0#32] (by decide) (by decide)
  have h' := C118_compare [3#32, 0#32] [3#32] (by decide) (by decide)
  exact ⟨h.1, by rw [h'.2]; decide⟩

/-! ### the zero that a shift delivers -/

/-- `0 << s` with `s ≥ 32` is no neutral element and no sign of nothing: for `0 < x < 2^(32·(s/32))`, `x - (0 << s)` is
`2^(32·(s/32 + 1)) - x` as a `Nat`, and minus that as a `BigInt`; `x < (0 << s)`; and `0 << s` is positive. -/
theorem C118_shifted_zero (x : Words) (s : Nat) (hx : Canon x) (h0 : 0 < val x) (hlt : val x < 2 ^ (32 * (s / 32))) :
    val (natSub x (natShl [0#32] s)) = 2 ^ (32 * (s / 32 + 1)) - val x ∧
    ival (bSub ⟨x, false⟩ (bShl bZero s)) = -(2 ^ (32 * (s / 32 + 1)) - (val x : Int)) ∧
    bCmp ⟨x, false⟩ (bShl bZero s) = some .lt ∧ bSignnum (bShl bZero s) = some 1 ∧ bIsPositive (bShl bZero s) = true := by
  have hs : 1 ≤ s / 32 := by
    by_contra h
    have : s / 32 = 0 := by omega
    rw [this] at hlt
    simp at hlt
    omega
  have hz := natShl_zero s
  have hzl : (natShl [0#32] s).length = s / 32 + 1 := by rw [hz]; simp
  have hzne : natShl [0#32] s ≠ NaN := by rw [hz]; simp [NaN]
  have hzv : val (natShl [0#32] s) = 0 := by rw [C05_shl_val _ _ (by simp [NaN])]; simp [val]
  have hsub : val (natSub x (natShl [0#32] s)) = 2 ^ (32 * (s / 32 + 1)) - val x := by
    have := (C118_sub x _ hx.ne_nil hzne).2.2 (by rw [hzv]; exact h0) (by rw [hzl]; simpa using hlt)
    rw [this, hzl, hzv]; simp
  have hcan := (C118_sub x _ hx.ne_nil hzne).1
  have hxl : x.length < s / 32 + 1 := by
    obtain ⟨n, rfl⟩ := canon_iff_enc.1 hx
    rw [val_enc] at hlt
    have := enc_length_le hs hlt
    omega
  have hcmp : partialCmp x (natShl [0#32] s) = some .lt := by
    rw [(C118_compare x _ hx.ne_nil hzne).1, hzl, if_pos hxl]
  have hnx : isNan x = false := by rw [Bool.eq_false_iff]; intro h; exact hx.ne_nil (isNan_iff.1 h)
  have hnz : isNan (natShl [0#32] s) = false := by rw [Bool.eq_false_iff]; intro h; exact hzne (isNan_iff.1 h)
  have hz0 : eqv (natShl [0#32] s) [0#32] = false := (C05_shl_zero_not_canonical s (by omega)).2
  have e : bShl bZero s = ⟨natShl [0#32] s, false⟩ := rfl
  have hpow : 2 ^ (32 * (s / 32)) < 2 ^ (32 * (s / 32 + 1)) := Nat.pow_lt_pow_right (by norm_num) (by omega)
  refine ⟨hsub, ?_, ?_, ?_, ?_⟩
  · have e1 : bSub ⟨x, false⟩ (bShl bZero s) = signFix (natSub x (natShl [0#32] s)) true := by
      rw [e, bSub, bSubInner, bDeepClone]
      have h1 : deepClone x = x := by rw [deepClone, trim_of_canon hx]
      simp only [ne_eq, not_true_eq_false, if_false, h1]
      have h2 : assignNat subInner x (natShl [0#32] s) = natSub x (natShl [0#32] s) := by
        rw [natSub, opNat, assignNat, h1, hnx, hnz]
      have h3 : ltOp x (natShl [0#32] s) = true := by rw [ltOp, hcmp]
      rw [h2, h3]; rfl
    rw [e1, signFix]
    have h1 : isNan (natSub x (natShl [0#32] s)) = false := by
      rw [Bool.eq_false_iff]; intro h; exact hcan.ne_nil (isNan_iff.1 h)
    have h2 : eqv (natSub x (natShl [0#32] s)) [0#32] = false := by
      rw [Bool.eq_false_iff, Ne, eqv_iff hcan.ne_nil]
      intro h
      rw [h] at hsub
      simp [val] at hsub
      omega
    rw [h1, h2, Bool.or_self, if_neg (by simp), ival]
    simp only [if_true, hsub]
    push_cast [Nat.cast_sub (show val x ≤ 2 ^ (32 * (s / 32 + 1)) by omega)]
    ring
  · rw [e, bCmp]
    simp only [bIsNan, hnx, hnz, Bool.or_self, Bool.false_eq_true, if_false]
    rw [partialCmp, hnx, hnz] at hcmp
    simp at hcmp
    rw [hcmp]; rfl
  · rw [e, bSignnum]
    simp [bIsNan, hnz, hz0]
  · rw [e, bIsPositive]
    simp [bIsNan, hnz, hz0]

example : Canon [5#32] ∧ bSub ⟨[5#32], false⟩ (bShl bZero 32) = ⟨[0xfffffffb#32, 0xffffffff#32], true⟩ :=
  ⟨⟨by decide, by decide⟩, by decide⟩

end RMath
