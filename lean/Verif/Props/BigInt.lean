import Verif.Props.NatFun
import Verif.Props.NatText
import Verif.Lemmas.BigIntExp

/-!
# Properties C36–C45, C48–C50: `BigInt`

`ival x` is the integer denoted by a `BigInt` and `CanonI x` says that its magnitude is canonical and that zero is
not marked negative; the library's `==` compares the magnitude and the sign flag, so two `BigInt`s of the same
value are `==` when both are canonical (`C41_eq`).  Where the code leaves canonical form, the theorem says so.
-/

namespace RMath

/-- a sample: `-(7·2^64 + 5)` -/
def sampleX : BInt := ⟨sampleA, true⟩
/-- a sample: `2^64 - 1` -/
def sampleY : BInt := ⟨sampleB, false⟩

theorem sampleX_canon : CanonI sampleX := ⟨sampleA_canon, by decide⟩
theorem sampleY_canon : CanonI sampleY := ⟨sampleB_canon, by decide⟩

/-! ## C36 sum, difference, product -/

/-- `a + b` and `a += b` -/
theorem C36_add (x y : BInt) (hx : CanonI x) (hy : CanonI y) :
    CanonI (bAdd x y) ∧ ival (bAdd x y) = ival x + ival y ∧ bAddInner x y = bAdd x y := by
  obtain ⟨a, rfl⟩ := canonI_iff_encI.1 hx
  obtain ⟨b, rfl⟩ := canonI_iff_encI.1 hy
  simp [bAddInner_encI, canonI_encI]

/-- `a - b` and `a -= b` -/
theorem C36_sub (x y : BInt) (hx : CanonI x) (hy : CanonI y) :
    CanonI (bSub x y) ∧ ival (bSub x y) = ival x - ival y ∧ bSubInner x y = bSub x y := by
  obtain ⟨a, rfl⟩ := canonI_iff_encI.1 hx
  obtain ⟨b, rfl⟩ := canonI_iff_encI.1 hy
  simp [bSubInner_encI, canonI_encI]

/-- `a * b` and `a *= b` -/
theorem C36_mul (x y : BInt) (hx : CanonI x) (hy : CanonI y) :
    CanonI (bMul x y) ∧ ival (bMul x y) = ival x * ival y ∧ bMulInner x y = bMul x y := by
  obtain ⟨a, rfl⟩ := canonI_iff_encI.1 hx
  obtain ⟨b, rfl⟩ := canonI_iff_encI.1 hy
  simp [bMulInner_encI, canonI_encI]

/-- Sum, difference and product are right, and canonical, also when an operand is the "minus zero" that division
may produce (`C37_minus_zero`). -/
theorem C36_minus_zero (x y : BInt) (hx : Canon x.nat) (hy : Canon y.nat) :
    (CanonI (bAddInner x y) ∧ ival (bAddInner x y) = ival x + ival y) ∧
    (CanonI (bSubInner x y) ∧ ival (bSubInner x y) = ival x - ival y) ∧
    (CanonI (bMulInner x y) ∧ ival (bMulInner x y) = ival x * ival y) := by
  obtain ⟨nx, sx⟩ := x
  obtain ⟨ny, sy⟩ := y
  obtain ⟨a, rfl⟩ := canon_iff_enc.1 hx
  obtain ⟨b, rfl⟩ := canon_iff_enc.1 hy
  rw [bAddInner_raw, bSubInner_raw, bMulInner_raw, ival_mk, ival_mk]
  simp [canonI_encI]

/-- `-a` and `abs` -/
theorem C36_neg (x : BInt) (hx : CanonI x) :
    CanonI (bNeg x) ∧ ival (bNeg x) = -ival x ∧ CanonI (bAbs x) ∧ ival (bAbs x) = |ival x| := by
  obtain ⟨a, rfl⟩ := canonI_iff_encI.1 hx
  simp [canonI_encI]

/-- `signnum` is the sign -/
theorem C36_signnum (x : BInt) (hx : CanonI x) : bSignnum x = some (ival x).sign := by
  obtain ⟨a, rfl⟩ := canonI_iff_encI.1 hx
  rw [bSignnum_encI, ival_encI]

example : CanonI sampleX ∧ CanonI sampleY ∧ ival (bAdd sampleX sampleY) = -(6 * 2 ^ 64 + 6) :=
  ⟨sampleX_canon, sampleY_canon, by decide⟩
example : bAdd sampleX (bNeg sampleX) = ⟨[0#32], false⟩ := by decide

/-! ## C37 quotient and remainder -/

theorem sg_tdiv (a b : Int) : sg (decide ((a < 0) ≠ (b < 0) ∧ a ≠ 0)) (a.natAbs / b.natAbs) = a.tdiv b := by
  rcases a with m | m <;> rcases b with n | n
  · simp [sg, Int.tdiv, show ¬((m : Int) < 0) by omega, show ¬((n : Int) < 0) by omega]
  · by_cases h : m = 0
    · subst h; simp [sg, Int.tdiv]
    · simp [sg, Int.tdiv, show ¬((m : Int) < 0) by omega, h]
  · simp [sg, Int.tdiv, show ¬((n : Int) < 0) by omega]
  · simp [sg, Int.tdiv]

theorem sg_tmod (a b : Int) : sg (decide (a < 0)) (a.natAbs % b.natAbs) = a.tmod b := by
  rcases a with m | m <;> rcases b with n | n
  · simp [sg, Int.tmod, show ¬((m : Int) < 0) by omega]
  · simp [sg, Int.tmod, show ¬((m : Int) < 0) by omega]
  · simp [sg, Int.tmod]
  · simp [sg, Int.tmod]

/-- `a / b` denotes the quotient rounded toward zero and `a % b` the remainder of that division, for every
non-zero divisor.  Partial: the results are canonical (so `==` sees their value) only when the quotient is not
zero with operands of different signs, and the dividend is not a negative multiple (`C37_minus_zero`). -/
theorem C37_div_rem_partial (x y : BInt) (hx : CanonI x) (hy : CanonI y) (h0 : ival y ≠ 0) :
    ∃ q r, bDiv x y = .ok q ∧ bRem x y = .ok r ∧
      ival q = (ival x).tdiv (ival y) ∧ ival r = (ival x).tmod (ival y) ∧
      Canon q.nat ∧ Canon r.nat ∧
      (¬((ival x < 0 ∧ 0 < ival y ∨ 0 < ival x ∧ ival y < 0) ∧ |ival x| < |ival y|) → CanonI q) ∧
      (¬(ival x < 0 ∧ ival y ∣ ival x) → CanonI r) := by
  obtain ⟨a, rfl⟩ := canonI_iff_encI.1 hx
  obtain ⟨b, rfl⟩ := canonI_iff_encI.1 hy
  simp only [ival_encI] at *
  refine ⟨_, _, (bDiv_eq _ _).trans (bDivInner_encI a h0), (bRem_eq _ _).trans (bRemInner_encI a h0),
    ?_, ?_, canon_enc _, canon_enc _, ?_, ?_⟩
  · rw [ival_mk, sg_tdiv]
  · rw [ival_mk, sg_tmod]
  · intro h
    refine ⟨canon_enc _, ?_⟩
    simp only [decide_eq_true_eq, val_enc]
    rintro ⟨h1, h2⟩ h3
    apply h
    refine ⟨?_, ?_⟩
    · simp only [ne_eq, eq_iff_iff] at h1
      omega
    · have := (Nat.div_eq_zero_iff).1 h3
      rw [Int.abs_eq_natAbs, Int.abs_eq_natAbs]
      omega
  · intro h
    refine ⟨canon_enc _, ?_⟩
    simp only [decide_eq_true_eq, val_enc]
    intro h1 h3
    apply h
    exact ⟨h1, Int.natAbs_dvd_natAbs.1 (Nat.dvd_of_mod_eq_zero h3)⟩

/-- The two results satisfy the division identity, whatever their form. -/
theorem C37_identity (x y : BInt) (hx : CanonI x) (hy : CanonI y) (h0 : ival y ≠ 0) :
    ∃ q r, bDiv x y = .ok q ∧ bRem x y = .ok r ∧ ival x = ival q * ival y + ival r ∧ |ival r| < |ival y| ∧
      (0 ≤ ival x → 0 ≤ ival r) ∧ (ival x ≤ 0 → ival r ≤ 0) := by
  obtain ⟨q, r, h1, h2, h3, h4, -⟩ := C37_div_rem_partial x y hx hy h0
  refine ⟨q, r, h1, h2, ?_, ?_, ?_, ?_⟩
  · rw [h3, h4]
    have := Int.tmod_add_mul_tdiv (ival x) (ival y)
    rw [mul_comm]; omega
  · rw [h4, Int.abs_eq_natAbs, Int.abs_eq_natAbs, Int.natAbs_tmod]
    have := Nat.mod_lt (ival x).natAbs (show 0 < (ival y).natAbs by omega)
    exact_mod_cast this
  · intro h; rw [h4]; exact Int.tmod_nonneg _ h
  · intro h
    rw [h4]
    have := Int.tmod_nonneg (a := -ival x) (ival y) (by omega)
    rw [Int.neg_tmod] at this
    omega

/-- Division by zero panics. -/
theorem C37_div_by_zero (x y : BInt) (hx : CanonI x) (hy : CanonI y) (h0 : ival y = 0) :
    bDiv x y = .error .panic ∧ bRem x y = .error .panic := by
  obtain ⟨a, rfl⟩ := canonI_iff_encI.1 hx
  obtain ⟨b, rfl⟩ := canonI_iff_encI.1 hy
  rw [ival_encI] at h0
  subst h0
  rw [bDiv_eq, bRem_eq, bDivInner_zero, bRemInner_zero]
  simp

/-- `-4 % 2` and `-1 / 2` are a zero marked negative, which is not `==` to zero. -/
theorem C37_minus_zero :
    (∃ r, bRem ⟨[4#32], true⟩ ⟨[2#32], false⟩ = .ok r ∧ ival r = 0 ∧ bEqW r 0#32 = false) ∧
    (∃ q, bDiv ⟨[1#32], true⟩ ⟨[2#32], false⟩ = .ok q ∧ ival q = 0 ∧ bEqW q 0#32 = false) :=
  ⟨⟨⟨[0#32], true⟩, by decide, by decide, by decide⟩, ⟨⟨[0#32], true⟩, by decide, by decide, by decide⟩⟩

example : CanonI sampleX ∧ CanonI sampleY ∧ ival sampleY ≠ 0 ∧
    ¬((ival sampleX < 0 ∧ 0 < ival sampleY ∨ 0 < ival sampleX ∧ ival sampleY < 0) ∧ |ival sampleX| < |ival sampleY|) ∧
    ¬(ival sampleX < 0 ∧ ival sampleY ∣ ival sampleX) ∧ bDiv sampleX sampleY = .ok ⟨[7#32], true⟩ :=
  ⟨sampleX_canon, sampleY_canon, by decide, by decide, by decide, by decide⟩

/-! ## C38 Euclidean division -/

/-- `rem_euclid` returns the remainder in `[0, |n|)` and `div_euclid` the matching quotient.  Partial: not when the
dividend is a negative multiple of the divisor (`C38_wrong_on_negative_multiples`); and the quotient may be a
"minus zero" for `0 < a < -n`. -/
theorem C38_euclid_partial (x n : BInt) (hx : CanonI x) (hn : CanonI n) (h0 : ival n ≠ 0)
    (h : ¬(ival x < 0 ∧ ival n ∣ ival x)) :
    ∃ q r, bRemEuclid x n = .ok r ∧ bDivEuclid x n = .ok q ∧ CanonI r ∧ 0 ≤ ival r ∧ ival r < |ival n| ∧
      ival x = ival n * ival q + ival r ∧ (¬(0 < ival x ∧ ival x < -ival n) → CanonI q) := by
  obtain ⟨a, rfl⟩ := canonI_iff_encI.1 hx
  obtain ⟨b, rfl⟩ := canonI_iff_encI.1 hn
  simp only [ival_encI] at *
  have h1 : bRemEuclid (encI a) (encI b) = .ok (encI (a % b)) := by rw [bRemEuclid_encI a h0, if_neg h]
  have h2 : ∃ q, bDivEuclid (encI a) (encI b) = .ok q ∧ ival q = a / b ∧ (¬(0 < a ∧ a < -b) → CanonI q) := by
    by_cases ha : a < 0
    · rw [bDivEuclid_neg h0 ha, if_neg (by tauto)]
      exact ⟨_, rfl, ival_encI _, fun _ => canonI_encI _⟩
    · rw [bDivEuclid_nonneg h0 (by omega)]
      refine ⟨_, rfl, ?_, ?_⟩
      · rw [ival_mk, ← natAbs_ediv a b (by omega)]
        by_cases h3 : a = 0
        · subst h3; simp [sg]
        · simp [h3]
      · intro h3
        refine ⟨canon_enc _, ?_⟩
        simp only [decide_eq_true_eq, val_enc]
        rintro ⟨h4, h5⟩ h6
        have := (Nat.div_eq_zero_iff).1 h6
        omega
  obtain ⟨q, h2, h3, h4⟩ := h2
  refine ⟨q, _, h1, h2, canonI_encI _, ?_, ?_, ?_, h4⟩
  · rw [ival_encI]; exact Int.emod_nonneg a h0
  · rw [ival_encI]; exact Int.emod_lt_abs a h0
  · rw [ival_encI, h3, add_comm, Int.emod_add_mul_ediv]

/-- On a negative multiple `rem_euclid` returns `|n|`, which is outside the range, and `div_euclid` is off by one;
the identity still holds. -/
theorem C38_wrong_on_negative_multiples (x n : BInt) (hx : CanonI x) (hn : CanonI n) (h0 : ival n ≠ 0)
    (h : ival x < 0 ∧ ival n ∣ ival x) :
    ∃ q r, bRemEuclid x n = .ok r ∧ bDivEuclid x n = .ok q ∧ ival r = |ival n| ∧
      ival x = ival n * ival q + ival r := by
  obtain ⟨a, rfl⟩ := canonI_iff_encI.1 hx
  obtain ⟨b, rfl⟩ := canonI_iff_encI.1 hn
  simp only [ival_encI] at *
  refine ⟨_, _, bRemEuclid_encI a h0, bDivEuclid_neg h0 h.1, ?_, ?_⟩
  · rw [if_pos h, ival_encI]
  · rw [if_pos h, if_pos h.2, ival_encI, ival_encI]
    have h1 := Int.mul_ediv_cancel' h.2
    have h2 : |b| = b * b.sign := by rw [Int.mul_sign_self]; exact Int.abs_eq_natAbs b
    rw [mul_sub, h1, ← h2]; ring

/-- for example `(-4).rem_euclid(2) = 2` and `(-4).div_euclid(2) = -3` -/
theorem C38_witness : bRemEuclid ⟨[4#32], true⟩ ⟨[2#32], false⟩ = .ok ⟨[2#32], false⟩ ∧
    bDivEuclid ⟨[4#32], true⟩ ⟨[2#32], false⟩ = .ok ⟨[3#32], true⟩ := by decide

example : CanonI sampleX ∧ CanonI sampleY ∧ ival sampleY ≠ 0 ∧ ¬(ival sampleX < 0 ∧ ival sampleY ∣ ival sampleX) :=
  ⟨sampleX_canon, sampleY_canon, by decide, by decide⟩
example : CanonI (⟨[4#32], true⟩ : BInt) ∧ ival ⟨[4#32], true⟩ < 0 ∧ ival ⟨[2#32], false⟩ ∣ ival ⟨[4#32], true⟩ :=
  ⟨⟨⟨by decide, by decide⟩, by decide⟩, by decide, by decide⟩

/-! ## C39 bit operations -/

/-- `a & b`, bit by bit on the infinite two's complement expansions -/
theorem C39_and (x y : BInt) (hx : CanonI x) (hy : CanonI y) :
    CanonI (bAnd x y) ∧ ∀ i, (ival (bAnd x y)).testBit i = ((ival x).testBit i && (ival y).testBit i) := by
  obtain ⟨a, rfl⟩ := canonI_iff_encI.1 hx
  obtain ⟨b, rfl⟩ := canonI_iff_encI.1 hy
  rw [bAnd_encI]
  exact ⟨canonI_encI _, fun i => by rw [ival_encI, ival_encI, ival_encI, Int.testBit_land]⟩

/-- `a ^ b`, bit by bit -/
theorem C39_xor (x y : BInt) (hx : CanonI x) (hy : CanonI y) :
    CanonI (bXor x y) ∧ ∀ i, (ival (bXor x y)).testBit i = ((ival x).testBit i ^^ (ival y).testBit i) := by
  obtain ⟨a, rfl⟩ := canonI_iff_encI.1 hx
  obtain ⟨b, rfl⟩ := canonI_iff_encI.1 hy
  rw [bXor_encI]
  exact ⟨canonI_encI _, fun i => by rw [ival_encI, ival_encI, ival_encI, Int.testBit_lxor]⟩

/-- `a | b`, bit by bit.  Partial: only for operands of the same sign (`C39_or_wrong_on_mixed_signs`). -/
theorem C39_or_partial (x y : BInt) (hx : CanonI x) (hy : CanonI y) (h : x.neg = y.neg) :
    CanonI (bOr x y) ∧ ∀ i, (ival (bOr x y)).testBit i = ((ival x).testBit i || (ival y).testBit i) := by
  obtain ⟨a, rfl⟩ := canonI_iff_encI.1 hx
  obtain ⟨b, rfl⟩ := canonI_iff_encI.1 hy
  rw [bOr_encI]
  refine ⟨canonI_encI _, fun i => ?_⟩
  have e : orMixed a b = Int.lor a b := by
    simp only [encI] at h
    rcases a with m | m <;> rcases b with n | n
    · rfl
    · simp at h; omega
    · simp at h; omega
    · rfl
  rw [ival_encI, ival_encI, ival_encI, e, Int.testBit_lor]

/-- For a non-negative `a` and negative `b`, `a | b` sets exactly the bits that are *not* set in both: it
computes `!(a & b)`. -/
theorem C39_or_wrong_on_mixed_signs (x y : BInt) (hx : CanonI x) (hy : CanonI y) (h : x.neg ≠ y.neg) (i : Nat) :
    (ival (bOr x y)).testBit i = !((ival x).testBit i && (ival y).testBit i) := by
  obtain ⟨a, rfl⟩ := canonI_iff_encI.1 hx
  obtain ⟨b, rfl⟩ := canonI_iff_encI.1 hy
  rw [bOr_encI, ival_encI, ival_encI, ival_encI]
  rcases a with m | m <;> rcases b with n | n
  · simp [encI] at h; omega
  · simp [orMixed, Int.testBit, Nat.testBit_ldiff]
  · simp [orMixed, Int.testBit, Nat.testBit_ldiff, Bool.and_comm]
  · simp [encI] at h

/-- for example `1 | -1` is `-2` -/
theorem C39_or_witness : bOr ⟨[1#32], false⟩ ⟨[1#32], true⟩ = ⟨[2#32], true⟩ := by decide

/-- `a.and_not(b)`, bit by bit.  Partial: not for two negative operands (`C39_and_not_witness`). -/
theorem C39_and_not_partial (x y : BInt) (hx : CanonI x) (hy : CanonI y) (h : ¬(x.neg = true ∧ y.neg = true)) :
    CanonI (bAndNot x y) ∧ ∀ i, (ival (bAndNot x y)).testBit i = ((ival x).testBit i && !(ival y).testBit i) := by
  obtain ⟨a, rfl⟩ := canonI_iff_encI.1 hx
  obtain ⟨b, rfl⟩ := canonI_iff_encI.1 hy
  rw [bAndNot_encI]
  refine ⟨canonI_encI _, fun i => ?_⟩
  have e : andNotCode a b = Int.ldiff a b := by
    simp only [encI] at h
    rcases a with m | m <;> rcases b with n | n
    · rfl
    · rfl
    · rfl
    · simp at h
  rw [ival_encI, ival_encI, ival_encI, e, Int.testBit_ldiff]

/-- For two negative operands the result is the bits of `b` that are not in `a` instead. -/
theorem C39_and_not_wrong_on_negatives (x y : BInt) (hx : CanonI x) (hy : CanonI y)
    (h : x.neg = true ∧ y.neg = true) (i : Nat) :
    (ival (bAndNot x y)).testBit i = ((ival y).testBit i && !(ival x).testBit i) := by
  obtain ⟨a, rfl⟩ := canonI_iff_encI.1 hx
  obtain ⟨b, rfl⟩ := canonI_iff_encI.1 hy
  rw [bAndNot_encI, ival_encI, ival_encI, ival_encI]
  rcases a with m | m <;> rcases b with n | n
  · simp [encI] at h; omega
  · simp [encI] at h; omega
  · simp [encI] at h; omega
  · simp [andNotCode, Int.testBit, Nat.testBit_ldiff, Bool.and_comm]

/-- `(-1).and_not(-2)` is 1 in two's complement, but 0 in the code -/
theorem C39_and_not_witness : bAndNot ⟨[1#32], true⟩ ⟨[2#32], true⟩ = ⟨[0#32], false⟩ ∧
    Int.testBit (-1) 0 = true ∧ Int.testBit (-2) 0 = false := by decide

/-- `!a` flips every bit.  The result is canonical unless `a = -2^(32k)` (`C39_not_not_canonical`). -/
theorem C39_not (x : BInt) (hx : CanonI x) : (∀ i, (ival (bNot x)).testBit i = !(ival x).testBit i) ∧
    (¬(∃ k, 0 < k ∧ ival x = -2 ^ (32 * k)) → CanonI (bNot x)) := by
  obtain ⟨a, rfl⟩ := canonI_iff_encI.1 hx
  rw [bNot, bIsNan_encI, if_neg (by simp)]
  simp only [ival_encI]
  rcases a with m | m
  · simp only [Int.ofNat_eq_natCast, encI_ofNat, Bool.false_eq_true, if_false]
    have e : natAddW (enc m) 1#32 = enc (m + 1) := by
      simp [natAddW, opPrim, addInnerBasic_enc]
    rw [e, ← encI_negSucc]
    refine ⟨fun i => ?_, fun _ => canonI_encI _⟩
    rw [ival_encI]; simp [Int.testBit]
  · obtain ⟨h1, h2, h3⟩ := decW_spec m
    simp only [encI_negSucc, if_true, natSubW_one]
    constructor
    · intro i
      simp [ival, h1, Int.testBit]
    · intro h
      refine ⟨?_, by simp⟩
      refine canon_of_le_val h3.1 fun hl => ?_
      have h4 := h3.2 hl
      rw [h1] at h4 ⊢
      rw [h2] at hl h4 ⊢
      by_contra h5
      apply h
      refine ⟨(enc (m + 1)).length - 1, by omega, ?_⟩
      have h6 : 2 ^ (32 * ((enc (m + 1)).length - 1)) = m + 1 := by omega
      rw [Int.negSucc_eq]
      have h7 : (2 : Int) ^ (32 * ((enc (m + 1)).length - 1)) = ((m + 1 : Nat) : Int) := by exact_mod_cast h6
      rw [h7]
      push_cast
      ring

/-- `!(-2^32)` has the value `2^32 - 1` but a superfluous zero word, so `==` with that number is false. -/
theorem C39_not_not_canonical : bNot ⟨[0#32, 1#32], true⟩ = ⟨[0xffffffff#32, 0#32], false⟩ ∧
    bEq ⟨[0xffffffff#32, 0#32], false⟩ ⟨[0xffffffff#32], false⟩ = false := by decide

example : CanonI sampleX ∧ CanonI sampleY ∧ bAnd sampleX sampleY = ⟨[0xfffffffb#32, 0xffffffff#32], false⟩ :=
  ⟨sampleX_canon, sampleY_canon, by decide⟩
example : CanonI sampleX ∧ sampleX.neg = sampleX.neg ∧ ¬(sampleX.neg = true ∧ sampleY.neg = true) ∧
    sampleX.neg ≠ sampleY.neg := ⟨sampleX_canon, by decide, by decide, by decide⟩
example : ¬(∃ k, 0 < k ∧ ival sampleX = -2 ^ (32 * k)) := by
  rintro ⟨k, hk, h⟩
  have h1 : ival sampleX = -129127208515966861317 := by decide
  have h2 : ((2:Int) ^ (32 * k)) % 2 = 0 := by
    obtain ⟨k, rfl⟩ := Nat.exists_eq_succ_of_ne_zero hk.ne'
    rw [show 32 * (k + 1) = (32 * k + 31) + 1 by ring, pow_succ]
    omega
  omega

/-! ## C40 shifts -/

/-- `a << s` denotes `a·2^s`; it is canonical unless `a = 0` and `s ≥ 32` (C05). -/
theorem C40_shl (x : BInt) (hx : CanonI x) (s : Nat) : ival (bShl x s) = ival x * 2 ^ s ∧
    (ival x ≠ 0 ∨ s < 32 → CanonI (bShl x s)) := by
  obtain ⟨a, rfl⟩ := canonI_iff_encI.1 hx
  rw [ival_encI]
  have h2 : a ≠ 0 ∨ s < 32 → bShl (encI a) s = encI (a * 2 ^ s) := bShl_encI
  constructor
  · by_cases h : a ≠ 0 ∨ s < 32
    · rw [h2 h, ival_encI]
    · have h0 : a = 0 := by omega
      subst h0
      rw [bShl, bDeepClone_encI]
      simp only [bShlInner, encI, assignPrim, isNan_enc, Bool.false_eq_true, if_false]
      simp [ival, shlInner_val]
  · intro h; rw [h2 h]; exact canonI_encI _

/-- `a >> s` denotes the floor of `a / 2^s`, in canonical form.  Partial: as for `Nat` (C06), only for `s < 32`,
for counts that shift out all words, and for counts that are not a multiple of 32 while the top word (of `a`, or of
`|a| - 1` when `a` is negative) keeps at least one bit. -/
theorem C40_shr_partial (x : BInt) (hx : CanonI x) (s : Nat)
    (h : s < 32 ∨ 32 * x.nat.length ≤ s ∨ (s % 32 ≠ 0 ∧
      2 ^ (32 * (x.nat.length - 1) + s % 32) ≤ if ival x < 0 then -ival x - 1 else ival x)) :
    CanonI (bShr x s) ∧ ival (bShr x s) = ival x / 2 ^ s := by
  obtain ⟨a, rfl⟩ := canonI_iff_encI.1 hx
  rw [ival_encI] at *
  rw [bShr_encI, ival_encI]
  · exact ⟨canonI_encI _, rfl⟩
  · rcases h with h | h | ⟨h0, h⟩
    · exact Or.inl h
    · exact Or.inr (Or.inl h)
    · refine Or.inr (Or.inr ⟨h0, ?_⟩)
      simp only [encI] at h
      generalize 32 * ((enc a.natAbs).length - 1) + s % 32 = e at *
      have h4 : ((2 ^ e : Nat) : Int) = (2 : Int) ^ e := by push_cast; rfl
      rw [← h4] at h
      split at h
      · next h2 => rw [if_pos h2]; omega
      · next h2 => rw [if_neg h2]; omega

/-- **C40, exactly.** The number that `a >> s` denotes, for every `a` and `s`, in terms of what the shift of `Nat` computes (C06):
a negative number is shifted as `|a| - 1`, in as many words as `|a|` has. -/
theorem C40_shr_described (x : BInt) (hx : CanonI x) (s : Nat) : ival (bShr x s) =
    if ival x < 0 then -((shrWords x.nat.length ((ival x).natAbs - 1) s : Nat) + 1 : Int)
    else (shrWords x.nat.length (ival x).natAbs s : Nat) := by
  obtain ⟨a, rfl⟩ := canonI_iff_encI.1 hx
  rw [ival_encI, bShr, bDeepClone_encI]
  rcases a with m | m
  · rw [if_neg (by simp)]
    simp only [Int.ofNat_eq_natCast, encI_ofNat, bShrInner, Bool.false_eq_true, if_false, assignPrim, isNan_enc, ival,
      Int.natAbs_natCast]
    rw [val_shrInner (enc_ne_nil m), val_enc]
  · rw [if_pos (Int.negSucc_lt_zero m)]
    obtain ⟨h1, h2, h3⟩ := decW_spec m
    have hne : decW (enc (m + 1)) ≠ [] := h3.1
    have hnan : isNan (decW (enc (m + 1))) = false := by simp [isNan, hne]
    have hne2 : shrInner (decW (enc (m + 1))) s ≠ [] := shrInner_ne_nil hne s
    have hnan2 : isNan (shrInner (decW (enc (m + 1))) s) = false := by simp [isNan, hne2]
    have hv : val (incW (shrInner (decW (enc (m + 1))) s)) = shrWords (enc (m + 1)).length m s + 1 := by
      rw [incW, assignPrim, if_neg (by simp [hnan2]), addInnerBasic_val hne2, val_shrInner hne, h1, h2]
      rfl
    have hnan3 : isNan (incW (shrInner (decW (enc (m + 1))) s)) = false := by
      by_contra hc
      have : incW (shrInner (decW (enc (m + 1))) s) = [] := by simpa [isNan] using hc
      rw [this] at hv
      simp at hv
    simp only [encI_negSucc, bShrInner, if_true, assignPrim, hnan, Bool.false_eq_true, if_false, hnan3, ival, hv, Int.natAbs_negSucc]
    simp

example : CanonI ⟨[0#32, 0#32, 1#32], true⟩ ∧ ival ⟨[0#32, 0#32, 1#32], true⟩ = -2 ^ 64 ∧ shrWords 3 (2 ^ 64 - 1) 64 = 2 ^ 32 - 1 :=
  ⟨⟨⟨by decide, by decide⟩, by decide⟩, by decide, by decide⟩

/-- the defect of the `Nat` shift, seen through `BigInt`: shifting `-(2^64)` by 64 -/
theorem C40_shr_wrong : ∃ r, bShr ⟨[0#32, 0#32, 1#32], true⟩ 64 = r ∧ ival r ≠ ival ⟨[0#32, 0#32, 1#32], true⟩ / 2 ^ 64 :=
  ⟨_, rfl, by decide⟩

example : CanonI sampleX ∧ (65 % 32 ≠ 0 ∧ 2 ^ (32 * (sampleX.nat.length - 1) + 65 % 32) ≤
    if ival sampleX < 0 then -ival sampleX - 1 else ival sampleX) ∧ bShr sampleX 65 = ⟨[4#32], true⟩ :=
  ⟨sampleX_canon, by decide, by decide⟩

/-! ## C41 comparison -/

/-- `partial_cmp` is the order of the integers -/
theorem C41_cmp (x y : BInt) (hx : CanonI x) (hy : CanonI y) : bCmp x y = some (compare (ival x) (ival y)) := by
  obtain ⟨a, rfl⟩ := canonI_iff_encI.1 hx
  obtain ⟨b, rfl⟩ := canonI_iff_encI.1 hy
  rw [compare_natAbs, ival_encI, ival_encI]

/-- `==` is equality of the integers -/
theorem C41_eq (x y : BInt) (hx : CanonI x) (hy : CanonI y) : bEq x y = true ↔ ival x = ival y := by
  obtain ⟨a, rfl⟩ := canonI_iff_encI.1 hx
  obtain ⟨b, rfl⟩ := canonI_iff_encI.1 hy
  rw [bEq_encI, ival_encI, ival_encI]; simp

/-- `<`, `>` and `>=` -/
theorem C41_lt (x y : BInt) (hx : CanonI x) (hy : CanonI y) : (bLt x y = true ↔ ival x < ival y) ∧
    (bGt x y = true ↔ ival y < ival x) ∧ (bGe x y = true ↔ ival y ≤ ival x) := by
  obtain ⟨a, rfl⟩ := canonI_iff_encI.1 hx
  obtain ⟨b, rfl⟩ := canonI_iff_encI.1 hy
  rw [bLt_encI, bGt_encI, bGe_encI, ival_encI, ival_encI]; simp

/-- NaN is not comparable -/
theorem C41_nan (x y : BInt) (h : x.nat = NaN ∨ y.nat = NaN) : bCmp x y = none := by
  rcases h with h | h <;> simp [bCmp, bIsNan, h, isNan]

example : CanonI sampleX ∧ CanonI sampleY ∧ bCmp sampleX sampleY = some .lt :=
  ⟨sampleX_canon, sampleY_canon, by decide⟩

/-! ## C42 greatest common divisor -/

/-- `gcd` returns the greatest common divisor with Bézout coefficients, in canonical form, and terminates. -/
theorem C42_gcd (x y : BInt) (hx : CanonI x) (hy : CanonI y) :
    ∃ d u v, bGcd x y = .ok (d, u, v) ∧ CanonI d ∧ CanonI u ∧ CanonI v ∧
      ival d = Int.gcd (ival x) (ival y) ∧ ival x * ival u + ival y * ival v = ival d := by
  obtain ⟨a, rfl⟩ := canonI_iff_encI.1 hx
  obtain ⟨b, rfl⟩ := canonI_iff_encI.1 hy
  obtain ⟨u, v, h1, h2, -⟩ := bGcd_spec a b
  exact ⟨_, _, _, h1, canonI_encI _, canonI_encI _, canonI_encI _, by simp, by simpa using h2⟩

/-- any NaN gives NaN -/
theorem C42_nan (x y : BInt) (h : x.nat = NaN ∨ y.nat = NaN) : bGcd x y = .ok (bNan, bNan, bNan) := by
  rcases h with h | h <;> simp [bGcd, bIsNan, h, isNan]

example : bGcd ⟨[12#32], true⟩ ⟨[18#32], false⟩ = .ok (⟨[6#32], false⟩, ⟨[1#32], false⟩, ⟨[1#32], false⟩) := by decide

/-! ## C43 inverse -/

/-- For a modulus `n ≠ 0` (a negative one counts as `|n|`) and `a` prime to it, `mod_inverse` returns
the inverse, in `[0, |n|)`. -/
theorem C43_mod_inverse (x n : BInt) (hx : CanonI x) (hn : CanonI n) (h0 : ival n ≠ 0)
    (hc : Int.gcd (ival x) (ival n) = 1) :
    ∃ v, bModInverse x n = .ok v ∧ CanonI v ∧ 0 ≤ ival v ∧ ival v < |ival n| ∧ ival x * ival v ≡ 1 [ZMOD ival n] := by
  obtain ⟨a, rfl⟩ := canonI_iff_encI.1 hx
  obtain ⟨b, rfl⟩ := canonI_iff_encI.1 hn
  simp only [ival_encI] at *
  obtain ⟨v, h1, h2, h3, h4⟩ := bModInverse_spec a h0
  exact ⟨_, h1, canonI_encI _, by simpa using h2, by simpa using h3, by simpa using h4 hc⟩

example : CanonI sampleX ∧ CanonI sampleY ∧ ival sampleY ≠ 0 ∧ Int.gcd (ival sampleX) (ival sampleY) = 3 :=
  ⟨sampleX_canon, sampleY_canon, by decide, by decide⟩
example : Int.gcd (ival ⟨[5#32], true⟩) (ival sampleX) = 1 ∧ ival sampleX ≠ 0 := by decide

/-! ## C44 linear congruences -/

/-- For `b ≥ 0` and `n > 0`, `solve_mod_linear_equation` returns exactly the solutions in `[0, n)`, each once;
there are `gcd(a, n)` of them when `gcd(a, n)` divides `b`, otherwise it returns `None`.  Partial: `b ≥ 0`; for a negative
`b` it always answers `None` (`C44_negative_is_none`). -/
theorem C44_solve_partial (x b n : BInt) (hx : CanonI x) (hb : CanonI b) (hn : CanonI n) (h0 : 0 < ival n)
    (hb0 : 0 ≤ ival b) :
    ((Int.gcd (ival x) (ival n) : Int) ∣ ival b → ∃ rs, bSolve x b n = .ok (some rs) ∧
      (∀ r ∈ rs, CanonI r) ∧ (rs.map ival).Nodup ∧ rs.length = Int.gcd (ival x) (ival n) ∧
      ∀ z, z ∈ rs.map ival ↔ 0 ≤ z ∧ z < ival n ∧ ival x * z ≡ ival b [ZMOD ival n]) ∧
    (¬ (Int.gcd (ival x) (ival n) : Int) ∣ ival b → bSolve x b n = .ok none ∧
      ∀ z, ¬ ival x * z ≡ ival b [ZMOD ival n]) := by
  obtain ⟨a, rfl⟩ := canonI_iff_encI.1 hx
  obtain ⟨b, rfl⟩ := canonI_iff_encI.1 hb
  obtain ⟨n, rfl⟩ := canonI_iff_encI.1 hn
  simp only [ival_encI] at *
  have h := bSolve_spec a b h0
  constructor
  · intro hd
    rw [if_pos ⟨hd, hb0⟩] at h
    obtain ⟨x0, h1, h2, h3⟩ := h
    refine ⟨_, h3, ?_, ?_, by simp, ?_⟩
    · intro r hr
      obtain ⟨j, -, rfl⟩ := List.mem_map.1 hr
      exact canonI_encI _
    · rw [List.map_map]
      refine List.Nodup.map_on ?_ List.nodup_range
      intro i hi j hj hij
      simp only [Function.comp, ival_encI] at hij
      exact congr_injective h0 (List.mem_range.1 hi) (List.mem_range.1 hj) hij
    · intro z
      rw [congr_solutions h0 h2 z, List.map_map]
      simp only [List.mem_map, List.mem_range, Function.comp, ival_encI]
  · intro hd
    rw [if_neg (by tauto)] at h
    refine ⟨h, fun z hz => hd ?_⟩
    obtain ⟨k, hk⟩ := Int.modEq_iff_dvd.1 hz
    have e : b = a * z + n * k := by omega
    rw [e]
    exact dvd_add (Dvd.dvd.mul_right (Int.gcd_dvd_left ..) _) (Dvd.dvd.mul_right (Int.gcd_dvd_right ..) _)

/-- A negative right-hand side is never solved, even when solutions exist. -/
theorem C44_negative_is_none (x b n : BInt) (hx : CanonI x) (hb : CanonI b) (hn : CanonI n) (h0 : 0 < ival n)
    (hb0 : ival b < 0) : bSolve x b n = .ok none := by
  obtain ⟨a, rfl⟩ := canonI_iff_encI.1 hx
  obtain ⟨b, rfl⟩ := canonI_iff_encI.1 hb
  obtain ⟨n, rfl⟩ := canonI_iff_encI.1 hn
  simp only [ival_encI] at *
  have h := bSolve_spec a b h0
  rwa [if_neg (by omega)] at h

/-- `3·x ≡ -3 (mod 7)` has the solution 6, but the answer is `None` -/
theorem C44_witness : bSolve ⟨[3#32], false⟩ ⟨[3#32], true⟩ ⟨[7#32], false⟩ = .ok none ∧ (3 : Int) * 6 ≡ -3 [ZMOD 7] := by
  decide

example : bSolve ⟨[4#32], true⟩ ⟨[2#32], false⟩ ⟨[6#32], false⟩ = .ok (some [⟨[1#32], false⟩, ⟨[4#32], false⟩]) := by decide

/-! ## C45 modular exponentiation -/

/-- In a release build, `exp(a, b, n)` for `b ≥ 0` is `a^b mod |n|` in `[0, |n|)`, and `a^b` for `n = 0`. -/
theorem C45_exp (x b n : BInt) (hx : CanonI x) (hb : CanonI b) (hn : CanonI n) (hb0 : 0 ≤ ival b) :
    ∃ r, bExp false x b n = .ok r ∧ CanonI r ∧
      (ival n = 0 → ival r = ival x ^ (ival b).toNat) ∧
      (ival n ≠ 0 → 0 ≤ ival r ∧ ival r < |ival n| ∧ ival r ≡ ival x ^ (ival b).toNat [ZMOD ival n]) := by
  obtain ⟨a, rfl⟩ := canonI_iff_encI.1 hx
  obtain ⟨b, rfl⟩ := canonI_iff_encI.1 hb
  obtain ⟨n, rfl⟩ := canonI_iff_encI.1 hn
  simp only [ival_encI] at *
  obtain ⟨b, rfl⟩ := Int.eq_ofNat_of_zero_le hb0
  refine ⟨_, bExp_nonneg false a b n (by simp), canonI_encI _, ?_, ?_⟩
  · intro h; rw [if_pos h, ival_encI]; rfl
  · intro h
    rw [if_neg h, ival_encI]
    exact ⟨Int.emod_nonneg _ h, Int.emod_lt_abs _ h, Int.mod_modEq _ _⟩

/-- The same in a debug build, but for the exponents on which `Nat::exp` overflows (`C17_exp_debug_panics`). -/
theorem C45_exp_debug_partial (x b n : BInt) (hx : CanonI x) (hb : CanonI b) (hn : CanonI n) (hb0 : 0 ≤ ival b)
    (h : ¬(1 < b.nat.length ∧ b.nat.getLast? = some 1#32 ∧ (|ival x| ≤ 1 ∨ ival n = 0))) :
    ∃ r, bExp true x b n = .ok r ∧ CanonI r ∧
      (ival n = 0 → ival r = ival x ^ (ival b).toNat) ∧
      (ival n ≠ 0 → 0 ≤ ival r ∧ ival r < |ival n| ∧ ival r ≡ ival x ^ (ival b).toNat [ZMOD ival n]) := by
  obtain ⟨a, rfl⟩ := canonI_iff_encI.1 hx
  obtain ⟨b, rfl⟩ := canonI_iff_encI.1 hb
  obtain ⟨n, rfl⟩ := canonI_iff_encI.1 hn
  simp only [ival_encI] at *
  obtain ⟨b, rfl⟩ := Int.eq_ofNat_of_zero_le hb0
  refine ⟨_, bExp_nonneg true a b n ?_, canonI_encI _, ?_, ?_⟩
  · intro _ hh
    apply h
    simp only [encI, Int.ofNat_eq_natCast, Int.natAbs_natCast]
    refine ⟨hh.1, hh.2.1, hh.2.2.imp_left ?_⟩
    intro h1; rw [Int.abs_eq_natAbs]; omega
  · intro h; rw [if_pos h, ival_encI]; rfl
  · intro h
    rw [if_neg h, ival_encI]
    exact ⟨Int.emod_nonneg _ h, Int.emod_lt_abs _ h, Int.mod_modEq _ _⟩

/-- For a negative exponent, a modulus `n ≠ 0` and `a` prime to `n`, the result is the power of the inverse.
Partial: `a ≥ 0` or an even exponent; otherwise the sign is applied twice (`C45_negative_exponent_wrong`). -/
theorem C45_exp_negative_partial (x b n : BInt) (hx : CanonI x) (hb : CanonI b) (hn : CanonI n) (hb0 : ival b < 0)
    (hn0 : ival n ≠ 0) (hc : Int.gcd (ival x) (ival n) = 1) (h : 0 ≤ ival x ∨ (ival b).natAbs % 2 = 0) :
    ∃ r, bExp false x b n = .ok r ∧ CanonI r ∧ 0 ≤ ival r ∧ ival r < |ival n| ∧
      ival r * ival x ^ (ival b).natAbs ≡ 1 [ZMOD ival n] := by
  obtain ⟨a, rfl⟩ := canonI_iff_encI.1 hx
  obtain ⟨b, rfl⟩ := canonI_iff_encI.1 hb
  obtain ⟨n, rfl⟩ := canonI_iff_encI.1 hn
  simp only [ival_encI] at *
  obtain ⟨v, h1, h2, h3, h4⟩ := bExp_neg false a hb0 hn0 (by simp)
  rw [if_neg (by omega)] at h4
  refine ⟨_, h4, canonI_encI _, ?_⟩
  rw [ival_encI]
  refine ⟨Int.emod_nonneg _ hn0, Int.emod_lt_abs _ hn0, ?_⟩
  have h5 := (h3 hc).pow b.natAbs
  rw [mul_pow, one_pow, mul_comm] at h5
  exact ((Int.mod_modEq _ n).mul_right _).trans h5

/-- Exactly how the answer is wrong in the remaining case: for a negative base prime to the modulus and an odd
negative exponent the result is *minus* the power of the inverse, so it is right only if `|n| ≤ 2`. -/
theorem C45_exp_negative_odd (x b n : BInt) (hx : CanonI x) (hb : CanonI b) (hn : CanonI n) (hb0 : ival b < 0)
    (hn0 : ival n ≠ 0) (hc : Int.gcd (ival x) (ival n) = 1) (hx0 : ival x < 0) (ho : (ival b).natAbs % 2 = 1) :
    ∃ r, bExp false x b n = .ok r ∧ CanonI r ∧ 0 ≤ ival r ∧ ival r < |ival n| ∧
      ival r * ival x ^ (ival b).natAbs ≡ -1 [ZMOD ival n] ∧
      (ival r * ival x ^ (ival b).natAbs ≡ 1 [ZMOD ival n] ↔ |ival n| ≤ 2) := by
  obtain ⟨a, rfl⟩ := canonI_iff_encI.1 hx
  obtain ⟨b, rfl⟩ := canonI_iff_encI.1 hb
  obtain ⟨n, rfl⟩ := canonI_iff_encI.1 hn
  simp only [ival_encI] at *
  obtain ⟨v, h1, h2, h3, h4⟩ := bExp_neg false a hb0 hn0 (by simp)
  refine ⟨_, h4, canonI_encI _, ?_⟩
  rw [ival_encI]
  have e0 := Int.emod_nonneg (v ^ b.natAbs) hn0
  have e1 := Int.emod_lt_abs (v ^ b.natAbs) hn0
  have h5 := (h3 hc).pow b.natAbs
  rw [mul_pow, one_pow, mul_comm] at h5
  have key : (if a < 0 ∧ b.natAbs % 2 = 1 ∧ ¬ n ∣ v ^ b.natAbs then |n| - v ^ b.natAbs % n else v ^ b.natAbs % n)
      ≡ -(v ^ b.natAbs) [ZMOD n] := by
    split
    · have : |n| ≡ 0 [ZMOD n] := (Int.modEq_zero_iff_dvd).2 ((dvd_abs n n).2 dvd_rfl)
      have := this.sub (Int.mod_modEq (v ^ b.natAbs) n)
      simpa using this
    · rename_i hh
      have hd : n ∣ v ^ b.natAbs := by
        by_contra hd; exact hh ⟨hx0, ho, hd⟩
      have h6 := Int.modEq_zero_iff_dvd.2 hd
      have h7 := h6.neg
      rw [neg_zero] at h7
      exact ((Int.mod_modEq _ n).trans h6).trans h7.symm
  have h8 : (if a < 0 ∧ b.natAbs % 2 = 1 ∧ ¬ n ∣ v ^ b.natAbs then |n| - v ^ b.natAbs % n else v ^ b.natAbs % n)
      * a ^ b.natAbs ≡ -1 [ZMOD n] := by
    have h9 := key.mul_right (a ^ b.natAbs)
    rw [neg_mul] at h9
    exact h9.trans h5.neg
  refine ⟨?_, ?_, h8, ?_⟩
  · split <;> omega
  · split
    · rename_i hh
      have : v ^ b.natAbs % n ≠ 0 := fun h => hh.2.2 (Int.dvd_of_emod_eq_zero h)
      omega
    · exact e1
  · constructor
    · intro h9
      have h10 := Int.modEq_iff_dvd.1 (h8.symm.trans h9)
      have := Int.le_of_dvd (by norm_num) ((abs_dvd n _).2 h10)
      omega
    · intro h9
      refine h8.trans (Int.modEq_iff_dvd.2 ?_)
      have : |n| = 1 ∨ |n| = 2 := by have := abs_pos.2 hn0; omega
      refine (abs_dvd n _).1 ?_
      rcases this with h | h <;> rw [h] <;> norm_num

/-- Whatever the base and the modulus have in common, the answer for a negative exponent is a number in `[0, |n|)`,
never the NaN that the documentation promises for a base that has no inverse. -/
theorem C45_exp_negative_never_nan (x b n : BInt) (hx : CanonI x) (hb : CanonI b) (hn : CanonI n) (hb0 : ival b < 0)
    (hn0 : ival n ≠ 0) : ∃ r, bExp false x b n = .ok r ∧ bIsNan r = false ∧ 0 ≤ ival r ∧ ival r < |ival n| := by
  obtain ⟨a, rfl⟩ := canonI_iff_encI.1 hx
  obtain ⟨b, rfl⟩ := canonI_iff_encI.1 hb
  obtain ⟨n, rfl⟩ := canonI_iff_encI.1 hn
  simp only [ival_encI] at *
  obtain ⟨v, h1, h2, h3, h4⟩ := bExp_neg false a hb0 hn0 (by simp)
  refine ⟨_, h4, bIsNan_encI _, ?_⟩
  rw [ival_encI]
  have e0 := Int.emod_nonneg (v ^ b.natAbs) hn0
  have e1 := Int.emod_lt_abs (v ^ b.natAbs) hn0
  split
  · rename_i hh
    have : v ^ b.natAbs % n ≠ 0 := fun h => hh.2.2 (Int.dvd_of_emod_eq_zero h)
    omega
  · exact ⟨e0, e1⟩

/-- `(-3)^(-1) mod 7` is 2 (since `-3·2 = -6 ≡ 1`), but the code answers 5. -/
theorem C45_negative_exponent_wrong : bExp false ⟨[3#32], true⟩ ⟨[1#32], true⟩ ⟨[7#32], false⟩ = .ok ⟨[5#32], false⟩ ∧
    (-3 : Int) * 2 ≡ 1 [ZMOD 7] ∧ ¬ (-3 : Int) * 5 ≡ 1 [ZMOD 7] := by
  refine ⟨?_, by decide, by decide⟩
  have e1 : (⟨[3#32], true⟩ : BInt) = encI (-3) := by simp [encI, enc]
  have e2 : (⟨[1#32], true⟩ : BInt) = encI (-1) := by simp [encI, enc]
  have e3 : (⟨[7#32], false⟩ : BInt) = encI 7 := by simp [encI, enc]
  have e4 : (⟨[5#32], false⟩ : BInt) = encI 5 := by simp [encI, enc]
  rw [e1, e2, e3, e4]
  obtain ⟨v, h1, h2, h3, h4⟩ := bExp_neg false (-3) (b := -1) (n := 7) (by omega) (by omega) (by simp)
  rw [h4]
  have h5 := h3 (by decide)
  have h6 : v = 2 := by
    have h7 := Int.modEq_iff_dvd.1 h5
    have : |(7 : Int)| = 7 := by decide
    omega
  subst h6
  rfl

/-- The documentation promises NaN for a negative exponent when base and modulus are not relatively prime; the
code returns a number. -/
theorem C45_not_coprime_is_not_nan : ∃ r, bExp false ⟨[2#32], false⟩ ⟨[1#32], true⟩ ⟨[4#32], false⟩ = .ok r ∧
    bIsNan r = false := by
  have e1 : (⟨[2#32], false⟩ : BInt) = encI 2 := by simp [encI, enc]
  have e2 : (⟨[1#32], true⟩ : BInt) = encI (-1) := by simp [encI, enc]
  have e3 : (⟨[4#32], false⟩ : BInt) = encI 4 := by simp [encI, enc]
  rw [e1, e2, e3]
  obtain ⟨v, h1, h2, h3, h4⟩ := bExp_neg false 2 (b := -1) (n := 4) (by omega) (by omega) (by simp)
  exact ⟨_, h4, bIsNan_encI _⟩

example : CanonI sampleX ∧ CanonI sampleY ∧ 0 ≤ ival sampleY ∧ ival sampleX ≠ 0 ∧
    ¬(1 < sampleY.nat.length ∧ sampleY.nat.getLast? = some 1#32 ∧ (|ival sampleX| ≤ 1 ∨ ival sampleX = 0)) :=
  ⟨sampleX_canon, sampleY_canon, by decide, by decide, by decide⟩
example : ival ⟨[3#32], true⟩ < 0 ∧ Int.gcd (ival ⟨[5#32], true⟩) (ival sampleX) = 1 ∧ ival ⟨[5#32], true⟩ < 0 ∧
    (ival ⟨[3#32], true⟩).natAbs % 2 = 1 ∧ ival sampleX ≠ 0 := by decide
example : ival ⟨[3#32], true⟩ < 0 ∧ Int.gcd (ival ⟨[5#32], false⟩) (ival sampleX) = 1 ∧ 0 ≤ ival ⟨[5#32], false⟩ := by decide

/-! ## C48 text and conversions -/

/-- Parsing never panics. -/
theorem C48_parse_never_panics (s : List Char) : ∃ o, bParse s = .ok o := by
  unfold bParse
  simp only
  cases strTrim s with
  | nil => exact ⟨_, rfl⟩
  | cons c cs =>
    obtain ⟨o, ho⟩ := C25_parse_never_panics (if c = '-' then cs else c :: cs)
    simp only [ho]
    cases o with
    | none => exact ⟨_, rfl⟩
    | some r => exact ⟨_, rfl⟩

theorem natParse_minus {s t : List Char} (h : strTrim s = '-' :: t) : natParse s = .ok none := by
  rw [natParse_eq, h, List.dropWhile_cons, if_neg (by decide)]
  have h1 : ∀ r, parseBody ('-' :: t) ≠ some r := by
    intro r hr
    rcases parseBody_some hr with ⟨v, hv, -⟩ | ⟨hb, -⟩
    · obtain ⟨⟨c, cs, hc, hd⟩, -⟩ := literal_ends hv
      simp only [List.cons.injEq] at hc
      rw [← hc.1] at hd
      exact absurd hd (by decide)
    · obtain ⟨⟨c, cs, hc, hd⟩, -⟩ := bare_ends hb
      simp only [List.cons.injEq] at hc
      rw [← hc.1] at hd
      exact absurd hd (by decide)
  cases hp : parseBody ('-' :: t) with
  | none => rfl
  | some r => exact absurd hp (h1 r)

theorem natParse_blank {s : List Char} (h : strTrim s = []) : natParse s = .ok none := by
  rw [natParse_eq, h]; rfl

/-- What is accepted: a `Nat` literal, or, after white space, a minus sign and a `Nat` literal (see C25 for
those, including what they denote).  The result is the number with that sign; `-0` is zero. -/
theorem C48_parse (s : List Char) (x : BInt) : bParse s = .ok (some x) ↔
    (∃ a, natParse s = .ok (some a) ∧ x = ⟨a, false⟩) ∨
    (∃ ws t a, (∀ c ∈ ws, WhiteSpace c) ∧ s = ws ++ '-' :: t ∧ natParse t = .ok (some a) ∧
      x = ⟨a, !eqv a [0#32]⟩) := by
  simp only [← isWhite_iff]
  have hminus : isWhite '-' = false := by decide
  have hstr : ∀ ws t, (∀ c ∈ ws, isWhite c = true) → strTrim (ws ++ '-' :: t) = '-' :: rtrim t := by
    intro ws t hws
    rw [strTrim_eq]
    have : (ws ++ '-' :: t).dropWhile isWhite = '-' :: t := by
      rw [List.dropWhile_append_of_pos hws, List.dropWhile_cons, if_neg (by simp [hminus])]
    rw [this, rtrim_cons hminus]
  have hsplit : ∀ cs, strTrim s = '-' :: cs → ∃ ws t, (∀ c ∈ ws, isWhite c = true) ∧ s = ws ++ '-' :: t ∧ cs = rtrim t := by
    intro cs hcs
    rw [strTrim_eq] at hcs
    have h1 : s = s.takeWhile isWhite ++ s.dropWhile isWhite := (List.takeWhile_append_dropWhile ..).symm
    cases hd : s.dropWhile isWhite with
    | nil => rw [hd] at hcs; simp [rtrim] at hcs
    | cons c t =>
      have hc : isWhite c = false := by
        have h2 := List.head?_dropWhile_not isWhite s
        rw [hd] at h2
        simpa using h2
      rw [hd, rtrim_cons hc] at hcs
      simp only [List.cons.injEq] at hcs
      refine ⟨s.takeWhile isWhite, t, fun c hc => mem_takeWhile hc, ?_, hcs.2.symm⟩
      rw [← hcs.1, ← hd]; exact h1
  constructor
  · intro h
    unfold bParse at h
    simp only at h
    cases hs : strTrim s with
    | nil => rw [hs] at h; simp at h
    | cons c cs =>
      rw [hs] at h
      simp only at h
      by_cases hc : c = '-'
      · right
        subst hc
        obtain ⟨ws, t, h1, h2, h3⟩ := hsplit cs hs
        rw [if_pos rfl, h3, natParse_congr (dropWhile_rtrim t)] at h
        refine ⟨ws, t, ?_⟩
        cases hp : natParse t with
        | error e => rw [hp] at h; simp at h
        | ok o =>
          rw [hp] at h
          cases o with
          | none => simp at h
          | some a =>
            simp only [Except.ok.injEq, Option.some.injEq, beq_self_eq_true] at h
            refine ⟨a, h1, h2, rfl, ?_⟩
            rw [← h]
            cases eqv a [0#32] <;> rfl
      · left
        rw [if_neg hc, ← hs, natParse_congr (strTrim_idem s)] at h
        cases hp : natParse s with
        | error e => rw [hp] at h; simp at h
        | ok o =>
          rw [hp] at h
          cases o with
          | none => simp at h
          | some a =>
            simp only [Except.ok.injEq, Option.some.injEq] at h
            refine ⟨a, rfl, ?_⟩
            rw [← h, beq_false_of_ne hc]
            simp
  · rintro (⟨a, h1, rfl⟩ | ⟨ws, t, a, h1, rfl, h3, rfl⟩)
    · unfold bParse
      simp only
      cases hs : strTrim s with
      | nil => rw [natParse_blank hs] at h1; simp at h1
      | cons c cs =>
        have hc : c ≠ '-' := by
          rintro rfl
          rw [natParse_minus hs] at h1
          simp at h1
        simp only [if_neg hc]
        rw [← hs, natParse_congr (strTrim_idem s), h1]
        simp [beq_false_of_ne hc]
    · unfold bParse
      simp only [hstr ws t h1, if_true, natParse_congr (dropWhile_rtrim t), h3, beq_self_eq_true]
      cases eqv a [0#32] <;> rfl

/-- printing a magnitude and parsing it back, with sign -/
theorem parse_fmt (z : Int) {s : List Char} (h : natParse s = .ok (some (enc z.natAbs))) :
    bParse (bFmt (encI z) s) = .ok (some (encI z)) := by
  rw [C48_parse]
  unfold bFmt
  rw [bIsNegative_encI]
  by_cases hz : z < 0
  · right
    rw [if_pos (by simpa using hz)]
    refine ⟨[], s, _, by simp, rfl, h, ?_⟩
    rw [encI_raw, ← enc_zero, eqv_enc]
    simp [hz]
    omega
  · left
    rw [if_neg (by simpa using hz)]
    exact ⟨_, h, by rw [encI_raw]; simp [hz]⟩

/-- `{}` prints a minus sign for negative numbers and the decimal numeral of `|a|`, and it parses back. -/
theorem C48_display (x : BInt) (hx : CanonI x) : ∃ s, bDisplay x = .ok (if ival x < 0 then '-' :: s else s) ∧
    numeral 10 s = some (ival x).natAbs ∧ (s = ['0'] ∨ s.head? ≠ some '0') ∧
    bParse (if ival x < 0 then '-' :: s else s) = .ok (some x) := by
  obtain ⟨a, rfl⟩ := canonI_iff_encI.1 hx
  obtain ⟨s, h1, h2, h3, h4⟩ := C26_display (canon_enc a.natAbs)
  have hf := parse_fmt a h4
  have e : bFmt (encI a) s = if ival (encI a) < 0 then '-' :: s else s := by
    unfold bFmt
    rw [bIsNegative_encI, ival_encI]
    simp
  refine ⟨s, ?_, ?_, h3, ?_⟩
  · rw [← e]
    unfold bDisplay
    rw [encI_raw]
    simp only [h1, bind, Except.bind]
  · rw [ival_encI, h2, val_enc]
  · rw [← e]; exact hf

/-- `{:#b}`, `{:b}`, `{:#o}`, `{:#x}`, `{:#X}` parse back.  (`{:b}` prints the prefix, too.) -/
theorem C48_radix (x : BInt) (hx : CanonI x) (alternate : Bool) :
    bParse (bBinary alternate x) = .ok (some x) ∧ bParse (bOctal true x) = .ok (some x) ∧
    bParse (bLowerHex true x) = .ok (some x) ∧ bParse (bUpperHex true x) = .ok (some x) := by
  obtain ⟨a, rfl⟩ := canonI_iff_encI.1 hx
  have hc := canon_enc a.natAbs
  obtain ⟨-, -, -, -, h1⟩ := C26_binary hc
  obtain ⟨-, -, -, -, h2⟩ := C26_octal hc
  obtain ⟨-, -, -, -, h3⟩ := C26_lower_hex hc
  obtain ⟨-, -, -, -, h4⟩ := C26_upper_hex hc
  exact ⟨parse_fmt a h1, parse_fmt a h2, parse_fmt a h3, parse_fmt a h4⟩

/-- what is printed: the sign, then the text of the magnitude (C26) -/
theorem C48_radix_text (x : BInt) (hx : CanonI x) (alternate : Bool) :
    bOctal alternate x = (if ival x < 0 then ['-'] else []) ++ natOctal alternate x.nat ∧
    bLowerHex alternate x = (if ival x < 0 then ['-'] else []) ++ natLowerHex alternate x.nat ∧
    bUpperHex alternate x = (if ival x < 0 then ['-'] else []) ++ natUpperHex alternate x.nat ∧
    bBinary alternate x = (if ival x < 0 then ['-'] else []) ++ natBinary true x.nat := by
  obtain ⟨a, rfl⟩ := canonI_iff_encI.1 hx
  simp only [bOctal, bLowerHex, bUpperHex, bBinary, bFmt, bIsNegative_encI, ival_encI, decide_eq_true_eq]
  split <;> simp

/-- Conversions from machine integers denote the same number, including the minimum. -/
theorem C48_from_machine (a : BitVec 8) (b : BitVec 16) (c : BitVec 32) (d : BitVec 64) (e : BitVec 128) :
    (CanonI (fromISmall a) ∧ ival (fromISmall a) = a.toInt) ∧ (CanonI (fromISmall b) ∧ ival (fromISmall b) = b.toInt) ∧
    (CanonI (fromISmall c) ∧ ival (fromISmall c) = c.toInt) ∧
    (∃ x, fromI64 d = .ok x ∧ CanonI x ∧ ival x = d.toInt) ∧ (∃ x, fromI128 e = .ok x ∧ CanonI x ∧ ival x = e.toInt) := by
  rw [fromISmall_eq (by omega), fromISmall_eq (by omega), fromISmall_eq (by omega), fromI64_eq, fromI128_eq]
  exact ⟨⟨canonI_encI _, ival_encI _⟩, ⟨canonI_encI _, ival_encI _⟩, ⟨canonI_encI _, ival_encI _⟩,
    ⟨_, rfl, canonI_encI _, ival_encI _⟩, ⟨_, rfl, canonI_encI _, ival_encI _⟩⟩

example : fromI64 (BitVec.intMin 64) = .ok ⟨[0#32, 0x80000000#32], true⟩ := by decide
example : bParse "  -0x1F ".toList = .ok (some ⟨[31#32], true⟩) := by decide
example : CanonI sampleX ∧ ival sampleX < 0 := ⟨sampleX_canon, by decide⟩

/-! ## C49 square root and square -/

/-- `sqrt` of a non-negative integer is the integer square root -/
theorem C49_sqrt (x : BInt) (hx : CanonI x) (h : 0 ≤ ival x) :
    ∃ r, bSqrt x = .ok r ∧ CanonI r ∧ 0 ≤ ival r ∧ ival r ^ 2 ≤ ival x ∧ ival x < (ival r + 1) ^ 2 := by
  obtain ⟨a, rfl⟩ := canonI_iff_encI.1 hx
  rw [ival_encI] at *
  obtain ⟨n, rfl⟩ := Int.eq_ofNat_of_zero_le h
  refine ⟨encI (Nat.sqrt n), ?_, canonI_encI _, by simp, ?_, ?_⟩
  · unfold bSqrt
    rw [bIsNan_encI, encI_ofNat, encI_ofNat]
    simp only [Bool.or_self, Bool.false_eq_true, if_false, natSqrt_enc, bind, Except.bind]
  · rw [ival_encI]
    have := Nat.sqrt_le' n
    exact_mod_cast this
  · rw [ival_encI]
    have := Nat.lt_succ_sqrt' n
    exact_mod_cast this

/-- The root is rounded down, although the documentation of `BigInt::sqrt` says up: it is too small for every number that is no square. -/
theorem C49_not_ceiling (x : BInt) (hx : CanonI x) (h : 0 ≤ ival x) (hs : ¬ IsSquare (ival x)) :
    ∃ r, bSqrt x = .ok r ∧ CanonI r ∧ ival r ^ 2 < ival x := by
  obtain ⟨r, h1, h2, -, h3, -⟩ := C49_sqrt x hx h
  exact ⟨r, h1, h2, lt_of_le_of_ne h3 fun e => hs ⟨ival r, by rw [← e, pow_two]⟩⟩

example : ¬ IsSquare (ival (encI 2)) := by rw [ival_encI]; decide +kernel

/-- `sqrt` of a negative integer is NaN -/
theorem C49_sqrt_negative (x : BInt) (hx : CanonI x) (h : ival x < 0) : bSqrt x = .ok bNan := by
  obtain ⟨a, rfl⟩ := canonI_iff_encI.1 hx
  rw [ival_encI] at h
  unfold bSqrt
  rw [if_pos]
  simp [encI, h]

/-- `sqr` is the square -/
theorem C49_sqr (x : BInt) (hx : CanonI x) : CanonI (bSqr x) ∧ ival (bSqr x) = ival x ^ 2 := by
  obtain ⟨a, rfl⟩ := canonI_iff_encI.1 hx
  have e : bSqr (encI a) = encI (a ^ 2) := by
    rw [bSqr, encI_raw, encI_raw, natSqr_enc]
    have h1 : ¬ (a ^ 2 < 0) := not_lt.2 (by positivity)
    simp only [h1, decide_false, Int.natAbs_pow]
    rw [pow_two]
  rw [e, ival_encI, ival_encI]
  exact ⟨canonI_encI _, rfl⟩

example : CanonI sampleY ∧ 0 ≤ ival sampleY ∧ CanonI sampleX ∧ ival sampleX < 0 :=
  ⟨sampleY_canon, by decide, sampleX_canon, by decide⟩

/-! ## C30 (signed), C50 -/

/-- In a release build the signed `mul_range(a, b)` is the product of all integers in `[a, b]`. -/
theorem C30_mul_range_signed (a b : D) : ∃ r, bMulRange false a b = .ok r ∧ CanonI r ∧
    ival r = ∏ i ∈ Finset.Icc a.toInt b.toInt, i :=
  ⟨_, bMulRange_spec false a b (by simp), canonI_encI _, ival_encI _⟩

/-- In a debug build the same, except that a range of negative numbers that starts with `i64::MIN` panics. -/
theorem C30_mul_range_signed_debug_partial (a b : D) :
    (¬(a.toInt = -2 ^ 63 ∧ b.toInt < 0) → ∃ r, bMulRange true a b = .ok r ∧ CanonI r ∧
      ival r = ∏ i ∈ Finset.Icc a.toInt b.toInt, i) ∧
    (a.toInt = -2 ^ 63 ∧ b.toInt < 0 → bMulRange true a b = .error .panic) := by
  constructor
  · intro h
    exact ⟨_, bMulRange_spec true a b (by intro _ _ h1 h2; exact h ⟨h2, h1⟩), canonI_encI _, ival_encI _⟩
  · intro h
    refine bMulRange_panic a b ?_ h.2 h.1
    have := BitVec.le_toInt b
    norm_num at *
    omega

/-- `binomial(n, k)` is the binomial coefficient for `0 ≤ k ≤ n` and zero for `k > n ≥ 0`, in debug and
release builds.  Partial: `n = i64::MAX` with `k = 0` or `k = n` (`C50_max`), and negative arguments
(`C50_negative_k`). -/
theorem C50_binomial_partial (checks : Bool) (n k : D) (hn : 0 ≤ n.toInt) (hk : 0 ≤ k.toInt)
    (h : n.toInt ≠ 2 ^ 63 - 1 ∨ (0 < k.toInt ∧ k.toInt ≠ n.toInt)) :
    ∃ r, bBinomial checks n k = .ok r ∧ CanonI r ∧ ival r = n.toInt.toNat.choose k.toInt.toNat := by
  by_cases hkn : k.toInt ≤ n.toInt
  · exact ⟨_, bBinomial_spec checks n k hk hkn (by omega), canonI_encI _, ival_encI _⟩
  · refine ⟨_, bBinomial_above checks n k hn (by omega), canonI_encI _, ?_⟩
    rw [ival_encI, Nat.choose_eq_zero_of_lt (by omega)]
    rfl

/-- `binomial(i64::MAX, 0)` is 1, but a debug build panics and a release build answers 0. -/
theorem C50_max : bBinomial true (BitVec.intMax 64) 0#64 = .error .panic ∧
    bBinomial false (BitVec.intMax 64) 0#64 = .ok ⟨[0#32], false⟩ := by decide

/-- `binomial(5, -1)` is 1, not 0. -/
theorem C50_negative_k : bBinomial true 5#64 (-1#64) = .ok ⟨[1#32], false⟩ := by decide

example : 0 ≤ (52#64 : D).toInt ∧ 0 ≤ (5#64 : D).toInt ∧ (52#64 : D).toInt ≠ 2 ^ 63 - 1 := by decide

end RMath
