import Verif.Props.IntPadded
import Verif.Props.Corners

/-!
# C127 The functions of BigInt applied to the negative zero

`a % b` for a negative multiple `a` of `b` is a zero with the sign set (C37).  The theorems say what the functions do with it.
-/

namespace RMath

/-! ## Proof -/

theorem nz_enc : (⟨[0#32], true⟩ : BInt) = ⟨enc 0, true⟩ := by rw [enc_zero]

theorem nz_nan : bIsNan ⟨[0#32], true⟩ = false := by decide
theorem nz_zero : bEqW ⟨[0#32], true⟩ 0#32 = false := by decide
theorem nz_neg : bIsNegative ⟨[0#32], true⟩ = true := by decide
theorem nz_clone : bDeepClone ⟨[0#32], true⟩ = ⟨[0#32], true⟩ := by decide
theorem nz_minus : bNeg ⟨[0#32], true⟩ = encI 0 := by rw [← bZero_eq]; decide
theorem nz_abs : bAbs ⟨[0#32], true⟩ = encI 0 := by rw [← bZero_eq]; decide

theorem nz_rem {b : Int} (hb : b ≠ 0) : bRemInner ⟨[0#32], true⟩ (encI b) = .ok ⟨[0#32], true⟩ := by
  unfold bRemInner
  have hz : eqv (encI b).nat [0#32] = false := by
    rw [encI_raw, ← enc_zero, eqv_enc]; simpa using hb
  have hb' : b.natAbs ≠ 0 := by omega
  rw [hz, encI_raw, nz_enc]
  simp only [assignNatR, isNan_enc, Bool.or_self, Bool.false_eq_true, if_false, remInner_enc hb', Nat.zero_mod]

theorem nz_div {b : Int} (hb : b ≠ 0) : bDivInner ⟨[0#32], true⟩ (encI b) = .ok (encI 0) := by
  unfold bDivInner
  have hz : eqv (encI b).nat [0#32] = false := by
    rw [encI_raw, ← enc_zero, eqv_enc]; simpa using hb
  have hb' : b.natAbs ≠ 0 := by omega
  have hc : partialCmp [0#32] [0#32] = some .eq := by decide
  rw [hz, encI_raw, encI_raw]
  simp only [hc, Bool.false_eq_true, if_false, ite_self]
  rw [← enc_zero]
  simp only [assignNatR, isNan_enc, Bool.or_self, Bool.false_eq_true, if_false, divInner_enc hb', Nat.zero_div]
  rfl

theorem nz_remEuclid {b : Int} (hb : b ≠ 0) : bRemEuclid ⟨[0#32], true⟩ (encI b) = .ok (encI |b|) := by
  rw [bRemEuclid, nz_clone, bRemEuclidInner, nz_rem hb]
  simp only [bind, Except.bind, nz_neg, if_true, bIsNegative_encI, decide_eq_true_eq]
  rw [nz_enc, encI_raw, bSubInner_raw, bAddInner_raw, sg_natAbs]
  by_cases h : b < 0
  · rw [if_pos h, abs_of_neg h]; simp [sg]
  · rw [if_neg h, abs_of_nonneg (by omega)]; simp [sg]

theorem rem_nz (x : BInt) : bRemInner x ⟨[0#32], true⟩ = .error .panic := by
  rw [bRemInner, if_pos (by decide)]

theorem div_nz (x : BInt) : bDivInner x ⟨[0#32], true⟩ = .error .panic := by
  rw [bDivInner, if_pos (by decide)]

theorem gcd_self_first {n : Int} (hn : 0 < n) : ∃ y, bGcd (encI n) (encI n) = .ok (encI n, encI 0, encI y) := by
  obtain ⟨x, y, h1, -, h3⟩ := bGcd_spec n n
  have hg : (Int.gcd n n : Int) = n := by rw [Int.gcd_self]; omega
  rw [hg] at h1 h3
  have h4 := h3 (by omega)
  rw [abs_of_pos hn] at h4
  have hx : x = 0 := by
    by_contra hx
    have : 1 ≤ |x| := Int.one_le_abs hx
    nlinarith
  exact ⟨y, by rw [h1, hx]⟩

theorem gcd_zero_first {n : Int} (hn : 0 < n) : bGcd bZero (encI n) = .ok (encI n, encI 0, encI 1) := by
  unfold bGcd
  rw [bZero_eq]
  have hm' : ¬ n = 0 := by omega
  have hm'' : ¬ n < 0 := by omega
  simp only [bIsNan_encI, bEqW_zero_encI, hm', hm'', decide_true, decide_false, Bool.or_self, Bool.and_false, Bool.false_eq_true,
    Bool.not_false, Bool.and_true, if_false, if_true, bAbs_encI, abs_of_pos hn, bIsNegative_encI, bOne_eq]

theorem inverse_zero {n : Int} (hn : n ≠ 0) : bModInverse bZero (encI n) = .ok bZero := by
  unfold bModInverse
  have e : (if bIsNegative (encI n) = true then bAbs (encI n) else bDeepClone (encI n)) = encI |n| := by
    simp only [bIsNegative_encI, decide_eq_true_eq, bAbs_encI, bDeepClone_encI]
    split
    · rfl
    · rw [abs_of_nonneg (by omega)]
  have e1 : bIsNan bZero = false := by decide
  have e2 : bIsNegative bZero = false := by decide
  simp only [e1, e2, bIsNan_encI, Bool.or_self, Bool.false_eq_true, if_false, e]
  simp only [bind, Except.bind, gcd_zero_first (abs_pos.2 hn), bIsNegative_encI, lt_irrefl, decide_false, Bool.false_eq_true, if_false]
  rw [bZero_eq]

/-! ## C127 -/

/-- `rem_euclid` of the negative zero is `|n|`, which is not less than `|n|`, and `div_euclid` is minus the sign of `n`; both panic if the
divisor is the negative zero. -/
theorem C127_euclid (x n : BInt) (hn : CanonI n) :
    (ival n ≠ 0 → ∃ q r, bRemEuclid ⟨[0#32], true⟩ n = .ok r ∧ bDivEuclid ⟨[0#32], true⟩ n = .ok q ∧ CanonI q ∧ CanonI r ∧
      ival r = |ival n| ∧ ival q = -(ival n).sign) ∧
    bRemEuclid x ⟨[0#32], true⟩ = .error .panic ∧ bDivEuclid x ⟨[0#32], true⟩ = .error .panic := by
  obtain ⟨b, rfl⟩ := canonI_iff_encI.1 hn
  rw [ival_encI]
  refine ⟨fun hb => ⟨encI (-b.sign), encI |b|, nz_remEuclid hb, ?_, canonI_encI _, canonI_encI _, ival_encI _, ival_encI _⟩, ?_, ?_⟩
  · rw [bDivEuclid, nz_clone, bDivEuclidInner, bRem, nz_clone, nz_rem hb, nz_div hb]
    simp only [bind, Except.bind, nz_neg, if_true, bIsPositive_encI, decide_eq_true_eq, bOne_eq, bSubInner_encI, bAddInner_encI]
    by_cases h : 0 < b
    · rw [if_pos h, Int.sign_eq_one_of_pos h]; rfl
    · rw [if_neg h, Int.sign_eq_neg_one_of_neg (by omega)]; rfl
  · rw [bRemEuclid, bRemEuclidInner, rem_nz]; rfl
  · rw [bDivEuclid, bDivEuclidInner, bRem, rem_nz]; rfl

/-- `gcd` takes the negative zero for zero: the divisor is the absolute value of the other argument, with a Bézout coefficient. -/
theorem C127_gcd (y : BInt) (hy : CanonI y) :
    (∃ d u v, bGcd ⟨[0#32], true⟩ y = .ok (d, u, v) ∧ CanonI d ∧ CanonI u ∧ CanonI v ∧ ival d = |ival y| ∧ ival y * ival v = ival d) ∧
    (∃ d u v, bGcd y ⟨[0#32], true⟩ = .ok (d, u, v) ∧ CanonI d ∧ CanonI u ∧ CanonI v ∧ ival d = |ival y| ∧ ival y * ival u = ival d) ∧
    (∃ d u v, bGcd ⟨[0#32], true⟩ ⟨[0#32], true⟩ = .ok (d, u, v) ∧ CanonI d ∧ CanonI u ∧ CanonI v ∧ ival d = 0) := by
  obtain ⟨b, rfl⟩ := canonI_iff_encI.1 hy
  rw [ival_encI]
  have hz : encI (0 : Int) = encI ((0 : Nat) : Int) := rfl
  have habs : (if decide (b < 0) = true then bNeg (encI b) else bDeepClone (encI b)) = encI (b.natAbs : Int) := by
    simp only [decide_eq_true_eq, bNeg_encI, bDeepClone_encI]
    split
    · exact encI_inj.2 (by omega)
    · exact encI_inj.2 (by omega)
  refine ⟨?_, ?_, ?_⟩
  · unfold bGcd
    simp only [bIsNan_encI, nz_nan, nz_zero, Bool.or_self, Bool.false_eq_true, if_false, Bool.false_and, Bool.not_false, Bool.true_and,
      bEqW_zero_encI, nz_neg, if_true, nz_minus, nz_abs, bIsNegative_encI, habs]
    by_cases h : b = 0
    · subst h
      refine ⟨encI 0, bMinusOne, bZero, by simp only [decide_true, if_true], canonI_encI _, ?_, ?_, by simp, by simp⟩
      · rw [bMinusOne_eq]; exact canonI_encI _
      · rw [bZero_eq]; exact canonI_encI _
    · rw [if_neg (by simpa using h)]
      have hv : val (encI (b.natAbs : Int)).nat = b.natAbs := by rw [encI_ofNat]; exact val_enc _
      obtain ⟨u, v, h1, h2, -⟩ := bGcdExtend_spec (b.natAbs + 1) 0 b.natAbs (by omega)
      rw [← hz, Nat.gcd_zero_left] at h1
      rw [Nat.gcd_zero_left] at h2
      rw [hv, h1]
      simp only [bind, Except.bind, bNegInner_encI, decide_eq_true_eq]
      refine ⟨_, _, _, rfl, canonI_encI _, canonI_encI _, ?_, by rw [ival_encI, Int.natCast_natAbs], ?_⟩
      · split <;> exact canonI_encI _
      · split
        · next hb =>
          rw [ival_encI, ival_encI, ← h2, show (b.natAbs : Int) = -b by omega]; ring
        · next hb =>
          rw [ival_encI, ival_encI, ← h2, show (b.natAbs : Int) = b by omega]; ring
  · unfold bGcd
    simp only [bIsNan_encI, nz_nan, nz_zero, Bool.or_self, Bool.false_eq_true, if_false, Bool.and_false, Bool.not_false, Bool.and_true,
      bEqW_zero_encI, nz_neg, if_true, nz_minus, nz_abs, bIsNegative_encI, habs]
    by_cases h : b = 0
    · subst h
      refine ⟨encI 0, bZero, bMinusOne, by simp only [decide_true, if_true], canonI_encI _, ?_, ?_, by simp, by simp⟩
      · rw [bZero_eq]; exact canonI_encI _
      · rw [bMinusOne_eq]; exact canonI_encI _
    · rw [if_neg (by simpa using h)]
      have hv : val (encI (0 : Int)).nat = 0 := by rw [hz, encI_ofNat]; exact val_enc _
      obtain ⟨u, v, h1, h2, -⟩ := bGcdExtend_spec (0 + 1) b.natAbs 0 (by omega)
      rw [← hz, Nat.gcd_zero_right] at h1
      rw [Nat.gcd_zero_right] at h2
      rw [hv, h1]
      simp only [bind, Except.bind, bNegInner_encI, decide_eq_true_eq]
      refine ⟨_, _, _, rfl, canonI_encI _, ?_, canonI_encI _, by rw [ival_encI, Int.natCast_natAbs], ?_⟩
      · split <;> exact canonI_encI _
      · split
        · next hb =>
          rw [ival_encI, ival_encI, ← h2, show (b.natAbs : Int) = -b by omega]; push_cast; ring
        · next hb =>
          rw [ival_encI, ival_encI, ← h2, show (b.natAbs : Int) = b by omega]; push_cast; ring
  · refine ⟨⟨[0#32], false⟩, ⟨[1#32], true⟩, ⟨[0#32], false⟩, by decide, ?_⟩
    exact ⟨⟨⟨by decide, by decide⟩, by decide⟩, ⟨⟨by decide, by decide⟩, by decide⟩, ⟨⟨by decide, by decide⟩, by decide⟩, by decide⟩

/-- `mod_inverse` takes the negative zero for zero, except that it panics for the negative zero modulo a zero. -/
theorem C127_mod_inverse (x n : BInt) (hn : CanonI n) :
    bModInverse ⟨[0#32], true⟩ n = (if ival n = 0 then .error .panic else .ok bZero) ∧
    (bIsNan x = false → bModInverse x ⟨[0#32], true⟩ = bModInverse x bZero) := by
  constructor
  · obtain ⟨b, rfl⟩ := canonI_iff_encI.1 hn
    rw [ival_encI]
    unfold bModInverse
    have e : (if bIsNegative (encI b) = true then bAbs (encI b) else bDeepClone (encI b)) = encI |b| := by
      simp only [bIsNegative_encI, decide_eq_true_eq, bAbs_encI, bDeepClone_encI]
      split
      · rfl
      · rw [abs_of_nonneg (by omega)]
    simp only [nz_nan, bIsNan_encI, Bool.or_self, Bool.false_eq_true, if_false, e, nz_neg, if_true]
    by_cases h : b = 0
    · subst h
      rw [if_pos rfl, abs_zero, bRemEuclid, bRemEuclidInner, bRemInner_zero]; rfl
    · rw [if_neg h, nz_remEuclid (abs_ne_zero.2 h), abs_abs]
      obtain ⟨y, hy⟩ := gcd_self_first (abs_pos.2 h)
      simp only [bind, Except.bind, hy, bIsNegative_encI, lt_irrefl, decide_false, Bool.false_eq_true, if_false, bZero_eq]
  · intro hx
    unfold bModInverse
    have e0 : bIsNan bZero = false := by decide
    have e1 : bIsNegative bZero = false := by decide
    have e2 : bDeepClone bZero = bZero := by decide
    rw [hx, nz_nan, nz_neg, nz_abs, e0, e1, e2, bZero_eq]
    rfl

/-- `solve_mod_linear_equation`: the negative zero as right-hand side has no solution, although every multiple of `n` is one; as factor it
is taken for zero, except that modulo zero it panics; as modulus it is taken for zero. -/
theorem C127_solve (x b n : BInt) (hx : CanonI x) (hb : CanonI b) (hn : CanonI n) :
    (ival n ≠ 0 → bSolve x ⟨[0#32], true⟩ n = .ok none) ∧
    (ival n ≠ 0 → bSolve ⟨[0#32], true⟩ b n = bSolve bZero b n) ∧
    (ival n = 0 → bSolve ⟨[0#32], true⟩ b n = .error .panic) ∧
    bSolve x b ⟨[0#32], true⟩ = bSolve x b bZero := by
  obtain ⟨a, rfl⟩ := canonI_iff_encI.1 hx
  obtain ⟨c, rfl⟩ := canonI_iff_encI.1 hb
  obtain ⟨m, rfl⟩ := canonI_iff_encI.1 hn
  rw [ival_encI]
  have e : (if bIsNegative (encI m) = true then bAbs (encI m) else encI m) = encI |m| := by
    simp only [bIsNegative_encI, decide_eq_true_eq, bAbs_encI]
    split
    · rfl
    · rw [abs_of_nonneg (by omega)]
  refine ⟨fun h => ?_, fun h => ?_, fun h => ?_, ?_⟩
  · unfold bSolve
    simp only [nz_nan, bIsNan_encI, Bool.or_self, Bool.false_eq_true, if_false, e]
    simp only [bIsNegative_encI, decide_eq_true_eq]
    have hm : 0 < |m| := abs_pos.2 h
    obtain ⟨g, hg⟩ : ∃ g : Int, ((if a < 0 then bRemEuclid (encI a) (encI |m|) else .ok (encI a) : Res BInt) = .ok (encI g)) := by
      by_cases ha : a < 0
      · rw [if_pos ha, bRemEuclid_encI a (by omega)]
        exact ⟨_, rfl⟩
      · rw [if_neg ha]; exact ⟨a, rfl⟩
    obtain ⟨u, v, h1, -⟩ := bGcd_spec g |m|
    have hd : 0 < Int.gcd g |m| := Int.gcd_pos_of_ne_zero_right _ (by omega)
    have h2 : bRem ⟨[0#32], true⟩ (encI (Int.gcd g |m|)) = .ok ⟨[0#32], true⟩ := by rw [bRem, nz_clone, nz_rem (by omega)]
    have h3 : bEq ⟨[0#32], true⟩ bZero = false := by decide
    simp only [bind, Except.bind, hg, h1, h2, h3, nz_zero, Bool.false_eq_true, if_false, ite_self]
  · have hm : 0 < |m| := abs_pos.2 h
    have e1 : bIsNan bZero = false := by decide
    have e2 : bIsNegative bZero = false := by decide
    obtain ⟨y, hy⟩ := gcd_self_first hm
    have hz := gcd_zero_first hm
    unfold bSolve
    simp only [nz_nan, e1, e2, bIsNan_encI, Bool.or_self, Bool.false_eq_true, if_false, e, nz_neg, if_true]
    rw [nz_remEuclid (by omega), abs_abs]
    simp only [bind, Except.bind, hy, hz]
  · subst h
    unfold bSolve
    simp only [nz_nan, bIsNan_encI, Bool.or_self, Bool.false_eq_true, if_false, e, nz_neg, if_true]
    rw [abs_zero, bRemEuclid, bRemEuclidInner, bRemInner_zero]
    rfl
  · unfold bSolve
    have e1 : bIsNan bZero = false := by decide
    have e2 : bIsNegative bZero = false := by decide
    rw [nz_nan, nz_neg, nz_abs, e1, e2, bZero_eq]
    rfl

/-- `jacobi` takes the negative zero for zero as first argument, except that the symbol for `b = -1` is -1; as second argument it makes the
call panic unless the first is zero, where 0 is returned; for zero `None` is returned. -/
theorem C127_jacobi (x : BInt) (hx : CanonI x) :
    bJacobi ⟨[0#32], true⟩ x = (if ival x = -1 then .ok (some (-1)) else bJacobi bZero x) ∧
    bJacobi x ⟨[0#32], true⟩ = (if ival x = 0 then .ok (some 0) else .error .panic) ∧ bJacobi x bZero = .ok none := by
  obtain ⟨a, rfl⟩ := canonI_iff_encI.1 hx
  rw [ival_encI]
  refine ⟨?_, ?_, ?_⟩
  · unfold bJacobi
    have z1 : bIsNan bZero = false := by decide
    have z2 : bIsNegative bZero = false := by decide
    have z3 : bDeepClone bZero = bZero := by decide
    have z4 : eqv ([0#32] : Words) [0#32] = true := by decide
    have z5 : eqv bZero.nat [0#32] = true := by decide
    rw [nz_nan, nz_neg, nz_clone, z1, z2, z3, bIsNan_encI, bEqW_zero_encI, bIsNegative_encI, bDeepClone_encI]
    by_cases h0 : a = 0
    · subst h0; rfl
    by_cases hn : a < 0
    · have e : (⟨(encI a).nat, false⟩ : BInt) = encI (-a) := by
        rw [encI_raw, encI_raw, Int.natAbs_neg]
        simp only [BInt.mk.injEq, true_and]
        rw [eq_comm, decide_eq_false_iff_not]; omega
      simp only [h0, hn, decide_true, decide_false, Bool.or_self, Bool.false_eq_true, if_false, if_true, e]
      rw [bJacobiLoop, bJacobiLoop, bEqW_one_encI]
      simp only [z4, z5, if_true]
      by_cases h1 : a = -1
      · subst h1; rfl
      · have : ¬ (-a = 1) := by omega
        simp [h1, this]
    · have h1 : ¬ a = -1 := by omega
      simp only [h0, hn, decide_false, Bool.or_self, Bool.false_eq_true, if_false, h1]
      rw [bJacobiLoop, bJacobiLoop, bEqW_one_encI]
      simp only [z4, z5, if_true]
  · unfold bJacobi
    rw [nz_nan, nz_neg, nz_clone, nz_zero, bIsNan_encI, bDeepClone_encI]
    simp only [Bool.or_self, Bool.false_eq_true, if_false, if_true]
    have z1 : bEqW ⟨[0#32], false⟩ 1#32 = false := by decide
    have z2 : (⟨[0#32], false⟩ : BInt) = encI 0 := bZero_eq
    rw [bJacobiLoop, z1, encI_nat_eqv, bRemEuclidInner, z2, bRemInner_zero]
    by_cases h : a = 0
    · simp [h]
    · simp [h, bind, Except.bind]
  · rw [bJacobi, bZero_eq, bEqW_zero_encI]
    simp

/-- the symbol of zero -/
theorem jacobi_of_zero {a : ℤ} (h : 2 ≤ |a|) : bJacobi bZero (encI a) = .ok (some 0) := by
  have z1 : bIsNan bZero = false := by decide
  have z2 : bIsNegative bZero = false := by decide
  have z3 : bDeepClone bZero = bZero := by decide
  have z5 : eqv bZero.nat [0#32] = true := by decide
  have h0 : ¬ a = 0 := by rintro rfl; simp at h
  unfold bJacobi
  rw [z1, z2, z3, bIsNan_encI, bEqW_zero_encI, bIsNegative_encI, bDeepClone_encI]
  by_cases hn : a < 0
  · have e : (⟨(encI a).nat, false⟩ : BInt) = encI (-a) := by
      rw [encI_raw, encI_raw, Int.natAbs_neg]
      simp only [BInt.mk.injEq, true_and]
      rw [eq_comm, decide_eq_false_iff_not]; omega
    rw [abs_of_neg hn] at h
    have h1 : ¬ (-a = 1) := by omega
    simp only [h0, hn, decide_true, decide_false, Bool.or_self, Bool.false_eq_true, if_false, if_true, e]
    rw [bJacobiLoop, bEqW_one_encI]
    simp [z5, h1]
  · rw [abs_of_nonneg (by omega)] at h
    have h1 : ¬ a = 1 := by omega
    simp only [h0, hn, decide_false, Bool.or_self, Bool.false_eq_true, if_false]
    rw [bJacobiLoop, bEqW_one_encI]
    simp [z5, h1]

/-- `mod_sqrt` takes the negative zero for zero as first argument, except modulo -1, where it answers `None` and for zero never ends, as it
does modulo 1 for both.  As modulus the negative zero makes the call panic unless the first argument is zero, where 0 is returned; for the
modulus zero `None` is returned. -/
theorem C127_mod_sqrt (checks : Bool) (x p : BInt) (hx : CanonI x) (hp : CanonI p) :
    bModSqrt checks ⟨[0#32], true⟩ p = (if ival p = -1 then .ok none else bModSqrt checks bZero p) ∧
    (bModSqrt checks bZero p = if ival p = 0 then .ok none else if |ival p| = 1 then .error .hang else .ok (some bZero)) ∧
    bModSqrt checks x ⟨[0#32], true⟩ = (if ival x = 0 then .ok (some bZero) else .error .panic) ∧
    bModSqrt checks x bZero = .ok none := by
  refine ⟨?_, ?_, ?_, ?_⟩
  · obtain ⟨a, rfl⟩ := canonI_iff_encI.1 hp
    rw [ival_encI]
    have hj := (C127_jacobi _ hp).1
    rw [ival_encI] at hj
    by_cases h1 : a = -1
    · simp only [h1, if_true] at hj ⊢
      rw [bModSqrt, hj]
      rfl
    simp only [h1, if_false] at hj ⊢
    by_cases h2 : a = 1
    · subst h2
      cases checks <;> decide +kernel
    by_cases h0 : a = 0
    · subst h0
      cases checks <;> decide +kernel
    have h := jacobi_of_zero (a := a) (by rcases abs_cases a <;> omega)
    rw [bModSqrt, bModSqrt, hj, h]
    rfl
  · obtain ⟨a, rfl⟩ := canonI_iff_encI.1 hp
    rw [ival_encI]
    by_cases h0 : a = 0
    · subst h0
      cases checks <;> decide +kernel
    by_cases h1 : |a| = 1
    · rcases abs_eq_abs.1 (h1.trans abs_one.symm) with rfl | rfl <;> cases checks <;> decide +kernel
    · have h := jacobi_of_zero (a := a) (by rcases abs_cases a <;> omega)
      rw [bModSqrt, h]
      simp only [h0, h1, if_false]
      rfl
  · rw [bModSqrt, (C127_jacobi x hx).2.1]
    split <;> rfl
  · rw [bModSqrt, (C127_jacobi x hx).2.2]
    rfl

/-- `exp` in a release build takes the negative zero for zero as base and as exponent.  As modulus it does so unless the exponent is
negative: then the answer is 1 for a positive base and 0 for the base zero, and a negative base makes the call panic (for the modulus zero
the answer is 1). -/
theorem C127_exp (x b n : BInt) (hx : CanonI x) (hb : CanonI b) (hn : CanonI n) :
    bExp false ⟨[0#32], true⟩ b n = bExp false bZero b n ∧ bExp false x ⟨[0#32], true⟩ n = bExp false x bZero n ∧
    (0 ≤ ival b → bExp false x b ⟨[0#32], true⟩ = bExp false x b bZero) ∧
    (ival b < 0 → bExp false x b bZero = .ok bOne ∧
      bExp false x b ⟨[0#32], true⟩ = if ival x < 0 then .error .panic else if ival x = 0 then .ok bZero else .ok bOne) := by
  obtain ⟨a, rfl⟩ := canonI_iff_encI.1 hx
  obtain ⟨c, rfl⟩ := canonI_iff_encI.1 hb
  obtain ⟨m, rfl⟩ := canonI_iff_encI.1 hn
  simp only [ival_encI]
  have z1 : bIsNan bZero = false := by decide
  have z2 : bIsNegative bZero = false := by decide
  have z3 : bZero.nat = enc 0 := enc_zero.symm
  have z4 : bEqW bZero 0#32 = true := by decide
  have zn : ∀ k : Nat, isNan (enc k) = false := fun k => by simp
  refine ⟨?_, ?_, ?_, ?_⟩
  · unfold bExp
    rw [nz_nan, nz_neg, z1, z2, z3, bIsNan_encI, bIsNan_encI, bIsNegative_encI, bEqW_zero_encI]
    simp only [Bool.or_self, Bool.false_eq_true, if_false]
    rw [show ([0#32] : Words) = enc 0 from enc_zero.symm]
    split
    · rfl
    next hc =>
    have hw : ∀ y : BInt, bModInverse y (encI m) = .ok bZero → (if decide (c < 0) = true then
        (do let inv ← bModInverse y (encI m); .ok inv.nat : Res Words) else .ok (enc 0)) = .ok (enc 0) := by
      intro y hy
      split
      · rw [hy]; exact congrArg Except.ok z3
      · rfl
    by_cases hcn : c < 0
    · have hm : m ≠ 0 := by
        intro h; apply hc; simp [hcn, h]
      rw [← nz_enc, hw _ ((C127_mod_inverse bZero (encI m) hn).1.trans (by rw [ival_encI, if_neg hm])), hw _ (inverse_zero hm)]
      simp only [bind, Except.bind, zn, Bool.false_eq_true, if_false]
      rw [encI_raw c, encI_raw m]
      dsimp only
      rw [natExp_enc false 0 c.natAbs m.natAbs (by simp)]
      have t1 := exp_tail (-1) (0 ^ c.natAbs % m.natAbs) c.natAbs m.natAbs (fun h => Nat.mod_lt _ (by omega))
      have t2 := exp_tail 0 (0 ^ c.natAbs % m.natAbs) c.natAbs m.natAbs (fun h => Nat.mod_lt _ (by omega))
      have e0 : 0 ^ c.natAbs % m.natAbs = 0 := by rw [zero_pow (by omega)]; simp
      rw [e0] at t1 t2 ⊢
      exact (t1.trans (by simp)).trans t2.symm
    · simp only [hcn, decide_false, Bool.false_eq_true, if_false, bind, Except.bind, zn]
      rw [encI_raw c, encI_raw m]
      dsimp only
      rw [natExp_enc false 0 c.natAbs m.natAbs (by simp)]
      have t1 := exp_tail (-1) (0 ^ c.natAbs % m.natAbs) c.natAbs m.natAbs (fun h => Nat.mod_lt _ (by omega))
      have t2 := exp_tail 0 (0 ^ c.natAbs % m.natAbs) c.natAbs m.natAbs (fun h => Nat.mod_lt _ (by omega))
      refine (t1.trans ?_).trans t2.symm
      by_cases h0 : c.natAbs = 0
      · simp [h0]
      · rw [zero_pow h0]; simp
  · have hr := bExp_nonneg false a 0 m (by simp)
    rw [show encI ((0 : Nat) : Int) = bZero from bZero_eq.symm] at hr
    rw [hr]
    unfold bExp
    rw [nz_nan, nz_neg, bIsNan_encI, bIsNan_encI, bEqW_zero_encI]
    simp only [Bool.or_self, Bool.false_eq_true, if_false, Bool.true_and, if_true, decide_eq_true_eq]
    by_cases hm : m = 0
    · rw [if_pos hm, if_pos hm, bOne_eq, pow_zero]
    · rw [if_neg hm, if_neg hm]
      obtain ⟨v, h1, h2, -⟩ := bModInverse_spec a hm
      simp only [bind, Except.bind, h1]
      rw [encI_raw v]
      simp only [zn, Bool.false_eq_true, if_false]
      rw [encI_raw m, show ([0#32] : Words) = enc 0 from enc_zero.symm, bIsNegative_encI]
      dsimp only
      rw [natExp_enc false v.natAbs 0 m.natAbs (by simp)]
      have t1 := exp_tail a (v.natAbs ^ 0 % m.natAbs) 0 m.natAbs (fun h => Nat.mod_lt _ (by omega))
      refine t1.trans ?_
      simp only [pow_zero]
      rw [if_neg (by simp), Int.natCast_mod, Int.natCast_natAbs, Int.emod_abs, Nat.cast_one]
  · intro h
    have hc : ¬ c < 0 := by omega
    unfold bExp
    rw [nz_nan, z1, bIsNegative_encI]
    simp only [hc, decide_false, Bool.false_and, Bool.false_eq_true, if_false]
    rfl
  · intro h
    constructor
    · rw [bExp, z1, z4, bIsNan_encI, bIsNan_encI, bIsNegative_encI]
      simp [h]
    · unfold bExp
      rw [nz_nan, nz_zero, bIsNan_encI, bIsNan_encI, bIsNegative_encI, (C127_mod_inverse (encI a) (encI m) hn).2 (bIsNan_encI a),
        C43_zero_modulus (encI a) bZero (canonI_encI a) (by rw [bZero_eq]; exact canonI_encI 0) (by decide), ival_encI]
      simp only [Bool.or_self, Bool.false_eq_true, if_false, Bool.and_false, h, decide_true, if_true]
      by_cases ha : a < 0
      · simp [ha, bind, Except.bind]
      · rw [if_neg ha]
        obtain ⟨k, hk, e1⟩ : ∃ k : Nat, k ≤ 1 ∧ (if a = 0 then Except.ok bZero else Except.ok bOne : Res BInt) = .ok (encI k) := by
          by_cases h0 : a = 0
          · exact ⟨0, by omega, by rw [if_pos h0, bZero_eq]; rfl⟩
          · exact ⟨1, by omega, by rw [if_neg h0, bOne_eq]; rfl⟩
        rw [e1]
        simp only [bind, Except.bind]
        rw [encI_ofNat]
        simp only [zn, Bool.false_eq_true, if_false]
        rw [encI_raw c, show ([0#32] : Words) = enc 0 from enc_zero.symm, bIsNegative_encI]
        dsimp only
        rw [natExp_enc false k c.natAbs 0 (by simp)]
        have t1 := exp_tail a (k ^ c.natAbs % 0) c.natAbs 0 (fun h => absurd rfl h)
        refine t1.trans ?_
        rw [if_neg (fun h => ha h.1), Nat.mod_zero, ← encI_ofNat]
        interval_cases k
        · rw [zero_pow (by omega)]
        · rw [one_pow]

/-- The square root of the negative zero is NaN, its square zero; it is printed as `-0`, a random number below it is NaN, and its lowest bit
is reported as 0 and all others as absent. -/
theorem C127_rest (ds : List (Option W)) (i : Nat) :
    bSqrt ⟨[0#32], true⟩ = .ok bNan ∧ bSqr ⟨[0#32], true⟩ = bZero ∧ bDisplay ⟨[0#32], true⟩ = .ok ['-', '0'] ∧
    bRandom ⟨[0#32], true⟩ ds = some (⟨NaN, true⟩, ds) ∧
    bIsSetBit ⟨[0#32], true⟩ i = .ok (if i = 0 then some false else none) := by
  refine ⟨by decide, by decide, by decide, ?_, ?_⟩
  · rfl
  · have e : natSubW [0#32] 1#32 = [1#32] := by decide
    have hl : bitsLen [1#32] = 1 := by decide
    unfold bIsSetBit
    simp only [if_true, e, isSetBit, hl]
    by_cases h : i = 0
    · subst h; decide
    · rw [if_pos (by omega), if_neg h]
      rfl

/-- The negative zero that `-4 % 2` delivers is not a zero for these functions. -/
theorem C127_violated :
    bRem ⟨[4#32], true⟩ ⟨[2#32], false⟩ = .ok ⟨[0#32], true⟩ ∧ bSqrt ⟨[0#32], true⟩ = .ok bNan ∧ bSqrt bZero = .ok bZero ∧
    bRemEuclid ⟨[0#32], true⟩ ⟨[3#32], false⟩ = .ok ⟨[3#32], false⟩ ∧
    bSolve ⟨[2#32], false⟩ ⟨[0#32], true⟩ ⟨[3#32], false⟩ = .ok none ∧ bSolve ⟨[2#32], false⟩ bZero ⟨[3#32], false⟩ = .ok (some [bZero]) ∧
    bJacobi ⟨[2#32], false⟩ ⟨[0#32], true⟩ = .error .panic ∧ bJacobi ⟨[2#32], false⟩ bZero = .ok none := by
  decide

example : CanonI (encI 3) ∧ ival (encI 3) ≠ 0 := ⟨canonI_encI _, by simp⟩

end RMath
