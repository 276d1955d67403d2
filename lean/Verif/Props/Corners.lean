import Verif.Props.NatArith
import Verif.Props.BigInt
import Verif.Props.Rat
import Verif.Props.Float

/-! Exact descriptions of what the code does where a property of the list holds only in part: every input that the
`_partial` theorems leave out is covered here. -/

namespace RMath

/-! ## C12 machine words on the right -/

/-- Exactly when `a * u32` is the product as a number: it must need one more word than `a`. -/
theorem C12_mul_iff (a : Words) (u : W) (ha : Canon a) :
    (Canon (natMulW a u) ↔ 2 ^ (32 * a.length) ≤ val a * u.toNat) ∧
    (natMulW a u = natMul a [u] ↔ 2 ^ (32 * a.length) ≤ val a * u.toNat) := by
  have h0 : Canon (natMulW a u) ↔ 2 ^ (32 * a.length) ≤ val a * u.toNat := by
    refine ⟨fun h => ?_, fun h => ?_⟩
    · by_contra hc
      exact C12_mul_not_canonical a u ha (by omega) h
    have e : natMulW a u = mulInnerBasic a u := by
      obtain ⟨a, rfl⟩ := canon_iff_enc.1 ha
      exact opPrim_enc _ _ _
    rw [e]
    have hv := mulInnerBasic_val a u
    have hl : (mulInnerBasic a u).length = a.length + 1 := by
      have h1 := (mulBasicLoop_val u 0#64 a (by decide)).2
      unfold mulInnerBasic
      simp only
      rw [if_neg]
      · simp [mulBasicLoop_length]
      · rw [gt_iff_lt, BitVec.lt_def]
        simp only [BitVec.toNat_ofNat]
        omega
    refine canon_of_le_val (by intro h; rw [h] at hl; simp at hl) fun _ => ?_
    rw [hv, hl]
    simpa using h
  refine ⟨h0, ?_, fun h => ?_⟩
  · intro h
    rw [← h0, h]
    obtain ⟨a, rfl⟩ := canon_iff_enc.1 ha
    rw [natMul, singleton_eq_enc, opNat_enc, mulInner_enc]
    exact canon_enc _
  · refine canon_ext (h0.2 h) ?_ (C12_sub_mul_val_partial a u ha).2
    obtain ⟨a, rfl⟩ := canon_iff_enc.1 ha
    rw [natMul, singleton_eq_enc, opNat_enc, mulInner_enc]
    exact canon_enc _

/-- Exactly when `a - u32` is the difference as a number: the difference must need as many words as `a`. -/
theorem C12_sub_iff (a : Words) (u : W) (ha : Canon a) :
    (Canon (natSubW a u) ↔ a.length = 1 ∨ 2 ^ (32 * (a.length - 1)) + u.toNat ≤ val a) ∧
    (natSubW a u = natSub a [u] ↔ a.length = 1 ∨ 2 ^ (32 * (a.length - 1)) + u.toNat ≤ val a) := by
  have hp := ha.length_pos
  have e : natSubW a u = subInnerBasic a u := by
    obtain ⟨a, rfl⟩ := canon_iff_enc.1 ha
    exact opPrim_enc _ _ _
  have hl : (subInnerBasic a u).length = a.length := by
    unfold subInnerBasic
    split <;> simp [sbbBasic_length]
  have hv := subInnerBasic_val ha u
  have h0 : Canon (natSubW a u) ↔ a.length = 1 ∨ 2 ^ (32 * (a.length - 1)) + u.toNat ≤ val a := by
    rw [e, canon_iff_le_val, hl, hv]
    have hne : subInnerBasic a u ≠ [] := by intro h; rw [h] at hl; simp at hl; omega
    simp only [ne_eq, hne, not_false_eq_true, true_and]
    by_cases h1 : a.length = 1
    · simp [h1]
    · have h2 := ha.le_val (by omega)
      have h3 : 2 ^ 32 ≤ 2 ^ (32 * (a.length - 1)) := Nat.pow_le_pow_right (by norm_num) (by omega)
      have h4 := u.isLt
      simp only [h1, false_or, show 1 < a.length by omega, true_imp_iff]
      generalize 2 ^ (32 * (a.length - 1)) = P at *
      omega
  refine ⟨h0, ?_, fun h => ?_⟩
  · intro h
    rw [← h0, h]
    obtain ⟨a, rfl⟩ := canon_iff_enc.1 ha
    rw [natSub, singleton_eq_enc, opNat_enc, subInner_enc]
    exact canon_enc _
  · refine canon_ext (h0.2 h) ?_ (C12_sub_mul_val_partial a u ha).1
    obtain ⟨a, rfl⟩ := canon_iff_enc.1 ha
    rw [natSub, singleton_eq_enc, opNat_enc, subInner_enc]
    exact canon_enc _

example : Canon [0#32, 1#32] ∧ ¬ 2 ^ (32 * ([0#32, 1#32] : Words).length) ≤ val [0#32, 1#32] * (2#32).toNat ∧
    Canon [3000000000#32] ∧ 2 ^ (32 * ([3000000000#32] : Words).length) ≤ val [3000000000#32] * (2#32).toNat ∧
    2 ^ (32 * (([7#32, 1#32] : Words).length - 1)) + (7#32).toNat ≤ val [7#32, 1#32] ∧
    ¬ 2 ^ (32 * (([6#32, 1#32] : Words).length - 1)) + (7#32).toNat ≤ val [6#32, 1#32] :=
  ⟨⟨by decide, by decide⟩, by decide, ⟨by decide, by decide⟩, by decide, by decide, by decide⟩

/-! ## C43 inverse, where there is none -/

/-- For any modulus other than zero, `mod_inverse` returns a number in `[0, |n|)` that `a` multiplies to the greatest common
divisor: where `a` has no inverse, a wrong number comes back and not an error or NaN. -/
theorem C43_not_coprime (x n : BInt) (hx : CanonI x) (hn : CanonI n) (h0 : ival n ≠ 0) :
    ∃ v, bModInverse x n = .ok v ∧ CanonI v ∧ 0 ≤ ival v ∧ ival v < |ival n| ∧
      ival x * ival v ≡ Int.gcd (ival x) (ival n) [ZMOD ival n] := by
  obtain ⟨a, rfl⟩ := canonI_iff_encI.1 hx
  obtain ⟨b, rfl⟩ := canonI_iff_encI.1 hn
  simp only [ival_encI] at *
  obtain ⟨v, h1, h2, h3, h4⟩ := bModInverse_spec' a h0
  exact ⟨_, h1, canonI_encI _, by simpa using h2, by simpa using h3, by simpa using h4⟩

/-- Modulo zero, `mod_inverse` of a negative number panics, and otherwise it returns 1, or 0 for 0. -/
theorem C43_zero_modulus (x n : BInt) (hx : CanonI x) (hn : CanonI n) (h0 : ival n = 0) :
    bModInverse x n = if ival x < 0 then .error .panic else if ival x = 0 then .ok bZero else .ok bOne := by
  obtain ⟨a, rfl⟩ := canonI_iff_encI.1 hx
  obtain ⟨b, rfl⟩ := canonI_iff_encI.1 hn
  simp only [ival_encI] at *
  subst h0
  unfold bModInverse
  simp only [bIsNan_encI, Bool.or_self, Bool.false_eq_true, if_false, bIsNegative_encI, decide_eq_true_eq, lt_irrefl,
    bDeepClone_encI, bRemEuclid_zero]
  by_cases ha : a < 0
  · simp [ha, bind, Except.bind]
  · rw [if_neg ha, if_neg ha]
    unfold bGcd
    simp only [bIsNan_encI, Bool.or_self, Bool.false_eq_true, if_false, bEqW_zero_encI, bind, Except.bind]
    by_cases h0 : a = 0
    · subst h0
      simp [bZero_eq]
    · simp [h0, ha, bOne_eq]

/-! ## C44 linear congruences with a modulus that is not positive -/

/-- A negative modulus counts as its absolute value. -/
theorem C44_negative_modulus (x b n : BInt) (hn : CanonI n) (h : ival n < 0) : bSolve x b n = bSolve x b (bAbs n) := by
  obtain ⟨n, rfl⟩ := canonI_iff_encI.1 hn
  rw [ival_encI] at h
  unfold bSolve
  simp only [bAbs_encI, bIsNan_encI, bIsNegative_encI, decide_eq_true_eq, h, if_true, abs_nonneg, not_lt_of_ge, if_false]

/-- Modulo zero: a negative factor panics, the factor zero has no solutions, and otherwise there is a panic instead of the
one solution, or `None` if there is no solution or the right-hand side is negative. -/
theorem C44_zero_modulus (x b n : BInt) (hx : CanonI x) (hb : CanonI b) (hn : CanonI n) (h0 : ival n = 0) :
    bSolve x b n = if ival x < 0 then .error .panic else if ival x = 0 then .ok none
      else if ival x ∣ ival b ∧ 0 ≤ ival b then .error .panic else .ok none := by
  obtain ⟨a, rfl⟩ := canonI_iff_encI.1 hx
  obtain ⟨b, rfl⟩ := canonI_iff_encI.1 hb
  obtain ⟨n, rfl⟩ := canonI_iff_encI.1 hn
  simp only [ival_encI] at *
  subst h0
  unfold bSolve
  simp only [bIsNan_encI, Bool.or_self, Bool.false_eq_true, if_false, bIsNegative_encI, decide_eq_true_eq, lt_irrefl,
    bRemEuclid_zero]
  by_cases ha : a < 0
  · simp [ha, bind, Except.bind]
  rw [if_neg ha, if_neg ha]
  obtain ⟨g, y, h1, -, -⟩ := bGcd_spec a 0
  simp only [bind, Except.bind, h1]
  rw [Int.gcd_zero_right]
  have e : (a.natAbs : Int) = a := by omega
  rw [e, bZero_eq, bGt_encI]
  by_cases h0 : a = 0
  · simp [h0]
  have hpos : 0 < a := by omega
  simp only [hpos, decide_true, if_true, h0, if_false]
  have hdiv : (if bEq (encI b) (encI 0) then (.ok true : Res Bool)
        else (do let r ← bRem (encI b) (encI a); .ok (bEqW r 0#32))) = .ok (decide (a ∣ b ∧ 0 ≤ b)) := by
    rw [bEq_encI]
    by_cases hb0 : b = 0
    · subst hb0; simp
    · rw [if_neg (by simpa using hb0), bRem_eq, bRemInner_encI b (by omega)]
      simp only [bind, Except.bind, bEqW, ← enc_zero, eqv_enc, Except.ok.injEq]
      rw [Bool.eq_iff_iff]
      simp only [Bool.and_eq_true, decide_eq_true_eq, Bool.not_eq_true', decide_eq_false_iff_not]
      rw [← Nat.dvd_iff_mod_eq_zero, Int.natAbs_dvd_natAbs]
      constructor
      · rintro ⟨h, h'⟩; exact ⟨h', by omega⟩
      · rintro ⟨h, h'⟩; exact ⟨by omega, h⟩
  simp only [bind, Except.bind] at hdiv
  rw [hdiv]
  by_cases hc : a ∣ b ∧ 0 ≤ b
  · simp only [hc, and_self, decide_true, if_true]
    rw [bDiv_nonneg hc.2 hpos]
    simp only [bMulInner_encI, bRemEuclid_zero]
  · simp only [hc, decide_false, if_false, Bool.false_eq_true]

example : bSolve ⟨[4#32], false⟩ ⟨[2#32], false⟩ ⟨[6#32], true⟩ = .ok (some [⟨[5#32], false⟩, ⟨[2#32], false⟩]) := by decide
example : bSolve ⟨[4#32], false⟩ ⟨[8#32], false⟩ ⟨[0#32], false⟩ = .error .panic ∧
    bModInverse ⟨[4#32], false⟩ ⟨[6#32], false⟩ = .ok ⟨[5#32], false⟩ := by decide

/-! ## C50 binomial coefficients of negative numbers and at the ends of `i64` -/

theorem sshiftRight_one_toInt (n : D) : (n.sshiftRight 1).toInt = n.toInt / 2 := by
  rw [BitVec.toInt_sshiftRight, Int.shiftRight_eq_div_pow]; rfl

/-- the exchange of `k` and `n - k` happens for `n / 2 < k ≤ n` -/
theorem binomial_swap (n k : D) : ((n.sshiftRight 1).slt k && k.sle n) = decide (n.toInt / 2 < k.toInt ∧ k.toInt ≤ n.toInt) := by
  rw [BitVec.slt, BitVec.sle, sshiftRight_one_toInt, Bool.decide_and]

theorem bBinomial_plain (checks : Bool) (n k : D) (hs : ¬(n.toInt / 2 < k.toInt ∧ k.toInt ≤ n.toInt))
    (h1 : -2 ^ 63 ≤ n.toInt - k.toInt) (h2 : n.toInt - k.toInt ≤ 2 ^ 63 - 2) :
    bBinomial checks n k = bDivInner (encI (∏ i ∈ Finset.Icc (n.toInt - k.toInt + 1) n.toInt, i))
      (encI (∏ i ∈ Finset.Icc 1 k.toInt, i)) := by
  have e1 := toInt_sub (a := n) (b := k) (by omega) (by omega)
  have e1' : (1#64 : D).toInt = 1 := by decide
  have e2 := toInt_add (a := n - k) (b := 1#64) (by rw [e1, e1']; omega) (by rw [e1, e1']; omega)
  unfold bBinomial
  rw [binomial_swap, decide_eq_false hs]
  simp only [Bool.false_eq_true, if_false, bind, Except.bind]
  rw [subI64_ok checks (by omega) (by omega)]
  simp only
  rw [addI64_ok checks (by rw [e1, e1']; omega) (by rw [e1, e1']; omega)]
  simp only
  rw [bMulRange_spec checks _ _ (by intro _ _ hh; rw [e2, e1, e1']; omega), bMulRange_spec checks _ _ (by intro _ _ hh; omega)]
  simp only
  rw [e2, e1, e1']

/-- For a negative `k` the answer is 1, whatever `n` is; the binomial coefficient is 0. -/
theorem C50_below (checks : Bool) (n k : D) (hk : k.toInt < 0) (h : n.toInt - k.toInt ≤ 2 ^ 63 - 2) :
    bBinomial checks n k = .ok bOne := by
  have hn := BitVec.le_toInt n
  have hk' := BitVec.le_toInt k
  norm_num at hn hk'
  rw [bBinomial_plain checks n k (by omega) (by omega) h, Finset.Icc_eq_empty (by omega), Finset.Icc_eq_empty (by omega),
    Finset.prod_empty, bDivInner_encI _ (by omega), bOne_eq, encI]
  simp

theorem prod_negative (n k : Int) (hn : n < 0) (hk : 0 ≤ k) : ∏ i ∈ Finset.Icc (n - k + 1) n, i
    = (-1) ^ k.toNat * ((k - n - 1).toNat.choose k.toNat : Int) * (k.toNat.factorial : Int) := by
  by_cases h0 : k = 0
  · subst h0
    rw [Finset.Icc_eq_empty (by omega)]
    simp
  rw [prod_reflect _ _ (by omega), show -(n - k + 1) = k - n - 1 by ring,
    show -n = (k - n - 1) - k + 1 by ring, (binomial_core (k - n - 1) k hk (by omega)).1, mul_assoc]
  congr 2
  omega

theorem bDivInner_exact (a : Int) {b : Int} (hb : 0 < b) : bDivInner (encI (a * b)) (encI b) = .ok (encI a) := by
  rw [bDivInner_encI _ hb.ne', Int.natAbs_mul, Nat.mul_div_cancel _ (by omega), encI_raw a]
  congr 3
  rw [eq_iff_iff]
  simp only [ne_eq, mul_eq_zero, hb.ne', or_false, not_lt_of_gt hb, eq_iff_iff, iff_false,
    not_not]
  constructor
  · rintro ⟨h, h'⟩
    by_contra hc
    have : 0 ≤ a * b := mul_nonneg (by omega) hb.le
    omega
  · intro h
    exact ⟨mul_neg_of_neg_of_pos h hb, by omega⟩

/-- For a negative `n` and `k ≥ 0` the answer is the generalised binomial coefficient `n (n-1) ⋯ (n-k+1) / k!`, that is
`(-1)^k` times the coefficient of `k - n - 1` over `k`. -/
theorem C50_negative_n (checks : Bool) (n k : D) (hn : n.toInt < 0) (hk : 0 ≤ k.toInt) (h : -2 ^ 63 ≤ n.toInt - k.toInt) :
    ∃ r, bBinomial checks n k = .ok r ∧ CanonI r ∧
      ival r = (-1) ^ k.toInt.toNat * ((k.toInt - n.toInt - 1).toNat.choose k.toInt.toNat : Int) ∧
      ival r * (k.toInt.toNat.factorial : Int) = ∏ i ∈ Finset.Icc (n.toInt - k.toInt + 1) n.toInt, i := by
  refine ⟨_, ?_, canonI_encI _, ival_encI _, ?_⟩
  · rw [bBinomial_plain checks n k (by omega) h (by omega), prod_negative _ _ hn hk, (binomial_core _ _ hk le_rfl).2]
    exact bDivInner_exact _ (by exact_mod_cast Nat.factorial_pos _)
  · rw [ival_encI, prod_negative _ _ hn hk]

theorem subI64_panic {a b : D} (h : a.toInt - b.toInt < -2 ^ 63 ∨ 2 ^ 63 ≤ a.toInt - b.toInt) :
    subI64 true a b = .error .panic := by
  unfold subI64
  rw [if_pos]
  simp only [BitVec.ssubOverflow, Bool.true_and, Bool.or_eq_true, decide_eq_true_eq]
  norm_num at *
  omega

theorem addI64_panic {a b : D} (h : a.toInt + b.toInt < -2 ^ 63 ∨ 2 ^ 63 ≤ a.toInt + b.toInt) :
    addI64 true a b = .error .panic := by
  unfold addI64
  rw [if_pos]
  simp only [BitVec.saddOverflow, Bool.true_and, Bool.or_eq_true, decide_eq_true_eq]
  norm_num at *
  omega

/-- The inputs that overflow `i64` on the way: the coefficients of `i64::MAX` over 0 and over itself, a `k` far below zero,
and an `n` far below zero. -/
def BinomialOverflow (n k : Int) : Prop :=
  (n = 2 ^ 63 - 1 ∧ (k = 0 ∨ k = n)) ∨ (k < 0 ∧ 2 ^ 63 - 1 ≤ n - k) ∨ (n < 0 ∧ 0 ≤ k ∧ n - k < -2 ^ 63)

/-- A debug build panics on exactly the inputs that overflow. -/
theorem C50_debug_panics (n k : D) : bBinomial true n k = .error .panic ↔ BinomialOverflow n.toInt k.toInt := by
  have hn1 := BitVec.le_toInt n
  have hk1 := BitVec.le_toInt k
  have hn2 := n.toInt_lt
  have hk2 := k.toInt_lt
  norm_num at hn1 hk1 hn2 hk2
  have e1' : (1#64 : D).toInt = 1 := by decide
  constructor
  · intro hp
    by_contra hc
    unfold BinomialOverflow at hc
    by_cases hn : n.toInt < 0
    · by_cases hk : k.toInt < 0
      · rw [C50_below true n k hk (by omega)] at hp; simp at hp
      · obtain ⟨r, h, -⟩ := C50_negative_n true n k hn (by omega) (by omega)
        rw [h] at hp; simp at hp
    · by_cases hk : k.toInt < 0
      · rw [C50_below true n k hk (by omega)] at hp; simp at hp
      · obtain ⟨r, h, -⟩ := C50_binomial_partial true n k (by omega) (by omega) (by omega)
        rw [h] at hp; simp at hp
  · intro h
    -- the panic comes from `n - k + 1`
    have key : ∀ k' : D, (n.toInt - k'.toInt < -2 ^ 63 ∨ 2 ^ 63 - 1 ≤ n.toInt - k'.toInt) →
        (do let nk ← subI64 true n k'
            let lo ← addI64 true nk 1#64
            let a ← bMulRange true lo n
            let b ← bMulRange true 1#64 k'
            bDivInner a b : Res BInt) = .error .panic := by
      intro k' hk'
      by_cases ho : n.toInt - k'.toInt < -2 ^ 63 ∨ 2 ^ 63 ≤ n.toInt - k'.toInt
      · rw [subI64_panic ho]; rfl
      · rw [subI64_ok true (by omega) (by omega)]
        simp only [bind, Except.bind]
        rw [addI64_panic]
        rw [toInt_sub (by omega) (by omega), e1']
        omega
    unfold bBinomial
    rw [binomial_swap]
    unfold BinomialOverflow at h
    by_cases hs : n.toInt / 2 < k.toInt ∧ k.toInt ≤ n.toInt
    · simp only [hs, and_self, decide_true, if_true]
      rw [subI64_ok true (by omega) (by omega)]
      refine key _ ?_
      rw [toInt_sub (by omega) (by omega)]
      omega
    · simp only [hs, decide_false, Bool.false_eq_true, if_false]
      exact key _ (by omega)

theorem bBinomial_release (n k k' : D)
    (hk : k' = if n.toInt / 2 < k.toInt ∧ k.toInt ≤ n.toInt then n - k else k) : bBinomial false n k =
      bDivInner (encI (∏ i ∈ Finset.Icc (n - k' + 1#64).toInt n.toInt, i)) (encI (∏ i ∈ Finset.Icc 1 k'.toInt, i)) := by
  have e1' : (1#64 : D).toInt = 1 := by decide
  have hm := fun a b => bMulRange_spec false a b (by simp)
  have h1 : (if (n.sshiftRight 1).slt k && k.sle n then subI64 false n k else .ok k : Res D) = .ok k' := by
    rw [binomial_swap, hk]
    simp only [decide_eq_true_eq, subI64, Bool.false_and, Bool.false_eq_true, if_false]
    split <;> rfl
  have h2 : subI64 false n k' = .ok (n - k') := rfl
  have h3 : addI64 false (n - k') 1#64 = .ok (n - k' + 1#64) := rfl
  have h4 := hm 1#64 k'
  rw [e1'] at h4
  unfold bBinomial
  rw [h1]
  simp only [bind, Except.bind]
  rw [h2]
  simp only
  rw [h3]
  simp only
  rw [hm, h4]

/-- What a release build answers on the inputs that overflow. -/
theorem C50_release_overflow (n k : D) (h : BinomialOverflow n.toInt k.toInt) :
    (0 ≤ n.toInt → bBinomial false n k = .ok bZero) ∧
    (n.toInt < 0 → n.toInt - k.toInt < -2 ^ 63 - 1 → bBinomial false n k = .ok bZero) ∧
    (n.toInt - k.toInt = -2 ^ 63 - 1 → ∃ r, bBinomial false n k = .ok r ∧ CanonI r ∧
      ival r = (-1) ^ k.toInt.toNat * ((k.toInt - n.toInt - 1).toNat.choose k.toInt.toNat : Int)) ∧
    (n.toInt < 0 → 0 < n.toInt - k.toInt → n.toInt = -1 ∧ k.toInt = -2 ^ 63 ∧
      ∃ r, bBinomial false n k = .ok r ∧ CanonI r ∧ ival r = ∏ i ∈ Finset.Icc k.toInt n.toInt, i) := by
  have hn1 := BitVec.le_toInt n
  have hk1 := BitVec.le_toInt k
  have hn2 := n.toInt_lt
  have hk2 := k.toInt_lt
  norm_num at hn1 hk1 hn2 hk2
  have e1' : (1#64 : D).toInt = 1 := by decide
  have high : 2 ^ 63 ≤ n.toInt - k.toInt + 1 → (n - k + 1#64).toInt = n.toInt - k.toInt + 1 - 2 ^ 64 := by
    intro h1
    rw [BitVec.toInt_add, BitVec.toInt_sub, e1', Int.bmod_add_bmod, ← Int.sub_bmod_right]
    push_cast
    exact Int.bmod_eq_of_le (by norm_num at *; omega) (by norm_num at *; omega)
  have low : n.toInt - k.toInt + 1 < -2 ^ 63 → (n - k + 1#64).toInt = n.toInt - k.toInt + 1 + 2 ^ 64 := by
    intro h1
    rw [BitVec.toInt_add, BitVec.toInt_sub, e1', Int.bmod_add_bmod, ← Int.add_bmod_right]
    push_cast
    exact Int.bmod_eq_of_le (by norm_num at *; omega) (by norm_num at *; omega)
  have mid : n.toInt - k.toInt + 1 = -2 ^ 63 → (n - k + 1#64).toInt = n.toInt - k.toInt + 1 := by
    intro h1
    rw [BitVec.toInt_add, BitVec.toInt_sub, e1', Int.bmod_add_bmod]
    exact Int.bmod_eq_of_le (by norm_num at *; omega) (by norm_num at *; omega)
  have plain : ¬(n.toInt / 2 < k.toInt ∧ k.toInt ≤ n.toInt) → bBinomial false n k
      = bDivInner (encI (∏ i ∈ Finset.Icc (n - k + 1#64).toInt n.toInt, i)) (encI (∏ i ∈ Finset.Icc 1 k.toInt, i)) := by
    intro hs
    exact bBinomial_release n k k (by rw [if_neg hs])
  have zero : ∀ b : Int, 0 < b → bDivInner (encI 0) (encI b) = .ok bZero := by
    intro b hb
    have := bDivInner_exact 0 hb
    rw [zero_mul] at this
    rw [this, bZero_eq]
  unfold BinomialOverflow at h
  refine ⟨fun hn => ?_, fun hn hlow => ?_, fun he => ?_, fun hn hlt => ?_⟩
  · by_cases hs : n.toInt / 2 < k.toInt ∧ k.toInt ≤ n.toInt
    · have en : n = BitVec.intMax 64 := BitVec.eq_of_toInt_eq (by rw [show n.toInt = 2 ^ 63 - 1 by omega]; decide)
      have ek : k = BitVec.intMax 64 := BitVec.eq_of_toInt_eq (by rw [show k.toInt = 2 ^ 63 - 1 by omega]; decide)
      subst en ek
      decide
    · rw [plain hs, high (by omega), Finset.prod_eq_zero (i := 0) (by simp only [Finset.mem_Icc]; omega) rfl,
        Finset.Icc_eq_empty (by omega), Finset.prod_empty]
      exact zero 1 (by omega)
  · rw [plain (by omega), low (by omega), Finset.Icc_eq_empty (by omega), Finset.prod_empty,
      (binomial_core k.toInt k.toInt (by omega) le_rfl).2, bDivInner_encI _ (by exact_mod_cast Nat.factorial_ne_zero _)]
    have hf : 1 < k.toInt.toNat.factorial := Nat.one_lt_factorial.2 (by omega)
    rw [Int.natAbs_natCast, Int.natAbs_one, Nat.div_eq_of_lt hf]
    have : ¬ ((k.toInt.toNat.factorial : Int) < 0) := by omega
    simp [this, bZero_eq, encI]
  · refine ⟨_, ?_, canonI_encI _, ival_encI _⟩
    rw [plain (by omega), mid (by omega), prod_negative _ _ (by omega) (by omega), (binomial_core _ _ (by omega) le_rfl).2]
    exact bDivInner_exact _ (by exact_mod_cast Nat.factorial_pos _)
  · have e1 : n.toInt = -1 := by omega
    have e2 : k.toInt = -2 ^ 63 := by omega
    refine ⟨e1, e2, _, ?_, canonI_encI _, ival_encI _⟩
    rw [plain (by omega), high (by omega), show n.toInt - k.toInt + 1 - 2 ^ 64 = k.toInt by omega,
      show Finset.Icc 1 k.toInt = ∅ from Finset.Icc_eq_empty (by omega), Finset.prod_empty]
    have := bDivInner_exact (∏ i ∈ Finset.Icc k.toInt n.toInt, i) (b := 1) (by omega)
    rwa [mul_one] at this

example : bBinomial true (-3#64) 2#64 = .ok ⟨[6#32], false⟩ ∧ bBinomial true (-3#64) 3#64 = .ok ⟨[10#32], true⟩ := by decide
example : BinomialOverflow (BitVec.intMax 64).toInt 0 ∧ BinomialOverflow 0 (BitVec.intMin 64).toInt ∧
    BinomialOverflow (-5) (2 ^ 63 - 1) := by unfold BinomialOverflow; decide

/-! ## C05, C28, C37, C38, C39, C40: exactly when the result is canonical -/

/-- Exactly when `a << s` is canonical. -/
theorem C05_canon_iff (a : Words) (s : Nat) (ha : Canon a) : Canon (natShl a s) ↔ val a ≠ 0 ∨ s < 32 := by
  refine ⟨fun h => ?_, C05_shl_canon_partial a s ha⟩
  by_contra hc
  push Not at hc
  obtain ⟨a, rfl⟩ := canon_iff_enc.1 ha
  rw [val_enc] at hc
  obtain ⟨rfl, hs⟩ := hc
  rw [enc_zero] at h
  exact (C05_shl_zero_not_canonical s hs).1 h

/-- Exactly when clearing a bit leaves a canonical number: unless it is the only bit of the top one of several words. -/
theorem C28_clear_canon_iff (a : Words) (k : Nat) (ha : Canon a) : Canon (setBits a k false) ↔
    ¬(1 < a.length ∧ 32 * (a.length - 1) ≤ k ∧ val a / 2 ^ (32 * (a.length - 1)) = 2 ^ (k - 32 * (a.length - 1))) := by
  have hl : (setBits a k false).length = a.length := by
    unfold setBits
    simp only [Bool.false_eq_true, if_false]
    split <;> simp
  have hne : setBits a k false ≠ [] := by
    intro h; rw [h] at hl; have := ha.length_pos; simp at hl; omega
  rw [canon_iff_le_val, hl]
  simp only [ne_eq, hne, not_false_eq_true, true_and]
  by_cases h1 : 1 < a.length
  · simp only [h1, true_imp_iff, true_and]
    have hv := ha.le_val h1
    have hbit := C28_set_bits a k false
    generalize 32 * (a.length - 1) = P at *
    generalize val (setBits a k false) = v at *
    generalize val a = u at *
    have hdiv : 2 ^ P ≤ v ↔ v / 2 ^ P ≠ 0 := by
      rw [ne_eq, Nat.div_eq_zero_iff]
      have := Nat.two_pow_pos P
      omega
    rw [hdiv, not_iff_not]
    constructor
    · intro h0
      have hz : ∀ i, i + P ≠ k → u.testBit (i + P) = false := by
        intro i hi
        have := hbit (i + P)
        rw [if_neg hi] at this
        rw [← this, Nat.testBit_add, h0, Nat.zero_testBit]
      have hk : P ≤ k := by
        by_contra hk
        have h0' : u / 2 ^ P = 0 := by
          apply Nat.eq_of_testBit_eq
          intro i
          rw [← Nat.testBit_add, hz i (by omega), Nat.zero_testBit]
        rw [Nat.div_eq_zero_iff] at h0'
        have := Nat.two_pow_pos P
        omega
      refine ⟨hk, ?_⟩
      have hkb : u.testBit k = true := by
        by_contra hkb
        have h0' : u / 2 ^ P = 0 := by
          apply Nat.eq_of_testBit_eq
          intro i
          rw [← Nat.testBit_add, Nat.zero_testBit]
          by_cases hi : i + P = k
          · rw [hi]; simpa using hkb
          · exact hz i hi
        rw [Nat.div_eq_zero_iff] at h0'
        have := Nat.two_pow_pos P
        omega
      apply Nat.eq_of_testBit_eq
      intro i
      rw [← Nat.testBit_add, Nat.testBit_two_pow]
      by_cases hi : i + P = k
      · rw [hi, hkb]; simp; omega
      · rw [hz i hi]; simp; omega
    · rintro ⟨hk, h⟩
      apply Nat.eq_of_testBit_eq
      intro i
      rw [← Nat.testBit_add, Nat.zero_testBit, hbit]
      split
      · rfl
      · rename_i hi
        have : (u / 2 ^ P).testBit i = (2 ^ (k - P)).testBit i := by rw [h]
        rw [← Nat.testBit_add, Nat.testBit_two_pow] at this
        rw [this]
        simp
        omega
  · simp [h1]

/-- Exactly when the quotient and the remainder are canonical. -/
theorem C37_canon_iff (x y : BInt) (hx : CanonI x) (hy : CanonI y) (h0 : ival y ≠ 0) :
    ∃ q r, bDiv x y = .ok q ∧ bRem x y = .ok r ∧
      (CanonI q ↔ ¬((ival x < 0 ∧ 0 < ival y ∨ 0 < ival x ∧ ival y < 0) ∧ |ival x| < |ival y|)) ∧
      (CanonI r ↔ ¬(ival x < 0 ∧ ival y ∣ ival x)) := by
  obtain ⟨q, r, h1, h2, -, -, -, -, h3, h4⟩ := C37_div_rem_partial x y hx hy h0
  refine ⟨q, r, h1, h2, ⟨fun hq hc => ?_, h3⟩, ⟨fun hr hc => ?_, h4⟩⟩
  · obtain ⟨a, rfl⟩ := canonI_iff_encI.1 hx
    obtain ⟨b, rfl⟩ := canonI_iff_encI.1 hy
    simp only [ival_encI] at *
    rw [bDiv_eq, bDivInner_encI a h0, Except.ok.injEq] at h1
    subst h1
    refine hq.2 ?_ ?_
    · simp only [decide_eq_true_eq, ne_eq, eq_iff_iff]
      omega
    · rw [val_enc, Nat.div_eq_zero_iff]
      rw [Int.abs_eq_natAbs, Int.abs_eq_natAbs] at hc
      omega
  · obtain ⟨a, rfl⟩ := canonI_iff_encI.1 hx
    obtain ⟨b, rfl⟩ := canonI_iff_encI.1 hy
    simp only [ival_encI] at *
    rw [bRem_eq, bRemInner_encI a h0, Except.ok.injEq] at h2
    subst h2
    refine hr.2 (by simpa using hc.1) ?_
    rw [val_enc]
    exact Nat.mod_eq_zero_of_dvd (Int.natAbs_dvd_natAbs.2 hc.2)

/-- Exactly when the Euclidean quotient is canonical. -/
theorem C38_canon_iff (x n : BInt) (hx : CanonI x) (hn : CanonI n) (h0 : ival n ≠ 0) :
    ∃ q, bDivEuclid x n = .ok q ∧ (CanonI q ↔ ¬(0 < ival x ∧ ival x < -ival n)) := by
  obtain ⟨a, rfl⟩ := canonI_iff_encI.1 hx
  obtain ⟨b, rfl⟩ := canonI_iff_encI.1 hn
  simp only [ival_encI] at *
  by_cases ha : a < 0
  · refine ⟨_, bDivEuclid_neg h0 ha, fun _ => by omega, fun _ => canonI_encI _⟩
  · refine ⟨_, bDivEuclid_nonneg h0 (by omega), fun h hc => ?_, fun h => ⟨canon_enc _, ?_⟩⟩
    · refine h.2 (by simp only [decide_eq_true_eq]; omega) ?_
      rw [val_enc, Nat.div_eq_zero_iff]
      omega
    · simp only [decide_eq_true_eq, val_enc]
      intro h1 h2
      rw [Nat.div_eq_zero_iff] at h2
      omega

/-- Exactly when `!a` is canonical. -/
theorem C39_not_canon_iff (x : BInt) (hx : CanonI x) : CanonI (bNot x) ↔ ¬(∃ k, 0 < k ∧ ival x = -2 ^ (32 * k)) := by
  refine ⟨?_, (C39_not x hx).2⟩
  rintro h ⟨k, hk, e⟩
  obtain ⟨a, rfl⟩ := canonI_iff_encI.1 hx
  rw [ival_encI] at e
  rw [bNot, bIsNan_encI, if_neg (by simp)] at h
  have hneg : a < 0 := by rw [e]; have : (0 : Int) < 2 ^ (32 * k) := by positivity
                          omega
  rcases a with m | m
  · simp at hneg; omega
  · obtain ⟨h1, h2, h3⟩ := decW_spec m
    simp only [encI_negSucc, if_true, natSubW_one] at h
    have hm : m + 1 = 2 ^ (32 * k) := by
      rw [Int.negSucc_eq] at e
      have : ((m + 1 : Nat) : Int) = ((2 ^ (32 * k) : Nat) : Int) := by push_cast; omega
      exact_mod_cast this
    have hlen : (enc (m + 1)).length = k + 1 := by
      have a1 := (canon_enc (m + 1)).le_val
      have a2 := val_lt (enc (m + 1))
      rw [val_enc] at a1 a2
      generalize (enc (m + 1)).length = L at *
      rw [hm] at a1 a2
      have a3 := (Nat.pow_lt_pow_iff_right (by norm_num : 1 < 2)).1 a2
      have a4 := (Nat.pow_le_pow_iff_right (by norm_num : 1 < 2)).1 (a1 (by omega))
      omega
    have hc := h.1.le_val (by rw [h2, hlen]; omega)
    rw [h1, h2, hlen] at hc
    simp at hc
    omega

/-- Exactly when `a << s` is canonical. -/
theorem C40_shl_canon_iff (x : BInt) (hx : CanonI x) (s : Nat) : CanonI (bShl x s) ↔ ival x ≠ 0 ∨ s < 32 := by
  refine ⟨fun h => ?_, (C40_shl x hx s).2⟩
  by_contra hc
  push Not at hc
  obtain ⟨a, rfl⟩ := canonI_iff_encI.1 hx
  rw [ival_encI] at hc
  obtain ⟨rfl, hs⟩ := hc
  have h1 := h.1
  rw [bShl, bDeepClone_encI, encI] at h1
  rw [Int.natAbs_zero, enc_zero] at h1
  exact (C05_shl_zero_not_canonical s hs).1 h1

example : Canon [0#32, 1#32] ∧ 1 < ([0#32, 1#32] : Words).length ∧ 32 * (([0#32, 1#32] : Words).length - 1) ≤ 32 ∧
    val [0#32, 1#32] / 2 ^ (32 * (([0#32, 1#32] : Words).length - 1)) = 2 ^ (32 - 32 * (([0#32, 1#32] : Words).length - 1)) :=
  ⟨⟨by decide, by decide⟩, by decide, by decide, by decide⟩
example : bDivEuclid ⟨[4#32], false⟩ ⟨[5#32], true⟩ = .ok ⟨[0#32], true⟩ := by decide

/-! ## C53 fractions of machine integers that overflow -/

/-- A debug build panics exactly when a negation overflows. -/
theorem C53_debug_panics (n d : BitVec 64) : rFromFrac true n d = .error .panic ↔
    (d.toInt < 0 ∧ n.toInt = -2 ^ 63) ∨ d.toInt = -2 ^ 63 := by
  have hmin : ∀ x : BitVec 64, x = BitVec.intMin 64 ↔ x.toInt = -2 ^ 63 := fun x => by
    rw [← BitVec.toInt_inj]; rfl
  constructor
  · intro h
    by_contra hc
    push Not at hc
    by_cases h0 : d.toInt = 0
    · rw [(C53_from_frac_partial true n d).1 h0] at h; simp at h
    · obtain ⟨r, hr, -⟩ := (C53_from_frac_partial true n d).2 h0 (fun h => hc.1 h.1 h.2) (fun _ => hc.2)
      rw [hr] at h; simp at h
  · intro h
    unfold rFromFrac
    have h0 : d ≠ 0#64 := by rintro rfl; revert h; simp
    rw [if_neg h0, if_pos]
    simp only [Bool.true_and, Bool.or_eq_true, Bool.and_eq_true, beq_iff_eq, hmin, BitVec.msb_eq_toInt, decide_eq_true_eq]
    exact h

/-- A release build gives `isize::MIN / d` the wrong sign for every negative `d`. -/
theorem C53_release_overflow (n d : BitVec 64) (hd : d.toInt < 0) (hn : n.toInt = -2 ^ 63) :
    ∃ r, rFromFrac false n d = .ok (some r) ∧ RatOk r ∧ CanonI r.a ∧ LowestTerms r ∧
      qval r = -((n.toInt : ℚ) / d.toInt) := by
  have hmin : ∀ x : BitVec 64, x = BitVec.intMin 64 ↔ x.toInt = -2 ^ 63 := fun x => by
    rw [← BitVec.toInt_inj]; rfl
  have hneg : ∀ x : BitVec 64, x.toInt ≠ -2 ^ 63 → (-x).toInt = -x.toInt := fun x h =>
    BitVec.toInt_neg_of_ne_intMin (fun h' => h ((hmin x).1 h'))
  have hmsb : d.msb = true := by rw [BitVec.msb_eq_toInt]; simpa using hd
  have h0 : d ≠ 0#64 := by rintro rfl; simp at hd
  have en : -n = n := by rw [(hmin n).2 hn]; decide
  obtain ⟨t, eb⟩ : ∃ t, fromI64 (-d) = .ok ⟨enc d.toInt.natAbs, t⟩ := by
    rw [fromI64_eq, encI_raw]
    by_cases hm : d.toInt = -2 ^ 63
    · have e : -d = d := by rw [(hmin d).2 hm]; decide
      rw [e]; exact ⟨_, rfl⟩
    · rw [hneg _ hm, Int.natAbs_neg]; exact ⟨_, rfl⟩
  obtain ⟨r, f1, f2, f3, f4, f5, -⟩ := rNorm_encI (z := n.toInt) (t := t) (d := d.toInt.natAbs) (by omega)
  refine ⟨r, ?_, f2, f3, f5 (by omega), ?_⟩
  · unfold rFromFrac
    rw [if_neg h0, if_neg (by simp), hmsb]
    simp only [if_true, en, eb, fromI64_eq, f1, bind, Except.bind]
  · rw [f4]
    have h2 : (d.toInt.natAbs : Int) = -d.toInt := by omega
    rw [← Int.cast_natCast d.toInt.natAbs, h2]; push_cast; rw [div_neg]

/-- Zero is never reduced: `0 / d` keeps the denominator `|d|`. -/
theorem C53_zero_kept (checks : Bool) (d : BitVec 64) (h0 : d.toInt ≠ 0) (h : checks = true → d.toInt ≠ -2 ^ 63) :
    ∃ r, rFromFrac checks 0#64 d = .ok (some r) ∧ r.a = bZero ∧ val r.b.nat = d.toInt.natAbs := by
  have hmin : ∀ x : BitVec 64, x = BitVec.intMin 64 ↔ x.toInt = -2 ^ 63 := fun x => by
    rw [← BitVec.toInt_inj]; rfl
  have hneg : ∀ x : BitVec 64, x.toInt ≠ -2 ^ 63 → (-x).toInt = -x.toInt := fun x h =>
    BitVec.toInt_neg_of_ne_intMin (fun h' => h ((hmin x).1 h'))
  have hd0 : d ≠ 0#64 := by rintro rfl; simp at h0
  obtain ⟨t, eb⟩ : ∃ t, fromI64 (if d.msb then -d else d) = .ok ⟨enc d.toInt.natAbs, t⟩ := by
    rw [fromI64_eq, encI_raw]
    split
    · by_cases hm : d.toInt = -2 ^ 63
      · have e : -d = d := by rw [(hmin d).2 hm]; decide
        rw [e]; exact ⟨_, rfl⟩
      · rw [hneg _ hm, Int.natAbs_neg]; exact ⟨_, rfl⟩
    · exact ⟨_, rfl⟩
  obtain ⟨r, f1, -, -, -, -, f6⟩ := rNorm_encI (z := 0) (t := t) (d := d.toInt.natAbs) (by omega)
  have f6 := f6 rfl
  refine ⟨r, ?_, by rw [f6, bZero_eq], by rw [f6, val_enc]⟩
  unfold rFromFrac
  have ea : fromI64 (if d.msb then -0#64 else 0#64) = .ok (encI 0) := by
    rw [fromI64_eq]; simp
  rw [if_neg hd0, if_neg, ea, eb]
  · simp only [bind, Except.bind, f1]
  · simp only [Bool.and_eq_true, Bool.or_eq_true, beq_iff_eq, hmin]
    rintro ⟨hc, ⟨-, h'⟩ | h'⟩
    · simp at h'
    · exact h hc h'

/-! ## C58 sums and differences of two zeros -/

/-- The sum of two zeros is a zero with the sign of the left one: `-0 + 0` is `-0`, where IEEE 754 asks for `+0`.  The
difference is negative exactly for `-0 - (+0)`, as IEEE 754 asks. -/
theorem C58_zero_zero {x y : FloatV} (fx : x.form = .zero) (fy : y.form = .zero) :
    (∃ z, fAdd x y = .ok z ∧ z.form = .zero ∧ z.neg = x.neg ∧ z.mode = x.mode ∧
      z.prec = if x.prec = 0 then y.prec else x.prec) ∧
    (∃ z, fSub x y = .ok z ∧ z.form = .zero ∧ z.neg = (x.neg && !y.neg) ∧ z.mode = x.mode ∧ z.acc = .exact ∧
      z.prec = if x.prec = 0 then y.prec else x.prec) := by
  obtain ⟨d1, d2, d3, d4, d5, d6⟩ := fDeepClone_fields x
  have e1 : fAdd x y = fAddInner (fDeepClone x) y := by
    unfold fAdd fOp
    rw [if_neg (by simp [fx, fy])]
  have e2 : fSub x y = fSubInner (fDeepClone x) y := by
    unfold fSub fOp
    rw [if_neg (by simp [fx, fy])]
  rw [e1, e2]
  unfold fAddInner fSubInner
  rw [fx] at d3
  rw [← d1, ← d4, ← d5]
  generalize fDeepClone x = w at *
  by_cases hp : w.prec = 0
  · simp only [if_pos hp, d3, fy, reduceCtorEq, false_and, if_false, or_true, if_true, and_self]
    exact ⟨⟨_, rfl, rfl, rfl, rfl, rfl⟩, ⟨_, rfl, rfl, rfl, rfl, rfl, rfl⟩⟩
  · simp only [if_neg hp, d3, fy, reduceCtorEq, false_and, if_false, or_true, if_true, and_self]
    exact ⟨⟨_, rfl, d3, rfl, rfl, rfl⟩, ⟨_, rfl, rfl, rfl, rfl, rfl, rfl⟩⟩

example : fAdd { fDefault with neg := true, prec := 5 } { fDefault with prec := 3 } = .ok { fDefault with neg := true, prec := 5 } := by
  decide

end RMath
