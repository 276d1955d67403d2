import Verif.Lemmas.BigIntFun
import Verif.Lemmas.NatRandom
import Mathlib.Data.Int.Interval

/-! Proofs about `exp`, `mul_range`, `binomial` and the conversions of `BigInt`. -/

namespace RMath

/-! ## modular exponentiation -/

theorem len1_test (n : Nat) : ((enc n).length == 1 && (enc n).headD 0#32 == 0#32) = decide (n = 0) := by
  rw [Bool.eq_iff_iff]
  simp only [Bool.and_eq_true, beq_iff_eq, decide_eq_true_eq]
  exact len1_zero n

theorem odd_test (n : Nat) : ((enc n).headD 0#32 &&& 1#32 == 1#32) = decide (n % 2 = 1) := by
  rw [Bool.eq_iff_iff]
  simp only [beq_iff_eq, decide_eq_true_eq]
  rw [← BitVec.toNat_inj, BitVec.toNat_and, enc_head]
  simp only [BitVec.toNat_ofNat, Nat.reducePow, Nat.reduceMod, Nat.and_one_is_mod]
  omega

/-- the sign adjustment at the end of `exp` -/
theorem exp_tail (a : Int) (e b n : Nat) (he : n ≠ 0 → e < n) :
    (let isNeg := !((enc e).length == 1 && (enc e).headD 0#32 == 0#32) && decide (a < 0) &&
        !((enc b).length == 1 && (enc b).headD 0#32 == 0#32) && ((enc b).headD 0#32 &&& 1#32 == 1#32)
      if isNeg && !((enc n).length == 1 && (enc n).headD 0#32 == 0#32) then
        (.ok ⟨assignNat subInner (enc e) (enc n), false⟩ : Res BInt)
      else .ok ⟨enc e, isNeg⟩) =
    .ok (encI (if a < 0 ∧ b % 2 = 1 ∧ e ≠ 0 then (n : Int) - e else e)) := by
  simp only [len1_test, odd_test, assign_sub_enc]
  by_cases h : a < 0 ∧ b % 2 = 1 ∧ e ≠ 0
  · obtain ⟨h1, h2, h3⟩ := h
    have h4 : b ≠ 0 := by omega
    rw [if_pos (⟨h1, h2, h3⟩ : a < 0 ∧ b % 2 = 1 ∧ e ≠ 0)]
    by_cases hn : n = 0
    · subst hn
      simp only [h1, h2, h3, h4, decide_true, decide_false, Bool.not_false, Bool.not_true, Bool.and_self, Bool.and_false,
        Bool.false_eq_true, if_false, Except.ok.injEq]
      rw [encI_raw]
      congr 1
      · congr 1; omega
      · symm; simp only [decide_eq_true_eq]; omega
    · have := he hn
      simp only [h1, h2, h3, h4, hn, decide_true, decide_false, Bool.not_false, Bool.and_self, if_true, Except.ok.injEq]
      rw [encI_raw]
      congr 1
      · congr 1; omega
      · symm; simp only [decide_eq_false_iff_not]; omega
  · have hf : (!decide (e = 0) && decide (a < 0) && !decide (b = 0) && decide (b % 2 = 1)) = false := by
      rw [Bool.eq_false_iff]
      intro hh
      simp only [Bool.and_eq_true, Bool.not_eq_true', decide_eq_false_iff_not, decide_eq_true_eq] at hh
      exact h ⟨hh.1.1.2, hh.2, hh.1.1.1⟩
    rw [if_neg h, hf]
    simp only [Bool.false_and, Bool.false_eq_true, if_false, ← encI_ofNat]

theorem neg_pow_mod (a : Int) (b : Nat) (n : Int) :
    (if a < 0 ∧ b % 2 = 1 ∧ a.natAbs ^ b % n.natAbs ≠ 0 then (n.natAbs : Int) - (a.natAbs ^ b % n.natAbs : Nat)
      else ((a.natAbs ^ b % n.natAbs : Nat) : Int)) = if n = 0 then a ^ b else a ^ b % n := by
  have hX : ((a.natAbs ^ b % n.natAbs : Nat) : Int) = ((a.natAbs ^ b : Nat) : Int) % n := by
    rw [Int.natCast_mod, Int.natCast_natAbs, Int.emod_abs]
  have hpow : a ^ b = if a < 0 ∧ b % 2 = 1 then -((a.natAbs ^ b : Nat) : Int) else ((a.natAbs ^ b : Nat) : Int) := by
    push_cast
    by_cases ha : a < 0
    · rw [abs_of_neg ha]
      by_cases hb : b % 2 = 1
      · rw [if_pos ⟨ha, hb⟩, Odd.neg_pow (Nat.odd_iff.2 hb)]; ring
      · rw [if_neg (by tauto), Even.neg_pow (Nat.even_iff.2 (by omega))]
    · rw [if_neg (by tauto), abs_of_nonneg (by omega)]
  by_cases hn : n = 0
  · subst hn
    rw [if_pos rfl, hpow]
    simp only [Int.natAbs_zero, Nat.mod_zero, Nat.cast_zero, zero_sub]
    by_cases h1 : a < 0 ∧ b % 2 = 1
    · rw [if_pos h1]
      by_cases h2 : a.natAbs ^ b = 0
      · rw [if_neg (by tauto), h2]; rfl
      · rw [if_pos (by tauto)]
    · rw [if_neg h1, if_neg (by tauto)]
  · rw [if_neg hn, hpow]
    by_cases h1 : a < 0 ∧ b % 2 = 1
    · rw [if_pos h1, Int.neg_emod]
      by_cases h2 : a.natAbs ^ b % n.natAbs = 0
      · rw [if_neg (by tauto), if_pos, h2]; · rfl
        rw [← Int.natAbs_dvd_natAbs, Int.natAbs_natCast]
        exact Nat.dvd_of_mod_eq_zero h2
      · rw [if_pos (by tauto), if_neg, hX]
        rw [← Int.natAbs_dvd_natAbs, Int.natAbs_natCast]
        exact fun h => h2 (Nat.mod_eq_zero_of_dvd h)
    · rw [if_neg h1, if_neg (by tauto), hX]

/-- `exp` with a non-negative exponent -/
theorem bExp_nonneg (checks : Bool) (a : Int) (b : Nat) (n : Int)
    (h : checks = true → ¬(1 < (enc b).length ∧ (enc b).getLast? = some 1#32 ∧ (a.natAbs ≤ 1 ∨ n = 0))) :
    bExp checks (encI a) (encI b) (encI n) = .ok (encI (if n = 0 then a ^ b else a ^ b % n)) := by
  unfold bExp
  simp only [bIsNan_encI, Bool.or_self, Bool.false_eq_true, if_false, bIsNegative_encI]
  have hb : ¬ ((b : Int) < 0) := by omega
  simp only [hb, decide_false, Bool.false_and, Bool.false_eq_true, if_false, bind, Except.bind]
  have hnan : isNan (encI a).nat = false := by simp [encI]
  rw [if_neg (by rw [hnan]; simp)]
  simp only [encI_raw, Int.natAbs_natCast]
  rw [natExp_enc checks a.natAbs b n.natAbs (by
    intro hc hh
    exact h hc ⟨hh.1, hh.2.1, hh.2.2.imp_right (by omega)⟩)]
  simp only
  have := exp_tail a (a.natAbs ^ b % n.natAbs) b n.natAbs (fun h => Nat.mod_lt _ (by omega))
  refine this.trans ?_
  rw [neg_pow_mod, encI_raw]

/-- `exp` with a negative exponent and a modulus: what the code computes from the inverse -/
theorem bExp_neg (checks : Bool) (a : Int) {b n : Int} (hb : b < 0) (hn : n ≠ 0)
    (h : checks = true → ¬(1 < (enc b.natAbs).length ∧ (enc b.natAbs).getLast? = some 1#32)) :
    ∃ v : Int, 0 ≤ v ∧ v < |n| ∧ (Int.gcd a n = 1 → a * v ≡ 1 [ZMOD n]) ∧
      bExp checks (encI a) (encI b) (encI n) =
        .ok (encI (if a < 0 ∧ b.natAbs % 2 = 1 ∧ ¬ n ∣ v ^ b.natAbs then |n| - v ^ b.natAbs % n else v ^ b.natAbs % n)) := by
  obtain ⟨v, h1, h2, h3, h4⟩ := bModInverse_spec a hn
  refine ⟨v, h2, h3, h4, ?_⟩
  unfold bExp
  simp only [bIsNan_encI, Bool.or_self, Bool.false_eq_true, if_false, bIsNegative_encI, bEqW_zero_encI]
  simp only [hb, hn, decide_true, decide_false, Bool.and_false, Bool.false_eq_true, if_false, if_true, bind, Except.bind, h1]
  have hnan : isNan (encI v).nat = false := by simp [encI]
  rw [if_neg (by rw [hnan]; simp)]
  simp only [encI_raw]
  rw [natExp_enc checks v.natAbs b.natAbs n.natAbs (by
    intro hc hh
    exact h hc ⟨hh.1, hh.2.1⟩)]
  simp only
  have := exp_tail a (v.natAbs ^ b.natAbs % n.natAbs) b.natAbs n.natAbs (fun h => Nat.mod_lt _ (by omega))
  refine this.trans ?_
  have e1 : ((v.natAbs ^ b.natAbs % n.natAbs : Nat) : Int) = v ^ b.natAbs % n := by
    rw [Int.natCast_mod, Int.natCast_natAbs, Int.emod_abs, Int.natCast_pow, Int.natCast_natAbs, abs_of_nonneg h2]
  have e2 : v.natAbs ^ b.natAbs % n.natAbs ≠ 0 ↔ ¬ n ∣ v ^ b.natAbs := by
    rw [Int.dvd_iff_emod_eq_zero, ← e1]
    exact not_congr (by omega)
  simp only [e1, e2, ← Int.abs_eq_natAbs]
  rfl

/-! ## product of a range -/

theorem prod_cast (m n : Nat) : ∏ i ∈ Finset.Icc (m : Int) n, i = ((∏ i ∈ Finset.Icc m n, i : Nat) : Int) := by
  rw [Nat.cast_prod]
  refine Finset.prod_nbij' Int.toNat (fun i => (i : Int)) ?_ ?_ ?_ ?_ ?_
  · intro i hi; simp only [Finset.mem_Icc] at *; omega
  · intro i hi; simp only [Finset.mem_Icc] at *; omega
  · intro i hi; simp only [Finset.mem_Icc] at *; omega
  · intro i hi; simp
  · intro i hi; simp only [Finset.mem_Icc] at *; omega

theorem prod_reflect (a b : Int) (hab : a ≤ b) :
    ∏ i ∈ Finset.Icc a b, i = (-1) ^ (b - a + 1).toNat * ∏ i ∈ Finset.Icc (-b) (-a), i := by
  have h1 : ∏ i ∈ Finset.Icc a b, i = ∏ i ∈ Finset.Icc (-b) (-a), (-1 * i) := by
    refine Finset.prod_nbij' (fun i => -i) (fun i => -i) ?_ ?_ ?_ ?_ ?_
    · intro i hi; simp only [Finset.mem_Icc] at *; omega
    · intro i hi; simp only [Finset.mem_Icc] at *; omega
    · intro i hi; simp
    · intro i hi; simp
    · intro i hi; simp
  rw [h1, Finset.prod_mul_distrib, Finset.prod_const, Int.card_Icc]
  congr 2
  omega

theorem toInt_of_nonneg {a : D} (h : 0 ≤ a.toInt) : (a.toNat : Int) = a.toInt := by
  rw [BitVec.toInt_eq_toNat_cond] at *
  split at h <;> rename_i h1
  · rw [if_pos h1]
  · have := a.isLt; omega

theorem neg_toNat {a : D} (h : a.toInt < 0) : ((-a).toNat : Int) = -a.toInt := by
  rw [BitVec.toInt_eq_toNat_cond] at *
  have := a.isLt
  split at h <;> rename_i h1
  · omega
  · rw [if_neg h1, BitVec.toNat_neg]
    omega

theorem parity_test {a b : D} (hab : a.toInt ≤ b.toInt) :
    ((b - a) &&& 1#64 == 0#64) = decide ((b.toInt - a.toInt + 1).toNat % 2 = 1) := by
  rw [Bool.eq_iff_iff]
  simp only [beq_iff_eq, decide_eq_true_eq]
  rw [← BitVec.toNat_inj, BitVec.toNat_and]
  simp only [BitVec.toNat_ofNat, Nat.reducePow, Nat.reduceMod, Nat.and_one_is_mod, Nat.zero_mod]
  rw [BitVec.toNat_sub]
  rw [BitVec.toInt_eq_toNat_cond, BitVec.toInt_eq_toNat_cond] at *
  have := a.isLt
  have := b.isLt
  split at hab <;> split at hab <;> (simp only [*, if_true, if_false]; omega)

theorem intMin_toInt {a : D} : (a == BitVec.intMin 64) = decide (a.toInt = -2 ^ 63) := by
  rw [Bool.eq_iff_iff]
  simp only [beq_iff_eq, decide_eq_true_eq]
  constructor
  · rintro rfl; decide
  · intro h; apply BitVec.eq_of_toInt_eq; rw [h]; decide

/-- `mul_range` on signed operands -/
theorem bMulRange_spec (checks : Bool) (a b : D)
    (h : checks = true → a.toInt ≤ b.toInt → b.toInt < 0 → a.toInt ≠ -2 ^ 63) :
    bMulRange checks a b = .ok (encI (∏ i ∈ Finset.Icc a.toInt b.toInt, i)) := by
  unfold bMulRange
  simp only [BitVec.slt, BitVec.sle, BitVec.toInt_zero, Bool.and_eq_true, decide_eq_true_eq, intMin_toInt]
  by_cases hab : b.toInt < a.toInt
  · rw [if_pos hab, Finset.Icc_eq_empty (by omega), Finset.prod_empty, bOne_eq]
  rw [if_neg hab]
  by_cases h0 : a.toInt ≤ 0 ∧ 0 ≤ b.toInt
  · rw [if_pos h0, Finset.prod_eq_zero (i := 0) (by simpa using h0) rfl, bZero_eq]
  rw [if_neg h0]
  by_cases ha : a.toInt < 0
  · have hb : b.toInt < 0 := by omega
    rw [if_pos ha, if_neg, natMulRange_eq]
    · simp only [bind, Except.bind, Except.ok.injEq]
      rw [parity_test (by omega), prod_reflect _ _ (by omega), ← neg_toNat ha, ← neg_toNat hb, prod_cast]
      have hpos : 0 < ∏ i ∈ Finset.Icc (-b).toNat (-a).toNat, i := by
        apply Finset.prod_pos
        intro i hi
        simp only [Finset.mem_Icc] at hi
        have := neg_toNat hb
        omega
      generalize ∏ i ∈ Finset.Icc (-b).toNat (-a).toNat, i = P at *
      generalize (b.toInt - a.toInt + 1).toNat = k
      rw [encI_raw]
      rcases Nat.even_or_odd k with hk | hk
      · rw [hk.neg_one_pow, one_mul, Int.natAbs_natCast]
        congr 1
        have := Nat.even_iff.1 hk
        simp [this]
      · rw [hk.neg_one_pow]
        have := Nat.odd_iff.1 hk
        congr 1
        · simp
        · simp [this, hpos]
    · rintro ⟨hc, h1⟩
      rw [Bool.or_eq_true] at h1
      simp only [decide_eq_true_eq] at h1
      have := h hc (by omega) hb
      have h3 := a.toInt_lt
      have h4 := BitVec.le_toInt a
      norm_num at *
      omega
  · rw [if_neg ha, natMulRange_eq]
    simp only [bind, Except.bind, Except.ok.injEq]
    rw [← encI_ofNat, ← prod_cast, toInt_of_nonneg (by omega), toInt_of_nonneg (by omega)]

theorem bMulRange_panic (a b : D) (h1 : a.toInt ≤ b.toInt) (h2 : b.toInt < 0) (h3 : a.toInt = -2 ^ 63) :
    bMulRange true a b = .error .panic := by
  unfold bMulRange
  simp only [BitVec.slt, BitVec.sle, BitVec.toInt_zero, Bool.and_eq_true, decide_eq_true_eq, intMin_toInt]
  rw [if_neg (by omega), if_neg (by omega), if_pos (by omega), if_pos]
  rw [Bool.or_eq_true]
  simp [h3]

/-! ## binomial coefficients -/

theorem prod_factorial (n : Nat) : ∏ i ∈ Finset.Icc 1 n, i = n.factorial := by
  induction n with
  | zero => rfl
  | succ n ih => rw [Finset.prod_Icc_succ_top (by omega), ih, Nat.factorial_succ, mul_comm]

theorem prod_top (n k : Nat) (h : k ≤ n) : ∏ i ∈ Finset.Icc (n - k + 1) n, i = n.choose k * k.factorial := by
  have h1 : ∏ i ∈ Finset.Icc 1 (n - k), i = (n - k).factorial := prod_factorial _
  have h2 : ∏ i ∈ Finset.Icc 1 n, i = n.factorial := prod_factorial _
  have h3 : (∏ i ∈ Finset.Icc 1 (n - k), i) * ∏ i ∈ Finset.Icc (n - k + 1) n, i = ∏ i ∈ Finset.Icc 1 n, i := by
    rw [← Finset.prod_union]
    · congr 1
      ext i
      simp only [Finset.mem_union, Finset.mem_Icc]
      omega
    · rw [Finset.disjoint_left]
      intro i hi
      simp only [Finset.mem_Icc] at *
      omega
  rw [h1, h2, ← Nat.choose_mul_factorial_mul_factorial h] at h3
  have := Nat.factorial_pos (n - k)
  have h4 : (n - k).factorial * (∏ i ∈ Finset.Icc (n - k + 1) n, i) = (n - k).factorial * (n.choose k * k.factorial) := by
    rw [h3]; ring
  exact Nat.eq_of_mul_eq_mul_left this h4

theorem toInt_sub {a b : D} (h1 : -2 ^ 63 ≤ a.toInt - b.toInt) (h2 : a.toInt - b.toInt < 2 ^ 63) :
    (a - b).toInt = a.toInt - b.toInt := by
  rw [BitVec.toInt_sub]
  exact Int.bmod_eq_of_le (by norm_num at *; omega) (by norm_num at *; omega)

theorem toInt_add {a b : D} (h1 : -2 ^ 63 ≤ a.toInt + b.toInt) (h2 : a.toInt + b.toInt < 2 ^ 63) :
    (a + b).toInt = a.toInt + b.toInt := by
  rw [BitVec.toInt_add]
  exact Int.bmod_eq_of_le (by norm_num at *; omega) (by norm_num at *; omega)

theorem subI64_ok (checks : Bool) {a b : D} (h1 : -2 ^ 63 ≤ a.toInt - b.toInt) (h2 : a.toInt - b.toInt < 2 ^ 63) :
    subI64 checks a b = .ok (a - b) := by
  unfold subI64
  rw [if_neg]
  simp only [BitVec.ssubOverflow, Bool.and_eq_true, Bool.or_eq_true, decide_eq_true_eq]
  norm_num at *
  omega

theorem addI64_ok (checks : Bool) {a b : D} (h1 : -2 ^ 63 ≤ a.toInt + b.toInt) (h2 : a.toInt + b.toInt < 2 ^ 63) :
    addI64 checks a b = .ok (a + b) := by
  unfold addI64
  rw [if_neg]
  simp only [BitVec.saddOverflow, Bool.and_eq_true, Bool.or_eq_true, decide_eq_true_eq]
  norm_num at *
  omega

theorem binomial_core (n k : Int) (hk : 0 ≤ k) (hkn : k ≤ n) :
    (∏ i ∈ Finset.Icc (n - k + 1) n, i) = (n.toNat.choose k.toNat : Int) * (k.toNat.factorial : Int) ∧
    (∏ i ∈ Finset.Icc 1 k, i) = (k.toNat.factorial : Int) := by
  obtain ⟨k, rfl⟩ := Int.eq_ofNat_of_zero_le hk
  obtain ⟨n, rfl⟩ := Int.eq_ofNat_of_zero_le (le_trans hk hkn)
  have hkn' : k ≤ n := by omega
  simp only [Int.toNat_natCast]
  constructor
  · have := prod_cast (n - k + 1) n
    rw [prod_top n k hkn'] at this
    push_cast [Nat.cast_sub hkn'] at this
    exact this
  · have := prod_cast 1 k
    rw [prod_factorial] at this
    exact_mod_cast this

/-- `binomial` on `0 ≤ k ≤ n` -/
theorem bBinomial_spec (checks : Bool) (n k : D) (hk : 0 ≤ k.toInt) (hkn : k.toInt ≤ n.toInt)
    (h : n.toInt ≠ 2 ^ 63 - 1 ∨ (0 < k.toInt ∧ k.toInt < n.toInt)) :
    bBinomial checks n k = .ok (encI (n.toInt.toNat.choose k.toInt.toNat)) := by
  have hnlt : n.toInt < 2 ^ 63 := by have := n.toInt_lt; norm_num at *; omega
  -- the smaller of `k` and `n - k`
  obtain ⟨k', hk', h1, h2, h3, h4⟩ : ∃ k' : D,
      (if (n.sshiftRight 1).slt k && k.sle n then subI64 checks n k else .ok k : Res D) = .ok k' ∧
      0 ≤ k'.toInt ∧ k'.toInt ≤ n.toInt ∧ n.toInt.toNat.choose k'.toInt.toNat = n.toInt.toNat.choose k.toInt.toNat ∧
      (n.toInt ≠ 2 ^ 63 - 1 ∨ 0 < k'.toInt) := by
    by_cases hc : ((n.sshiftRight 1).slt k && k.sle n) = true
    · rw [if_pos hc]
      have e := toInt_sub (a := n) (b := k) (by omega) (by omega)
      refine ⟨_, subI64_ok checks (by omega) (by omega), by omega, by omega, ?_, by omega⟩
      rw [e, ← Nat.choose_symm (by omega : k.toInt.toNat ≤ n.toInt.toNat)]
      congr 1
      omega
    · rw [if_neg hc]
      exact ⟨k, rfl, hk, hkn, rfl, by omega⟩
  have e1 := toInt_sub (a := n) (b := k') (by omega) (by omega)
  have e1' : (1#64 : D).toInt = 1 := by decide
  have e2 := toInt_add (a := n - k') (b := 1#64) (by rw [e1, e1']; omega) (by rw [e1, e1']; omega)
  unfold bBinomial
  rw [hk']
  simp only [bind, Except.bind]
  rw [subI64_ok checks (by omega) (by omega)]
  simp only
  rw [addI64_ok checks (by rw [e1, e1']; omega) (by rw [e1, e1']; omega)]
  simp only
  rw [bMulRange_spec checks _ _ (by intro _ _ hh; omega), bMulRange_spec checks _ _ (by intro _ _ hh; omega)]
  simp only
  rw [e2, e1, e1']
  obtain ⟨p1, p2⟩ := binomial_core n.toInt k'.toInt h1 h2
  rw [p1, p2, ← h3]
  have hf : 0 < (k'.toInt.toNat.factorial : Int) := by exact_mod_cast Nat.factorial_pos _
  have := bDiv_nonneg (a := (n.toInt.toNat.choose k'.toInt.toNat : Int) * (k'.toInt.toNat.factorial : Int))
    (by positivity) hf
  rw [bDiv_eq] at this
  rw [this, Int.mul_ediv_cancel _ hf.ne']

/-- `binomial` for `k > n ≥ 0` is zero -/
theorem bBinomial_above (checks : Bool) (n k : D) (hn : 0 ≤ n.toInt) (hkn : n.toInt < k.toInt) :
    bBinomial checks n k = .ok (encI 0) := by
  have hnlt : k.toInt < 2 ^ 63 := by have := k.toInt_lt; norm_num at *; omega
  unfold bBinomial
  have hc : ¬ ((n.sshiftRight 1).slt k && k.sle n) = true := by
    simp only [BitVec.sle, Bool.and_eq_true, decide_eq_true_eq]
    omega
  have e1 := toInt_sub (a := n) (b := k) (by omega) (by omega)
  have e1' : (1#64 : D).toInt = 1 := by decide
  have e2 := toInt_add (a := n - k) (b := 1#64) (by rw [e1, e1']; omega) (by rw [e1, e1']; omega)
  rw [if_neg hc]
  simp only [bind, Except.bind]
  rw [subI64_ok checks (by omega) (by omega)]
  simp only
  rw [addI64_ok checks (by rw [e1, e1']; omega) (by rw [e1, e1']; omega)]
  simp only
  rw [bMulRange_spec checks _ _ (by intro _ _ hh; omega), bMulRange_spec checks _ _ (by intro _ _ hh; omega)]
  simp only
  rw [e2, e1, e1']
  obtain ⟨-, p2⟩ := binomial_core k.toInt k.toInt (by omega) (by omega)
  rw [p2, Finset.prod_eq_zero (i := 0) (by simp only [Finset.mem_Icc]; omega) rfl]
  have hf : 0 < (k.toInt.toNat.factorial : Int) := by exact_mod_cast Nat.factorial_pos _
  have := bDiv_nonneg (a := 0) (by omega) hf
  rw [bDiv_eq] at this
  rw [this]; simp

/-! ## conversions -/

theorem abs_toNat {w : Nat} (x : BitVec w) :
    (if x = BitVec.intMin w then BitVec.intMax w + 1#w else x.abs).toNat = x.toInt.natAbs := by
  have h1 : BitVec.intMax w + 1#w = BitVec.intMin w := by
    rw [BitVec.intMax]
    simp [BitVec.twoPow_eq, BitVec.intMin]
  have h2 : (if x = BitVec.intMin w then BitVec.intMax w + 1#w else x.abs) = x.abs := by
    split
    · next h => rw [h, h1]; simp
    · rfl
  rw [h2, BitVec.abs_eq]
  have hlt := x.isLt
  rcases Nat.eq_zero_or_pos w with rfl | hw
  · have := BitVec.eq_nil x; subst this; decide
  have hp : 2 ^ w = 2 * 2 ^ (w - 1) := by rw [← Nat.pow_succ']; congr 1; omega
  rw [BitVec.msb_eq_decide, BitVec.toInt_eq_toNat_cond]
  have hp2 := Nat.two_pow_pos (w - 1)
  by_cases hm : 2 ^ (w - 1) ≤ x.toNat
  · rw [if_pos (by simpa using hm), if_neg (by omega), BitVec.toNat_neg, Nat.mod_eq_of_lt (by omega)]
    omega
  · rw [if_neg (by simpa using hm), if_pos (by omega)]
    omega

theorem msb_toInt {w : Nat} (x : BitVec w) : x.msb = decide (x.toInt < 0) := by
  rw [BitVec.msb_eq_toInt]

theorem fromISmall_eq {w : Nat} (hw : w ≤ 32) (x : BitVec w) : fromISmall x = encI x.toInt := by
  unfold fromISmall
  rw [encI_raw, msb_toInt, ← apply_ite (BitVec.setWidth 32)]
  congr 1
  rw [singleton_eq_enc, BitVec.toNat_setWidth, abs_toNat, Nat.mod_eq_of_lt]
  have h := abs_toNat x
  rw [← h]
  exact lt_of_lt_of_le (BitVec.isLt _) (Nat.pow_le_pow_right (by norm_num) hw)

theorem fromI64_eq (x : D) : fromI64 x = .ok (encI x.toInt) := by
  unfold fromI64
  rw [fromU64_eq, abs_toNat]
  simp only [bind, Except.bind, encI_raw, msb_toInt]

theorem fromI128_eq (x : BitVec 128) : fromI128 x = .ok (encI x.toInt) := by
  unfold fromI128
  rw [fromU128_eq, abs_toNat]
  simp only [bind, Except.bind, encI_raw, msb_toInt]

/-! ## trimming -/

theorem dropWhile_idem (p : Char → Bool) (s : List Char) : (s.dropWhile p).dropWhile p = s.dropWhile p := by
  induction s with
  | nil => rfl
  | cons c s ih =>
    by_cases hc : p c = true
    · rw [List.dropWhile_cons, if_pos hc, ih]
    · rw [List.dropWhile_cons, if_neg hc, List.dropWhile_cons, if_neg hc]

/-- drop the white space at the end -/
def rtrim (s : List Char) : List Char := (s.reverse.dropWhile isWhite).reverse

theorem strTrim_eq (s : List Char) : strTrim s = rtrim (s.dropWhile isWhite) := rfl

theorem rtrim_cons {c : Char} (hc : isWhite c = false) (s : List Char) : rtrim (c :: s) = c :: rtrim s := by
  unfold rtrim
  rw [List.reverse_cons, List.dropWhile_append]
  by_cases h : (s.reverse.dropWhile isWhite).isEmpty = true
  · rw [if_pos h, List.isEmpty_iff.1 h, List.dropWhile_cons, if_neg (by simp [hc])]
    rfl
  · rw [if_neg h]; simp

theorem rtrim_rtrim (s : List Char) : rtrim (rtrim s) = rtrim s := by
  simp [rtrim, dropWhile_idem]

theorem dropWhile_rtrim (s : List Char) : strTrim (rtrim s) = strTrim s := by
  rw [strTrim_eq, strTrim_eq]
  induction s with
  | nil => rfl
  | cons c s ih =>
    by_cases hc : isWhite c = true
    · rw [List.dropWhile_cons, if_pos hc, ← ih]
      have : rtrim (c :: s) = rtrim s ∨ rtrim (c :: s) = c :: rtrim s := by
        unfold rtrim
        rw [List.reverse_cons, List.dropWhile_append]
        by_cases h : (s.reverse.dropWhile isWhite).isEmpty = true
        · rw [if_pos h, List.isEmpty_iff.1 h, List.dropWhile_cons, if_pos hc]
          left; rfl
        · rw [if_neg h]; right; simp
      rcases this with h | h
      · rw [h]
      · rw [h, List.dropWhile_cons, if_pos hc]
    · rw [rtrim_cons (by simpa using hc), List.dropWhile_cons, if_neg hc, List.dropWhile_cons, if_neg hc,
        ← rtrim_cons (by simpa using hc), rtrim_rtrim]

theorem strTrim_idem (s : List Char) : strTrim (strTrim s) = strTrim s := by
  rw [strTrim_eq s, dropWhile_rtrim, strTrim_eq, dropWhile_idem]

theorem natParse_congr {s t : List Char} (h : strTrim s = strTrim t) : natParse s = natParse t := by
  rw [natParse_eq, natParse_eq, h]

end RMath
