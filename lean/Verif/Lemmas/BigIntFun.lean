import Verif.Lemmas.BigInt
import Verif.Lemmas.NatExp
import Mathlib.Data.Nat.Choose.Basic
import Mathlib.Data.Nat.Factorial.BigOperators
import Mathlib.Algebra.BigOperators.Intervals
import Mathlib.Tactic.LinearCombination
import Mathlib.Data.Int.ModEq

/-! Proofs about the number-theoretic functions of `BigInt`. -/

namespace RMath

/-! ## operands that may be "minus zero" -/

/-- the value of a magnitude and a sign flag -/
def sg (s : Bool) (n : Nat) : Int := if s then -(n : Int) else n

theorem ival_mk (n : Nat) (s : Bool) : ival ⟨enc n, s⟩ = sg s n := by simp [ival, sg]

theorem bAddInner_raw (m k : Nat) (s t : Bool) : bAddInner ⟨enc m, s⟩ ⟨enc k, t⟩ = encI (sg s m + sg t k) := by
  unfold bAddInner
  simp only [assign_add_enc, assign_sub_enc, signFix_enc, ltOp_enc]
  by_cases h : m < k <;> cases s <;> cases t <;> simp [sg, h] <;> exact encI_inj.2 (by omega)

theorem bSubInner_raw (m k : Nat) (s t : Bool) : bSubInner ⟨enc m, s⟩ ⟨enc k, t⟩ = encI (sg s m - sg t k) := by
  unfold bSubInner
  simp only [assign_add_enc, assign_sub_enc, signFix_enc, ltOp_enc]
  by_cases h : m < k <;> cases s <;> cases t <;> simp [sg, h] <;> exact encI_inj.2 (by omega)

theorem bMulInner_raw (m k : Nat) (s t : Bool) : bMulInner ⟨enc m, s⟩ ⟨enc k, t⟩ = encI (sg s m * sg t k) := by
  unfold bMulInner
  simp only [assign_mul_enc, signFix_enc]
  cases s <;> cases t <;> simp [sg]

theorem encI_raw (z : Int) : encI z = ⟨enc z.natAbs, decide (z < 0)⟩ := rfl

theorem sg_natAbs (z : Int) : sg (decide (z < 0)) z.natAbs = z := by
  unfold sg
  simp only [decide_eq_true_eq]
  split <;> omega

/-! ## Euclidean division -/

theorem natAbs_emod (a n : Int) (h : 0 ≤ a) : ((a.natAbs % n.natAbs : Nat) : Int) = a % n := by
  rw [Int.natCast_mod, Int.natAbs_of_nonneg h, Int.natCast_natAbs, Int.emod_abs]

/-- What `rem_euclid` computes: the Euclidean remainder, except that it returns `|n|` for a negative multiple. -/
theorem bRemEuclid_encI (a : Int) {n : Int} (hn : n ≠ 0) :
    bRemEuclid (encI a) (encI n) = .ok (encI (if a < 0 ∧ n ∣ a then |n| else a % n)) := by
  rw [bRemEuclid, bDeepClone_encI, bRemEuclidInner, bRemInner_encI a hn]
  simp only [bind, Except.bind, bIsNegative, bIsNan, isNan_enc, Bool.not_false, Bool.true_and, decide_eq_true_eq]
  by_cases ha : a < 0
  · have hdvd : n ∣ a ↔ a.natAbs % n.natAbs = 0 := by
      rw [← Nat.dvd_iff_mod_eq_zero, Int.natAbs_dvd_natAbs]
    have hlt : a.natAbs % n.natAbs < n.natAbs := Nat.mod_lt _ (by omega)
    have habs : |n| = n.natAbs := Int.abs_eq_natAbs n
    have key : (if a < 0 ∧ n ∣ a then |n| else a % n) = |n| - ((a.natAbs % n.natAbs : Nat) : Int) := by
      by_cases hd : n ∣ a
      · rw [if_pos ⟨ha, hd⟩, hdvd.1 hd]; simp
      · rw [if_neg (by tauto)]
        have h1 := natAbs_emod (-a) n (by omega)
        rw [Int.natAbs_neg] at h1
        rw [h1]
        have h2 : (-a) % n = |n| - a % n := by
          rw [Int.neg_emod, if_neg hd, Int.abs_eq_natAbs]
        rw [h2]; ring
    rw [if_pos ha, key]
    simp only [decide_eq_true ha, encI_raw n]
    by_cases hn0 : n < 0
    · simp only [hn0, decide_true, if_true, bSubInner_raw, sg, Except.ok.injEq, isNan_enc, Bool.not_false, Bool.and_self]
      exact encI_inj.2 (by omega)
    · simp only [hn0, decide_false, Bool.false_eq_true, if_false, bAddInner_raw, sg, Except.ok.injEq, if_true, Bool.and_false]
      exact encI_inj.2 (by omega)
  · rw [if_neg ha, if_neg (by tauto)]
    simp only [ha, decide_false, ← encI_ofNat]
    rw [natAbs_emod a n (by omega)]

theorem bRemEuclid_zero (a : Int) : bRemEuclid (encI a) (encI 0) = .error .panic := by
  rw [bRemEuclid, bDeepClone_encI, bRemEuclidInner, bRemInner_zero]
  rfl

/-- the Euclidean remainder is right when the dividend is non-negative or not a multiple -/
theorem bRemEuclid_ok {a n : Int} (hn : n ≠ 0) (h : 0 ≤ a ∨ ¬ n ∣ a) :
    bRemEuclid (encI a) (encI n) = .ok (encI (a % n)) := by
  rw [bRemEuclid_encI a hn, if_neg]
  rintro ⟨h1, h2⟩
  rcases h with h | h
  · omega
  · exact h h2

theorem natAbs_ediv (a n : Int) (h : 0 ≤ a) : sg (decide (n < 0)) (a.natAbs / n.natAbs) = a / n := by
  unfold sg
  obtain ⟨a, rfl⟩ := Int.eq_ofNat_of_zero_le h
  by_cases hn : n < 0
  · obtain ⟨m, rfl⟩ : ∃ m : Nat, n = -(m : Int) := ⟨n.natAbs, by omega⟩
    simp only [hn, decide_true, if_true, Int.natAbs_neg, Int.natAbs_natCast, Int.ediv_neg]
    norm_cast
  · obtain ⟨m, rfl⟩ := Int.eq_ofNat_of_zero_le (not_lt.1 hn)
    simp only [hn, decide_false, Bool.false_eq_true, if_false, Int.natAbs_natCast]
    norm_cast

/-- What `div_euclid` computes for a negative dividend. -/
theorem bDivEuclid_neg {a n : Int} (hn : n ≠ 0) (ha : a < 0) :
    bDivEuclid (encI a) (encI n) = .ok (encI (if n ∣ a then a / n - n.sign else a / n)) := by
  rw [bDivEuclid, bDeepClone_encI, bDivEuclidInner, bRem_eq, bRemInner_encI a hn, bDivInner_encI a hn]
  simp only [bind, Except.bind, bIsNegative, bIsNan, isNan_enc, Bool.not_false, Bool.true_and, decide_eq_true_eq,
    if_pos ha, bIsPositive_encI]
  have key : (if n ∣ a then a / n - n.sign else a / n) = -((-a) / n) - n.sign := by
    by_cases hd : n ∣ a
    · rw [if_pos hd, Int.neg_ediv_of_dvd hd]; ring
    · rw [if_neg hd]
      have h1 := Int.emod_add_mul_ediv a n
      have h2 := Int.emod_add_mul_ediv (-a) n
      have h3 : (-a) % n = |n| - a % n := by rw [Int.neg_emod, if_neg hd, Int.abs_eq_natAbs]
      have h4 : |n| = n * n.sign := (Int.mul_sign_self n).symm ▸ Int.abs_eq_natAbs n
      have h5 : n * (a / n) = n * (-((-a) / n) - n.sign) := by linear_combination h1 - h3 - h4 + h2
      exact mul_left_cancel₀ hn h5
  rw [key]
  have hq := natAbs_ediv (-a) n (by omega)
  rw [Int.natAbs_neg] at hq
  have ha0 : a ≠ 0 := by omega
  rw [bOne_eq, encI_raw 1]
  by_cases hn0 : n < 0
  · rw [Int.sign_eq_neg_one_of_neg hn0]
    simp only [hn0, decide_true, sg, if_true] at hq
    simp only [show ¬(0 < n) by omega, decide_false, Bool.false_eq_true, if_false, bAddInner_raw, Except.ok.injEq]
    apply encI_inj.2
    simp only [ha, hn0, ne_eq, not_true, false_and, decide_false, sg, Bool.false_eq_true, if_false]
    rw [← hq]; simp
  · rw [Int.sign_eq_one_of_pos (by omega)]
    simp only [hn0, decide_false, sg, Bool.false_eq_true, if_false] at hq
    simp only [show (0 < n) by omega, decide_true, if_true, bSubInner_raw, Except.ok.injEq]
    apply encI_inj.2
    simp only [ha, hn0, ne_eq, ha0, not_false_iff, and_true, eq_iff_iff, iff_false, not_true, decide_true, sg, if_true]
    rw [← hq]; simp

/-- What `div_euclid` computes for a non-negative dividend: the right value, in canonical form unless the result
is "minus zero". -/
theorem bDivEuclid_nonneg {a n : Int} (hn : n ≠ 0) (ha : 0 ≤ a) :
    bDivEuclid (encI a) (encI n) = .ok ⟨enc (a.natAbs / n.natAbs), decide (n < 0 ∧ a ≠ 0)⟩ := by
  rw [bDivEuclid, bDeepClone_encI, bDivEuclidInner, bRem_eq, bRemInner_encI a hn, bDivInner_encI a hn]
  have ha' : ¬ a < 0 := by omega
  simp only [bind, Except.bind, bIsNegative, bIsNan, isNan_enc, Bool.not_false, Bool.true_and, decide_eq_true_eq,
    if_neg ha', Except.ok.injEq, BInt.mk.injEq, true_and, decide_eq_decide]
  simp [ha']

/-! ## Greatest common divisor -/

theorem bGcdExtend_spec (fuel : Nat) : ∀ l r : Nat, r < fuel →
    ∃ x y : Int, bGcdExtend fuel (encI l) (encI r) = .ok (encI (Nat.gcd l r), encI x, encI y) ∧
      (l : Int) * x + r * y = Nat.gcd l r ∧ (0 < r → |x| * (Nat.gcd l r) < r) ∧
      (0 < r → r < l → |y| * (Nat.gcd l r) < l) ∧ (0 < l → l < r → |y| * (Nat.gcd l r) < l) := by
  induction fuel with
  | zero => intro l r h; omega
  | succ fuel ih =>
    intro l r hr
    rw [bGcdExtend, bEqW_zero_encI]
    by_cases h0 : r = 0
    · subst h0
      refine ⟨1, 0, ?_, by simp, by simp, by simp, by omega⟩
      simp [bOne_eq, bZero_eq]
    · rw [if_neg (by simpa using h0)]
      have hrpos : 0 < r := by omega
      have hlt : l % r < r := Nat.mod_lt _ hrpos
      obtain ⟨x, y, h1, h2, h3, h4, -⟩ := ih r (l % r) (by omega)
      have hg : Nat.gcd r (l % r) = Nat.gcd l r := by rw [Nat.gcd_comm l r, Nat.gcd_rec r l, Nat.gcd_comm]
      rw [hg] at h1 h2 h3 h4
      refine ⟨y, x - (l / r : Nat) * y, ?_, ?_, ?_, ?_, ?_⟩
      · simp only [bind, Except.bind, bRem_nonneg (Int.natCast_nonneg l) (by omega : (0:Int) < r),
          bDiv_nonneg (Int.natCast_nonneg l) (by omega : (0:Int) < r)]
        rw [← Int.natCast_mod, ← Int.natCast_div]
        simp only [h1, bMulInner_encI, bSubInner_encI]
      · have h5 : (l : Int) = (l % r : Nat) + r * (l / r : Nat) := by
          have := Nat.mod_add_div l r
          exact_mod_cast this.symm
        rw [← h2]
        conv_lhs => rw [h5]
        push_cast
        ring
      · intro _
        by_cases hm : l % r = 0
        · -- then the recursive call returned (r, 1, 0)
          have hf : fuel ≠ 0 := by omega
          obtain ⟨f, rfl⟩ := Nat.exists_eq_succ_of_ne_zero hf
          rw [hm, bGcdExtend, bEqW_zero_encI] at h1
          simp only [Nat.cast_zero, decide_true, if_true, Except.ok.injEq, Prod.mk.injEq, bZero_eq, encI_inj] at h1
          rw [← h1.2.2]; simpa using hrpos
        · exact h4 (by omega) hlt
      · intro _ hl
        have hgpos : 0 < Nat.gcd l r := Nat.gcd_pos_of_pos_right _ hrpos
        by_cases hm : l % r = 0
        · have hf : fuel ≠ 0 := by omega
          obtain ⟨f, rfl⟩ := Nat.exists_eq_succ_of_ne_zero hf
          rw [hm, bGcdExtend, bEqW_zero_encI] at h1
          simp only [Nat.cast_zero, decide_true, if_true, Except.ok.injEq, Prod.mk.injEq, bZero_eq, bOne_eq, encI_inj] at h1
          rw [← h1.2.2, ← h1.2.1, ← h1.1]
          simpa using hl
        · have h5 : (l : Int) = (l % r : Nat) + r * (l / r : Nat) := by
            have := Nat.mod_add_div l r
            exact_mod_cast this.symm
          have h6 := h3 (by omega)
          have h7 := h4 (by omega) hlt
          have h8 : |x - (l / r : Nat) * y| ≤ |x| + (l / r : Nat) * |y| := by
            calc |x - (l / r : Nat) * y| ≤ |x| + |((l / r : Nat) : Int) * y| := abs_sub _ _
              _ = |x| + (l / r : Nat) * |y| := by rw [abs_mul, abs_of_nonneg (Int.natCast_nonneg _)]
          calc |x - (l / r : Nat) * y| * (Nat.gcd l r) ≤ (|x| + (l / r : Nat) * |y|) * (Nat.gcd l r) :=
                mul_le_mul_of_nonneg_right h8 (by positivity)
            _ = |x| * (Nat.gcd l r) + (l / r : Nat) * (|y| * (Nat.gcd l r)) := by ring
            _ < (l % r : Nat) + (l / r : Nat) * r := by
                have := mul_le_mul_of_nonneg_left h7.le (Int.natCast_nonneg (l / r))
                omega
            _ = l := by rw [mul_comm]; exact h5.symm
      · intro hl0 hlr
        have hm : l % r = l := Nat.mod_eq_of_lt hlr
        have hd : l / r = 0 := Nat.div_eq_of_lt hlr
        have := h3 (by omega)
        rw [hm] at this
        rw [hd]
        simpa using this

theorem bGcd_spec (a b : Int) : ∃ x y : Int, bGcd (encI a) (encI b) = .ok (encI (Int.gcd a b), encI x, encI y) ∧
    a * x + b * y = Int.gcd a b ∧ (b ≠ 0 → |x| * (Int.gcd a b) < |b|) := by
  unfold bGcd
  simp only [bIsNan_encI, Bool.or_self, Bool.false_eq_true, if_false, bEqW_zero_encI]
  by_cases ha : a = 0 <;> by_cases hb : b = 0
  · subst ha; subst hb
    exact ⟨0, 0, by simp [bZero_eq], by simp, by simp⟩
  · subst ha
    refine ⟨0, if b < 0 then -1 else 1, ?_, ?_, by simpa using hb⟩
    · simp only [decide_true, hb, decide_false, Bool.and_false, Bool.false_eq_true, if_false, Bool.not_false,
        Bool.and_self, if_true, bAbs_encI, bIsNegative_encI, decide_eq_true_eq, bMinusOne_eq, bOne_eq, bZero_eq]
      rw [Int.gcd_zero_left, ← Int.abs_eq_natAbs]
      split <;> rfl
    · rw [Int.gcd_zero_left]
      split <;> omega
  · subst hb
    refine ⟨if a < 0 then -1 else 1, 0, ?_, ?_, by simp⟩
    · simp only [decide_true, ha, decide_false, Bool.and_true, Bool.false_eq_true, if_false, Bool.not_false,
        Bool.not_true, Bool.and_false, Bool.and_self, if_true, bAbs_encI, bIsNegative_encI, decide_eq_true_eq,
        bMinusOne_eq, bOne_eq, bZero_eq]
      rw [Int.gcd_zero_right, ← Int.abs_eq_natAbs]
      split <;> rfl
    · rw [Int.gcd_zero_right]
      split <;> omega
  · simp only [ha, hb, decide_false, Bool.and_self, Bool.false_eq_true, if_false, Bool.not_false, Bool.and_false,
      Bool.and_true, bIsNegative_encI, decide_eq_true_eq]
    have e : ∀ z : Int, (if z < 0 then bNeg (encI z) else bDeepClone (encI z)) = encI z.natAbs := by
      intro z
      split
      · rw [bNeg_encI]; exact encI_inj.2 (by omega)
      · rw [bDeepClone_encI]; exact encI_inj.2 (by omega)
    rw [e, e]
    have hv : val (encI (b.natAbs : Int)).nat = b.natAbs := by rw [encI_ofNat]; exact val_enc _
    rw [hv]
    obtain ⟨x, y, h1, h2, h3, -⟩ := bGcdExtend_spec (b.natAbs + 1) a.natAbs b.natAbs (by omega)
    refine ⟨if a < 0 then -x else x, if b < 0 then -y else y, ?_, ?_, ?_⟩
    · simp only [bind, Except.bind, h1, Except.ok.injEq, Prod.mk.injEq]
      refine ⟨rfl, ?_, ?_⟩
      · split <;> simp
      · split <;> simp
    · have e1 : a * (if a < 0 then -x else x) = (a.natAbs : Int) * x := by
        split
        · rw [show (a.natAbs : Int) = -a by omega]; ring
        · rw [show (a.natAbs : Int) = a by omega]
      have e2 : b * (if b < 0 then -y else y) = (b.natAbs : Int) * y := by
        split
        · rw [show (b.natAbs : Int) = -b by omega]; ring
        · rw [show (b.natAbs : Int) = b by omega]
      rw [e1, e2, h2]; rfl
    · intro _
      have := h3 (by omega)
      rw [Int.abs_eq_natAbs b]
      have e3 : |if a < 0 then -x else x| = |x| := by split <;> simp
      rw [e3]
      exact this

theorem gcd_of_modEq {g a n : Int} (h : g ≡ a [ZMOD n]) : Int.gcd g n = Int.gcd a n := by
  rw [← Int.gcd_emod g n, h.eq, Int.gcd_emod]

/-! ## inverse modulo n -/

theorem bModInverse_spec' (a : Int) {n : Int} (hn : n ≠ 0) : ∃ v : Int, bModInverse (encI a) (encI n) = .ok (encI v) ∧
    0 ≤ v ∧ v < |n| ∧ a * v ≡ Int.gcd a n [ZMOD n] := by
  unfold bModInverse
  simp only [bIsNan_encI, Bool.or_self, Bool.false_eq_true, if_false, bIsNegative_encI, decide_eq_true_eq]
  have e : (if n < 0 then bAbs (encI n) else bDeepClone (encI n)) = encI |n| := by
    split
    · rw [bAbs_encI]
    · next h => rw [bDeepClone_encI, abs_of_nonneg (not_lt.1 h)]
  rw [e]
  have hpos : 0 < |n| := abs_pos.2 hn
  -- the operand, brought into the non-negative range
  obtain ⟨g, hg, hga⟩ : ∃ g : Int, ((if a < 0 then bRemEuclid (encI a) (encI |n|) else .ok (encI a) : Res BInt)
      = .ok (encI g)) ∧ g ≡ a [ZMOD n] := by
    by_cases ha : a < 0
    · rw [if_pos ha, bRemEuclid_encI a (by omega)]
      refine ⟨_, rfl, ?_⟩
      by_cases hd : |n| ∣ a
      · rw [if_pos ⟨ha, hd⟩, abs_abs]
        have h1 : n ∣ a := (abs_dvd n a).1 hd
        have h2 : n ∣ |n| := (dvd_abs n n).2 dvd_rfl
        exact (Int.modEq_zero_iff_dvd.2 h2).trans (Int.modEq_zero_iff_dvd.2 h1).symm
      · rw [if_neg (by tauto), Int.emod_abs]
        exact Int.mod_modEq a n
    · rw [if_neg ha]; exact ⟨a, rfl, rfl⟩
  obtain ⟨x, y, h1, h2, h3⟩ := bGcd_spec g |n|
  simp only [bind, Except.bind, hg, h1, bIsNegative_encI, decide_eq_true_eq, Except.ok.injEq]
  have hgg : Int.gcd g |n| = Int.gcd a n := by
    have h4 : Int.gcd g |n| = Int.gcd g n := by unfold Int.gcd; rw [Int.natAbs_abs]
    rw [h4, gcd_of_modEq hga]
  have hgpos : 0 < Int.gcd g |n| := Int.gcd_pos_of_ne_zero_right _ (by omega)
  have hx : |x| < |n| := by
    have h4 := h3 (by omega)
    rw [abs_abs] at h4
    have h5 : |x| * 1 ≤ |x| * (Int.gcd g |n|) := mul_le_mul_of_nonneg_left (by exact_mod_cast hgpos) (abs_nonneg x)
    omega
  have hx' := abs_lt.1 hx
  refine ⟨if x < 0 then x + |n| else x, ?_, ?_, ?_, ?_⟩
  · split <;> simp [bAddInner_encI]
  · split <;> omega
  · split <;> omega
  · rw [hgg] at h2
    have h2' : g * x ≡ Int.gcd a n [ZMOD n] := by
      have hd : n ∣ |n| := (dvd_abs n n).2 dvd_rfl
      refine (Int.modEq_iff_dvd.2 ?_)
      have : (Int.gcd a n : Int) - g * x = |n| * y := by linear_combination -h2
      rw [this]; exact Dvd.dvd.mul_right hd y
    have hv : (if x < 0 then x + |n| else x) ≡ x [ZMOD n] := by
      split
      · have hd : n ∣ |n| := (dvd_abs n n).2 dvd_rfl
        refine (Int.modEq_iff_dvd.2 ?_)
        have : x - (x + |n|) = -|n| := by ring
        rw [this]; exact (dvd_neg).2 hd
      · rfl
    exact ((hga.symm.mul hv)).trans h2'

theorem bModInverse_spec (a : Int) {n : Int} (hn : n ≠ 0) : ∃ v : Int, bModInverse (encI a) (encI n) = .ok (encI v) ∧
    0 ≤ v ∧ v < |n| ∧ (Int.gcd a n = 1 → a * v ≡ 1 [ZMOD n]) := by
  obtain ⟨v, h1, h2, h3, h4⟩ := bModInverse_spec' a hn
  exact ⟨v, h1, h2, h3, fun h => by rw [h] at h4; exact h4⟩

/-! ## linear congruences -/

theorem bSolveLoop_spec (x0 nd n d : Int) (hn : 0 < n) (hx : 0 ≤ x0) (hnd : 0 ≤ nd) (fuel : Nat) :
    ∀ i : Nat, (d - i).toNat < fuel →
      bSolveLoop (encI x0) (encI nd) (encI n) (encI d) fuel (encI i)
        = .ok ((List.range' i (d - i).toNat).map fun j : Nat => encI ((x0 + j * nd) % n)) := by
  induction fuel with
  | zero => intro i h; omega
  | succ fuel ih =>
    intro i hi
    rw [bSolveLoop, bLt_encI]
    by_cases h : (i : Int) < d
    · rw [if_pos (by simpa using h), bMul_encI, bAdd_encI]
      have h1 : 0 ≤ x0 + i * nd := add_nonneg hx (mul_nonneg (by positivity) hnd)
      rw [bRemEuclid_ok (by omega) (Or.inl h1), bOne_eq, bAddInner_encI]
      have h2 : (i : Int) + 1 = ((i + 1 : Nat) : Int) := by push_cast; ring
      rw [h2]
      simp only [bind, Except.bind, ih (i + 1) (by omega), Except.ok.injEq]
      rw [show (d - i).toNat = (d - (i + 1 : Nat)).toNat + 1 by omega, List.range'_succ, List.map_cons]
    · rw [if_neg (by simpa using h), show (d - i).toNat = 0 by omega]
      rfl

/-- what `solve_mod_linear_equation` returns -/
theorem bSolve_spec (a b : Int) {n : Int} (hn : 0 < n) :
    if (Int.gcd a n : Int) ∣ b ∧ 0 ≤ b then
      ∃ x0 : Int, 0 ≤ x0 ∧ a * x0 ≡ b [ZMOD n] ∧ bSolve (encI a) (encI b) (encI n) =
        .ok (some ((List.range (Int.gcd a n)).map fun j : Nat => encI ((x0 + j * (n / (Int.gcd a n : Int))) % n)))
    else bSolve (encI a) (encI b) (encI n) = .ok none := by
  unfold bSolve
  simp only [bIsNan_encI, Bool.or_self, Bool.false_eq_true, if_false, bIsNegative_encI, decide_eq_true_eq]
  rw [if_neg (by omega : ¬ n < 0)]
  obtain ⟨g, hg, hga⟩ : ∃ g : Int, ((if a < 0 then bRemEuclid (encI a) (encI n) else .ok (encI a) : Res BInt)
      = .ok (encI g)) ∧ g ≡ a [ZMOD n] := by
    by_cases ha : a < 0
    · rw [if_pos ha, bRemEuclid_encI a (by omega)]
      refine ⟨_, rfl, ?_⟩
      by_cases hd : n ∣ a
      · rw [if_pos ⟨ha, hd⟩]
        have h2 : n ∣ |n| := (dvd_abs n n).2 dvd_rfl
        exact (Int.modEq_zero_iff_dvd.2 h2).trans (Int.modEq_zero_iff_dvd.2 hd).symm
      · rw [if_neg (by tauto)]
        exact Int.mod_modEq a n
    · rw [if_neg ha]; exact ⟨a, rfl, rfl⟩
  obtain ⟨x, y, h1, h2, -⟩ := bGcd_spec g n
  rw [gcd_of_modEq hga] at h1 h2
  have hdpos : 0 < Int.gcd a n := Int.gcd_pos_of_ne_zero_right _ (by omega)
  have hdn : (Int.gcd a n : Int) ∣ n := Int.gcd_dvd_right ..
  generalize Int.gcd a n = d at *
  have hgt : bGt (encI d) bZero = true := by rw [bZero_eq, bGt_encI]; simpa using hdpos
  have hdiv : (if bEq (encI b) bZero then (.ok true : Res Bool)
        else (do let r ← bRem (encI b) (encI d); .ok (bEqW r 0#32))) = .ok (decide ((d : Int) ∣ b ∧ 0 ≤ b)) := by
    rw [bZero_eq, bEq_encI]
    by_cases hb0 : b = 0
    · subst hb0; simp
    · rw [if_neg (by simpa using hb0), bRem_eq, bRemInner_encI b (by omega)]
      simp only [bind, Except.bind, bEqW, ← enc_zero, eqv_enc, Except.ok.injEq, Int.natAbs_natCast]
      rw [Bool.eq_iff_iff]
      simp only [Bool.and_eq_true, decide_eq_true_eq, Bool.not_eq_true', decide_eq_false_iff_not]
      rw [← Nat.dvd_iff_mod_eq_zero, ← Int.natCast_dvd]
      constructor
      · rintro ⟨h, h'⟩; exact ⟨h', by omega⟩
      · rintro ⟨h, h'⟩; exact ⟨by omega, h⟩
  simp only [bind, Except.bind] at hdiv
  simp only [bind, Except.bind, hg, h1, hgt, if_true, hdiv]
  by_cases hc : (d : Int) ∣ b ∧ 0 ≤ b
  · rw [if_pos hc]
    simp only [hc, and_self, decide_true, if_true]
    rw [bDiv_nonneg hc.2 (by omega), bDiv_nonneg hn.le (by omega)]
    simp only [bMulInner_encI]
    rw [bRemEuclid_encI _ (by omega)]
    simp only
    obtain ⟨c, hb⟩ := hc.1
    have hbd : b / d = c := by rw [hb, Int.mul_ediv_cancel_left _ (by omega)]
    rw [hbd]
    have hax : a * (x * c) ≡ b [ZMOD n] := by
      have h3 : g * x ≡ d [ZMOD n] := by
        refine Int.modEq_iff_dvd.2 ?_
        rw [← h2]; exact ⟨y, by ring⟩
      have h4 := (hga.symm.mul_right x).trans h3
      have h5 := h4.mul_right c
      rw [← hb, mul_assoc] at h5
      exact h5
    have hx0 : ∃ x0 : Int, 0 ≤ x0 ∧ a * x0 ≡ b [ZMOD n] ∧
        (if x * c < 0 ∧ n ∣ x * c then |n| else x * c % n) = x0 := by
      refine ⟨_, ?_, ?_, rfl⟩
      · split
        · exact abs_nonneg n
        · exact Int.emod_nonneg _ (by omega)
      · split
        · next h =>
          have h2 : n ∣ |n| := (dvd_abs n n).2 dvd_rfl
          have h3 := (Int.modEq_zero_iff_dvd.2 h2).trans (Int.modEq_zero_iff_dvd.2 h.2).symm
          exact (h3.mul_left a).trans hax
        · exact ((Int.mod_modEq (x * c) n).mul_left a).trans hax
    obtain ⟨x0, h01, h02, h03⟩ := hx0
    rw [h03]
    refine ⟨x0, h01, h02, ?_⟩
    have hv : val (encI (d : Int)).nat = d := by rw [encI_ofNat]; exact val_enc _
    have hl := bSolveLoop_spec x0 (n / d) n d hn h01 (Int.ediv_nonneg hn.le (by omega)) (d + 1) 0 (by omega)
    rw [hv, bZero_eq, show (0 : Int) = ((0 : Nat) : Int) from rfl, hl]
    simp [List.range_eq_range']
  · rw [if_neg hc]
    simp [hc]

/-- the solutions of a linear congruence, from one of them -/
theorem congr_solutions {a b n x0 : Int} (hn : 0 < n) (h0 : a * x0 ≡ b [ZMOD n]) (z : Int) :
    (0 ≤ z ∧ z < n ∧ a * z ≡ b [ZMOD n]) ↔
      ∃ j : Nat, j < Int.gcd a n ∧ (x0 + j * (n / (Int.gcd a n : Int))) % n = z := by
  have hdpos : 0 < Int.gcd a n := Int.gcd_pos_of_ne_zero_right _ (by omega)
  obtain ⟨n', hn'⟩ : (Int.gcd a n : Int) ∣ n := Int.gcd_dvd_right ..
  obtain ⟨a', ha'⟩ : (Int.gcd a n : Int) ∣ a := Int.gcd_dvd_left ..
  have hcop : Int.gcd a' n' = 1 := by
    have h := Int.gcd_div_gcd_div_gcd (i := a) (j := n) hdpos
    have e1 : a / (Int.gcd a n : Int) = a' := by
      conv_lhs => lhs; rw [ha']
      exact Int.mul_ediv_cancel_left _ (by omega)
    have e2 : n / (Int.gcd a n : Int) = n' := by
      conv_lhs => lhs; rw [hn']
      exact Int.mul_ediv_cancel_left _ (by omega)
    rwa [e1, e2] at h
  generalize Int.gcd a n = d at *
  have hq : n / d = n' := by rw [hn', Int.mul_ediv_cancel_left _ (by omega)]
  rw [hq]
  have hd0 : (0 : Int) < d := by exact_mod_cast hdpos
  have hn'pos : 0 < n' := by
    by_contra h
    have : (d : Int) * n' ≤ 0 := mul_nonpos_of_nonneg_of_nonpos hd0.le (not_lt.1 h)
    omega
  constructor
  · rintro ⟨hz0, hz1, hz⟩
    have h1 : n ∣ a * (z - x0) := by
      have := (Int.modEq_iff_dvd.1 (h0.trans hz.symm))
      rwa [mul_sub]
    have h2 : n' ∣ z - x0 := by
      have h3 : n' ∣ a' * (z - x0) := by
        rw [hn', ha', mul_assoc] at h1
        exact Int.dvd_of_mul_dvd_mul_left hd0.ne' h1
      exact Int.dvd_of_dvd_mul_right_of_gcd_one h3 (by rw [Int.gcd_comm]; exact hcop)
    obtain ⟨q, hq'⟩ := h2
    refine ⟨(q % d).toNat, ?_, ?_⟩
    · have := Int.emod_nonneg q hd0.ne'
      have := Int.emod_lt_of_pos q hd0
      omega
    · have hqn := Int.emod_nonneg q hd0.ne'
      rw [Int.toNat_of_nonneg hqn]
      have e : x0 + q % d * n' = z - (q / d) * n := by
        have := Int.emod_add_mul_ediv q d
        rw [hn']
        linear_combination n' * this - hq'
      rw [e, Int.sub_mul_emod_self_right, Int.emod_eq_of_lt hz0 hz1]
  · rintro ⟨j, hj, rfl⟩
    refine ⟨Int.emod_nonneg _ hn.ne', Int.emod_lt_of_pos _ hn, ?_⟩
    have h1 : (x0 + j * n') % n ≡ x0 + j * n' [ZMOD n] := Int.mod_modEq _ _
    refine (h1.mul_left a).trans (Int.ModEq.trans ?_ h0)
    refine Int.modEq_iff_dvd.2 ⟨-(a' * j), ?_⟩
    rw [ha', hn']; ring

/-- and they are pairwise different -/
theorem congr_injective {a n x0 : Int} (hn : 0 < n) {i j : Nat} (hi : i < Int.gcd a n) (hj : j < Int.gcd a n)
    (h : (x0 + i * (n / (Int.gcd a n : Int))) % n = (x0 + j * (n / (Int.gcd a n : Int))) % n) : i = j := by
  obtain ⟨n', hn'⟩ : (Int.gcd a n : Int) ∣ n := Int.gcd_dvd_right ..
  generalize Int.gcd a n = d at *
  have hd0 : (0 : Int) < d := by omega
  have hq : n / d = n' := by rw [hn', Int.mul_ediv_cancel_left _ (by omega)]
  rw [hq] at h
  have hn'0 : n' ≠ 0 := by rintro rfl; omega
  have h1 : n ∣ (x0 + j * n') - (x0 + i * n') := Int.modEq_iff_dvd.1 h
  have h2 : (x0 + j * n') - (x0 + i * n') = n' * (j - i) := by ring
  rw [h2, hn', mul_comm (d : Int)] at h1
  have h3 : (d : Int) ∣ j - i := Int.dvd_of_mul_dvd_mul_left hn'0 h1
  obtain ⟨k, hk⟩ := h3
  have hk0 : k = 0 := by
    rcases lt_trichotomy k 0 with h | h | h
    · have : (d : Int) * k ≤ d * (-1) := mul_le_mul_of_nonneg_left (by omega) hd0.le
      omega
    · exact h
    · have : (d : Int) * 1 ≤ d * k := mul_le_mul_of_nonneg_left (by omega) hd0.le
      omega
  rw [hk0] at hk
  omega

end RMath
