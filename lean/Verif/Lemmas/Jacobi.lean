import Mathlib.NumberTheory.LegendreSymbol.JacobiSymbol
import Verif.SpecFun
import Verif.Model.BigIntFun
import Verif.Lemmas.BigIntExp
import Verif.Lemmas.NatFun
import Verif.Lemmas.ShiftFits

/-!
# The Jacobi symbol
-/

namespace RMath

open NumberTheorySymbols jacobiSym

theorem bRemEuclidInner_encI (a : Int) {n : Int} (hn : n ≠ 0) :
    bRemEuclidInner (encI a) (encI n) = .ok (encI (if a < 0 ∧ n ∣ a then |n| else a % n)) := by
  have := bRemEuclid_encI a hn
  rwa [bRemEuclid, bDeepClone_encI] at this

theorem bRemEuclidInner_ok {a n : Int} (hn : n ≠ 0) (h : 0 ≤ a ∨ ¬ n ∣ a) :
    bRemEuclidInner (encI a) (encI n) = .ok (encI (a % n)) := by
  have := bRemEuclid_ok hn h
  rwa [bRemEuclid, bDeepClone_encI] at this

theorem traillingZeros_eq {s q : Nat} (hq : q % 2 = 1) : traillingZeros (enc (2 ^ s * q)) = s := by
  have h0 : val (enc (2 ^ s * q)) ≠ 0 := by
    rw [val_enc]
    exact Nat.mul_ne_zero (by positivity) (by omega)
  obtain ⟨h1, h2⟩ := traillingZeros_spec _ h0
  rw [val_enc] at h1 h2
  generalize traillingZeros (enc (2 ^ s * q)) = t at *
  have hbit : (2 ^ s * q).testBit s = true := by
    rw [Nat.testBit_two_pow_mul]
    simp [Nat.testBit_zero, hq]
  rcases lt_trichotomy t s with h | h | h
  · rw [Nat.testBit_two_pow_mul] at h1
    simp at h1
    omega
  · exact h
  · rw [h2 s h] at hbit
    cases hbit

theorem word0_enc (n : Nat) : ∃ w : W, word0 (enc n) = .ok w ∧ w.toNat = n % 2 ^ 32 := by
  have h := enc_head n
  have h1 := enc_ne_nil n
  match he : enc n with
  | [] => exact absurd he h1
  | w :: ws => rw [he] at h; exact ⟨w, rfl, by simpa using h⟩

theorem and7 (w : W) : (w &&& 7#32).toNat = w.toNat % 8 := by
  rw [BitVec.toNat_and]
  exact Nat.and_two_pow_sub_one_eq_mod w.toNat 3

theorem and3 (w : W) : (w &&& 3#32).toNat = w.toNat % 4 := by
  rw [BitVec.toNat_and]
  exact Nat.and_two_pow_sub_one_eq_mod w.toNat 2

theorem bShrInner_nat {n s : Nat} (h : s < 32) : bShrInner (encI (n : Int)) s = encI ((n / 2 ^ s : Nat) : Int) := by
  rw [encI_ofNat, encI_ofNat, bShrInner]
  simp only [Bool.false_eq_true, if_false, assignPrim, isNan_enc, shrInner_enc_lt h]

theorem bShrInner_odd_part {s q : Nat} (hq : q % 2 = 1) (h : ShiftFits (2 ^ s * q) s) :
    bShrInner (encI ((2 ^ s * q : Nat) : Int)) s = encI (q : Int) := by
  rw [encI_ofNat, encI_ofNat, bShrInner]
  simp only [Bool.false_eq_true, if_false, assignPrim, isNan_enc, shrInner_odd_part hq h]

/-- one step of the algorithm on the symbol -/
theorem jacobi_step {b s q : Nat} (hb : b % 2 = 1) (hq : q % 2 = 1) {a : Int} (hr : a % (b : Int) = 2 ^ s * (q : Int)) :
    J(a | b) = (if s % 2 ≠ 0 ∧ (b % 8 = 3 ∨ b % 8 = 5) then -1 else 1) *
      ((if b % 4 = 3 ∧ q % 4 = 3 then -1 else 1) * J(b | q)) := by
  rw [mod_left, hr, mul_left, pow_left]
  have h1 := quadratic_reciprocity_if hq hb
  have h2 : J(2 | b) = if b % 8 = 3 ∨ b % 8 = 5 then -1 else 1 := by
    have := even_odd (a := 2) (b := b) (by norm_num) hb
    rw [← this]
    norm_num
  rw [← h1, h2]
  congr 1
  · by_cases hb8 : b % 8 = 3 ∨ b % 8 = 5
    · simp only [hb8, if_true, and_true]
      rcases Nat.mod_two_eq_zero_or_one s with h | h
      · rw [if_neg (by omega), Even.neg_one_pow (Nat.even_iff.2 h)]
      · rw [if_pos (by omega), Odd.neg_one_pow (Nat.odd_iff.2 h)]
    · simp [hb8]
  · by_cases h : b % 4 = 3 ∧ q % 4 = 3
    · rw [if_pos h, if_pos h.symm]; ring
    · rw [if_neg h, if_neg (by tauto)]; ring

theorem encI_nat_eqv (z : Int) : eqv (encI z).nat [0#32] = decide (z = 0) := by
  simp only [encI, ← enc_zero, eqv_enc, Int.natAbs_eq_zero]

theorem bJacobiLoop_spec {a : Int} {b : Nat} (h : TwosFit a b) (hb : b % 2 = 1) :
    ∀ (fuel : Nat) (j : Int), b + 2 ≤ fuel →
      bJacobiLoop fuel (encI a) (encI b) j = .ok (j * J(a | b)) := by
  induction h with
  | one a =>
    intro fuel j hf
    obtain ⟨f, rfl⟩ : ∃ f, fuel = f + 1 := ⟨fuel - 1, by omega⟩
    rw [bJacobiLoop]
    simp
  | @zero a b hd =>
    intro fuel j hf
    obtain ⟨f, rfl⟩ : ∃ f, fuel = f + 2 := ⟨fuel - 2, by omega⟩
    by_cases h1 : b = 1
    · subst h1
      rw [bJacobiLoop]
      simp
    · have hJ : J(a | b) = 0 := by
        rw [mod_left, Int.emod_eq_zero_of_dvd hd]
        exact zero_left (by omega)
      have hb1 : ¬ ((b : Int) = 1) := by omega
      have hb0 : (b : Int) ≠ 0 := by omega
      rw [hJ, mul_zero, bJacobiLoop, bEqW_one_encI, encI_nat_eqv]
      simp only [hb1, decide_false, Bool.false_eq_true, if_false, decide_eq_true_eq]
      by_cases ha : a = 0
      · rw [if_pos ha]
      rw [if_neg ha, bRemEuclidInner_encI a hb0]
      simp only [bind, Except.bind, encI_nat_eqv, decide_eq_true_eq]
      by_cases hneg : a < 0
      · have e1 : (if a < 0 ∧ (b : Int) ∣ a then |(b : Int)| else a % (b : Int)) = (b : Int) := by
          rw [if_pos ⟨hneg, hd⟩]; simp
        rw [e1, if_neg hb0]
        obtain ⟨w, hw, -⟩ := word0_enc b
        have htz : traillingZeros (enc b) = 0 := by
          have := traillingZeros_eq (s := 0) hb
          simpa using this
        have hnat : (encI (b : Int)).nat = enc b := by rw [encI_ofNat]
        rw [hnat, htz, hw]
        simp only []
        rw [bShrInner_nat (by norm_num : 0 < 32)]
        simp only [pow_zero, Nat.div_one]
        rw [hnat, hw]
        simp only []
        rw [bJacobiLoop, bEqW_one_encI, encI_nat_eqv]
        simp only [hb1, hb0, decide_false, Bool.false_eq_true, if_false]
        rw [bRemEuclidInner_ok hb0 (Or.inl (by omega))]
        simp only [bind, Except.bind, encI_nat_eqv, Int.emod_self, decide_true, if_true]
      · rw [if_neg (show ¬ (a < 0 ∧ (b : Int) ∣ a) by tauto), Int.emod_eq_zero_of_dvd hd, if_pos rfl]
  | @step a b s q hq hr hs _ ih =>
    intro fuel j hf
    obtain ⟨f, rfl⟩ : ∃ f, fuel = f + 1 := ⟨fuel - 1, by omega⟩
    by_cases h1 : b = 1
    · subst h1
      rw [bJacobiLoop]
      simp
    have hb1 : ¬ ((b : Int) = 1) := by omega
    have hb0 : (b : Int) ≠ 0 := by omega
    have hrpos : (0 : Int) < 2 ^ s * (q : Int) := by
      have : (0 : Int) < q := by omega
      positivity
    have hnd : ¬ ((b : Int) ∣ a) := by
      intro hd
      rw [Int.emod_eq_zero_of_dvd hd] at hr
      omega
    have ha : a ≠ 0 := by rintro rfl; exact hnd (dvd_zero _)
    rw [bJacobiLoop, bEqW_one_encI, encI_nat_eqv]
    simp only [hb1, ha, decide_false, Bool.false_eq_true, if_false]
    rw [bRemEuclidInner_ok hb0 (Or.inr hnd), hr]
    have hcast : (2 ^ s * (q : Int) : Int) = ((2 ^ s * q : Nat) : Int) := by push_cast; ring
    rw [hcast]
    simp only [bind, Except.bind, encI_nat_eqv, decide_eq_true_eq]
    rw [if_neg (by rw [← hcast]; omega)]
    have hnat : ∀ n : Nat, (encI (n : Int)).nat = enc n := fun n => by rw [encI_ofNat]
    obtain ⟨w, hw, hwv⟩ := word0_enc b
    obtain ⟨u, hu, huv⟩ := word0_enc q
    rw [hnat, hnat, traillingZeros_eq hq, hw]
    simp only []
    rw [bShrInner_odd_part hq hs, hnat, hu]
    simp only []
    have hlt : q < b := by
      have h2 : a % (b : Int) < b := Int.emod_lt_of_pos _ (by omega)
      rw [hr] at h2
      have h3 : (1 : Int) ≤ 2 ^ s := by exact_mod_cast Nat.one_le_two_pow
      nlinarith
    rw [ih hq f _ (by omega)]
    congr 1
    rw [jacobi_step hb hq hr]
    have e3 : (w &&& 7#32 = 3#32 ∨ w &&& 7#32 = 5#32) ↔ (b % 8 = 3 ∨ b % 8 = 5) := by
      rw [← BitVec.toNat_inj, ← BitVec.toNat_inj, and7, hwv]
      simp only [BitVec.toNat_ofNat]
      omega
    have e4 : (w &&& 3#32 = 3#32 ∧ u &&& 3#32 = 3#32) ↔ (b % 4 = 3 ∧ q % 4 = 3) := by
      rw [← BitVec.toNat_inj, ← BitVec.toNat_inj, and3, and3, hwv, huv]
      simp only [BitVec.toNat_ofNat]
      omega
    simp only [e3, e4]
    split_ifs <;> ring

theorem bJacobi_spec {a : Int} {b : Nat} (h : TwosFit a b) (hb : b % 2 = 1) :
    bJacobi (encI a) (encI b) = .ok (some J(a | b)) := by
  have hb0 : ¬ ((b : Int) = 0) := by omega
  have hneg : ¬ ((b : Int) < 0) := by omega
  unfold bJacobi
  simp only [bIsNan_encI, Bool.or_self, bEqW_zero_encI, hb0, decide_false, Bool.false_eq_true, if_false,
    bIsNegative_encI, hneg, bDeepClone_encI]
  rw [bJacobiLoop_spec h hb _ _ (by rw [encI_ofNat, val_enc])]
  simp

/-- every remainder below `2^32` fits -/
theorem twosFit_of_lt (b : Nat) : ∀ (a : Int), b % 2 = 1 → b < 2 ^ 32 → TwosFit a b := by
  induction b using Nat.strong_induction_on with
  | _ b ih =>
    intro a hb hlt
    by_cases hd : (b : Int) ∣ a
    · exact .zero hd
    have h0 : 0 ≤ a % (b : Int) := Int.emod_nonneg _ (by omega)
    have h1 : a % (b : Int) < b := Int.emod_lt_of_pos _ (by omega)
    obtain ⟨r, hr⟩ : ∃ r : Nat, a % (b : Int) = r := ⟨_, (Int.toNat_of_nonneg h0).symm⟩
    have hr0 : r ≠ 0 := by
      rintro rfl
      exact hd (Int.dvd_of_emod_eq_zero (by simpa using hr))
    obtain ⟨s, q, hq, rfl⟩ := Nat.exists_eq_two_pow_mul_odd hr0
    have hqo : q % 2 = 1 := Nat.odd_iff.1 hq
    have hrb : 2 ^ s * q < b := by rw [hr] at h1; exact_mod_cast h1
    have hs : s < 32 := by
      by_contra hc
      have : 2 ^ 32 ≤ 2 ^ s := Nat.pow_le_pow_right (by norm_num) (by omega)
      have : 2 ^ s * 1 ≤ 2 ^ s * q := Nat.mul_le_mul_left _ (by omega)
      omega
    have hqb : q < b := by
      have : 1 * q ≤ 2 ^ s * q := Nat.mul_le_mul_right _ Nat.one_le_two_pow
      omega
    exact .step hqo (by rw [hr]; push_cast; ring) (shiftFits_lt hs) (ih q hqb b hqo (by omega))

/-- nor does a first argument below `2^32` meet a large remainder -/
theorem twosFit_of_small {a : Int} (h0 : 0 ≤ a) (ha : a < 2 ^ 32) (b : Nat) (hb : b % 2 = 1) : TwosFit a b := by
  by_cases hd : (b : Int) ∣ a
  · exact .zero hd
  have h1 : 0 ≤ a % (b : Int) := Int.emod_nonneg _ (by omega)
  have h2 : a % (b : Int) ≤ a := by
    obtain ⟨k, rfl⟩ := Int.eq_ofNat_of_zero_le h0
    exact_mod_cast Nat.mod_le k b
  obtain ⟨r, hr⟩ : ∃ r : Nat, a % (b : Int) = r := ⟨_, (Int.toNat_of_nonneg h1).symm⟩
  have hr0 : r ≠ 0 := by
    rintro rfl
    exact hd (Int.dvd_of_emod_eq_zero (by simpa using hr))
  obtain ⟨s, q, hq, rfl⟩ := Nat.exists_eq_two_pow_mul_odd hr0
  have hqo : q % 2 = 1 := Nat.odd_iff.1 hq
  have hrb : 2 ^ s * q < 2 ^ 32 := by rw [hr] at h2; zify; exact lt_of_le_of_lt (by exact_mod_cast h2) ha
  have hs : s < 32 := by
    by_contra hc
    have : 2 ^ 32 ≤ 2 ^ s := Nat.pow_le_pow_right (by norm_num) (by omega)
    have : 2 ^ s * 1 ≤ 2 ^ s * q := Nat.mul_le_mul_left _ (by omega)
    omega
  have hqb : q < 2 ^ 32 := by
    have : 1 * q ≤ 2 ^ s * q := Nat.mul_le_mul_right _ Nat.one_le_two_pow
    omega
  exact .step hqo (by rw [hr]; push_cast; ring) (shiftFits_lt hs) (twosFit_of_lt q _ hqo hqb)

end RMath
