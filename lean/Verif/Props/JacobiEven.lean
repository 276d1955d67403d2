import Verif.Props.Residue

/-!
# Property C46: `jacobi` of even `b`

There is no Jacobi symbol for even `b`; the code answers with a number all the same.
-/

namespace RMath
open jacobiSym

open scoped NumberTheorySymbols

/-- the first round for an even `b` -/
theorem jacobi_even_round {a : Int} {b s q : Nat} (hb : b % 2 = 0) (hb0 : 0 < b) (hq : q % 2 = 1)
    (hr : (if a < 0 ∧ (b : Int) ∣ a then (b : Int) else a % b) = 2 ^ s * (q : Int)) (hs : ShiftFits (2 ^ s * q) s)
    (h : TwosFit b q) (hlt : q < b) (fuel : Nat) (hf : b + 2 ≤ fuel) (j : Int) :
    bJacobiLoop fuel (encI a) (encI b) j = .ok (j * J(b | q)) := by
  obtain ⟨f, rfl⟩ : ∃ f, fuel = f + 1 := ⟨fuel - 1, by omega⟩
  have hb1 : ¬ ((b : Int) = 1) := by omega
  have hb0' : (b : Int) ≠ 0 := by omega
  have hrpos : (0 : Int) < 2 ^ s * (q : Int) := by
    have : (0 : Int) < q := by omega
    positivity
  have ha : a ≠ 0 := by
    rintro rfl
    simp at hr
    omega
  rw [bJacobiLoop, bEqW_one_encI, encI_nat_eqv]
  simp only [hb1, ha, decide_false, Bool.false_eq_true, if_false]
  rw [bRemEuclidInner_encI a hb0', abs_of_nonneg (by omega : (0 : Int) ≤ b), hr]
  have hcast : (2 ^ s * (q : Int) : Int) = ((2 ^ s * q : Nat) : Int) := by push_cast; ring
  rw [hcast]
  simp only [bind, Except.bind, encI_nat_eqv, decide_eq_true_eq]
  rw [if_neg (by rw [← hcast]; omega)]
  have hnat : ∀ n : Nat, (encI (n : Int)).nat = enc n := fun n => by rw [encI_ofNat]
  obtain ⟨w, hw, hwv⟩ := word0_enc b
  obtain ⟨u, hu, huv⟩ := word0_enc q
  rw [hnat, hnat, traillingZeros_eq hq, hw]
  simp only []
  rw [bShrInner_odd_part hq hs, hnat, hu]
  simp only []
  rw [bJacobiLoop_spec h hq f _ (by omega)]
  congr 1
  have e3 : ¬ (w &&& 7#32 = 3#32 ∨ w &&& 7#32 = 5#32) := by
    rw [← BitVec.toNat_inj, ← BitVec.toNat_inj, and7, hwv]
    simp only [BitVec.toNat_ofNat]
    omega
  have e4 : ¬ (w &&& 3#32 = 3#32 ∧ u &&& 3#32 = 3#32) := by
    rw [← BitVec.toNat_inj, and3, hwv]
    simp only [BitVec.toNat_ofNat]
    omega
  rw [if_neg e4, if_neg (fun h => e3 h.2)]

/-- **C46**, even `b` of one word: with `r = a mod b` (but `b` for a negative multiple of `b`), the code returns 0 if `r = 0`, and otherwise
the Jacobi symbol of `b` with respect to the odd part of `r`. -/
theorem C46_jacobi_even (x y : BInt) (hx : CanonI x) (hy : CanonI y) (hpos : 0 < ival y) (heven : ival y % 2 = 0)
    (hlt : ival y < 2 ^ 32) :
    (0 ≤ ival x → ival y ∣ ival x → bJacobi x y = .ok (some 0)) ∧
    (∀ s q : Nat, q % 2 = 1 → (if ival x < 0 ∧ ival y ∣ ival x then ival y else ival x % ival y) = 2 ^ s * q →
      bJacobi x y = .ok (some (jacobiSym (ival y) q))) := by
  obtain ⟨a, rfl⟩ := canonI_iff_encI.1 hx
  obtain ⟨b, rfl⟩ := canonI_iff_encI.1 hy
  rw [ival_encI] at *
  obtain ⟨b, rfl⟩ := Int.eq_ofNat_of_zero_le hpos.le
  rw [ival_encI] at *
  have hb0 : ¬ ((b : Int) = 0) := by omega
  have hneg : ¬ ((b : Int) < 0) := by omega
  have hb1 : ¬ ((b : Int) = 1) := by omega
  unfold bJacobi
  have hn : (encI (b : Int)).nat = enc b := by rw [encI_ofNat]
  rw [bIsNan_encI, bIsNan_encI, bEqW_zero_encI, bIsNegative_encI, bDeepClone_encI, bDeepClone_encI]
  simp only [hb0, hneg, decide_false, Bool.or_self, Bool.false_eq_true, if_false, hn, val_enc]
  constructor
  · intro h0 hd
    rw [bJacobiLoop, bEqW_one_encI, encI_nat_eqv]
    simp only [hb1, decide_false, Bool.false_eq_true, if_false, decide_eq_true_eq]
    by_cases ha : a = 0
    · rw [if_pos ha]
    · rw [if_neg ha, bRemEuclidInner_encI a hb0, if_neg (fun h => by omega), Int.emod_eq_zero_of_dvd hd]
      simp only [bind, Except.bind, encI_nat_eqv, decide_true, if_true]
  · intro s q hq hr
    have hle : (2 ^ s * (q : Int)) ≤ b := by
      rw [← hr]
      split
      · exact le_refl _
      · exact (Int.emod_lt_of_pos _ hpos).le
    have hle' : 2 ^ s * q ≤ b := by exact_mod_cast hle
    have hql : q < b := by
      have : 1 ≤ 2 ^ s := Nat.one_le_two_pow
      have : q ≤ b := by nlinarith
      rcases Nat.lt_or_eq_of_le this with h | h
      · exact h
      · omega
    have hb32 : b < 2 ^ 32 := by exact_mod_cast hlt
    have hs : s < 32 := by
      by_contra h
      have h1 : 2 ^ 32 ≤ 2 ^ s := Nat.pow_le_pow_right (by norm_num) (by omega)
      have : 1 ≤ q := by omega
      nlinarith
    rw [jacobi_even_round (by omega) (by omega) hq hr (.inl hs) (twosFit_of_lt q _ hq (by omega)) hql _ le_rfl, one_mul]

/-- It is not the Kronecker symbol, which is -1 for `a = 3` and `b = 2`, and 0 for `a = -2` and `b = 2`. -/
theorem C46_jacobi_even_violated : bJacobi ⟨[3#32], false⟩ ⟨[2#32], false⟩ = .ok (some 1) ∧
    bJacobi ⟨[2#32], true⟩ ⟨[2#32], false⟩ = .ok (some 1) ∧ bJacobi ⟨[2#32], false⟩ ⟨[2#32], false⟩ = .ok (some 0) := by decide

example : CanonI (encI 7) ∧ CanonI (encI 12) ∧ (7 : Int) % 12 = 2 ^ 0 * (7 : Nat) ∧ ((12 : Int) ∣ 24) :=
  ⟨canonI_encI _, canonI_encI _, by decide, by decide⟩

end RMath
