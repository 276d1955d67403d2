import Verif.Props.BigInt

/-!
# C120 Signs of a BigInt
-/

namespace RMath

/-- The sign queries are those of the integer, and the setters give its absolute value and minus its absolute value. -/
theorem C120_signs (x : BInt) (hx : CanonI x) :
    bIsNan x = false ∧ bIsNegative x = decide (ival x < 0) ∧ bIsPositive x = decide (0 < ival x) ∧
    bIsNatural x = decide (0 ≤ ival x) ∧ bSignnum x = some (ival x).sign ∧
    ival (bSetNatural x) = |ival x| ∧ CanonI (bSetNatural x) ∧
    ival (bSetNegative x) = -|ival x| ∧ CanonI (bSetNegative x) := by
  have hn : isNan x.nat = false := by
    rw [Bool.eq_false_iff]; intro h; exact hx.1.ne_nil (isNan_iff.1 h)
  have hz : eqv x.nat [0#32] = decide (val x.nat = 0) := by
    obtain ⟨n, e⟩ := canon_iff_enc.1 hx.1
    rw [e, ← enc_zero, eqv_enc, val_enc]
  have hsign := C36_signnum x hx
  obtain ⟨nat, neg⟩ := x
  obtain ⟨h1, h2⟩ := hx
  simp only at *
  generalize hv : val nat = v at *
  cases neg
  · by_cases h0 : v = 0
    · subst h0
      simp [bIsNan, bIsNegative, bIsPositive, bIsNatural, bSetNatural, bSetNegative, ival, CanonI, hn, hz, hv, hsign, h1]
    · simp [bIsNan, bIsNegative, bIsPositive, bIsNatural, bSetNatural, bSetNegative, ival, CanonI, hn, hz, hv, hsign, h1, h0]
      omega
  · have h0 := h2 rfl
    simp [bIsNan, bIsNegative, bIsPositive, bIsNatural, bSetNatural, bSetNegative, ival, CanonI, hn, hz, hv, hsign, h1, h0]
    omega

/-- NaN has no sign, whatever its flag: all queries are false, and the setters and `abs` leave it NaN. -/
theorem C120_nan (x : BInt) (hx : x.nat = NaN) :
    bIsNan x = true ∧ bIsNegative x = false ∧ bIsPositive x = false ∧ bIsNatural x = false ∧ bSignnum x = none ∧
    bSetNatural x = x ∧ bSetNegative x = x ∧ (bAbs x).nat = NaN ∧ (bNeg x).nat = NaN ∧ bIsNan bNan = true := by
  obtain ⟨nat, neg⟩ := x
  simp only at hx
  subst hx
  cases neg <;> decide

example : CanonI ⟨[7#32], true⟩ ∧ bIsNegative ⟨[7#32], true⟩ = true ∧ bSetNatural ⟨[7#32], true⟩ = ⟨[7#32], false⟩ ∧
    bSetNegative ⟨[0#32], false⟩ = ⟨[0#32], false⟩ ∧ bIsNatural ⟨[0#32], false⟩ = true :=
  ⟨⟨⟨by decide, by decide⟩, by decide⟩, by decide⟩

end RMath
