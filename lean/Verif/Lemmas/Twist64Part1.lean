import Verif.Lemmas.TwistLits64

/-!
# Squarings modulo the polynomial of `mt19937_64!`, part 1 of 4
-/

namespace RMath

set_option maxRecDepth 100000
set_option Elab.async false

theorem mtSq64_0 : sqCheck 15 mtRed64 250 mtPow64_0 mtPow64_1 = true := by decide +kernel
theorem mtSq64_1 : sqCheck 15 mtRed64 250 mtPow64_1 mtPow64_2 = true := by decide +kernel
theorem mtSq64_2 : sqCheck 15 mtRed64 250 mtPow64_2 mtPow64_3 = true := by decide +kernel
theorem mtSq64_3 : sqCheck 15 mtRed64 250 mtPow64_3 mtPow64_4 = true := by decide +kernel
theorem mtSq64_4 : sqCheck 15 mtRed64 250 mtPow64_4 mtPow64_5 = true := by decide +kernel
theorem mtSq64_5 : sqCheck 15 mtRed64 250 mtPow64_5 mtPow64_6 = true := by decide +kernel
theorem mtSq64_6 : sqCheck 15 mtRed64 250 mtPow64_6 mtPow64_7 = true := by decide +kernel
theorem mtSq64_7 : sqCheck 15 mtRed64 250 mtPow64_7 mtPow64_8 = true := by decide +kernel
theorem mtSq64_8 : sqCheck 15 mtRed64 250 mtPow64_8 mtPow64_9 = true := by decide +kernel
theorem mtSq64_9 : sqCheck 15 mtRed64 250 mtPow64_9 mtPow64_10 = true := by decide +kernel
theorem mtSq64_10 : sqCheck 15 mtRed64 250 mtPow64_10 mtPow64_11 = true := by decide +kernel
theorem mtSq64_11 : sqCheck 15 mtRed64 250 mtPow64_11 mtPow64_12 = true := by decide +kernel
theorem mtSq64_12 : sqCheck 15 mtRed64 250 mtPow64_12 mtPow64_13 = true := by decide +kernel
theorem mtSq64_13 : sqCheck 15 mtRed64 250 mtPow64_13 mtPow64_14 = true := by decide +kernel
theorem mtSq64_14 : sqCheck 15 mtRed64 250 mtPow64_14 mtPow64_15 = true := by decide +kernel
theorem mtSq64_15 : sqCheck 15 mtRed64 250 mtPow64_15 mtPow64_16 = true := by decide +kernel
theorem mtSq64_16 : sqCheck 15 mtRed64 250 mtPow64_16 mtPow64_17 = true := by decide +kernel
theorem mtSq64_17 : sqCheck 15 mtRed64 250 mtPow64_17 mtPow64_18 = true := by decide +kernel
theorem mtSq64_18 : sqCheck 15 mtRed64 250 mtPow64_18 mtPow64_19 = true := by decide +kernel
theorem mtSq64_19 : sqCheck 15 mtRed64 250 mtPow64_19 mtPow64_20 = true := by decide +kernel

theorem mtPart64_0 {b : ℕ → ZMod 2} (hred : ∀ N k, act (mtRed64 N) b k = act N b k) (h : ShiftsAt b 0 mtPow64_0) :
    ShiftsAt b 5000 mtPow64_20 := by
  have h1 : ShiftsAt b 250 mtPow64_1 := ShiftsAt.step hred h mtSq64_0 rfl
  have h2 : ShiftsAt b 500 mtPow64_2 := ShiftsAt.step hred h1 mtSq64_1 rfl
  have h3 : ShiftsAt b 750 mtPow64_3 := ShiftsAt.step hred h2 mtSq64_2 rfl
  have h4 : ShiftsAt b 1000 mtPow64_4 := ShiftsAt.step hred h3 mtSq64_3 rfl
  have h5 : ShiftsAt b 1250 mtPow64_5 := ShiftsAt.step hred h4 mtSq64_4 rfl
  have h6 : ShiftsAt b 1500 mtPow64_6 := ShiftsAt.step hred h5 mtSq64_5 rfl
  have h7 : ShiftsAt b 1750 mtPow64_7 := ShiftsAt.step hred h6 mtSq64_6 rfl
  have h8 : ShiftsAt b 2000 mtPow64_8 := ShiftsAt.step hred h7 mtSq64_7 rfl
  have h9 : ShiftsAt b 2250 mtPow64_9 := ShiftsAt.step hred h8 mtSq64_8 rfl
  have h10 : ShiftsAt b 2500 mtPow64_10 := ShiftsAt.step hred h9 mtSq64_9 rfl
  have h11 : ShiftsAt b 2750 mtPow64_11 := ShiftsAt.step hred h10 mtSq64_10 rfl
  have h12 : ShiftsAt b 3000 mtPow64_12 := ShiftsAt.step hred h11 mtSq64_11 rfl
  have h13 : ShiftsAt b 3250 mtPow64_13 := ShiftsAt.step hred h12 mtSq64_12 rfl
  have h14 : ShiftsAt b 3500 mtPow64_14 := ShiftsAt.step hred h13 mtSq64_13 rfl
  have h15 : ShiftsAt b 3750 mtPow64_15 := ShiftsAt.step hred h14 mtSq64_14 rfl
  have h16 : ShiftsAt b 4000 mtPow64_16 := ShiftsAt.step hred h15 mtSq64_15 rfl
  have h17 : ShiftsAt b 4250 mtPow64_17 := ShiftsAt.step hred h16 mtSq64_16 rfl
  have h18 : ShiftsAt b 4500 mtPow64_18 := ShiftsAt.step hred h17 mtSq64_17 rfl
  have h19 : ShiftsAt b 4750 mtPow64_19 := ShiftsAt.step hred h18 mtSq64_18 rfl
  have h20 : ShiftsAt b 5000 mtPow64_20 := ShiftsAt.step hred h19 mtSq64_19 rfl
  exact h20

end RMath
