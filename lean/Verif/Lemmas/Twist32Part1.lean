import Verif.Lemmas.TwistLits32

/-!
# Squarings modulo the polynomial of `mt19937!`, part 1 of 4
-/

namespace RMath

set_option maxRecDepth 100000
set_option Elab.async false

theorem mtSq32_0 : sqCheck 15 mtRed32 250 mtPow32_0 mtPow32_1 = true := by decide +kernel
theorem mtSq32_1 : sqCheck 15 mtRed32 250 mtPow32_1 mtPow32_2 = true := by decide +kernel
theorem mtSq32_2 : sqCheck 15 mtRed32 250 mtPow32_2 mtPow32_3 = true := by decide +kernel
theorem mtSq32_3 : sqCheck 15 mtRed32 250 mtPow32_3 mtPow32_4 = true := by decide +kernel
theorem mtSq32_4 : sqCheck 15 mtRed32 250 mtPow32_4 mtPow32_5 = true := by decide +kernel
theorem mtSq32_5 : sqCheck 15 mtRed32 250 mtPow32_5 mtPow32_6 = true := by decide +kernel
theorem mtSq32_6 : sqCheck 15 mtRed32 250 mtPow32_6 mtPow32_7 = true := by decide +kernel
theorem mtSq32_7 : sqCheck 15 mtRed32 250 mtPow32_7 mtPow32_8 = true := by decide +kernel
theorem mtSq32_8 : sqCheck 15 mtRed32 250 mtPow32_8 mtPow32_9 = true := by decide +kernel
theorem mtSq32_9 : sqCheck 15 mtRed32 250 mtPow32_9 mtPow32_10 = true := by decide +kernel
theorem mtSq32_10 : sqCheck 15 mtRed32 250 mtPow32_10 mtPow32_11 = true := by decide +kernel
theorem mtSq32_11 : sqCheck 15 mtRed32 250 mtPow32_11 mtPow32_12 = true := by decide +kernel
theorem mtSq32_12 : sqCheck 15 mtRed32 250 mtPow32_12 mtPow32_13 = true := by decide +kernel
theorem mtSq32_13 : sqCheck 15 mtRed32 250 mtPow32_13 mtPow32_14 = true := by decide +kernel
theorem mtSq32_14 : sqCheck 15 mtRed32 250 mtPow32_14 mtPow32_15 = true := by decide +kernel
theorem mtSq32_15 : sqCheck 15 mtRed32 250 mtPow32_15 mtPow32_16 = true := by decide +kernel
theorem mtSq32_16 : sqCheck 15 mtRed32 250 mtPow32_16 mtPow32_17 = true := by decide +kernel
theorem mtSq32_17 : sqCheck 15 mtRed32 250 mtPow32_17 mtPow32_18 = true := by decide +kernel
theorem mtSq32_18 : sqCheck 15 mtRed32 250 mtPow32_18 mtPow32_19 = true := by decide +kernel
theorem mtSq32_19 : sqCheck 15 mtRed32 250 mtPow32_19 mtPow32_20 = true := by decide +kernel

theorem mtPart32_0 {b : ℕ → ZMod 2} (hred : ∀ N k, act (mtRed32 N) b k = act N b k) (h : ShiftsAt b 0 mtPow32_0) :
    ShiftsAt b 5000 mtPow32_20 := by
  have h1 : ShiftsAt b 250 mtPow32_1 := ShiftsAt.step hred h mtSq32_0 rfl
  have h2 : ShiftsAt b 500 mtPow32_2 := ShiftsAt.step hred h1 mtSq32_1 rfl
  have h3 : ShiftsAt b 750 mtPow32_3 := ShiftsAt.step hred h2 mtSq32_2 rfl
  have h4 : ShiftsAt b 1000 mtPow32_4 := ShiftsAt.step hred h3 mtSq32_3 rfl
  have h5 : ShiftsAt b 1250 mtPow32_5 := ShiftsAt.step hred h4 mtSq32_4 rfl
  have h6 : ShiftsAt b 1500 mtPow32_6 := ShiftsAt.step hred h5 mtSq32_5 rfl
  have h7 : ShiftsAt b 1750 mtPow32_7 := ShiftsAt.step hred h6 mtSq32_6 rfl
  have h8 : ShiftsAt b 2000 mtPow32_8 := ShiftsAt.step hred h7 mtSq32_7 rfl
  have h9 : ShiftsAt b 2250 mtPow32_9 := ShiftsAt.step hred h8 mtSq32_8 rfl
  have h10 : ShiftsAt b 2500 mtPow32_10 := ShiftsAt.step hred h9 mtSq32_9 rfl
  have h11 : ShiftsAt b 2750 mtPow32_11 := ShiftsAt.step hred h10 mtSq32_10 rfl
  have h12 : ShiftsAt b 3000 mtPow32_12 := ShiftsAt.step hred h11 mtSq32_11 rfl
  have h13 : ShiftsAt b 3250 mtPow32_13 := ShiftsAt.step hred h12 mtSq32_12 rfl
  have h14 : ShiftsAt b 3500 mtPow32_14 := ShiftsAt.step hred h13 mtSq32_13 rfl
  have h15 : ShiftsAt b 3750 mtPow32_15 := ShiftsAt.step hred h14 mtSq32_14 rfl
  have h16 : ShiftsAt b 4000 mtPow32_16 := ShiftsAt.step hred h15 mtSq32_15 rfl
  have h17 : ShiftsAt b 4250 mtPow32_17 := ShiftsAt.step hred h16 mtSq32_16 rfl
  have h18 : ShiftsAt b 4500 mtPow32_18 := ShiftsAt.step hred h17 mtSq32_17 rfl
  have h19 : ShiftsAt b 4750 mtPow32_19 := ShiftsAt.step hred h18 mtSq32_18 rfl
  have h20 : ShiftsAt b 5000 mtPow32_20 := ShiftsAt.step hred h19 mtSq32_19 rfl
  exact h20

end RMath
