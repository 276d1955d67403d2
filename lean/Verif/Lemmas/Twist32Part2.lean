import Verif.Lemmas.Twist32Part1

/-!
# Squarings modulo the polynomial of `mt19937!`, part 2 of 4
-/

namespace RMath

set_option maxRecDepth 100000
set_option Elab.async false

theorem mtSq32_20 : sqCheck 15 mtRed32 250 mtPow32_20 mtPow32_21 = true := by decide +kernel
theorem mtSq32_21 : sqCheck 15 mtRed32 250 mtPow32_21 mtPow32_22 = true := by decide +kernel
theorem mtSq32_22 : sqCheck 15 mtRed32 250 mtPow32_22 mtPow32_23 = true := by decide +kernel
theorem mtSq32_23 : sqCheck 15 mtRed32 250 mtPow32_23 mtPow32_24 = true := by decide +kernel
theorem mtSq32_24 : sqCheck 15 mtRed32 250 mtPow32_24 mtPow32_25 = true := by decide +kernel
theorem mtSq32_25 : sqCheck 15 mtRed32 250 mtPow32_25 mtPow32_26 = true := by decide +kernel
theorem mtSq32_26 : sqCheck 15 mtRed32 250 mtPow32_26 mtPow32_27 = true := by decide +kernel
theorem mtSq32_27 : sqCheck 15 mtRed32 250 mtPow32_27 mtPow32_28 = true := by decide +kernel
theorem mtSq32_28 : sqCheck 15 mtRed32 250 mtPow32_28 mtPow32_29 = true := by decide +kernel
theorem mtSq32_29 : sqCheck 15 mtRed32 250 mtPow32_29 mtPow32_30 = true := by decide +kernel
theorem mtSq32_30 : sqCheck 15 mtRed32 250 mtPow32_30 mtPow32_31 = true := by decide +kernel
theorem mtSq32_31 : sqCheck 15 mtRed32 250 mtPow32_31 mtPow32_32 = true := by decide +kernel
theorem mtSq32_32 : sqCheck 15 mtRed32 250 mtPow32_32 mtPow32_33 = true := by decide +kernel
theorem mtSq32_33 : sqCheck 15 mtRed32 250 mtPow32_33 mtPow32_34 = true := by decide +kernel
theorem mtSq32_34 : sqCheck 15 mtRed32 250 mtPow32_34 mtPow32_35 = true := by decide +kernel
theorem mtSq32_35 : sqCheck 15 mtRed32 250 mtPow32_35 mtPow32_36 = true := by decide +kernel
theorem mtSq32_36 : sqCheck 15 mtRed32 250 mtPow32_36 mtPow32_37 = true := by decide +kernel
theorem mtSq32_37 : sqCheck 15 mtRed32 250 mtPow32_37 mtPow32_38 = true := by decide +kernel
theorem mtSq32_38 : sqCheck 15 mtRed32 250 mtPow32_38 mtPow32_39 = true := by decide +kernel
theorem mtSq32_39 : sqCheck 15 mtRed32 250 mtPow32_39 mtPow32_40 = true := by decide +kernel

theorem mtPart32_1 {b : ℕ → ZMod 2} (hred : ∀ N k, act (mtRed32 N) b k = act N b k) (h : ShiftsAt b 5000 mtPow32_20) :
    ShiftsAt b 10000 mtPow32_40 := by
  have h21 : ShiftsAt b 5250 mtPow32_21 := ShiftsAt.step hred h mtSq32_20 rfl
  have h22 : ShiftsAt b 5500 mtPow32_22 := ShiftsAt.step hred h21 mtSq32_21 rfl
  have h23 : ShiftsAt b 5750 mtPow32_23 := ShiftsAt.step hred h22 mtSq32_22 rfl
  have h24 : ShiftsAt b 6000 mtPow32_24 := ShiftsAt.step hred h23 mtSq32_23 rfl
  have h25 : ShiftsAt b 6250 mtPow32_25 := ShiftsAt.step hred h24 mtSq32_24 rfl
  have h26 : ShiftsAt b 6500 mtPow32_26 := ShiftsAt.step hred h25 mtSq32_25 rfl
  have h27 : ShiftsAt b 6750 mtPow32_27 := ShiftsAt.step hred h26 mtSq32_26 rfl
  have h28 : ShiftsAt b 7000 mtPow32_28 := ShiftsAt.step hred h27 mtSq32_27 rfl
  have h29 : ShiftsAt b 7250 mtPow32_29 := ShiftsAt.step hred h28 mtSq32_28 rfl
  have h30 : ShiftsAt b 7500 mtPow32_30 := ShiftsAt.step hred h29 mtSq32_29 rfl
  have h31 : ShiftsAt b 7750 mtPow32_31 := ShiftsAt.step hred h30 mtSq32_30 rfl
  have h32 : ShiftsAt b 8000 mtPow32_32 := ShiftsAt.step hred h31 mtSq32_31 rfl
  have h33 : ShiftsAt b 8250 mtPow32_33 := ShiftsAt.step hred h32 mtSq32_32 rfl
  have h34 : ShiftsAt b 8500 mtPow32_34 := ShiftsAt.step hred h33 mtSq32_33 rfl
  have h35 : ShiftsAt b 8750 mtPow32_35 := ShiftsAt.step hred h34 mtSq32_34 rfl
  have h36 : ShiftsAt b 9000 mtPow32_36 := ShiftsAt.step hred h35 mtSq32_35 rfl
  have h37 : ShiftsAt b 9250 mtPow32_37 := ShiftsAt.step hred h36 mtSq32_36 rfl
  have h38 : ShiftsAt b 9500 mtPow32_38 := ShiftsAt.step hred h37 mtSq32_37 rfl
  have h39 : ShiftsAt b 9750 mtPow32_39 := ShiftsAt.step hred h38 mtSq32_38 rfl
  have h40 : ShiftsAt b 10000 mtPow32_40 := ShiftsAt.step hred h39 mtSq32_39 rfl
  exact h40

end RMath
