import Verif.Lemmas.Twist64Part1

/-!
# Squarings modulo the polynomial of `mt19937_64!`, part 2 of 4
-/

namespace RMath

set_option maxRecDepth 100000
set_option Elab.async false

theorem mtSq64_20 : sqCheck 15 mtRed64 250 mtPow64_20 mtPow64_21 = true := by decide +kernel
theorem mtSq64_21 : sqCheck 15 mtRed64 250 mtPow64_21 mtPow64_22 = true := by decide +kernel
theorem mtSq64_22 : sqCheck 15 mtRed64 250 mtPow64_22 mtPow64_23 = true := by decide +kernel
theorem mtSq64_23 : sqCheck 15 mtRed64 250 mtPow64_23 mtPow64_24 = true := by decide +kernel
theorem mtSq64_24 : sqCheck 15 mtRed64 250 mtPow64_24 mtPow64_25 = true := by decide +kernel
theorem mtSq64_25 : sqCheck 15 mtRed64 250 mtPow64_25 mtPow64_26 = true := by decide +kernel
theorem mtSq64_26 : sqCheck 15 mtRed64 250 mtPow64_26 mtPow64_27 = true := by decide +kernel
theorem mtSq64_27 : sqCheck 15 mtRed64 250 mtPow64_27 mtPow64_28 = true := by decide +kernel
theorem mtSq64_28 : sqCheck 15 mtRed64 250 mtPow64_28 mtPow64_29 = true := by decide +kernel
theorem mtSq64_29 : sqCheck 15 mtRed64 250 mtPow64_29 mtPow64_30 = true := by decide +kernel
theorem mtSq64_30 : sqCheck 15 mtRed64 250 mtPow64_30 mtPow64_31 = true := by decide +kernel
theorem mtSq64_31 : sqCheck 15 mtRed64 250 mtPow64_31 mtPow64_32 = true := by decide +kernel
theorem mtSq64_32 : sqCheck 15 mtRed64 250 mtPow64_32 mtPow64_33 = true := by decide +kernel
theorem mtSq64_33 : sqCheck 15 mtRed64 250 mtPow64_33 mtPow64_34 = true := by decide +kernel
theorem mtSq64_34 : sqCheck 15 mtRed64 250 mtPow64_34 mtPow64_35 = true := by decide +kernel
theorem mtSq64_35 : sqCheck 15 mtRed64 250 mtPow64_35 mtPow64_36 = true := by decide +kernel
theorem mtSq64_36 : sqCheck 15 mtRed64 250 mtPow64_36 mtPow64_37 = true := by decide +kernel
theorem mtSq64_37 : sqCheck 15 mtRed64 250 mtPow64_37 mtPow64_38 = true := by decide +kernel
theorem mtSq64_38 : sqCheck 15 mtRed64 250 mtPow64_38 mtPow64_39 = true := by decide +kernel
theorem mtSq64_39 : sqCheck 15 mtRed64 250 mtPow64_39 mtPow64_40 = true := by decide +kernel

theorem mtPart64_1 {b : ℕ → ZMod 2} (hred : ∀ N k, act (mtRed64 N) b k = act N b k) (h : ShiftsAt b 5000 mtPow64_20) :
    ShiftsAt b 10000 mtPow64_40 := by
  have h21 : ShiftsAt b 5250 mtPow64_21 := ShiftsAt.step hred h mtSq64_20 rfl
  have h22 : ShiftsAt b 5500 mtPow64_22 := ShiftsAt.step hred h21 mtSq64_21 rfl
  have h23 : ShiftsAt b 5750 mtPow64_23 := ShiftsAt.step hred h22 mtSq64_22 rfl
  have h24 : ShiftsAt b 6000 mtPow64_24 := ShiftsAt.step hred h23 mtSq64_23 rfl
  have h25 : ShiftsAt b 6250 mtPow64_25 := ShiftsAt.step hred h24 mtSq64_24 rfl
  have h26 : ShiftsAt b 6500 mtPow64_26 := ShiftsAt.step hred h25 mtSq64_25 rfl
  have h27 : ShiftsAt b 6750 mtPow64_27 := ShiftsAt.step hred h26 mtSq64_26 rfl
  have h28 : ShiftsAt b 7000 mtPow64_28 := ShiftsAt.step hred h27 mtSq64_27 rfl
  have h29 : ShiftsAt b 7250 mtPow64_29 := ShiftsAt.step hred h28 mtSq64_28 rfl
  have h30 : ShiftsAt b 7500 mtPow64_30 := ShiftsAt.step hred h29 mtSq64_29 rfl
  have h31 : ShiftsAt b 7750 mtPow64_31 := ShiftsAt.step hred h30 mtSq64_30 rfl
  have h32 : ShiftsAt b 8000 mtPow64_32 := ShiftsAt.step hred h31 mtSq64_31 rfl
  have h33 : ShiftsAt b 8250 mtPow64_33 := ShiftsAt.step hred h32 mtSq64_32 rfl
  have h34 : ShiftsAt b 8500 mtPow64_34 := ShiftsAt.step hred h33 mtSq64_33 rfl
  have h35 : ShiftsAt b 8750 mtPow64_35 := ShiftsAt.step hred h34 mtSq64_34 rfl
  have h36 : ShiftsAt b 9000 mtPow64_36 := ShiftsAt.step hred h35 mtSq64_35 rfl
  have h37 : ShiftsAt b 9250 mtPow64_37 := ShiftsAt.step hred h36 mtSq64_36 rfl
  have h38 : ShiftsAt b 9500 mtPow64_38 := ShiftsAt.step hred h37 mtSq64_37 rfl
  have h39 : ShiftsAt b 9750 mtPow64_39 := ShiftsAt.step hred h38 mtSq64_38 rfl
  have h40 : ShiftsAt b 10000 mtPow64_40 := ShiftsAt.step hred h39 mtSq64_39 rfl
  exact h40

end RMath
