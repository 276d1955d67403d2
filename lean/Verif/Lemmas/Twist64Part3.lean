import Verif.Lemmas.Twist64Part2

/-!
# Squarings modulo the polynomial of `mt19937_64!`, part 3 of 4
-/

namespace RMath

set_option maxRecDepth 100000
set_option Elab.async false

theorem mtSq64_40 : sqCheck 15 mtRed64 250 mtPow64_40 mtPow64_41 = true := by decide +kernel
theorem mtSq64_41 : sqCheck 15 mtRed64 250 mtPow64_41 mtPow64_42 = true := by decide +kernel
theorem mtSq64_42 : sqCheck 15 mtRed64 250 mtPow64_42 mtPow64_43 = true := by decide +kernel
theorem mtSq64_43 : sqCheck 15 mtRed64 250 mtPow64_43 mtPow64_44 = true := by decide +kernel
theorem mtSq64_44 : sqCheck 15 mtRed64 250 mtPow64_44 mtPow64_45 = true := by decide +kernel
theorem mtSq64_45 : sqCheck 15 mtRed64 250 mtPow64_45 mtPow64_46 = true := by decide +kernel
theorem mtSq64_46 : sqCheck 15 mtRed64 250 mtPow64_46 mtPow64_47 = true := by decide +kernel
theorem mtSq64_47 : sqCheck 15 mtRed64 250 mtPow64_47 mtPow64_48 = true := by decide +kernel
theorem mtSq64_48 : sqCheck 15 mtRed64 250 mtPow64_48 mtPow64_49 = true := by decide +kernel
theorem mtSq64_49 : sqCheck 15 mtRed64 250 mtPow64_49 mtPow64_50 = true := by decide +kernel
theorem mtSq64_50 : sqCheck 15 mtRed64 250 mtPow64_50 mtPow64_51 = true := by decide +kernel
theorem mtSq64_51 : sqCheck 15 mtRed64 250 mtPow64_51 mtPow64_52 = true := by decide +kernel
theorem mtSq64_52 : sqCheck 15 mtRed64 250 mtPow64_52 mtPow64_53 = true := by decide +kernel
theorem mtSq64_53 : sqCheck 15 mtRed64 250 mtPow64_53 mtPow64_54 = true := by decide +kernel
theorem mtSq64_54 : sqCheck 15 mtRed64 250 mtPow64_54 mtPow64_55 = true := by decide +kernel
theorem mtSq64_55 : sqCheck 15 mtRed64 250 mtPow64_55 mtPow64_56 = true := by decide +kernel
theorem mtSq64_56 : sqCheck 15 mtRed64 250 mtPow64_56 mtPow64_57 = true := by decide +kernel
theorem mtSq64_57 : sqCheck 15 mtRed64 250 mtPow64_57 mtPow64_58 = true := by decide +kernel
theorem mtSq64_58 : sqCheck 15 mtRed64 250 mtPow64_58 mtPow64_59 = true := by decide +kernel
theorem mtSq64_59 : sqCheck 15 mtRed64 250 mtPow64_59 mtPow64_60 = true := by decide +kernel

theorem mtPart64_2 {b : ℕ → ZMod 2} (hred : ∀ N k, act (mtRed64 N) b k = act N b k) (h : ShiftsAt b 10000 mtPow64_40) :
    ShiftsAt b 15000 mtPow64_60 := by
  have h41 : ShiftsAt b 10250 mtPow64_41 := ShiftsAt.step hred h mtSq64_40 rfl
  have h42 : ShiftsAt b 10500 mtPow64_42 := ShiftsAt.step hred h41 mtSq64_41 rfl
  have h43 : ShiftsAt b 10750 mtPow64_43 := ShiftsAt.step hred h42 mtSq64_42 rfl
  have h44 : ShiftsAt b 11000 mtPow64_44 := ShiftsAt.step hred h43 mtSq64_43 rfl
  have h45 : ShiftsAt b 11250 mtPow64_45 := ShiftsAt.step hred h44 mtSq64_44 rfl
  have h46 : ShiftsAt b 11500 mtPow64_46 := ShiftsAt.step hred h45 mtSq64_45 rfl
  have h47 : ShiftsAt b 11750 mtPow64_47 := ShiftsAt.step hred h46 mtSq64_46 rfl
  have h48 : ShiftsAt b 12000 mtPow64_48 := ShiftsAt.step hred h47 mtSq64_47 rfl
  have h49 : ShiftsAt b 12250 mtPow64_49 := ShiftsAt.step hred h48 mtSq64_48 rfl
  have h50 : ShiftsAt b 12500 mtPow64_50 := ShiftsAt.step hred h49 mtSq64_49 rfl
  have h51 : ShiftsAt b 12750 mtPow64_51 := ShiftsAt.step hred h50 mtSq64_50 rfl
  have h52 : ShiftsAt b 13000 mtPow64_52 := ShiftsAt.step hred h51 mtSq64_51 rfl
  have h53 : ShiftsAt b 13250 mtPow64_53 := ShiftsAt.step hred h52 mtSq64_52 rfl
  have h54 : ShiftsAt b 13500 mtPow64_54 := ShiftsAt.step hred h53 mtSq64_53 rfl
  have h55 : ShiftsAt b 13750 mtPow64_55 := ShiftsAt.step hred h54 mtSq64_54 rfl
  have h56 : ShiftsAt b 14000 mtPow64_56 := ShiftsAt.step hred h55 mtSq64_55 rfl
  have h57 : ShiftsAt b 14250 mtPow64_57 := ShiftsAt.step hred h56 mtSq64_56 rfl
  have h58 : ShiftsAt b 14500 mtPow64_58 := ShiftsAt.step hred h57 mtSq64_57 rfl
  have h59 : ShiftsAt b 14750 mtPow64_59 := ShiftsAt.step hred h58 mtSq64_58 rfl
  have h60 : ShiftsAt b 15000 mtPow64_60 := ShiftsAt.step hred h59 mtSq64_59 rfl
  exact h60

end RMath
