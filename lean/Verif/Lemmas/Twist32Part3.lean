import Verif.Lemmas.Twist32Part2

/-!
# Squarings modulo the polynomial of `mt19937!`, part 3 of 4
-/

namespace RMath

set_option maxRecDepth 100000
set_option Elab.async false

theorem mtSq32_40 : sqCheck 15 mtRed32 250 mtPow32_40 mtPow32_41 = true := by decide +kernel
theorem mtSq32_41 : sqCheck 15 mtRed32 250 mtPow32_41 mtPow32_42 = true := by decide +kernel
theorem mtSq32_42 : sqCheck 15 mtRed32 250 mtPow32_42 mtPow32_43 = true := by decide +kernel
theorem mtSq32_43 : sqCheck 15 mtRed32 250 mtPow32_43 mtPow32_44 = true := by decide +kernel
theorem mtSq32_44 : sqCheck 15 mtRed32 250 mtPow32_44 mtPow32_45 = true := by decide +kernel
theorem mtSq32_45 : sqCheck 15 mtRed32 250 mtPow32_45 mtPow32_46 = true := by decide +kernel
theorem mtSq32_46 : sqCheck 15 mtRed32 250 mtPow32_46 mtPow32_47 = true := by decide +kernel
theorem mtSq32_47 : sqCheck 15 mtRed32 250 mtPow32_47 mtPow32_48 = true := by decide +kernel
theorem mtSq32_48 : sqCheck 15 mtRed32 250 mtPow32_48 mtPow32_49 = true := by decide +kernel
theorem mtSq32_49 : sqCheck 15 mtRed32 250 mtPow32_49 mtPow32_50 = true := by decide +kernel
theorem mtSq32_50 : sqCheck 15 mtRed32 250 mtPow32_50 mtPow32_51 = true := by decide +kernel
theorem mtSq32_51 : sqCheck 15 mtRed32 250 mtPow32_51 mtPow32_52 = true := by decide +kernel
theorem mtSq32_52 : sqCheck 15 mtRed32 250 mtPow32_52 mtPow32_53 = true := by decide +kernel
theorem mtSq32_53 : sqCheck 15 mtRed32 250 mtPow32_53 mtPow32_54 = true := by decide +kernel
theorem mtSq32_54 : sqCheck 15 mtRed32 250 mtPow32_54 mtPow32_55 = true := by decide +kernel
theorem mtSq32_55 : sqCheck 15 mtRed32 250 mtPow32_55 mtPow32_56 = true := by decide +kernel
theorem mtSq32_56 : sqCheck 15 mtRed32 250 mtPow32_56 mtPow32_57 = true := by decide +kernel
theorem mtSq32_57 : sqCheck 15 mtRed32 250 mtPow32_57 mtPow32_58 = true := by decide +kernel
theorem mtSq32_58 : sqCheck 15 mtRed32 250 mtPow32_58 mtPow32_59 = true := by decide +kernel
theorem mtSq32_59 : sqCheck 15 mtRed32 250 mtPow32_59 mtPow32_60 = true := by decide +kernel

theorem mtPart32_2 {b : ℕ → ZMod 2} (hred : ∀ N k, act (mtRed32 N) b k = act N b k) (h : ShiftsAt b 10000 mtPow32_40) :
    ShiftsAt b 15000 mtPow32_60 := by
  have h41 : ShiftsAt b 10250 mtPow32_41 := ShiftsAt.step hred h mtSq32_40 rfl
  have h42 : ShiftsAt b 10500 mtPow32_42 := ShiftsAt.step hred h41 mtSq32_41 rfl
  have h43 : ShiftsAt b 10750 mtPow32_43 := ShiftsAt.step hred h42 mtSq32_42 rfl
  have h44 : ShiftsAt b 11000 mtPow32_44 := ShiftsAt.step hred h43 mtSq32_43 rfl
  have h45 : ShiftsAt b 11250 mtPow32_45 := ShiftsAt.step hred h44 mtSq32_44 rfl
  have h46 : ShiftsAt b 11500 mtPow32_46 := ShiftsAt.step hred h45 mtSq32_45 rfl
  have h47 : ShiftsAt b 11750 mtPow32_47 := ShiftsAt.step hred h46 mtSq32_46 rfl
  have h48 : ShiftsAt b 12000 mtPow32_48 := ShiftsAt.step hred h47 mtSq32_47 rfl
  have h49 : ShiftsAt b 12250 mtPow32_49 := ShiftsAt.step hred h48 mtSq32_48 rfl
  have h50 : ShiftsAt b 12500 mtPow32_50 := ShiftsAt.step hred h49 mtSq32_49 rfl
  have h51 : ShiftsAt b 12750 mtPow32_51 := ShiftsAt.step hred h50 mtSq32_50 rfl
  have h52 : ShiftsAt b 13000 mtPow32_52 := ShiftsAt.step hred h51 mtSq32_51 rfl
  have h53 : ShiftsAt b 13250 mtPow32_53 := ShiftsAt.step hred h52 mtSq32_52 rfl
  have h54 : ShiftsAt b 13500 mtPow32_54 := ShiftsAt.step hred h53 mtSq32_53 rfl
  have h55 : ShiftsAt b 13750 mtPow32_55 := ShiftsAt.step hred h54 mtSq32_54 rfl
  have h56 : ShiftsAt b 14000 mtPow32_56 := ShiftsAt.step hred h55 mtSq32_55 rfl
  have h57 : ShiftsAt b 14250 mtPow32_57 := ShiftsAt.step hred h56 mtSq32_56 rfl
  have h58 : ShiftsAt b 14500 mtPow32_58 := ShiftsAt.step hred h57 mtSq32_57 rfl
  have h59 : ShiftsAt b 14750 mtPow32_59 := ShiftsAt.step hred h58 mtSq32_58 rfl
  have h60 : ShiftsAt b 15000 mtPow32_60 := ShiftsAt.step hred h59 mtSq32_59 rfl
  exact h60

end RMath
