import Verif.Lemmas.Twist32Part3

/-!
# Squarings modulo the polynomial of `mt19937!`, part 4 of 4
-/

namespace RMath

set_option maxRecDepth 100000
set_option Elab.async false

theorem mtSq32_60 : sqCheck 15 mtRed32 250 mtPow32_60 mtPow32_61 = true := by decide +kernel
theorem mtSq32_61 : sqCheck 15 mtRed32 250 mtPow32_61 mtPow32_62 = true := by decide +kernel
theorem mtSq32_62 : sqCheck 15 mtRed32 250 mtPow32_62 mtPow32_63 = true := by decide +kernel
theorem mtSq32_63 : sqCheck 15 mtRed32 250 mtPow32_63 mtPow32_64 = true := by decide +kernel
theorem mtSq32_64 : sqCheck 15 mtRed32 250 mtPow32_64 mtPow32_65 = true := by decide +kernel
theorem mtSq32_65 : sqCheck 15 mtRed32 250 mtPow32_65 mtPow32_66 = true := by decide +kernel
theorem mtSq32_66 : sqCheck 15 mtRed32 250 mtPow32_66 mtPow32_67 = true := by decide +kernel
theorem mtSq32_67 : sqCheck 15 mtRed32 250 mtPow32_67 mtPow32_68 = true := by decide +kernel
theorem mtSq32_68 : sqCheck 15 mtRed32 250 mtPow32_68 mtPow32_69 = true := by decide +kernel
theorem mtSq32_69 : sqCheck 15 mtRed32 250 mtPow32_69 mtPow32_70 = true := by decide +kernel
theorem mtSq32_70 : sqCheck 15 mtRed32 250 mtPow32_70 mtPow32_71 = true := by decide +kernel
theorem mtSq32_71 : sqCheck 15 mtRed32 250 mtPow32_71 mtPow32_72 = true := by decide +kernel
theorem mtSq32_72 : sqCheck 15 mtRed32 250 mtPow32_72 mtPow32_73 = true := by decide +kernel
theorem mtSq32_73 : sqCheck 15 mtRed32 250 mtPow32_73 mtPow32_74 = true := by decide +kernel
theorem mtSq32_74 : sqCheck 15 mtRed32 250 mtPow32_74 mtPow32_75 = true := by decide +kernel
theorem mtSq32_75 : sqCheck 15 mtRed32 250 mtPow32_75 mtPow32_76 = true := by decide +kernel
theorem mtSq32_76 : sqCheck 15 mtRed32 250 mtPow32_76 mtPow32_77 = true := by decide +kernel
theorem mtSq32_77 : sqCheck 15 mtRed32 250 mtPow32_77 mtPow32_78 = true := by decide +kernel
theorem mtSq32_78 : sqCheck 15 mtRed32 250 mtPow32_78 mtPow32_79 = true := by decide +kernel
theorem mtSq32_79 : sqCheck 15 mtRed32 187 mtPow32_79 2 = true := by decide +kernel

theorem mtPart32_3 {b : ℕ → ZMod 2} (hred : ∀ N k, act (mtRed32 N) b k = act N b k) (h : ShiftsAt b 15000 mtPow32_60) :
    ShiftsAt b 19937 2 := by
  have h61 : ShiftsAt b 15250 mtPow32_61 := ShiftsAt.step hred h mtSq32_60 rfl
  have h62 : ShiftsAt b 15500 mtPow32_62 := ShiftsAt.step hred h61 mtSq32_61 rfl
  have h63 : ShiftsAt b 15750 mtPow32_63 := ShiftsAt.step hred h62 mtSq32_62 rfl
  have h64 : ShiftsAt b 16000 mtPow32_64 := ShiftsAt.step hred h63 mtSq32_63 rfl
  have h65 : ShiftsAt b 16250 mtPow32_65 := ShiftsAt.step hred h64 mtSq32_64 rfl
  have h66 : ShiftsAt b 16500 mtPow32_66 := ShiftsAt.step hred h65 mtSq32_65 rfl
  have h67 : ShiftsAt b 16750 mtPow32_67 := ShiftsAt.step hred h66 mtSq32_66 rfl
  have h68 : ShiftsAt b 17000 mtPow32_68 := ShiftsAt.step hred h67 mtSq32_67 rfl
  have h69 : ShiftsAt b 17250 mtPow32_69 := ShiftsAt.step hred h68 mtSq32_68 rfl
  have h70 : ShiftsAt b 17500 mtPow32_70 := ShiftsAt.step hred h69 mtSq32_69 rfl
  have h71 : ShiftsAt b 17750 mtPow32_71 := ShiftsAt.step hred h70 mtSq32_70 rfl
  have h72 : ShiftsAt b 18000 mtPow32_72 := ShiftsAt.step hred h71 mtSq32_71 rfl
  have h73 : ShiftsAt b 18250 mtPow32_73 := ShiftsAt.step hred h72 mtSq32_72 rfl
  have h74 : ShiftsAt b 18500 mtPow32_74 := ShiftsAt.step hred h73 mtSq32_73 rfl
  have h75 : ShiftsAt b 18750 mtPow32_75 := ShiftsAt.step hred h74 mtSq32_74 rfl
  have h76 : ShiftsAt b 19000 mtPow32_76 := ShiftsAt.step hred h75 mtSq32_75 rfl
  have h77 : ShiftsAt b 19250 mtPow32_77 := ShiftsAt.step hred h76 mtSq32_76 rfl
  have h78 : ShiftsAt b 19500 mtPow32_78 := ShiftsAt.step hred h77 mtSq32_77 rfl
  have h79 : ShiftsAt b 19750 mtPow32_79 := ShiftsAt.step hred h78 mtSq32_78 rfl
  have h80 : ShiftsAt b 19937 2 := ShiftsAt.step hred h79 mtSq32_79 rfl
  exact h80

end RMath
