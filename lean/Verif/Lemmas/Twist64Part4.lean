import Verif.Lemmas.Twist64Part3

/-!
# Squarings modulo the polynomial of `mt19937_64!`, part 4 of 4
-/

namespace RMath

set_option maxRecDepth 100000
set_option Elab.async false

theorem mtSq64_60 : sqCheck 15 mtRed64 250 mtPow64_60 mtPow64_61 = true := by decide +kernel
theorem mtSq64_61 : sqCheck 15 mtRed64 250 mtPow64_61 mtPow64_62 = true := by decide +kernel
theorem mtSq64_62 : sqCheck 15 mtRed64 250 mtPow64_62 mtPow64_63 = true := by decide +kernel
theorem mtSq64_63 : sqCheck 15 mtRed64 250 mtPow64_63 mtPow64_64 = true := by decide +kernel
theorem mtSq64_64 : sqCheck 15 mtRed64 250 mtPow64_64 mtPow64_65 = true := by decide +kernel
theorem mtSq64_65 : sqCheck 15 mtRed64 250 mtPow64_65 mtPow64_66 = true := by decide +kernel
theorem mtSq64_66 : sqCheck 15 mtRed64 250 mtPow64_66 mtPow64_67 = true := by decide +kernel
theorem mtSq64_67 : sqCheck 15 mtRed64 250 mtPow64_67 mtPow64_68 = true := by decide +kernel
theorem mtSq64_68 : sqCheck 15 mtRed64 250 mtPow64_68 mtPow64_69 = true := by decide +kernel
theorem mtSq64_69 : sqCheck 15 mtRed64 250 mtPow64_69 mtPow64_70 = true := by decide +kernel
theorem mtSq64_70 : sqCheck 15 mtRed64 250 mtPow64_70 mtPow64_71 = true := by decide +kernel
theorem mtSq64_71 : sqCheck 15 mtRed64 250 mtPow64_71 mtPow64_72 = true := by decide +kernel
theorem mtSq64_72 : sqCheck 15 mtRed64 250 mtPow64_72 mtPow64_73 = true := by decide +kernel
theorem mtSq64_73 : sqCheck 15 mtRed64 250 mtPow64_73 mtPow64_74 = true := by decide +kernel
theorem mtSq64_74 : sqCheck 15 mtRed64 250 mtPow64_74 mtPow64_75 = true := by decide +kernel
theorem mtSq64_75 : sqCheck 15 mtRed64 250 mtPow64_75 mtPow64_76 = true := by decide +kernel
theorem mtSq64_76 : sqCheck 15 mtRed64 250 mtPow64_76 mtPow64_77 = true := by decide +kernel
theorem mtSq64_77 : sqCheck 15 mtRed64 250 mtPow64_77 mtPow64_78 = true := by decide +kernel
theorem mtSq64_78 : sqCheck 15 mtRed64 250 mtPow64_78 mtPow64_79 = true := by decide +kernel
theorem mtSq64_79 : sqCheck 15 mtRed64 187 mtPow64_79 2 = true := by decide +kernel

theorem mtPart64_3 {b : ℕ → ZMod 2} (hred : ∀ N k, act (mtRed64 N) b k = act N b k) (h : ShiftsAt b 15000 mtPow64_60) :
    ShiftsAt b 19937 2 := by
  have h61 : ShiftsAt b 15250 mtPow64_61 := ShiftsAt.step hred h mtSq64_60 rfl
  have h62 : ShiftsAt b 15500 mtPow64_62 := ShiftsAt.step hred h61 mtSq64_61 rfl
  have h63 : ShiftsAt b 15750 mtPow64_63 := ShiftsAt.step hred h62 mtSq64_62 rfl
  have h64 : ShiftsAt b 16000 mtPow64_64 := ShiftsAt.step hred h63 mtSq64_63 rfl
  have h65 : ShiftsAt b 16250 mtPow64_65 := ShiftsAt.step hred h64 mtSq64_64 rfl
  have h66 : ShiftsAt b 16500 mtPow64_66 := ShiftsAt.step hred h65 mtSq64_65 rfl
  have h67 : ShiftsAt b 16750 mtPow64_67 := ShiftsAt.step hred h66 mtSq64_66 rfl
  have h68 : ShiftsAt b 17000 mtPow64_68 := ShiftsAt.step hred h67 mtSq64_67 rfl
  have h69 : ShiftsAt b 17250 mtPow64_69 := ShiftsAt.step hred h68 mtSq64_68 rfl
  have h70 : ShiftsAt b 17500 mtPow64_70 := ShiftsAt.step hred h69 mtSq64_69 rfl
  have h71 : ShiftsAt b 17750 mtPow64_71 := ShiftsAt.step hred h70 mtSq64_70 rfl
  have h72 : ShiftsAt b 18000 mtPow64_72 := ShiftsAt.step hred h71 mtSq64_71 rfl
  have h73 : ShiftsAt b 18250 mtPow64_73 := ShiftsAt.step hred h72 mtSq64_72 rfl
  have h74 : ShiftsAt b 18500 mtPow64_74 := ShiftsAt.step hred h73 mtSq64_73 rfl
  have h75 : ShiftsAt b 18750 mtPow64_75 := ShiftsAt.step hred h74 mtSq64_74 rfl
  have h76 : ShiftsAt b 19000 mtPow64_76 := ShiftsAt.step hred h75 mtSq64_75 rfl
  have h77 : ShiftsAt b 19250 mtPow64_77 := ShiftsAt.step hred h76 mtSq64_76 rfl
  have h78 : ShiftsAt b 19500 mtPow64_78 := ShiftsAt.step hred h77 mtSq64_77 rfl
  have h79 : ShiftsAt b 19750 mtPow64_79 := ShiftsAt.step hred h78 mtSq64_78 rfl
  have h80 : ShiftsAt b 19937 2 := ShiftsAt.step hred h79 mtSq64_79 rfl
  exact h80

end RMath
