import Verif.Lemmas.Twist32Part4
import Verif.Lemmas.Twist64Part4

/-!
# Sequences that the polynomials of the Mersenne twisters annihilate
-/

namespace RMath

theorem shiftsAt_start (b : ℕ → ZMod 2) : ShiftsAt b 0 2 := fun k => by rw [act_two, Nat.pow_zero]

theorem ShiftsAt.finish {b : ℕ → ZMod 2} {j : ℕ} (h : ShiftsAt b j 2) (k : ℕ) : b (k + 2 ^ j) = b (k + 1) := by rw [h k, act_two]

theorem mtRed32_act {b : ℕ → ZMod 2} (hmul : ∀ q k, act (mtMul32 q) b k = 0) (N k : ℕ) : act (mtRed32 N) b k = act N b k :=
  act_redStep hmul N k

theorem mtRed64_act {b : ℕ → ZMod 2} (hmul : ∀ q k, act (mtMul64 q) b k = 0) (N k : ℕ) : act (mtRed64 N) b k = act N b k := by
  rw [mtRed64, force_eq, act_redStep hmul, act_redStep hmul]

theorem mtShift32 {b : ℕ → ZMod 2} (hmul : ∀ q k, act (mtMul32 q) b k = 0) : ShiftsAt b 19937 2 := by
  have hred := mtRed32_act hmul
  have h0 : ShiftsAt b 0 mtPow32_0 := shiftsAt_start b
  exact mtPart32_3 hred (mtPart32_2 hred (mtPart32_1 hred (mtPart32_0 hred h0)))

theorem mtShift64 {b : ℕ → ZMod 2} (hmul : ∀ q k, act (mtMul64 q) b k = 0) : ShiftsAt b 19937 2 := by
  have hred := mtRed64_act hmul
  have h0 : ShiftsAt b 0 mtPow64_0 := shiftsAt_start b
  exact mtPart64_3 hred (mtPart64_2 hred (mtPart64_1 hred (mtPart64_0 hred h0)))

end RMath
