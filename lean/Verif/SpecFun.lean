import Mathlib.NumberTheory.LegendreSymbol.JacobiSymbol

/-!
# Specification of the side conditions of number-theoretic functions
-/

namespace RMath

/-- Shifting `n` to the right by `s` bits is not affected by the defect of the right shift (`C06`): the shift is by less
than 32 bits, or it is not by a whole number of 32-bit words and, within its word, the leading one of `n` is not below
the bit to which the shift, taken modulo 32, reaches. -/
def ShiftFits (n s : Nat) : Prop := s < 32 ∨ (s % 32 ≠ 0 ∧ s % 32 ≤ n.log2 % 32)

/-- The shift that removes all factors of two from `n` is not affected by the defect of the right shift.  Numbers that
`2^32` does not divide are of this kind (`oddPartFits_of_not_dvd`), and so are powers of two that are not powers of
`2^32` (`oddPartFits_two_pow`). -/
def OddPartFits (n : Nat) : Prop := ∀ s q, n = 2 ^ s * q → q % 2 = 1 → ShiftFits n s

/-- Euclid's algorithm on `a` and `b` (odd), in the form that removes the factors of two from each remainder, meets no
remainder whose factors of two the code fails to remove. -/
inductive TwosFit : Int → Nat → Prop
  | one (a : Int) : TwosFit a 1
  | zero {a : Int} {b : Nat} (h : (b : Int) ∣ a) : TwosFit a b
  | step {a : Int} {b s q : Nat} (hq : q % 2 = 1) (hr : a % (b : Int) = 2 ^ s * (q : Int)) (hs : ShiftFits (2 ^ s * q) s)
      (h : TwosFit b q) : TwosFit a b

/-- `n` passes the strong (Miller-Rabin) test to the base `a`: with `n - 1 = 2^t u`, `u` odd, `a^u = 1` or
`a^(2^i u) = -1` modulo `n` for some `i < t`. -/
def StrongProbablePrime (n a : Nat) : Prop :=
  ∃ t u, n - 1 = 2 ^ t * u ∧ u % 2 = 1 ∧ (a ^ u % n = 1 ∨ ∃ i, i < t ∧ a ^ (2 ^ i * u) % n = n - 1)

/-- the Lucas sequence `V` with parameters `P` and `Q = 1` -/
def lucasSeq (P : Int) : Nat → Int
  | 0 => 2
  | 1 => P
  | k + 2 => P * lucasSeq P (k + 1) - lucasSeq P k

/-- `n` passes the (almost) extra strong Lucas test with parameter `P`: with `n + 1 = 2^r s`, `s` odd, either
`V(s) = ±2` and `P V(s) = 2 V(s+1)`, or `V(2^t s) = 0` for some `t < r - 1`, modulo `n`. -/
def LucasProbablePrime (n : Nat) (P : Int) : Prop :=
  ∃ r s, n + 1 = 2 ^ r * s ∧ s % 2 = 1 ∧
    (((lucasSeq P s ≡ 2 [ZMOD n] ∨ lucasSeq P s ≡ -2 [ZMOD n]) ∧ P * lucasSeq P s ≡ 2 * lucasSeq P (s + 1) [ZMOD n]) ∨
    ∃ t, t < r - 1 ∧ lucasSeq P (2 ^ t * s) ≡ 0 [ZMOD n])

end RMath
