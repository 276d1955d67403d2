import Verif.Spec
import Verif.SpecFun

/-!
# The two tests of primality, with the right shift as the code computes it

Both tests remove the factors of two from a neighbour of `n` with a right shift, which is wrong for some numbers (C06,
`shrWords`).  These are the conditions that `n` then has to meet.  If the shift is right they are the textbook conditions
`StrongProbablePrime` and `LucasProbablePrime` (`StrongAsShifted.iff_strong` and `LucasAsShifted.iff_lucas`).
-/

namespace RMath

/-- What the code gets when it shifts out the `t` factors of two of `m`, stored in its `log2 m / 32 + 1` words. -/
def shiftedOut (m t : Nat) : Nat := shrWords (m.log2 / 32 + 1) m t

/-- The strong test of `n` to the base `a`: `n - 1` has `t` factors of two, `e` is the number that is left when the
code shifts them out, and `a^e = 1` or `a^(2^i e) = -1` modulo `n` for some `i < t`. -/
def StrongAsShifted (n a : Nat) : Prop :=
  ∃ t u, n - 1 = 2 ^ t * u ∧ u % 2 = 1 ∧
    (a ^ shiftedOut (n - 1) t % n = 1 ∨ ∃ i, i < t ∧ a ^ (2 ^ i * shiftedOut (n - 1) t) % n = n - 1)

/-- The Lucas test of `n` with the parameter `P`: `n + 1` has `r` factors of two, `e` is the number that is left when the
code shifts them out, and either `V(e) = ±2` and `P V(e) = 2 V(e+1)`, or `V(2^t e) = 0` modulo `n` for some `t < r - 1`.
If `n` is a power of `2^32` plus 1 the sign + is the only one that counts. -/
def LucasAsShifted (n : Nat) (P : Int) : Prop :=
  ∃ r s, n + 1 = 2 ^ r * s ∧ s % 2 = 1 ∧
    (((lucasSeq P (shiftedOut (n + 1) r) ≡ 2 [ZMOD n] ∨
        (lucasSeq P (shiftedOut (n + 1) r) ≡ -2 [ZMOD n] ∧ ∀ k, 1 ≤ k → n ≠ 2 ^ (32 * k) + 1)) ∧
      P * lucasSeq P (shiftedOut (n + 1) r) ≡ 2 * lucasSeq P (shiftedOut (n + 1) r + 1) [ZMOD n]) ∨
    ∃ t, t < r - 1 ∧ lucasSeq P (2 ^ t * shiftedOut (n + 1) r) ≡ 0 [ZMOD n])

end RMath
