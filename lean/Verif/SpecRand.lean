import Mathlib.Data.Nat.Notation
import Mathlib.Data.Int.Notation

/-!
# Specification of the random sequences

The published definitions, on natural numbers.
-/

namespace RMath

/-- `L` is the linear congruential sequence that starts with `x`. -/
def LcgSeq (a c m x : ℕ) (L : ℕ → ℕ) : Prop := L 0 = x ∧ ∀ k, L (k + 1) = (a * L k + c) % m

/-- `X` is a subtract-with-carry sequence with word size `w`, lags `s < r` and the first `r` words `init`; `C k` is the
carry before word `k + r` is made. -/
def SwcSeq (w s r : ℕ) (init : ℕ → ℕ) (X C : ℕ → ℕ) : Prop :=
  (∀ i, i < r → X i = init i) ∧
  (C 0 = if X (r - 1) = 0 then 1 else 0) ∧
  ∀ k, (X (k + r) : ℤ) = ((X (k + r - s) : ℤ) - X k - C k) % 2 ^ w ∧
    C (k + 1) = if (X (k + r - s) : ℤ) - X k - C k < 0 then 1 else 0

/-- The same recurrence, except that the carry is lost when `X k + C k` is `2^w`, that is, when the word is the greatest
one and there is a carry.  This is what the code computes for words as long as the type, where that sum wraps around. -/
def SwcLossySeq (w s r : ℕ) (init : ℕ → ℕ) (X C : ℕ → ℕ) : Prop :=
  (∀ i, i < r → X i = init i) ∧
  (C 0 = if X (r - 1) = 0 then 1 else 0) ∧
  ∀ k, (X (k + r) : ℤ) = ((X (k + r - s) : ℤ) - X k - C k) % 2 ^ w ∧
    C (k + 1) = if X k + C k = 2 ^ w then 0 else if (X (k + r - s) : ℤ) - X k - C k < 0 then 1 else 0

/-- The first words of a subtract-with-carry sequence, from the words of the seeding sequence `L`: one 32-bit word each for
`w ≤ 32`, two for longer words, least significant first. -/
def swcInit (w : ℕ) (L : ℕ → ℕ) (i : ℕ) : ℕ :=
  (if w ≤ 32 then L (i + 1) else L (2 * i + 1) + 2 ^ 32 * L (2 * i + 2)) % 2 ^ w

/-- `X` is the sequence of untempered Mersenne twister words: word size `w`, degree `n`, middle word `m`, separation point
`r`, twist coefficients `a`, multiplier `f` of the initialisation from `seed`. -/
def MtSeq (w n m r a f seed : ℕ) (X : ℕ → ℕ) : Prop :=
  X 0 = seed % 2 ^ w ∧
  (∀ i, i + 1 < n → X (i + 1) = (f * (X i ^^^ (X i / 2 ^ (w - 2))) + (i + 1)) % 2 ^ w) ∧
  ∀ k, X (k + n) =
    X (k + m) ^^^ ((X k / 2 ^ r * 2 ^ r + X (k + 1) % 2 ^ r) / 2) ^^^ (if X (k + 1) % 2 = 1 then a else 0)

/-- The tempering of the Mersenne twister as published. -/
def mtTemperSpec (w u d s b t c l z : ℕ) : ℕ :=
  let z := z ^^^ (z / 2 ^ u &&& d)
  let z := z ^^^ (z * 2 ^ s % 2 ^ w &&& b)
  let z := z ^^^ (z * 2 ^ t % 2 ^ w &&& c)
  z ^^^ (z / 2 ^ l)

/-- The tempering that the code performs: it shifts to the right four times. -/
def mtTemperCode (u d s b t c l z : ℕ) : ℕ :=
  let z := z ^^^ (z / 2 ^ u &&& d)
  let z := z ^^^ (z / 2 ^ s &&& b)
  let z := z ^^^ (z / 2 ^ t &&& c)
  z ^^^ (z / 2 ^ l)

end RMath
