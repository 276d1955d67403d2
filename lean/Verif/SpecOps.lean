import Mathlib.Data.Int.Bitwise

/-!
# Specification vocabulary: what the operators mean

Nothing here refers to the model of the code.
-/

namespace RMath

/-- the binary operators on two big numbers -/
inductive NatOp where
  | add | sub | mul | div | rem | and | or | xor
deriving DecidableEq

/-- what the operators mean for natural numbers; `-` is the distance of the operands -/
def NatOp.spec : NatOp → Nat → Nat → Nat
  | .add, m, n => m + n
  | .sub, m, n => (m - n) + (n - m)
  | .mul, m, n => m * n
  | .div, m, n => m / n
  | .rem, m, n => m % n
  | .and, m, n => m &&& n
  | .or, m, n => m ||| n
  | .xor, m, n => m ^^^ n

/-- what they give for two equal operands -/
def NatOp.selfSpec : NatOp → Nat → Nat
  | .add, n => 2 * n
  | .sub, _ => 0
  | .mul, n => n ^ 2
  | .div, _ => 1
  | .rem, _ => 0
  | .and, n => n
  | .or, n => n
  | .xor, _ => 0

end RMath
