import Verif.Spec
import Verif.SpecOps
import Mathlib.Data.Nat.Bitwise

/-!
# Specification vocabulary: programs over variables that refer to numbers

A variable refers to a cell, a cell holds a natural number; several variables may refer to one cell.  Nothing here refers to
words, buffers or the model of the code.
-/

namespace RMath

/-- the variables, the cells, and the number of cells -/
structure NStore where
  env : Nat → Nat
  cell : Nat → Nat
  count : Nat

/-- the number that a variable shows -/
def NStore.number (s : NStore) (x : Nat) : Nat := s.cell (s.env x)

/-- `x` refers to a new cell -/
def NStore.fresh (s : NStore) (x n : Nat) : NStore :=
  ⟨fun y => if y = x then s.count else s.env y, fun c => if c = s.count then n else s.cell c, s.count + 1⟩

/-- the number in the cell of `x` is replaced: every variable that refers to that cell shows the new number -/
def NStore.update (s : NStore) (x n : Nat) : NStore :=
  ⟨s.env, fun c => if c = s.env x then n else s.cell c, s.count⟩

/-- `x` refers to the same cell as `y` -/
def NStore.alias (s : NStore) (x y : Nat) : NStore := ⟨fun z => if z = x then s.env y else s.env z, s.cell, s.count⟩

end RMath
