import Verif.Lemmas.TwistPoly

/-!
# The two polynomials of the Mersenne twisters

The characteristic polynomials, by way of the products with them.
-/

namespace RMath

/-- bits 3 to 30 of the word of `mt19937!` -/
def mtLow32 : List (Bool × Bool × Bool × Bool) :=
  [(true, true, false, true), (true, false, false, false), (false, true, true, false), (true, false, false, false), (true, false, false, false), (false, true, false, false), (true, true, false, false)]

/-- bits 3 to 30 of the word of `mt19937_64!` -/
def mtLow64 : List (Bool × Bool × Bool × Bool) :=
  [(true, false, true, true), (true, true, false, false), (true, true, false, false), (false, false, true, true), (false, false, true, true), (false, true, false, false), (true, false, true, false)]

/-- the high 32 bits of the word of `mt19937_64!` -/
def mtHigh64 : List (Bool × Bool × Bool × Bool) :=
  [(false, true, false, true), (true, false, true, false), (true, true, true, true), (false, true, true, false), (false, true, false, false), (false, false, false, false), (true, false, true, false), (true, true, false, true)]

/-- `q` times the polynomial of `mt19937!` -/
def mtMul32 (q : ℕ) : ℕ :=
  mulL q 624 397 [true] (withSmall q 623 396 1246 792 fun q1 q2 q3 =>
    mulG q q1 q2 q3 2492 1584 mtLow32 (mulL q 623 396 [true, true, true] q))

/-- `q` times the polynomial of `mt19937_64!` -/
def mtMul64 (q : ℕ) : ℕ :=
  withSmall q 312 156 624 312 fun p1 p2 p3 =>
    mulG q p1 p2 p3 1248 624 mtHigh64 (mulL q 312 156 [true] (withSmall q 311 155 622 310 fun q1 q2 q3 =>
      mulG q q1 q2 q3 1244 620 mtLow64 (mulL q 311 155 [true, false, false] q)))

/-- the quotient by the polynomial of `mt19937!` -/
def mtQuo32 (h : ℕ) : ℕ :=
  withQuo h 227 454 623 1246 1869 fun x0 x1 x2 x3 =>
  force (quoG x0 x1 x2 x3 908 2492
    [(true, false, false, false), (false, true, false, true), (true, true, false, true), (false, false, false, false), (false, true, true, true), (true, true, true, true), (true, true, true, false), (true, false, true, false)] 623 h) fun S =>
  Nat.xor S (Nat.shiftRight S 14528)

/-- the higher half of the quotient by the polynomial of `mt19937_64!` -/
def mtQuo64 (h : ℕ) : ℕ :=
  withQuo h 156 312 311 622 933 fun x0 x1 x2 x3 =>
  force (quoG x0 x1 x2 x3 624 1244
    [(true, true, true, false), (true, true, false, true), (false, false, true, false), (false, true, false, false), (true, false, false, true), (false, true, true, false), (true, false, false, false), (false, false, true, false)] 311 h) fun S =>
  force (Nat.xor S (Nat.shiftRight h 9953)) fun S => Nat.xor S (Nat.shiftRight S 4992)

/-- reduction modulo the polynomial of `mt19937!` -/
def mtRed32 (N : ℕ) : ℕ := redStep 19937 mtQuo32 mtMul32 N

/-- reduction modulo the polynomial of `mt19937_64!` -/
def mtRed64 (N : ℕ) : ℕ := force (redStep 19937 mtQuo64 mtMul64 N) (redStep 19937 mtQuo64 mtMul64)

theorem mtLow32_eq : [true, true, true] ++ flat mtLow32 = (List.range 31).map (Nat.testBit 0x9908b0df) := by decide +kernel
theorem mtLow64_eq : [true, false, false] ++ flat mtLow64 = (List.range 31).map (Nat.testBit 0xb5026f5aa96619e9) := by decide +kernel
theorem mtHigh64_eq : [true] ++ flat mtHigh64 = (List.range 33).map (fun i => Nat.testBit 0xb5026f5aa96619e9 (31 + i)) := by
  decide +kernel

/-- what `mtMul32` does to a sequence -/
theorem mtMul32_act (b : ℕ → ZMod 2) (q k : ℕ) :
    act (mtMul32 q) b k = act q (hornL b 624 397 [true] (hornL b 623 396 ([true, true, true] ++ flat mtLow32) b)) k := by
  rw [hornL_append]
  exact act_mulL q 624 397 b _ _ _ (act_withSmall (k := 623) (l := 396) _ _ _ (act_mulL q 623 396 b _ _ _ fun _ => rfl)) k

/-- what `mtMul64` does to a sequence -/
theorem mtMul64_act (b : ℕ → ZMod 2) (q k : ℕ) :
    act (mtMul64 q) b k = act q (hornL b 312 156 ([true] ++ flat mtHigh64) (hornL b 311 155 ([true, false, false] ++ flat mtLow64) b)) k := by
  rw [hornL_append, hornL_append]
  exact act_withSmall (k := 312) (l := 156) _ _ _ (act_mulL q 312 156 b _ _ _ (act_withSmall (k := 311) (l := 155) _ _ _
    (act_mulL q 311 155 b _ _ _ fun _ => rfl))) k

end RMath
