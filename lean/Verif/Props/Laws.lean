import Verif.Props.BigInt
import Verif.Props.Rat
import Verif.Props.NatFun

/-!
# Property C112: the laws of arithmetic hold for `==` and `<`

The specification is the value of a formula in `ℕ`, `ℤ` or `ℚ`.  A law is a pair of formulas that have equal values; whatever is true
of the values is true of what the operators compute, for formulas of every size.
-/

namespace RMath

/-! ## Formulas -/

/-- formulas over variables with `+` and `*` -/
inductive NatExpr where
  | var (i : Nat)
  | add (s t : NatExpr)
  | mul (s t : NatExpr)

/-- the value of a formula -/
def NatExpr.value (env : Nat → Nat) : NatExpr → Nat
  | .var i => env i
  | .add s t => s.value env + t.value env
  | .mul s t => s.value env * t.value env

/-- the formula written with the operators of `Nat` -/
def NatExpr.run (env : Nat → Words) : NatExpr → Words
  | .var i => env i
  | .add s t => natAdd (s.run env) (t.run env)
  | .mul s t => natMul (s.run env) (t.run env)

/-- formulas over variables with `+`, `-`, `*` and negation -/
inductive IntExpr where
  | var (i : Nat)
  | add (s t : IntExpr)
  | sub (s t : IntExpr)
  | mul (s t : IntExpr)
  | neg (s : IntExpr)

/-- the value of a formula -/
def IntExpr.value (env : Nat → Int) : IntExpr → Int
  | .var i => env i
  | .add s t => s.value env + t.value env
  | .sub s t => s.value env - t.value env
  | .mul s t => s.value env * t.value env
  | .neg s => -s.value env

/-- the formula written with the operators of `BigInt` -/
def IntExpr.run (env : Nat → BInt) : IntExpr → BInt
  | .var i => env i
  | .add s t => bAdd (s.run env) (t.run env)
  | .sub s t => bSub (s.run env) (t.run env)
  | .mul s t => bMul (s.run env) (t.run env)
  | .neg s => bNeg (s.run env)

/-- formulas over variables with `+`, `-`, `*` and `/` -/
inductive RatExpr where
  | var (i : Nat)
  | add (s t : RatExpr)
  | sub (s t : RatExpr)
  | mul (s t : RatExpr)
  | div (s t : RatExpr)

/-- the value of a formula, if it divides by zero nowhere -/
def RatExpr.value (env : Nat → ℚ) : RatExpr → Option ℚ
  | .var i => some (env i)
  | .add s t => do some ((← s.value env) + (← t.value env))
  | .sub s t => do some ((← s.value env) - (← t.value env))
  | .mul s t => do some ((← s.value env) * (← t.value env))
  | .div s t => do
    let a ← s.value env
    let b ← t.value env
    if b = 0 then none else some (a / b)

/-- the formula written with the operators of `Rat` -/
def RatExpr.run (env : Nat → RatV) : RatExpr → Res RatV
  | .var i => .ok (env i)
  | .add s t => do rAdd (← s.run env) (← t.run env)
  | .sub s t => do rSub (← s.run env) (← t.run env)
  | .mul s t => do rMul (← s.run env) (← t.run env)
  | .div s t => do rDiv (← s.run env) (← t.run env)

/-! ## Proof -/

theorem law_add (a b : Nat) : natAdd (enc a) (enc b) = enc (a + b) := by
  simp [natAdd, opNat, addInner_enc]

theorem law_mul (a b : Nat) : natMul (enc a) (enc b) = enc (a * b) := by
  simp [natMul, opNat, mulInner_enc]

theorem NatExpr.run_eq (env : Nat → Words) (h : ∀ i, Canon (env i)) (s : NatExpr) :
    s.run env = enc (s.value fun i => val (env i)) := by
  induction s with
  | var i => exact canon_eq_enc (h i)
  | add s t hs ht => simp only [run, value, hs, ht]; exact law_add _ _
  | mul s t hs ht => simp only [run, value, hs, ht]; exact law_mul _ _

theorem IntExpr.run_eq (env : Nat → BInt) (h : ∀ i, CanonI (env i)) (s : IntExpr) :
    s.run env = encI (s.value fun i => ival (env i)) := by
  induction s with
  | var i => exact canonI_eq_encI (h i)
  | add s t hs ht => simp only [run, value, hs, ht, bAdd_encI]
  | sub s t hs ht => simp only [run, value, hs, ht, bSub_encI]
  | mul s t hs ht => simp only [run, value, hs, ht, bMul_encI]
  | neg s hs => simp only [run, value, hs, bNeg_encI]

theorem RatExpr.run_eq (env : Nat → RatV) (h : ∀ i, RatOk (env i) ∧ CanonI (env i).a) (s : RatExpr) :
    match s.value fun i => qval (env i) with
    | none => s.run env = .error .panic
    | some q => ∃ r, s.run env = .ok r ∧ RatOk r ∧ CanonI r.a ∧ qval r = q := by
  have bin : ∀ (f : RatV → RatV → Res RatV) (g : ℚ → ℚ → Option ℚ)
      (_ : ∀ x y, RatOk x → RatOk y → match g (qval x) (qval y) with
        | none => f x y = .error .panic
        | some q => ∃ r, f x y = .ok r ∧ RatOk r ∧ CanonI r.a ∧ qval r = q)
      (o1 o2 : Option ℚ) (r1 r2 : Res RatV)
      (_ : match o1 with | none => r1 = .error .panic | some q => ∃ r, r1 = .ok r ∧ RatOk r ∧ CanonI r.a ∧ qval r = q)
      (_ : match o2 with | none => r2 = .error .panic | some q => ∃ r, r2 = .ok r ∧ RatOk r ∧ CanonI r.a ∧ qval r = q),
      match (do let a ← o1; let b ← o2; g a b : Option ℚ) with
      | none => (do let a ← r1; let b ← r2; f a b : Res RatV) = .error .panic
      | some q => ∃ r, (do let a ← r1; let b ← r2; f a b : Res RatV) = .ok r ∧ RatOk r ∧ CanonI r.a ∧ qval r = q := by
    intro f g hfg o1 o2 r1 r2 h1 h2
    cases o1 with
    | none => simp only at h1; subst h1; rfl
    | some a =>
      obtain ⟨x, rfl, hx, -, rfl⟩ := h1
      cases o2 with
      | none => simp only at h2; subst h2; rfl
      | some b =>
        obtain ⟨y, rfl, hy, -, rfl⟩ := h2
        exact hfg x y hx hy
  induction s with
  | var i => exact ⟨_, rfl, (h i).1, (h i).2, rfl⟩
  | add s t hs ht =>
    refine bin rAdd (fun a b => some (a + b)) (fun x y hx hy => ?_) _ _ _ _ hs ht
    obtain ⟨r, h1, h2, h3, h4, -⟩ := C51_add_partial x y hx hy
    exact ⟨r, h1, h2, h3, h4⟩
  | sub s t hs ht =>
    refine bin rSub (fun a b => some (a - b)) (fun x y hx hy => ?_) _ _ _ _ hs ht
    obtain ⟨r, h1, h2, h3, h4, -⟩ := C51_sub_partial x y hx hy
    exact ⟨r, h1, h2, h3, h4⟩
  | mul s t hs ht =>
    refine bin rMul (fun a b => some (a * b)) (fun x y hx hy => ?_) _ _ _ _ hs ht
    obtain ⟨r, h1, h2, h3, h4, -⟩ := C51_mul_partial x y hx hy
    exact ⟨r, h1, h2, h3, h4⟩
  | div s t hs ht =>
    refine bin rDiv (fun a b => if b = 0 then none else some (a / b)) (fun x y hx hy => ?_) _ _ _ _ hs ht
    by_cases hz : qval y = 0
    · simp only [hz, if_true]
      exact (C51_div_partial x y hx hy).2 hz
    · simp only [hz, if_false]
      obtain ⟨r, h1, h2, h3, h4, -⟩ := (C51_div_partial x y hx hy).1 hz
      exact ⟨r, h1, h2, h3, h4⟩

/-! ## C112 -/

/-- **C112, Nat**: `==` and `<` between the results of two formulas are those between their values. -/
theorem C112_nat (env : Nat → Words) (h : ∀ i, Canon (env i)) (s t : NatExpr) :
    (eqv (s.run env) (t.run env) = true ↔ (s.value fun i => val (env i)) = t.value fun i => val (env i)) ∧
    (ltOp (s.run env) (t.run env) = true ↔ (s.value fun i => val (env i)) < t.value fun i => val (env i)) := by
  rw [s.run_eq env h, t.run_eq env h, eqv_enc, ltOp_enc]
  simp

/-- **C112, Nat, laws**: the semiring laws, the order is compatible with `+` and `*`, and `+` can be cancelled. -/
theorem C112_nat_laws (a b c : Words) (ha : Canon a) (hb : Canon b) (hc : Canon c) :
    eqv (natAdd a b) (natAdd b a) = true ∧ eqv (natAdd (natAdd a b) c) (natAdd a (natAdd b c)) = true ∧
    eqv (natMul a b) (natMul b a) = true ∧ eqv (natMul (natMul a b) c) (natMul a (natMul b c)) = true ∧
    eqv (natMul a (natAdd b c)) (natAdd (natMul a b) (natMul a c)) = true ∧
    eqv (natAdd a [0#32]) a = true ∧ eqv (natMul a [1#32]) a = true ∧ eqv (natMul a [0#32]) [0#32] = true ∧
    (ltOp (natAdd a c) (natAdd b c) = ltOp a b) ∧ (eqv (natAdd a c) (natAdd b c) = eqv a b) ∧
    (ltOp [0#32] c = true → ltOp (natMul a c) (natMul b c) = ltOp a b) := by
  obtain ⟨a, rfl⟩ := canon_iff_enc.1 ha
  obtain ⟨b, rfl⟩ := canon_iff_enc.1 hb
  obtain ⟨c, rfl⟩ := canon_iff_enc.1 hc
  rw [← enc_zero, ← enc_one]
  simp only [law_add, law_mul, eqv_enc, ltOp_enc, decide_eq_true_eq, decide_eq_decide]
  refine ⟨by omega, by omega, Nat.mul_comm .., Nat.mul_assoc .., Nat.mul_add .., by omega, by omega, by omega, by omega,
    by omega, fun h => ?_⟩
  exact Nat.mul_lt_mul_right h

/-- **C112, BigInt**: `==` and `<` between the results of two formulas are those between their values. -/
theorem C112_int (env : Nat → BInt) (h : ∀ i, CanonI (env i)) (s t : IntExpr) :
    (bEq (s.run env) (t.run env) = true ↔ (s.value fun i => ival (env i)) = t.value fun i => ival (env i)) ∧
    (bLt (s.run env) (t.run env) = true ↔ (s.value fun i => ival (env i)) < t.value fun i => ival (env i)) := by
  rw [s.run_eq env h, t.run_eq env h, bEq_encI, bLt_encI]
  simp

/-- **C112, BigInt, laws**: an identity between polynomials with integer coefficients holds for `==`, whatever the variables are. -/
theorem C112_int_laws (s t : IntExpr) (hst : ∀ env, s.value env = t.value env) (env : Nat → BInt) (h : ∀ i, CanonI (env i)) :
    bEq (s.run env) (t.run env) = true := (C112_int env h s t).1.2 (hst _)

/-- **C112, Rat**: a formula panics exactly if it divides by zero; `==` and the order between the results of two formulas are those
between their values. -/
theorem C112_rat (env : Nat → RatV) (h : ∀ i, RatOk (env i) ∧ CanonI (env i).a) (s t : RatExpr) :
    (s.value (fun i => qval (env i)) = none → s.run env = .error .panic) ∧
    (∀ p q, s.value (fun i => qval (env i)) = some p → t.value (fun i => qval (env i)) = some q →
      ∃ x y, s.run env = .ok x ∧ t.run env = .ok y ∧ (rEq x y = true ↔ p = q) ∧ rCmp x y = some (compare p q)) := by
  have hs := s.run_eq env h
  have ht := t.run_eq env h
  constructor
  · intro hn
    rw [hn] at hs
    exact hs
  · intro p q hp hq
    rw [hp] at hs
    rw [hq] at ht
    obtain ⟨x, h1, h2, h3, rfl⟩ := hs
    obtain ⟨y, h4, h5, h6, rfl⟩ := ht
    exact ⟨x, y, h1, h4, C52_eq_partial x y h2 h5 h3 h6, C52_cmp_partial x y h2 h5 h3 h6⟩

/-- `(a + b) * (a - b) == a * a - b * b` for `BigInt`, as an instance of the laws -/
example (env : Nat → BInt) (h : ∀ i, CanonI (env i)) :
    bEq (bMul (bAdd (env 0) (env 1)) (bSub (env 0) (env 1))) (bSub (bMul (env 0) (env 0)) (bMul (env 1) (env 1))) = true :=
  C112_int_laws (.mul (.add (.var 0) (.var 1)) (.sub (.var 0) (.var 1))) (.sub (.mul (.var 0) (.var 0)) (.mul (.var 1) (.var 1)))
    (fun env => by simp only [IntExpr.value]; ring) env h

example : ∃ env : Nat → BInt, (∀ i, CanonI (env i)) ∧ ival (env 0) = -(2 ^ 70) ∧ ival (env 1) = 3 :=
  ⟨fun i => if i = 0 then encI (-(2 ^ 70)) else encI 3, fun i => by dsimp only; split <;> exact canonI_encI _, by simp, by simp⟩

/-- `(x / y) * y == x` for all `Rat`s with `y` not zero -/
example (x y : RatV) (hx : RatOk x) (hy : RatOk y) (hx' : CanonI x.a) (hy' : CanonI y.a) (hz : qval y ≠ 0) :
    ∃ d r, rDiv x y = .ok d ∧ rMul d y = .ok r ∧ rEq r x = true := by
  obtain ⟨r, x', h1, h2, h3, -⟩ := (C112_rat (fun i => if i = 0 then x else y)
    (fun i => by split <;> exact ⟨‹_›, ‹_›⟩) (.mul (.div (.var 0) (.var 1)) (.var 1)) (.var 0)).2 (qval x) (qval x)
    (by simp [RatExpr.value, hz]) (by simp [RatExpr.value])
  simp only [RatExpr.run, if_true, Except.ok.injEq] at h2
  subst h2
  obtain ⟨d, hd, -⟩ := (C51_div_partial x y hx hy).1 hz
  refine ⟨d, r, hd, ?_, h3.2 rfl⟩
  simpa [RatExpr.run, hd, bind, Except.bind] using h1

end RMath
