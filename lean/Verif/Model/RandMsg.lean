import Verif.Model.Rand

/-!
# The messages with which the constructors of the generators refuse their arguments

`new` of `Verif/Model/Rand.lean` once more, with the text of the error: `Display` of a `RandError` prints it (rand_error.rs:46-53).  `{:?}` of a
`u32`, `u64` or `usize` is its decimal form.  A seed source that fails has an error with a text of its own.
-/

namespace RMath

/-- linear_congruential_rand.rs:22-30 `new` -/
def lcgNewM {b : Nat} (sd : Except (RandErr × String) (BitVec b)) (a c m : BitVec b) : Except (RandErr × String) (Lcg b) :=
  if m = 0#b then .error (.divisorIsZero, "") else sd.map fun x => ⟨a, c, m, x⟩

/-- lagged_fibonacci_rand.rs:29-49 `new` -/
def lfrNewM {b : Nat} (sd : Except (RandErr × String) (BitVec b)) (w s r : BitVec b) : Except (RandErr × String) (Lfr b) :=
  if w = 0#b ∨ s = 0#b ∨ r = 0#b then .error (.invalidRngPara, "all parameters cannot be the 0")
  else if r ≤ s then .error (.invalidRngPara, "s must be less than the r")
  else if BitVec.ofNat b b < w then .error (.invalidRngPara, "w must be less than or equal to " ++ toString b)
  else sd.map fun x => ⟨w, s, r, x, false, 0#b, 0#b, []⟩

/-- mersenne_twister_rand.rs:45-97 `new` -/
def mtNewM {b : Nat} (sd : Except (RandErr × String) (BitVec b)) (p : MtPar b) : Except (RandErr × String) (Mt b) :=
  if p.w = 0#b ∨ p.m = 0#b ∨ p.r = 0#b ∨ p.a = 0#b ∨ (p.u = 0#b ∧ p.d = 0#b) ∨ (p.s = 0#b ∧ p.bm = 0#b) ∨
    (p.t = 0#b ∧ p.c = 0#b) ∨ p.l = 0#b ∨ p.f = 0#b then .error (.invalidRngPara, "all parameters cannot be the 0")
  else if p.n < p.m then .error (.invalidRngPara, "m must be satisfy the relation: m <= n")
  else if BitVec.ofNat b b < p.w then .error (.invalidRngPara, "w must be satisfy the relation: m <= " ++ toString b)
  else if p.w ≤ p.r then .error (.invalidRngPara, "r must be less than w")
  else if p.w ≤ p.u then .error (.invalidRngPara, "u must be less than w")
  else if p.w ≤ p.s then .error (.invalidRngPara, "s must be less than w")
  else if p.w ≤ p.t then .error (.invalidRngPara, "t must be less than w")
  else if p.w ≤ p.l then .error (.invalidRngPara, "l must be less than w")
  else if maskW p.w < p.a then .error (.invalidRngPara, "a must be less than or equal to ((1<<w) - 1)")
  else if maskW p.w < p.d then .error (.invalidRngPara, "d must be less than  or equal to ((1<<w) - 1)")
  else if maskW p.w < p.bm then .error (.invalidRngPara, "b must be less than  or equal to ((1<<w) - 1)")
  else if maskW p.w < p.c then .error (.invalidRngPara, "c must be less than  or equal to ((1<<w) - 1)")
  else if maskW p.w < p.f then .error (.invalidRngPara, "f must be less than  or equal to ((1<<w) - 1)")
  else sd.map fun x => ⟨p, p.n, x, false, []⟩

end RMath
