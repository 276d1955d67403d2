import Mathlib.RingTheory.ZMod.UnitsCyclic
import Mathlib.Data.ZMod.QuotientRing
import Mathlib.GroupTheory.Index
import Mathlib.FieldTheory.Finite.Basic
import Verif.Lemmas.Prime

/-! The bases to which a number passes the strong test, as units modulo the number -/

namespace RMath

section
variable {n : Nat}

theorem cast_pow_one {a e : Nat} (hn : 1 < n) (h : a ^ e % n = 1) : (a : ZMod n) ^ e = 1 := by
  have : ((a ^ e : Nat) : ZMod n) = ((1 : Nat) : ZMod n) := by
    rw [ZMod.natCast_eq_natCast_iff', h, Nat.mod_eq_of_lt hn]
  simpa using this

theorem cast_pow_neg_one {a e : Nat} (hn : 1 < n) (h : a ^ e % n = n - 1) : (a : ZMod n) ^ e = -1 := by
  have : ((a ^ e : Nat) : ZMod n) = ((n - 1 : Nat) : ZMod n) := by
    rw [ZMod.natCast_eq_natCast_iff', h, Nat.mod_eq_of_lt (by omega)]
  rw [Nat.cast_sub (by omega)] at this
  simpa using this

/-- the base is a unit, and its powers are as the test finds them -/
theorem liar_unit (hn : 1 < n) {t u a : Nat} (htu : n - 1 = 2 ^ t * u) (hu : u % 2 = 1) (h : StrongProbablePrime n a) :
    ∃ g : (ZMod n)ˣ, (g : ZMod n) = a ∧ (g ^ u = 1 ∨ ∃ i < t, g ^ (2 ^ i * u) = -1) := by
  obtain ⟨t', u', htu', hu', h⟩ := h
  obtain ⟨rfl, rfl⟩ := two_pow_odd_inj (htu.symm.trans htu') hu hu'
  have hu0 : u ≠ 0 := by rintro rfl; simp at hu
  rcases h with h | ⟨i, hi, h⟩
  · have e := cast_pow_one hn h
    have hun : IsUnit (a : ZMod n) := IsUnit.of_pow_eq_one e hu0
    refine ⟨hun.unit, rfl, Or.inl ?_⟩
    ext
    simpa using e
  · have e := cast_pow_neg_one hn h
    have hun : IsUnit (a : ZMod n) := by
      refine IsUnit.of_pow_eq_one (n := 2 ^ i * u * 2) ?_ (by positivity)
      rw [pow_mul, e]; simp
    refine ⟨hun.unit, rfl, Or.inr ⟨i, hi, ?_⟩⟩
    ext
    simpa using e

end

/-- the units whose power is 1 or -1 -/
def pmSubgroup (n E : Nat) : Subgroup (ZMod n)ˣ where
  carrier := {g | g ^ E = 1 ∨ g ^ E = -1}
  one_mem' := Or.inl (one_pow _)
  mul_mem' := by
    rintro a b (ha | ha) (hb | hb) <;> simp [mul_pow, ha, hb]
  inv_mem' := by
    rintro a (ha | ha) <;> simp [ha]

end RMath
