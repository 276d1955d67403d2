import Verif.Lemmas.BigIntExp
import Verif.Model.Rat
import Mathlib.Tactic.FieldSimp
import Mathlib.Tactic.Ring
import Mathlib.Tactic.Positivity
import Mathlib.Data.Rat.Cast.Order
import Mathlib.Algebra.Order.Field.Basic
import Mathlib.Algebra.Order.Field.Power
import Mathlib.Algebra.Order.Ring.Rat

/-! Proofs about `Rat`. -/

namespace RMath

/-- a `Rat` from its signs and magnitudes -/
abbrev raw (s : Bool) (n : Nat) (t : Bool) (d : Nat) : RatV := ⟨⟨enc n, s⟩, ⟨enc d, t⟩⟩

theorem ratOk_raw {s : Bool} {n : Nat} {t : Bool} {d : Nat} (hd : d ≠ 0) (ht : t = true → n = 0) : RatOk (raw s n t d) :=
  ⟨canon_enc _, canon_enc _, by simpa using hd, by simpa using ht⟩

theorem ratOk_iff {r : RatV} : RatOk r ↔ ∃ s n t d, r = raw s n t d ∧ d ≠ 0 ∧ (t = true → n = 0) := by
  constructor
  · rintro ⟨h1, h2, h3, h4⟩
    obtain ⟨⟨a, s⟩, ⟨b, t⟩⟩ := r
    obtain ⟨n, rfl⟩ := canon_iff_enc.1 h1
    obtain ⟨d, rfl⟩ := canon_iff_enc.1 h2
    exact ⟨s, n, t, d, rfl, by simpa using h3, by simpa using h4⟩
  · rintro ⟨s, n, t, d, rfl, h1, h2⟩
    exact ratOk_raw h1 h2

theorem sg_zero (s : Bool) : sg s 0 = 0 := by simp [sg]
theorem sg_mul (s : Bool) (n f : Nat) : sg s (n * f) = sg s n * f := by cases s <;> simp [sg]
theorem natAbs_sg (s : Bool) (n : Nat) : (sg s n).natAbs = n := by cases s <;> simp [sg]
theorem sg_eq_zero {s : Bool} {n : Nat} : sg s n = 0 ↔ n = 0 := by cases s <;> simp [sg]

theorem qval_raw {s : Bool} {n : Nat} {t : Bool} {d : Nat} (ht : t = true → n = 0) :
    qval (raw s n t d) = (sg s n : ℚ) / d := by
  unfold qval
  rw [ival_mk, ival_mk]
  cases t with
  | false => simp [sg]
  | true => simp [ht rfl, sg_zero]

theorem canonI_mk {s : Bool} {n : Nat} (h : s = true → n ≠ 0) : CanonI ⟨enc n, s⟩ := ⟨canon_enc _, by simpa using h⟩

theorem rIsNan_raw (s : Bool) (n : Nat) (t : Bool) (d : Nat) : rIsNan (raw s n t d) = false := by
  simp [rIsNan, bIsNan]

theorem enc_gcd (n d : Nat) : ∃ x y, bGcd ⟨enc n, false⟩ ⟨enc d, false⟩ = .ok (⟨enc (n.gcd d), false⟩, x, y) := by
  obtain ⟨x, y, h, -⟩ := bGcd_spec n d
  rw [encI_ofNat, encI_ofNat, Int.gcd_natCast_natCast, encI_ofNat] at h
  exact ⟨_, _, h⟩

theorem rNorm_raw {s : Bool} {n : Nat} {t : Bool} {d : Nat} (hd : d ≠ 0) :
    rNorm (raw s n t d) = .ok (if n = 0 then raw false 0 t d else raw s (n / n.gcd d) false (d / n.gcd d)) := by
  unfold rNorm
  simp only [bIsNan, isNan_enc, ← enc_zero, eqv_enc, Bool.false_or, hd, decide_false, Bool.or_false,
    Bool.false_eq_true, if_false, decide_eq_true_eq]
  by_cases hn : n = 0
  · subst hn; simp
  · obtain ⟨x, y, h⟩ := enc_gcd n d
    have hg : n.gcd d ≠ 0 := fun h => hn (Nat.gcd_eq_zero_iff.1 h).1
    simp only [hn, if_false, h, bind, Except.bind, ← enc_one, eqv_enc, decide_eq_true_eq]
    by_cases h1 : n.gcd d = 1
    · rw [if_pos h1, h1, Nat.div_one, Nat.div_one]
    · rw [if_neg h1, divInner_enc hg, divInner_enc hg]

theorem rNorm_spec {s : Bool} {n : Nat} {t : Bool} {d : Nat} (hd : d ≠ 0) :
    ∃ r, rNorm (raw s n t d) = .ok r ∧ RatOk r ∧ CanonI r.a ∧ qval r = (sg s n : ℚ) / d ∧ (n ≠ 0 → LowestTerms r) ∧
      (n = 0 → r = raw false 0 t d) := by
  rw [rNorm_raw hd]
  refine ⟨_, rfl, ?_⟩
  by_cases hn : n = 0
  · subst hn
    rw [if_pos rfl]
    refine ⟨ratOk_raw hd (fun _ => rfl), canonI_mk (by simp), ?_, fun h => absurd rfl h, fun _ => rfl⟩
    rw [qval_raw (fun _ => rfl), sg_zero, sg_zero]
  · rw [if_neg hn]
    have hg : 0 < n.gcd d := Nat.gcd_pos_of_pos_left _ (Nat.pos_of_ne_zero hn)
    have hd' : 0 < d / n.gcd d := Nat.div_pos (Nat.le_of_dvd (Nat.pos_of_ne_zero hd) (Nat.gcd_dvd_right _ _)) hg
    have hn' : 0 < n / n.gcd d := Nat.div_pos (Nat.le_of_dvd (Nat.pos_of_ne_zero hn) (Nat.gcd_dvd_left _ _)) hg
    refine ⟨ratOk_raw hd'.ne' (by simp), canonI_mk (fun _ => hn'.ne'), ?_, fun _ => ⟨canonI_mk (fun _ => hn'.ne'),
      canonI_mk (by simp), ?_, ?_⟩, fun h => absurd h hn⟩
    · rw [qval_raw (by simp)]
      obtain ⟨p, hp⟩ := Nat.gcd_dvd_left n d
      obtain ⟨q, hq⟩ := Nat.gcd_dvd_right n d
      generalize hgd : n.gcd d = g at *
      have e1 : n / g = p := by rw [hp]; exact Nat.mul_div_cancel_left _ hg
      have e2 : d / g = q := by rw [hq]; exact Nat.mul_div_cancel_left _ hg
      rw [e1, e2, hp, hq]
      have h1 : (g : ℚ) ≠ 0 := by exact_mod_cast hg.ne'
      rw [Nat.mul_comm g p, sg_mul, Nat.mul_comm g q]
      push_cast
      rw [mul_div_mul_right _ _ h1]
    · rw [ival_mk]; simp only [sg, Bool.false_eq_true, if_false]; exact_mod_cast hd'
    · rw [ival_mk, ival_mk]
      unfold Int.gcd
      rw [natAbs_sg, natAbs_sg]
      exact Nat.coprime_div_gcd_div_gcd hg

theorem rScaleDenom_raw {s : Bool} {n d : Nat} (hd : d ≠ 0) : rScaleDenom ⟨enc n, s⟩ (enc d) = ⟨enc (n * d), s⟩ := by
  unfold rScaleDenom
  rw [← enc_zero, eqv_enc]
  simp only [hd, decide_false, Bool.false_eq_true, if_false, opNat, isNan_enc, Bool.or_self, deepClone_enc, mulInner_enc]

theorem rMulDenom_raw {n d : Nat} (hn : n ≠ 0) (hd : d ≠ 0) : rMulDenom (enc n) (enc d) = enc (n * d) := by
  unfold rMulDenom
  rw [← enc_zero, eqv_enc, eqv_enc]
  simp only [hn, hd, decide_false, Bool.false_eq_true, if_false, opNat, isNan_enc, Bool.or_self, deepClone_enc,
    mulInner_enc, Bool.and_self]

theorem eq_encI_raw (z : Int) : encI z = ⟨enc z.natAbs, decide (z < 0)⟩ := rfl

/-- the outcome of an operation that ends in `norm` -/
theorem rNorm_encI {z : Int} {t : Bool} {d : Nat} (hd : d ≠ 0) :
    ∃ r, rNorm ⟨encI z, ⟨enc d, t⟩⟩ = .ok r ∧ RatOk r ∧ CanonI r.a ∧ qval r = (z : ℚ) / d ∧ (z ≠ 0 → LowestTerms r) ∧
      (z = 0 → r = ⟨encI 0, ⟨enc d, t⟩⟩) := by
  obtain ⟨r, h1, h2, h3, h4, h5, h6⟩ := rNorm_spec (s := decide (z < 0)) (n := z.natAbs) (t := t) hd
  refine ⟨r, h1, h2, h3, ?_, fun h => h5 (by omega), fun h => ?_⟩
  · rw [h4, sg_natAbs]
  · rw [h6 (by omega)]; simp [raw, encI]

variable {s1 s2 t1 t2 : Bool} {n1 n2 d1 d2 : Nat}

theorem rAdd_raw (h1 : d1 ≠ 0) (h2 : d2 ≠ 0) : rAdd (raw s1 n1 t1 d1) (raw s2 n2 t2 d2) =
    rNorm ⟨encI (sg s1 n1 * d2 + sg s2 n2 * d1), ⟨enc (d1 * d2), false⟩⟩ := by
  unfold rAdd rAddInner
  rw [rIsNan_raw, rIsNan_raw, if_neg (by simp)]
  simp only
  rw [rScaleDenom_raw h2, rScaleDenom_raw h1, bAddInner_raw, rMulDenom_raw h1 h2, sg_mul, sg_mul]

theorem rSub_raw (h1 : d1 ≠ 0) (h2 : d2 ≠ 0) : rSub (raw s1 n1 t1 d1) (raw s2 n2 t2 d2) =
    rNorm ⟨encI (sg s1 n1 * d2 - sg s2 n2 * d1), ⟨enc (d1 * d2), false⟩⟩ := by
  unfold rSub rSubInner
  rw [rIsNan_raw, rIsNan_raw, if_neg (by simp)]
  simp only
  rw [rScaleDenom_raw h2, rScaleDenom_raw h1, bSubInner_raw, rMulDenom_raw h1 h2, sg_mul, sg_mul]

theorem rDiv_raw (h1 : d1 ≠ 0) (h2 : d2 ≠ 0) (hn : n2 ≠ 0) : rDiv (raw s1 n1 t1 d1) (raw s2 n2 t2 d2) =
    rNorm (raw (s1 != s2) (n1 * d2) s2 (n2 * d1)) := by
  unfold rDiv rDivInner
  rw [rIsNan_raw, rIsNan_raw, if_neg (by simp)]
  simp only
  rw [rScaleDenom_raw h2, rScaleDenom_raw h1, ← enc_zero, eqv_enc, if_neg (by simpa using hn)]

theorem rCmp_raw (h1 : d1 ≠ 0) (h2 : d2 ≠ 0) : rCmp (raw s1 n1 t1 d1) (raw s2 n2 t2 d2) =
    some (if bEq ⟨enc (n1 * d2), s1⟩ ⟨enc (n2 * d1), s2⟩ then .eq else
      if bCmp ⟨enc (n1 * d2), s1⟩ ⟨enc (n2 * d1), s2⟩ = some .lt then .lt else .gt) := by
  unfold rCmp
  rw [rIsNan_raw, rIsNan_raw, if_neg (by simp)]
  simp only
  rw [rScaleDenom_raw h2, rScaleDenom_raw h1]

theorem mk_eq_encI {s : Bool} {n : Nat} (h : s = true → n ≠ 0) : (⟨enc n, s⟩ : BInt) = encI (sg s n) := by
  rw [canonI_eq_encI (canonI_mk h), ival_mk]

/-- comparing fractions by cross multiplication -/
theorem compare_div (a b : Int) {c d : Nat} (hc : c ≠ 0) (hd : d ≠ 0) :
    compare ((a : ℚ) / c) ((b : ℚ) / d) = compare (a * d) (b * c) := by
  have hc' : (0 : ℚ) < c := by exact_mod_cast Nat.pos_of_ne_zero hc
  have hd' : (0 : ℚ) < d := by exact_mod_cast Nat.pos_of_ne_zero hd
  rcases lt_trichotomy (a * d) (b * c) with h | h | h
  · rw [compare_lt_iff_lt.2 h, compare_lt_iff_lt, div_lt_div_iff₀ hc' hd']
    exact_mod_cast h
  · rw [compare_eq_iff_eq.2 h, compare_eq_iff_eq, div_eq_div_iff hc'.ne' hd'.ne']
    exact_mod_cast h
  · rw [compare_gt_iff_gt.2 h, compare_gt_iff_gt]
    show (b : ℚ) / d < (a : ℚ) / c
    rw [div_lt_div_iff₀ hd' hc']
    exact_mod_cast h

theorem rCmp_canon (h1 : d1 ≠ 0) (h2 : d2 ≠ 0) (hs1 : s1 = true → n1 ≠ 0) (hs2 : s2 = true → n2 ≠ 0) :
    rCmp (raw s1 n1 t1 d1) (raw s2 n2 t2 d2) = some (compare ((sg s1 n1 : ℚ) / d1) ((sg s2 n2 : ℚ) / d2)) := by
  rw [rCmp_raw h1 h2, mk_eq_encI (fun h => Nat.mul_ne_zero (hs1 h) h2), mk_eq_encI (fun h => Nat.mul_ne_zero (hs2 h) h1),
    bEq_encI, compare_natAbs, compare_div _ _ h1 h2, sg_mul, sg_mul]
  generalize sg s1 n1 * (d2 : Int) = p
  generalize sg s2 n2 * (d1 : Int) = q
  rcases lt_trichotomy p q with h | h | h
  · rw [compare_lt_iff_lt.2 h]; simp [h.ne]
  · rw [compare_eq_iff_eq.2 h]; simp [h]
  · rw [compare_gt_iff_gt.2 h]; simp [h.ne']

/-- equal by `==` means the same number, even with "minus zero" -/
theorem rEq_raw (h1 : d1 ≠ 0) (h2 : d2 ≠ 0) (h : rEq (raw s1 n1 t1 d1) (raw s2 n2 t2 d2) = true) :
    (sg s1 n1 : ℚ) / d1 = (sg s2 n2 : ℚ) / d2 := by
  unfold rEq at h
  rw [rCmp_raw h1 h2] at h
  have hb : bEq ⟨enc (n1 * d2), s1⟩ ⟨enc (n2 * d1), s2⟩ = true := by
    by_contra hb
    rw [Bool.not_eq_true] at hb
    simp only [hb, Bool.false_eq_true, if_false] at h
    split at h <;> simp at h
  simp only [bEq, eqv_enc, Bool.and_eq_true, beq_iff_eq, decide_eq_true_eq] at hb
  obtain ⟨rfl, hm⟩ := hb
  rw [div_eq_div_iff (by exact_mod_cast h1) (by exact_mod_cast h2)]
  have := congrArg (sg s1) hm
  rw [sg_mul, sg_mul] at this
  exact_mod_cast this

theorem rMul_raw (h1 : d1 ≠ 0) (h2 : d2 ≠ 0) : rMul (raw s1 n1 t1 d1) (raw s2 n2 t2 d2) =
    if rEq (raw s1 n1 t1 d1) (raw s2 n2 t2 d2) then rNorm ⟨encI (sg s1 n1 * sg s1 n1), ⟨enc (d1 * d1), false⟩⟩
    else rNorm ⟨encI (sg s1 n1 * sg s2 n2), ⟨enc (d1 * d2), false⟩⟩ := by
  unfold rMul rMulInner
  rw [rIsNan_raw, rIsNan_raw, if_neg (by simp)]
  simp only [bSqr, natSqr_enc, bMul, bDeepClone, deepClone_enc]
  rw [bMulInner_raw, rMulDenom_raw h1 h2, deepClone_enc, ← enc_zero, eqv_enc]
  simp only [h1, decide_false, Bool.false_eq_true, if_false]
  have e : (⟨enc (n1 * n1), false⟩ : BInt) = encI (sg s1 n1 * sg s1 n1) := by
    rw [mk_eq_encI (by simp)]
    cases s1 <;> simp [sg]
  rw [e]

/-! ## doubles -/

theorem f64_mant (x : D) : (x &&& ((1#64 <<< 52) - 1#64)).toNat = x.toNat % 2 ^ 52 := by
  have e : (1#64 <<< 52) - 1#64 = BitVec.ofNat 64 (2 ^ 52 - 1) := by decide
  rw [e, BitVec.toNat_and, BitVec.toNat_ofNat, Nat.mod_eq_of_lt (by norm_num), Nat.and_two_pow_sub_one_eq_mod]

theorem f64_exp (x : D) : ((x >>> 52) &&& 2047#64).toNat = x.toNat / 2 ^ 52 % 2 ^ 11 := by
  rw [BitVec.toNat_and, BitVec.toNat_ushiftRight, Nat.shiftRight_eq_div_pow]
  exact Nat.and_two_pow_sub_one_eq_mod _ 11

theorem f64_hidden {m : D} (h : m.toNat < 2 ^ 52) : (m ||| (1#64 <<< 52)).toNat = 2 ^ 52 + m.toNat := by
  have e : (1#64 <<< 52) = BitVec.ofNat 64 (2 ^ 52) := by decide
  rw [e, BitVec.toNat_or, BitVec.toNat_ofNat, Nat.mod_eq_of_lt (by norm_num), Nat.or_comm]
  have := Nat.two_pow_add_eq_or_of_lt h 1
  rw [Nat.mul_one] at this
  exact this.symm

theorem and_one_eq_zero (m : D) : m &&& 1#64 = 0#64 ↔ m.toNat % 2 = 0 := by
  rw [← BitVec.toNat_inj, BitVec.toNat_and]
  show m.toNat &&& 1 = 0 ↔ _
  rw [Nat.and_one_is_mod]

theorem rTrimMant_spec : ∀ (fuel : Nat) (m : D) (s : Int), 0 < fuel → s < fuel → ∃ m' : D, ∃ s' : Int,
    rTrimMant fuel m s = .ok (m', s') ∧ (s ≤ 0 → m' = m ∧ s' = s) ∧
    (0 ≤ s → 0 ≤ s' ∧ s' ≤ s ∧ m.toNat = m'.toNat * 2 ^ (s - s').toNat ∧ (m'.toNat % 2 = 0 → s' = 0)) := by
  intro fuel
  induction fuel with
  | zero =>
    intro m s h0
    omega
  | succ fuel ih =>
    intro m s _ hs
    rw [rTrimMant]
    by_cases h : m &&& 1#64 = 0#64 ∧ s > 0
    · rw [if_pos h]
      obtain ⟨m', s', e1, e2, e3⟩ := ih (m >>> 1) (s - 1) (by omega) (by omega)
      refine ⟨m', s', e1, fun h' => by omega, fun _ => ?_⟩
      obtain ⟨f1, f2, f3, f4⟩ := e3 (by omega)
      refine ⟨f1, by omega, ?_, f4⟩
      have h2 := (and_one_eq_zero m).1 h.1
      rw [BitVec.toNat_ushiftRight, Nat.shiftRight_eq_div_pow] at f3
      have e : (s - s').toNat = (s - 1 - s').toNat + 1 := by omega
      rw [e, pow_succ, ← mul_assoc, ← f3]
      omega
    · rw [if_neg h]
      refine ⟨m, s, rfl, fun _ => ⟨rfl, rfl⟩, fun h' => ⟨h', le_refl _, by simp, fun h2 => ?_⟩⟩
      rw [and_one_eq_zero] at h
      omega

theorem f64_neg (x : D) (h : x.toNat / 2 ^ 52 % 2 ^ 11 ≠ 2047) (m : Nat)
    (hm : m = if x.toNat / 2 ^ 52 % 2 ^ 11 = 0 then x.toNat % 2 ^ 52 else 2 ^ 52 + x.toNat % 2 ^ 52) :
    sg (x.msb && !(x <<< 1 == 0#64)) m = (if x.toNat / 2 ^ 63 = 1 then -1 else 1) * (m : Int) := by
  have h1 : x.msb = decide (x.toNat / 2 ^ 63 = 1) := by
    rw [BitVec.msb_eq_decide]
    have := x.isLt
    congr 1
    apply propext
    omega
  have h2 : (x <<< 1 == 0#64) = decide (x.toNat % 2 ^ 63 = 0) := by
    rw [Bool.eq_iff_iff, beq_iff_eq, decide_eq_true_eq, ← BitVec.toNat_inj, BitVec.toNat_shiftLeft, Nat.shiftLeft_eq]
    have := x.isLt
    simp only [BitVec.toNat_ofNat]
    omega
  rw [h1, h2]
  by_cases h3 : x.toNat / 2 ^ 63 = 1
  · by_cases h4 : x.toNat % 2 ^ 63 = 0
    · have : m = 0 := by
        rw [hm, if_pos (by omega)]; omega
      simp [this, sg]
    · rw [decide_eq_true h3, decide_eq_false h4, if_pos h3]; simp [sg]
  · rw [decide_eq_false h3, if_neg h3]; simp [sg]

/-- the mantissa of a double with its hidden bit -/
def f64Mant (x : D) : Nat :=
  if x.toNat / 2 ^ 52 % 2 ^ 11 = 0 then x.toNat % 2 ^ 52 else 2 ^ 52 + x.toNat % 2 ^ 52
/-- the power of two that divides it -/
def f64Shift (x : D) : Int :=
  if x.toNat / 2 ^ 52 % 2 ^ 11 = 0 then 1074 else 1075 - (x.toNat / 2 ^ 52 % 2 ^ 11 : Nat)
/-- the sign flag that `from_f64` computes -/
def f64Neg (x : D) : Bool := x.msb && !(x <<< 1 == 0#64)

/-- `from_f64` on a finite double: mantissa over a power of two, whatever the exponent -/
theorem rFromF64_eq (x : D) (h : f64Finite x) : ∃ m' : D, ∃ s' : Int,
    rFromF64 x = rNorm (raw (f64Neg x) m'.toNat false (2 ^ s'.natAbs)) ∧
    (f64Shift x ≤ 0 → m'.toNat = f64Mant x ∧ s' = f64Shift x) ∧
    (0 ≤ f64Shift x → 0 ≤ s' ∧ s' ≤ f64Shift x ∧ f64Mant x = m'.toNat * 2 ^ (f64Shift x - s').toNat ∧
      (m'.toNat % 2 = 0 → s' = 0)) := by
  unfold rFromF64
  simp only [f64_exp]
  unfold f64Finite at h
  have hlt : x.toNat / 2 ^ 52 % 2 ^ 11 < 2048 := Nat.mod_lt _ (by norm_num)
  generalize hE : x.toNat / 2 ^ 52 % 2 ^ 11 = E at *
  rw [if_neg (by omega)]
  have hm : (if (E : Int) = 0 then x &&& ((1#64 <<< 52) - 1#64) else
      (x &&& ((1#64 <<< 52) - 1#64)) ||| (1#64 <<< 52)).toNat = f64Mant x := by
    unfold f64Mant
    rw [hE]
    by_cases h0 : E = 0
    · rw [if_pos (by omega), if_pos h0, f64_mant]
    · rw [if_neg (by omega), if_neg h0, f64_hidden, f64_mant]
      rw [f64_mant]; exact Nat.mod_lt _ (by norm_num)
  have hs : (52 - if (E : Int) = 0 then (E : Int) - 1022 else (E : Int) - 1023) = f64Shift x := by
    unfold f64Shift
    rw [hE]
    split <;> split <;> omega
  rw [hs]
  generalize (if (E : Int) = 0 then x &&& ((1#64 <<< 52) - 1#64) else
      (x &&& ((1#64 <<< 52) - 1#64)) ||| (1#64 <<< 52)) = m at *
  obtain ⟨m', s', e1, e2, e3⟩ := rTrimMant_spec 1076 m (f64Shift x) (by omega) (by rw [← hs]; split <;> omega)
  refine ⟨m', s', ?_, ?_, ?_⟩
  · simp only [bind, Except.bind, e1, fromU64_eq]
    rw [← enc_one, shlInner_enc (by omega), Nat.one_mul]
    have : (if s' > 0 then s'.toNat else (-s').toNat) = s'.natAbs := by split <;> omega
    rw [this]
    rfl
  · intro h'
    obtain ⟨rfl, rfl⟩ := e2 h'
    exact ⟨hm, rfl⟩
  · intro h'
    obtain ⟨f1, f2, f3, f4⟩ := e3 h'
    exact ⟨f1, f2, by rw [← hm, f3], f4⟩

theorem f64val_eq (x : D) (h : f64Finite x) : f64val x = (sg (f64Neg x) (f64Mant x) : ℚ) * 2 ^ (-f64Shift x) := by
  unfold f64Neg
  rw [f64_neg x h (f64Mant x) rfl]
  unfold f64val f64Mant f64Shift
  generalize x.toNat / 2 ^ 52 % 2 ^ 11 = E
  generalize x.toNat % 2 ^ 52 = M
  generalize x.toNat / 2 ^ 63 = S
  by_cases h0 : E = 0
  · simp only [h0, if_true]
    rw [zpow_neg]
    push_cast
    rw [div_eq_mul_inv]
    split <;> norm_num
  · simp only [h0, if_false]
    rw [neg_sub, zpow_sub₀ (by norm_num), zpow_natCast]
    push_cast
    split
    · norm_num [div_eq_mul_inv]; ring
    · norm_num [div_eq_mul_inv]; ring

end RMath
