import Verif.Lemmas.Rat
import Verif.Props.BigInt

/-!
# Properties C51–C55, C74: `Rat`
-/

namespace RMath

/-- `-7/12` -/
def sampleQ : RatV := ⟨⟨[7#32], true⟩, ⟨[12#32], false⟩⟩
/-- `2^40/3` -/
def sampleP : RatV := ⟨⟨[0#32, 256#32], false⟩, ⟨[3#32], false⟩⟩

theorem sampleQ_ok : RatOk sampleQ := ⟨⟨by decide, by decide⟩, ⟨by decide, by decide⟩, by decide, by decide⟩
theorem sampleP_ok : RatOk sampleP := ⟨⟨by decide, by decide⟩, ⟨by decide, by decide⟩, by decide, by decide⟩
theorem sampleQ_canon : CanonI sampleQ.a := ⟨⟨by decide, by decide⟩, by decide⟩
theorem sampleP_canon : CanonI sampleP.a := ⟨⟨by decide, by decide⟩, by decide⟩

/-! ## C51 arithmetic -/

/-- The sum of two `Rat`s denotes the sum of the rationals, is again well formed, and is in lowest terms unless it is
zero. -/
theorem C51_add_partial (x y : RatV) (hx : RatOk x) (hy : RatOk y) :
    ∃ r, rAdd x y = .ok r ∧ RatOk r ∧ CanonI r.a ∧ qval r = qval x + qval y ∧ (qval r ≠ 0 → LowestTerms r) := by
  obtain ⟨s1, n1, t1, d1, rfl, h1, g1⟩ := ratOk_iff.1 hx
  obtain ⟨s2, n2, t2, d2, rfl, h2, g2⟩ := ratOk_iff.1 hy
  rw [rAdd_raw h1 h2]
  obtain ⟨r, e1, e2, e3, e4, e5, -⟩ := rNorm_encI (z := sg s1 n1 * d2 + sg s2 n2 * d1) (t := false)
    (Nat.mul_ne_zero h1 h2)
  have h1' : (d1 : ℚ) ≠ 0 := by exact_mod_cast h1
  have h2' : (d2 : ℚ) ≠ 0 := by exact_mod_cast h2
  refine ⟨r, e1, e2, e3, ?_, fun h => e5 fun hz => h ?_⟩
  · rw [e4, qval_raw g1, qval_raw g2, div_add_div _ _ h1' h2']
    push_cast
    ring
  · rw [e4, hz]; simp

/-- The same for the difference. -/
theorem C51_sub_partial (x y : RatV) (hx : RatOk x) (hy : RatOk y) :
    ∃ r, rSub x y = .ok r ∧ RatOk r ∧ CanonI r.a ∧ qval r = qval x - qval y ∧ (qval r ≠ 0 → LowestTerms r) := by
  obtain ⟨s1, n1, t1, d1, rfl, h1, g1⟩ := ratOk_iff.1 hx
  obtain ⟨s2, n2, t2, d2, rfl, h2, g2⟩ := ratOk_iff.1 hy
  rw [rSub_raw h1 h2]
  obtain ⟨r, e1, e2, e3, e4, e5, -⟩ := rNorm_encI (z := sg s1 n1 * d2 - sg s2 n2 * d1) (t := false)
    (Nat.mul_ne_zero h1 h2)
  have h1' : (d1 : ℚ) ≠ 0 := by exact_mod_cast h1
  have h2' : (d2 : ℚ) ≠ 0 := by exact_mod_cast h2
  refine ⟨r, e1, e2, e3, ?_, fun h => e5 fun hz => h ?_⟩
  · rw [e4, qval_raw g1, qval_raw g2, div_sub_div _ _ h1' h2']
    push_cast
    ring
  · rw [e4, hz]; simp

/-- The same for the product. -/
theorem C51_mul_partial (x y : RatV) (hx : RatOk x) (hy : RatOk y) :
    ∃ r, rMul x y = .ok r ∧ RatOk r ∧ CanonI r.a ∧ qval r = qval x * qval y ∧ (qval r ≠ 0 → LowestTerms r) := by
  obtain ⟨s1, n1, t1, d1, rfl, h1, g1⟩ := ratOk_iff.1 hx
  obtain ⟨s2, n2, t2, d2, rfl, h2, g2⟩ := ratOk_iff.1 hy
  rw [rMul_raw h1 h2, qval_raw g1, qval_raw g2]
  by_cases he : rEq (raw s1 n1 t1 d1) (raw s2 n2 t2 d2) = true
  · rw [if_pos he, ← rEq_raw h1 h2 he]
    obtain ⟨r, e1, e2, e3, e4, e5, -⟩ := rNorm_encI (z := sg s1 n1 * sg s1 n1) (t := false) (Nat.mul_ne_zero h1 h1)
    refine ⟨r, e1, e2, e3, ?_, fun h => e5 fun hz => h ?_⟩
    · rw [e4, div_mul_div_comm]; push_cast; rfl
    · rw [e4, hz]; simp
  · rw [if_neg he]
    obtain ⟨r, e1, e2, e3, e4, e5, -⟩ := rNorm_encI (z := sg s1 n1 * sg s2 n2) (t := false) (Nat.mul_ne_zero h1 h2)
    refine ⟨r, e1, e2, e3, ?_, fun h => e5 fun hz => h ?_⟩
    · rw [e4, div_mul_div_comm]; push_cast; rfl
    · rw [e4, hz]; simp

/-- The same for the quotient by a number other than zero; division by zero panics. -/
theorem C51_div_partial (x y : RatV) (hx : RatOk x) (hy : RatOk y) :
    (qval y ≠ 0 → ∃ r, rDiv x y = .ok r ∧ RatOk r ∧ CanonI r.a ∧ qval r = qval x / qval y ∧
      (qval r ≠ 0 → LowestTerms r)) ∧
    (qval y = 0 → rDiv x y = .error .panic) := by
  obtain ⟨s1, n1, t1, d1, rfl, h1, g1⟩ := ratOk_iff.1 hx
  obtain ⟨s2, n2, t2, d2, rfl, h2, g2⟩ := ratOk_iff.1 hy
  rw [qval_raw g1, qval_raw g2]
  have h1' : (d1 : ℚ) ≠ 0 := by exact_mod_cast h1
  have h2' : (d2 : ℚ) ≠ 0 := by exact_mod_cast h2
  have hz : (sg s2 n2 : ℚ) / d2 = 0 ↔ n2 = 0 := by
    rw [div_eq_zero_iff, or_iff_left h2']
    exact_mod_cast sg_eq_zero
  constructor
  · intro h
    have hn : n2 ≠ 0 := fun h' => h (hz.2 h')
    rw [rDiv_raw h1 h2 hn]
    obtain ⟨r, e1, e2, e3, e4, e5, -⟩ := rNorm_spec (s := s1 != s2) (n := n1 * d2) (t := s2) (Nat.mul_ne_zero hn h1)
    refine ⟨r, e1, e2, e3, ?_, fun h => e5 fun hz => h ?_⟩
    · rw [e4]
      have hn' : (n2 : ℚ) ≠ 0 := by exact_mod_cast hn
      cases s1 <;> cases s2 <;> simp [sg] <;> field_simp
    · rw [e4, hz, sg_zero]; simp
  · intro h
    unfold rDiv rDivInner
    rw [rIsNan_raw, rIsNan_raw, if_neg (by simp)]
    simp only
    rw [← enc_zero, eqv_enc, if_pos (by simpa using hz.1 h)]

/-- The assigning operators give the same results. -/
theorem C51_assign (x y : RatV) (hx : RatOk x) (hy : RatOk y) :
    rAddAssign x y = rAdd x y ∧ rSubAssign x y = rSub x y ∧ rMulAssign x y = rMul x y ∧ rDivAssign x y = rDiv x y := by
  obtain ⟨s1, n1, t1, d1, rfl, h1, g1⟩ := ratOk_iff.1 hx
  obtain ⟨s2, n2, t2, d2, rfl, h2, g2⟩ := ratOk_iff.1 hy
  simp only [rAddAssign, rAdd, rSubAssign, rSub, rMulAssign, rMul, rDivAssign, rDiv, rIsNan_raw, Bool.or_self,
    Bool.false_eq_true, if_false, and_self]

/-- What is missing from lowest terms: a zero result keeps the denominator of the computation … -/
theorem C51_zero_not_reduced :
    rSub ⟨⟨[1#32], false⟩, ⟨[2#32], false⟩⟩ ⟨⟨[1#32], false⟩, ⟨[2#32], false⟩⟩ =
      .ok ⟨⟨[0#32], false⟩, ⟨[4#32], false⟩⟩ := by decide +kernel

/-- … which after a division may even be negative: `0 / (-3)` has the denominator `-3`. -/
theorem C51_zero_denominator_negative :
    rDiv ⟨⟨[0#32], false⟩, ⟨[1#32], false⟩⟩ ⟨⟨[3#32], true⟩, ⟨[1#32], false⟩⟩ =
      .ok ⟨⟨[0#32], false⟩, ⟨[3#32], true⟩⟩ := by decide +kernel

/-- the terms are as claimed: a zero difference has the product of the denominators, for all operands -/
theorem C51_zero_denominator (x y : RatV) (hx : RatOk x) (hy : RatOk y) (h : qval x = qval y) :
    ∃ r, rSub x y = .ok r ∧ ival r.a = 0 ∧ ival r.b = val x.b.nat * val y.b.nat := by
  obtain ⟨s1, n1, t1, d1, rfl, h1, g1⟩ := ratOk_iff.1 hx
  obtain ⟨s2, n2, t2, d2, rfl, h2, g2⟩ := ratOk_iff.1 hy
  rw [rSub_raw h1 h2]
  obtain ⟨r, e1, e2, e3, e4, e5, e6⟩ := rNorm_encI (z := sg s1 n1 * d2 - sg s2 n2 * d1) (t := false)
    (Nat.mul_ne_zero h1 h2)
  rw [qval_raw g1, qval_raw g2, div_eq_div_iff (by exact_mod_cast h1) (by exact_mod_cast h2)] at h
  have hz : sg s1 n1 * d2 - sg s2 n2 * d1 = 0 := by
    have : sg s1 n1 * d2 = sg s2 n2 * d1 := by exact_mod_cast h
    omega
  refine ⟨r, e1, ?_, ?_⟩
  · rw [e6 hz]; simp
  · rw [e6 hz]; simp [ival]

/-- NaN operands give NaN, for all eight operators. -/
theorem C51_nan (x y : RatV) (h : bIsNan x.a = true ∨ bIsNan y.a = true) :
    rAdd x y = .ok rNan ∧ rSub x y = .ok rNan ∧ rMul x y = .ok rNan ∧ rDiv x y = .ok rNan ∧
    (∃ r, rAddAssign x y = .ok r ∧ rIsNan r = true) ∧ (∃ r, rSubAssign x y = .ok r ∧ rIsNan r = true) ∧
    (∃ r, rMulAssign x y = .ok r ∧ rIsNan r = true) ∧ (∃ r, rDivAssign x y = .ok r ∧ rIsNan r = true) := by
  have hn : (rIsNan x || rIsNan y) = true := by
    unfold rIsNan
    rcases h with h | h <;> simp [h]
  have hc : rIsNan (rClear x) = true := by simp [rIsNan, rClear, bIsNan, isNan]
  refine ⟨if_pos hn, if_pos hn, if_pos hn, if_pos hn, ⟨_, if_pos hn, hc⟩, ⟨_, if_pos hn, hc⟩, ?_, ⟨_, if_pos hn, hc⟩⟩
  unfold rMulAssign
  by_cases hx : rIsNan x = true
  · exact ⟨_, if_pos hx, hc⟩
  · rw [if_neg hx]
    have hy : bIsNan y.a = true := by
      rcases h with h | h
      · exact absurd (by simp [rIsNan, h]) hx
      · exact h
    have he : rEq x y = false := by
      unfold rEq rCmp
      rw [if_pos hn]; rfl
    unfold rMulInner
    rw [if_neg (by simp [he])]
    have hm : bIsNan (bMul x.a y.a) = true := by
      unfold bMul bMulInner signFix bIsNan
      have : assignNat mulInner (bDeepClone x.a).nat y.a.nat = [] := by
        unfold assignNat
        simp only [bIsNan] at hy
        simp [hy]
      rw [this]
      simp [isNan]
    unfold rNorm
    simp only [hm, Bool.true_or, if_true]
    exact ⟨_, rfl, by simpa [rIsNan, bIsNan] using Or.inl hm⟩

example : RatOk sampleQ ∧ RatOk sampleP ∧ qval sampleP ≠ 0 ∧
    rAdd sampleQ sampleP = .ok ⟨⟨[0x55555553#32, 0x155#32], false⟩, ⟨[4#32], false⟩⟩ :=
  ⟨sampleQ_ok, sampleP_ok, by rw [qval, show ival sampleP.a = 2 ^ 40 by decide, show ival sampleP.b = 3 by decide]; norm_num,
    by decide +kernel⟩

/-! ## C52 comparison -/

/-- `partial_cmp` orders `Rat`s as the rationals they denote.  Missing: a numerator that is "minus zero". -/
theorem C52_cmp_partial (x y : RatV) (hx : RatOk x) (hy : RatOk y) (hx' : CanonI x.a) (hy' : CanonI y.a) :
    rCmp x y = some (compare (qval x) (qval y)) := by
  obtain ⟨s1, n1, t1, d1, rfl, h1, g1⟩ := ratOk_iff.1 hx
  obtain ⟨s2, n2, t2, d2, rfl, h2, g2⟩ := ratOk_iff.1 hy
  rw [qval_raw g1, qval_raw g2]
  exact rCmp_canon h1 h2 (by simpa using hx'.2) (by simpa using hy'.2)

/-- `==` says whether two `Rat`s denote the same rational, in whatever terms they are written. -/
theorem C52_eq_partial (x y : RatV) (hx : RatOk x) (hy : RatOk y) (hx' : CanonI x.a) (hy' : CanonI y.a) :
    rEq x y = true ↔ qval x = qval y := by
  unfold rEq
  rw [C52_cmp_partial x y hx hy hx' hy']
  simp [compare_eq_iff_eq]

/-- NaN compares with nothing. -/
theorem C52_nan (x y : RatV) (h : rIsNan x = true ∨ rIsNan y = true) : rCmp x y = none ∧ rEq x y = false := by
  have : rCmp x y = none := if_pos (by rcases h with h | h <;> simp [h])
  exact ⟨this, by rw [rEq, this]; rfl⟩

/-- What is missing: a zero over `-5` is read as "minus zero", which is less than zero. -/
theorem C52_minus_zero : ∃ z, (∀ std, rParse std "0/-5".toList = .ok (some z)) ∧ RatOk z ∧ qval z = 0 ∧
    rCmp z (rFromBig bZero) = some .lt ∧ rEq z (rFromBig bZero) = false := by
  refine ⟨⟨⟨[0#32], true⟩, ⟨[5#32], false⟩⟩, fun std => rfl, ⟨⟨by decide, by decide⟩, ⟨by decide, by decide⟩, by decide,
    by decide⟩, ?_, by decide, by decide⟩
  rw [qval, show ival ⟨[0#32], true⟩ = 0 by decide]
  simp

example : RatOk sampleQ ∧ RatOk sampleP ∧ CanonI sampleQ.a ∧ CanonI sampleP.a ∧ rCmp sampleQ sampleP = some .lt :=
  ⟨sampleQ_ok, sampleP_ok, sampleQ_canon, sampleP_canon, by decide⟩

/-! ## C53 construction from a fraction -/

/-- `from_frac_bigint(n, d)` denotes `n / d` for `d` other than zero, in lowest terms unless it is zero, and is an error
for `d = 0`. -/
theorem C53_from_frac_bigint_partial (n d : BInt) (hn : CanonI n) (hd : CanonI d) :
    (ival d = 0 → rFromFracBig n d = .ok none) ∧
    (ival d ≠ 0 → ∃ r, rFromFracBig n d = .ok (some r) ∧ RatOk r ∧ CanonI r.a ∧ CanonI r.b ∧ 0 < ival r.b ∧
      qval r = (ival n : ℚ) / ival d ∧ (ival n ≠ 0 → LowestTerms r)) := by
  obtain ⟨a, rfl⟩ := canonI_iff_encI.1 hn
  obtain ⟨b, rfl⟩ := canonI_iff_encI.1 hd
  rw [ival_encI, ival_encI]
  unfold rFromFracBig
  have hz : eqv (encI b).nat [0#32] = decide (b = 0) := by
    rw [encI_raw, ← enc_zero, eqv_enc]; simp
  rw [hz]
  constructor
  · intro h; rw [if_pos (by simpa using h)]
  · intro h
    rw [if_neg (by simpa using h), bAbs_encI]
    have e1 : (if (encI b).neg then bNeg (encI a) else bDeepClone (encI a)) = encI (if b < 0 then -a else a) := by
      rw [encI_raw b]
      simp only [decide_eq_true_eq]
      split
      · rw [bNeg, bDeepClone_encI, bNegInner_encI]
      · rw [bDeepClone_encI]
    have e2 : encI |b| = ⟨enc b.natAbs, false⟩ := by rw [← Int.natCast_natAbs, encI_ofNat]
    rw [e1, e2]
    obtain ⟨r, f1, f2, f3, f4, f5, f6⟩ := rNorm_encI (z := if b < 0 then -a else a) (t := false) (d := b.natAbs) (by omega)
    have hb : CanonI r.b ∧ 0 < ival r.b := by
      by_cases ha : a = 0
      · rw [f6 (by split <;> omega)]
        refine ⟨canonI_mk (by simp), ?_⟩
        rw [ival_mk]
        simp only [sg, Bool.false_eq_true, if_false]
        omega
      · obtain ⟨-, g2, g3, -⟩ := f5 (by split <;> omega)
        exact ⟨g2, g3⟩
    refine ⟨r, ?_, f2, f3, hb.1, hb.2, ?_, fun h' => f5 (by split <;> omega)⟩
    · simp only [f1, bind, Except.bind]
    · rw [f4]
      have hb' : (b : ℚ) ≠ 0 := by exact_mod_cast h
      by_cases hb : b < 0
      · have : ((b.natAbs : Nat) : ℚ) = -b := by
          have h2 : (b.natAbs : Int) = -b := by omega
          rw [← Int.cast_natCast, h2, Int.cast_neg]
        rw [if_pos hb, this]; push_cast; rw [neg_div_neg_eq]
      · have : ((b.natAbs : Nat) : ℚ) = b := by
          have h2 : (b.natAbs : Int) = b := by omega
          rw [← Int.cast_natCast, h2]
        rw [if_neg hb, this]

/-- `from_frac(n, d)` on machine integers: an error for `d = 0`; otherwise `n / d`, in lowest terms unless it is zero.
Missing: where the negation of the numerator or of the denominator overflows.  In a debug build (`checks`) that is a
negative `d` with `n = isize::MIN`, and `d = isize::MIN`; in a release build only the former goes wrong. -/
theorem C53_from_frac_partial (checks : Bool) (n d : BitVec 64) :
    (d.toInt = 0 → rFromFrac checks n d = .ok none) ∧
    (d.toInt ≠ 0 → ¬(d.toInt < 0 ∧ n.toInt = -2 ^ 63) → (checks = true → d.toInt ≠ -2 ^ 63) →
      ∃ r, rFromFrac checks n d = .ok (some r) ∧ RatOk r ∧ CanonI r.a ∧
        qval r = (n.toInt : ℚ) / d.toInt ∧ (n.toInt ≠ 0 → LowestTerms r)) := by
  have hd0 : d = 0#64 ↔ d.toInt = 0 := by rw [← BitVec.toInt_inj]; simp
  have hmin : ∀ x : BitVec 64, x = BitVec.intMin 64 ↔ x.toInt = -2 ^ 63 := fun x => by
    rw [← BitVec.toInt_inj]; rfl
  have hmsb : ∀ x : BitVec 64, x.msb = decide (x.toInt < 0) := fun x => BitVec.msb_eq_toInt
  have hneg : ∀ x : BitVec 64, x.toInt ≠ -2 ^ 63 → (-x).toInt = -x.toInt := fun x h =>
    BitVec.toInt_neg_of_ne_intMin (fun h' => h ((hmin x).1 h'))
  unfold rFromFrac
  constructor
  · intro h; rw [if_pos (hd0.2 h)]
  · intro h0 h1 h2
    rw [if_neg (fun h => h0 (hd0.1 h)), if_neg]
    · have ea : fromI64 (if d.msb then -n else n) = .ok (encI (if d.toInt < 0 then -n.toInt else n.toInt)) := by
        rw [fromI64_eq, hmsb]
        by_cases hd : d.toInt < 0
        · simp only [hd, decide_true, if_true]
          rw [hneg _ fun h => h1 ⟨hd, h⟩]
        · simp only [hd, decide_false, Bool.false_eq_true, if_false]
      obtain ⟨t, eb⟩ : ∃ t, fromI64 (if d.msb then -d else d) = .ok ⟨enc d.toInt.natAbs, t⟩ := by
        rw [fromI64_eq, hmsb, encI_raw]
        by_cases hd : d.toInt < 0
        · simp only [hd, decide_true, if_true]
          by_cases hm : d.toInt = -2 ^ 63
          · have e : -d = d := by
              rw [(hmin d).2 hm]; decide
            rw [e]; exact ⟨_, rfl⟩
          · rw [hneg _ hm, Int.natAbs_neg]; exact ⟨_, rfl⟩
        · simp only [hd, decide_false, Bool.false_eq_true, if_false]; exact ⟨_, rfl⟩
      obtain ⟨r, f1, f2, f3, f4, f5, f6⟩ := rNorm_encI (z := if d.toInt < 0 then -n.toInt else n.toInt) (t := t)
        (d := d.toInt.natAbs) (by omega)
      refine ⟨r, ?_, f2, f3, ?_, fun h' => f5 (by split <;> omega)⟩
      · simp only [ea, eb, f1, bind, Except.bind]
      · rw [f4]
        generalize d.toInt = b at *
        generalize n.toInt = a at *
        by_cases hb : b < 0
        · have h2 : (b.natAbs : Int) = -b := by omega
          rw [if_pos hb, ← Int.cast_natCast b.natAbs, h2]; push_cast; rw [neg_div_neg_eq]
        · have h2 : (b.natAbs : Int) = b := by omega
          rw [if_neg hb, ← Int.cast_natCast b.natAbs, h2]
    · simp only [Bool.and_eq_true, Bool.or_eq_true, beq_iff_eq, hmin, hmsb, decide_eq_true_eq]
      rintro ⟨hc, h | h⟩
      · exact h1 h
      · exact h2 hc h

/-- What is missing: debug builds panic, and a release build computes `-1` for `isize::MIN` over itself. -/
theorem C53_from_frac_overflow :
    rFromFrac true (BitVec.intMin 64) (-1#64) = .error .panic ∧
    rFromFrac true 1#64 (BitVec.intMin 64) = .error .panic ∧
    rFromFrac false (BitVec.intMin 64) (BitVec.intMin 64) = .ok (some ⟨⟨[1#32], true⟩, ⟨[1#32], false⟩⟩) := by
  refine ⟨by decide, by decide, by decide +kernel⟩

/-- What is missing: zero is not reduced. -/
theorem C53_zero_not_reduced : rFromFrac true 0#64 5#64 = .ok (some ⟨⟨[0#32], false⟩, ⟨[5#32], false⟩⟩) := by decide

example : rFromFrac true (-6#64) (-4#64) = .ok (some ⟨⟨[3#32], false⟩, ⟨[2#32], false⟩⟩) := by decide +kernel
example : CanonI sampleX ∧ CanonI sampleY ∧ ival sampleY ≠ 0 := ⟨sampleX_canon, sampleY_canon, by decide⟩

/-! ## C54 construction from a double -/

theorem f64_abs (x : BitVec 64) (hf : f64Finite x) : |f64val x| = (f64Mant x : ℚ) * 2 ^ (-f64Shift x) := by
  rw [f64val_eq x hf, abs_mul, abs_of_pos (a := (2 : ℚ) ^ (-f64Shift x)) (by positivity)]
  congr 1
  unfold sg
  split
  · push_cast; rw [abs_neg, abs_of_nonneg (by positivity)]
  · push_cast; rw [abs_of_nonneg (by positivity)]

theorem f64_small_iff (x : BitVec 64) (hf : f64Finite x) : |f64val x| < 2 ^ 53 ↔ 0 ≤ f64Shift x := by
  rw [f64_abs x hf]
  have hm : f64Mant x < 2 ^ 53 := by unfold f64Mant; split <;> omega
  have hm' : (f64Mant x : ℚ) < 2 ^ 53 := by exact_mod_cast hm
  constructor
  · intro h
    by_contra hs
    have h52 : 2 ^ 52 ≤ f64Mant x := by
      unfold f64Mant f64Shift at *
      split at hs
      · omega
      · rw [if_neg (by assumption)]; omega
    have h1 : (2 : ℚ) ^ (1 : Int) ≤ 2 ^ (-f64Shift x) := zpow_le_zpow_right₀ (by norm_num) (by omega)
    have h2 : (2 : ℚ) ^ 52 ≤ f64Mant x := by exact_mod_cast h52
    have h3 := mul_le_mul h2 h1 (by positivity) (by positivity)
    rw [zpow_one] at h3
    have : (2 : ℚ) ^ 52 * 2 = 2 ^ 53 := by norm_num
    rw [this] at h3
    exact absurd h (not_lt.2 h3)
  · intro h
    have h1 : (2 : ℚ) ^ (-f64Shift x) ≤ 1 := zpow_le_one_of_nonpos₀ (by norm_num) (by omega)
    exact lt_of_le_of_lt (mul_le_of_le_one_right (by positivity) h1) hm'

/-- `from_f64` is exact for every finite double below `2^53` in magnitude, and the result is in lowest terms. -/
theorem C54_from_f64_partial (x : BitVec 64) (hf : f64Finite x) (h : |f64val x| < 2 ^ 53) :
    ∃ r, rFromF64 x = .ok r ∧ LowestTerms r ∧ RatOk r ∧ qval r = f64val x := by
  obtain ⟨m', s', e1, -, e3⟩ := rFromF64_eq x hf
  obtain ⟨f1, f2, f3, f4⟩ := e3 ((f64_small_iff x hf).1 h)
  obtain ⟨r, g1, g2, g3, g4, g5, g6⟩ := rNorm_spec (s := f64Neg x) (n := m'.toNat) (t := false) (d := 2 ^ s'.natAbs)
    (by positivity)
  refine ⟨r, by rw [e1, g1], ?_, g2, ?_⟩
  · by_cases hm : m'.toNat = 0
    · rw [g6 hm, f4 (by omega)]
      exact ⟨canonI_mk (by simp), canonI_mk (by simp), by simp [ival_mk, sg], by simp [ival_mk, sg]⟩
    · exact g5 hm
  · rw [g4, f64val_eq x hf, f3, sg_mul]
    have e : ((2 ^ s'.natAbs : Nat) : ℚ) = 2 ^ s' := by
      push_cast
      rw [← zpow_natCast]
      congr 1
      omega
    have e2 : (((2 ^ (f64Shift x - s').toNat : Nat) : Int) : ℚ) = 2 ^ (f64Shift x - s') := by
      push_cast
      rw [← zpow_natCast]
      congr 1
      omega
    rw [e, Int.cast_mul, e2, zpow_sub₀ (by norm_num), zpow_neg]
    have h1 : (2 : ℚ) ^ s' ≠ 0 := by positivity
    have h2 : (2 : ℚ) ^ f64Shift x ≠ 0 := by positivity
    field_simp

/-- What is missing: for every finite double of magnitude `2^53` or more the result is wrong. -/
theorem C54_from_f64_large_wrong (x : BitVec 64) (hf : f64Finite x) (h : 2 ^ 53 ≤ |f64val x|) :
    ∃ r, rFromF64 x = .ok r ∧ RatOk r ∧ qval r ≠ f64val x := by
  have hs : f64Shift x < 0 := by
    by_contra hs
    exact absurd ((f64_small_iff x hf).2 (by omega)) (not_lt.2 h)
  obtain ⟨m', s', e1, e2, -⟩ := rFromF64_eq x hf
  obtain ⟨f1, rfl⟩ := e2 (by omega)
  obtain ⟨r, g1, g2, g3, g4, g5, g6⟩ := rNorm_spec (s := f64Neg x) (n := m'.toNat) (t := false)
    (d := 2 ^ (f64Shift x).natAbs) (by positivity)
  refine ⟨r, by rw [e1, g1], g2, ?_⟩
  rw [g4, f64val_eq x hf, f1]
  have h0 : (sg (f64Neg x) (f64Mant x) : ℚ) ≠ 0 := by
    intro h0
    rw [f64val_eq x hf, h0] at h
    norm_num at h
  have e : ((2 ^ (f64Shift x).natAbs : Nat) : ℚ) = 2 ^ (-f64Shift x) := by
    push_cast
    rw [← zpow_natCast]
    congr 1
    omega
  rw [e]
  have h1 : (2 : ℚ) ^ (1 : Int) ≤ 2 ^ (-f64Shift x) := zpow_le_zpow_right₀ (by norm_num) (by omega)
  rw [zpow_one] at h1
  generalize (2 : ℚ) ^ (-f64Shift x) = k at *
  intro h2
  rw [div_eq_iff (by linarith), mul_assoc] at h2
  have h3 : k * k = 1 := by
    exact (mul_left_cancel₀ h0 (by rw [mul_one, ← h2] : _ * (1 : ℚ) = _ * (k * k))).symm
  nlinarith

/-- for instance `2^53`, which becomes `2^52 / 2` -/
theorem C54_from_f64_witness : rFromF64 0x4340000000000000#64 = .ok ⟨⟨[0#32, 0x80000#32], false⟩, ⟨[1#32], false⟩⟩ ∧
    f64val 0x4340000000000000#64 = 2 ^ 53 := by
  refine ⟨by decide +kernel, ?_⟩
  norm_num [f64val]
  rw [show (2 : ℚ) ^ 1076 = 2 ^ 1075 * 2 from pow_succ _ _, div_eq_iff (by positivity)]
  ring

/-- Infinities and NaN give NaN. -/
theorem C54_not_finite (x : BitVec 64) (hf : ¬f64Finite x) : rFromF64 x = .ok rNan := by
  unfold rFromF64
  simp only [f64_exp]
  rw [if_pos]
  unfold f64Finite at hf
  omega

-- 0.75
example : f64Finite 0x3fe8000000000000#64 ∧ |f64val 0x3fe8000000000000#64| < 2 ^ 53 ∧
    rFromF64 0x3fe8000000000000#64 = .ok ⟨⟨[3#32], false⟩, ⟨[4#32], false⟩⟩ := by
  exact ⟨by decide, (f64_small_iff _ (by decide)).2 (by decide), by decide +kernel⟩

/-! ## C55 text -/

theorem splitAtChar_append {c : Char} {l : List Char} (t : List Char) (h : c ∉ l) :
    splitAtChar c (l ++ c :: t) = some (l, t) := by
  induction l with
  | nil => simp [splitAtChar]
  | cons d l ih =>
    simp only [List.mem_cons, not_or] at h
    rw [List.cons_append, splitAtChar, if_neg (fun e => h.1 e.symm), ih h.2]
    rfl

theorem splitAtChar_none {c : Char} {s : List Char} : splitAtChar c s = none ↔ c ∉ s := by
  induction s with
  | nil => simp [splitAtChar]
  | cons d l ih =>
    rw [splitAtChar]
    by_cases h : d = c
    · simp [h]
    · rw [if_neg h, Option.map_eq_none_iff, ih, List.mem_cons, not_or]
      exact ⟨fun h' => ⟨fun e => h e.symm, h'⟩, fun h' => h'.2⟩

theorem splitAtChar_some {c : Char} {s l t : List Char} (h : splitAtChar c s = some (l, t)) :
    s = l ++ c :: t ∧ c ∉ l := by
  induction s generalizing l with
  | nil => simp [splitAtChar] at h
  | cons d s ih =>
    rw [splitAtChar] at h
    by_cases hd : d = c
    · rw [if_pos hd] at h
      simp only [Option.some.injEq, Prod.mk.injEq] at h
      obtain ⟨rfl, rfl⟩ := h
      simp [hd]
    · rw [if_neg hd, Option.map_eq_some_iff] at h
      obtain ⟨⟨l', t'⟩, h1, h2⟩ := h
      simp only [Prod.mk.injEq] at h2
      obtain ⟨rfl, rfl⟩ := h2
      obtain ⟨h3, h4⟩ := ih h1
      refine ⟨by rw [h3]; rfl, ?_⟩
      simp only [List.mem_cons, not_or]
      exact ⟨fun e => hd e.symm, h4⟩

/-- Surrounding white space does not matter. -/
theorem C55_trim (std : List Char → Option D) (s : List Char) : rParse std s = rParse std (strTrim s) := by
  unfold rParse
  simp only [strTrim_idem]

/-- What `from_str` accepts, for (trimmed) text without a decimal point: an integer, or two integers (in the syntax of
`BigInt`, see C48) separated by the first slash, of which the second is not zero.  The result has the two magnitudes,
unchanged, and the product of the signs.  Text with a decimal point is left to the standard library. -/
theorem C55_parse (std : List Char → Option D) (s : List Char) (r : RatV) (ht : strTrim s = s) (hdot : '.' ∉ s) :
    rParse std s = .ok (some r) ↔
      (∃ a, '/' ∉ s ∧ bParse s = .ok (some a) ∧ bIsNan a = false ∧ r = ⟨a, ⟨[1#32], false⟩⟩) ∨
      (∃ l t a b, s = l ++ '/' :: t ∧ '/' ∉ l ∧ bParse l = .ok (some a) ∧ bParse t = .ok (some b) ∧
        bIsNan a = false ∧ bIsNan b = false ∧ eqv b.nat [0#32] = false ∧
        r = ⟨⟨a.nat, a.neg != b.neg⟩, ⟨b.nat, false⟩⟩) := by
  unfold rParse
  simp only [ht, hdot, if_false]
  by_cases hs : s = []
  · subst hs
    rw [if_pos rfl]
    constructor
    · intro h; simp at h
    · rintro (⟨a, -, h, -⟩ | ⟨l, t, a, b, h, -⟩)
      · have : bParse [] = .ok none := rfl
        rw [this] at h; simp at h
      · simp at h
  · rw [if_neg hs]
    cases hsp : splitAtChar '/' s with
    | none =>
      have hno := splitAtChar_none.1 hsp
      obtain ⟨o, ho⟩ := C48_parse_never_panics s
      simp only [bind, Except.bind, ho]
      constructor
      · intro h
        left
        cases o with
        | none => simp at h
        | some a =>
          simp only [bIsNan, isNan, List.isEmpty_cons, Bool.or_false] at h
          split at h
          · simp at h
          · rename_i hn
            rw [if_neg (by decide)] at h
            simp only [Except.ok.injEq, Option.some.injEq] at h
            refine ⟨a, hno, rfl, by simpa [bIsNan, isNan] using hn, ?_⟩
            rw [← h]
            obtain ⟨n, g⟩ := a
            cases g <;> rfl
      · rintro (⟨a, -, h, hn, rfl⟩ | ⟨l, t, a, b, h, -⟩)
        · simp only [Except.ok.injEq] at h
          subst h
          simp only [hn]
          rw [if_neg (by decide), if_neg (by decide)]
          obtain ⟨n, g⟩ := a
          cases g <;> rfl
        · exact absurd (h ▸ by simp) hno
    | some p =>
      obtain ⟨l, t⟩ := p
      obtain ⟨h1, h2⟩ := splitAtChar_some hsp
      obtain ⟨o1, ho1⟩ := C48_parse_never_panics l
      obtain ⟨o2, ho2⟩ := C48_parse_never_panics t
      simp only [bind, Except.bind, ho1, ho2]
      constructor
      · intro h
        right
        cases o1 with
        | none => simp at h
        | some a =>
          cases o2 with
          | none => simp at h
          | some b =>
            simp only at h
            split at h
            · simp at h
            · rename_i hn
              split at h
              · simp at h
              · rename_i hz
                simp only [Except.ok.injEq, Option.some.injEq] at h
                simp only [Bool.or_eq_true, not_or, Bool.not_eq_true] at hn hz
                exact ⟨l, t, a, b, h1, h2, ho1, ho2, hn.1, hn.2, hz, h.symm⟩
      · rintro (⟨a, h, -⟩ | ⟨l', t', a, b, h3, h4, h5, h6, h7, h8, h9, rfl⟩)
        · exact absurd (h1 ▸ by simp) h
        · have := splitAtChar_append t' h4
          rw [← h3, hsp] at this
          simp only [Option.some.injEq, Prod.mk.injEq] at this
          obtain ⟨rfl, rfl⟩ := this
          rw [ho1] at h5
          rw [ho2] at h6
          simp only [Except.ok.injEq] at h5 h6
          subst h5
          subst h6
          simp only [h7, h8, h9, Bool.or_self, Bool.false_eq_true, if_false]

/-- Parsing never panics (also not on text with a decimal point). -/
theorem C55_parse_never_panics (std : List Char → Option D) (s : List Char) : ∃ o, rParse std s = .ok o := by
  unfold rParse
  simp only
  split
  · exact ⟨_, rfl⟩
  · split
    · cases std (strTrim s) with
      | none => exact ⟨_, rfl⟩
      | some f =>
        simp only
        split
        · exact ⟨_, rfl⟩
        · have : ∃ z, rFromF64 f = .ok z := by
            by_cases hf : f64Finite f
            · obtain ⟨m', s', e1, -⟩ := rFromF64_eq f hf
              obtain ⟨r, g1, -⟩ := rNorm_spec (s := f64Neg f) (n := m'.toNat) (t := false) (d := 2 ^ s'.natAbs)
                (by positivity)
              exact ⟨r, by rw [e1, g1]⟩
            · exact ⟨_, C54_not_finite f hf⟩
          obtain ⟨z, hz⟩ := this
          exact ⟨some z, by simp only [hz, bind, Except.bind]⟩
    · cases hsp : splitAtChar '/' (strTrim s) with
      | none =>
        obtain ⟨o, ho⟩ := C48_parse_never_panics (strTrim s)
        simp only [bind, Except.bind, ho]
        cases o with
        | none => exact ⟨_, rfl⟩
        | some a => simp only; split <;> [exact ⟨_, rfl⟩; (split <;> exact ⟨_, rfl⟩)]
      | some p =>
        obtain ⟨o1, ho1⟩ := C48_parse_never_panics p.1
        obtain ⟨o2, ho2⟩ := C48_parse_never_panics p.2
        simp only [bind, Except.bind, ho1, ho2]
        cases o1 with
        | none => exact ⟨_, rfl⟩
        | some a =>
          cases o2 with
          | none => exact ⟨_, rfl⟩
          | some b => simp only; split <;> [exact ⟨_, rfl⟩; (split <;> exact ⟨_, rfl⟩)]

/-- The value of a parsed fraction: `Rat`s read from text are well formed, and denote the quotient of the two integers. -/
theorem C55_parse_value (a b : BInt) (ha : CanonI a) (hb : CanonI b) (h0 : ival b ≠ 0) :
    RatOk ⟨⟨a.nat, a.neg != b.neg⟩, ⟨b.nat, false⟩⟩ ∧
    qval ⟨⟨a.nat, a.neg != b.neg⟩, ⟨b.nat, false⟩⟩ = (ival a : ℚ) / ival b := by
  obtain ⟨a, s⟩ := a
  obtain ⟨b, t⟩ := b
  obtain ⟨n, rfl⟩ := canon_iff_enc.1 ha.1
  obtain ⟨d, rfl⟩ := canon_iff_enc.1 hb.1
  have hd : d ≠ 0 := fun h => h0 (by rw [h, ival_mk, sg_zero])
  refine ⟨ratOk_raw hd (by simp), ?_⟩
  rw [qval_raw (by simp), ival_mk, ival_mk]
  cases s <;> cases t <;> simp [sg, neg_div, div_neg]

/-- characters that are neither separators nor white space -/
def Plain (c : Char) : Prop := c ≠ '/' ∧ c ≠ '.' ∧ isWhite c = false

theorem plain_digit {c : Char} (h : digitOf c < 16) : Plain c := by
  refine ⟨?_, ?_, not_white h⟩
  · rintro rfl; revert h; decide
  · rintro rfl; revert h; decide

theorem plain_numeral {base : Nat} (hb : base ≤ 16) {s : List Char} {v : Nat} (h : numeral base s = some v) :
    ∀ c ∈ s, Plain c := by
  unfold numeral at h
  split at h
  · rename_i hs
    exact fun c hc => plain_digit (lt_of_lt_of_le (hs.2 c hc) hb)
  · simp at h

theorem strTrim_plain {s : List Char} (h : ∀ c ∈ s, isWhite c = false) : strTrim s = s := by
  have key : ∀ l : List Char, (∀ c ∈ l, isWhite c = false) → l.dropWhile isWhite = l := by
    intro l hl
    cases l with
    | nil => rfl
    | cons c cs => rw [List.dropWhile_cons, if_neg (by simp [hl c (by simp)])]
  unfold strTrim
  rw [key s h, key _ (by simpa using h), List.reverse_reverse]

theorem parse_printed (std : List Char → Option D) {x : RatV} {l t : List Char} (hx : RatOk x) (hb : x.b.neg = false)
    (hl : ∀ c ∈ l, Plain c) (ht : ∀ c ∈ t, Plain c) (h1 : bParse l = .ok (some x.a)) (h2 : bParse t = .ok (some x.b)) :
    rParse std (l ++ '/' :: t) = .ok (some x) := by
  have hs : ∀ c ∈ l ++ '/' :: t, isWhite c = false := by
    intro c hc
    simp only [List.mem_append, List.mem_cons] at hc
    rcases hc with hc | rfl | hc
    · exact (hl c hc).2.2
    · decide
    · exact (ht c hc).2.2
  have hd : '.' ∉ l ++ '/' :: t := by
    intro hc
    simp only [List.mem_append, List.mem_cons] at hc
    rcases hc with hc | hc | hc
    · exact (hl _ hc).2.1 rfl
    · revert hc; decide
    · exact (ht _ hc).2.1 rfl
  obtain ⟨s1, n1, t1, d1, rfl, e1, g1⟩ := ratOk_iff.1 hx
  rw [C55_parse std _ _ (strTrim_plain hs) hd]
  right
  refine ⟨l, t, _, _, rfl, fun hc => (hl _ hc).1 rfl, h1, h2, by simp [bIsNan], by simp [bIsNan], ?_, ?_⟩
  · rw [← enc_zero, eqv_enc]; simpa using e1
  · simp only at hb
    subst hb
    simp

/-- `{}` prints numerator and denominator in decimal, separated by a slash, and the text parses back to the same `Rat`.
Missing: a negative denominator (`C55_negative_denominator`) and a numerator "minus zero". -/
theorem C55_display_partial (x : RatV) (hx : RatOk x) (ha : CanonI x.a) (hb : x.b.neg = false) :
    ∃ l t, rDisplay x = .ok ((if ival x.a < 0 then '-' :: l else l) ++ '/' :: t) ∧
      numeral 10 l = some (ival x.a).natAbs ∧ numeral 10 t = some (ival x.b).natAbs ∧
      ∀ std, rParse std ((if ival x.a < 0 then '-' :: l else l) ++ '/' :: t) = .ok (some x) := by
  have hb' : CanonI x.b := ⟨hx.2.1, by simp [hb]⟩
  obtain ⟨l, p1, p2, p3, p4⟩ := C48_display x.a ha
  obtain ⟨t, q1, q2, q3, q4⟩ := C48_display x.b hb'
  have hpos : ¬ ival x.b < 0 := by unfold ival; rw [hb]; simp
  rw [if_neg hpos] at q1 q4
  refine ⟨l, t, ?_, p2, q2, fun std => parse_printed std hx hb ?_ (plain_numeral (by norm_num) q2) p4 q4⟩
  · unfold rDisplay rFmt
    have hn : rIsNan x = false := by
      obtain ⟨s1, n1, t1, d1, rfl, e1, g1⟩ := ratOk_iff.1 hx
      exact rIsNan_raw ..
    simp only [hn, Bool.false_eq_true, if_false, p1, q1, bind, Except.bind]
  · intro c hc
    split at hc
    · rcases List.mem_cons.1 hc with rfl | hc
      · exact ⟨by decide, by decide, by decide⟩
      · exact plain_numeral (by norm_num) p2 c hc
    · exact plain_numeral (by norm_num) p2 c hc

theorem plain_nat {a : Words} (ha : Canon a) : (∀ c ∈ natBinary true a, Plain c) ∧ (∀ c ∈ natOctal true a, Plain c) ∧
    (∀ c ∈ natLowerHex true a, Plain c) ∧ (∀ c ∈ natUpperHex true a, Plain c) := by
  obtain ⟨b1, h1, -, e1, -⟩ := C26_binary ha
  obtain ⟨b2, h2, -, e2, -⟩ := C26_octal ha
  obtain ⟨b3, h3, -, e3, -⟩ := C26_lower_hex ha
  obtain ⟨b4, h4, -, e4, -⟩ := C26_upper_hex ha
  rw [e1, e2, e3, e4]
  have key : ∀ (p q : Char) (b : List Char), Plain p → Plain q → (∀ c ∈ b, Plain c) → ∀ c ∈ p :: q :: b, Plain c := by
    intro p q b hp hq hb c hc
    simp only [List.mem_cons] at hc
    rcases hc with rfl | rfl | hc
    exacts [hp, hq, hb c hc]
  have h0 : Plain '0' := ⟨by decide, by decide, by decide⟩
  exact ⟨key _ _ _ h0 ⟨by decide, by decide, by decide⟩ (plain_numeral (by norm_num) h1),
    key _ _ _ h0 ⟨by decide, by decide, by decide⟩ (plain_numeral (by norm_num) h2),
    key _ _ _ h0 ⟨by decide, by decide, by decide⟩ (plain_numeral (by norm_num) h3),
    key _ _ _ h0 ⟨by decide, by decide, by decide⟩ (plain_numeral (by norm_num) h4)⟩

/-- `{:#b}`, `{:#o}`, `{:#x}` and `{:#X}` parse back, too. -/
theorem C55_radix_partial (x : RatV) (hx : RatOk x) (ha : CanonI x.a) (hb : x.b.neg = false) :
    (∃ s, rBinary true x = .ok s ∧ ∀ std, rParse std s = .ok (some x)) ∧
    (∃ s, rOctal true x = .ok s ∧ ∀ std, rParse std s = .ok (some x)) ∧
    (∃ s, rLowerHex true x = .ok s ∧ ∀ std, rParse std s = .ok (some x)) ∧
    (∃ s, rUpperHex true x = .ok s ∧ ∀ std, rParse std s = .ok (some x)) := by
  have hb' : CanonI x.b := ⟨hx.2.1, by simp [hb]⟩
  have hn : rIsNan x = false := by
    obtain ⟨s1, n1, t1, d1, rfl, e1, g1⟩ := ratOk_iff.1 hx
    exact rIsNan_raw ..
  obtain ⟨p1, p2, p3, p4⟩ := C48_radix x.a ha true
  obtain ⟨q1, q2, q3, q4⟩ := C48_radix x.b hb' true
  have key : ∀ f : BInt → List Char, (∀ y : BInt, CanonI y → ∀ c ∈ f y, Plain c) →
      bParse (f x.a) = .ok (some x.a) → bParse (f x.b) = .ok (some x.b) →
      ∃ s, rFmt (fun n => .ok (f n)) x = .ok s ∧ ∀ std, rParse std s = .ok (some x) := by
    intro f hf h1 h2
    refine ⟨f x.a ++ '/' :: f x.b, ?_, fun std => parse_printed std hx hb (hf _ ha) (hf _ hb') h1 h2⟩
    unfold rFmt
    simp only [hn, Bool.false_eq_true, if_false, bind, Except.bind]
  have hm : ∀ (y : BInt) (s : List Char), (∀ c ∈ s, Plain c) → ∀ c ∈ bFmt y s, Plain c := by
    intro y s hs c hc
    unfold bFmt at hc
    split at hc
    · rcases List.mem_cons.1 hc with rfl | hc
      · exact ⟨by decide, by decide, by decide⟩
      · exact hs c hc
    · exact hs c hc
  exact ⟨key _ (fun y hy => hm y _ (plain_nat hy.1).1) p1 q1, key _ (fun y hy => hm y _ (plain_nat hy.1).2.1) p2 q2,
    key _ (fun y hy => hm y _ (plain_nat hy.1).2.2.1) p3 q3, key _ (fun y hy => hm y _ (plain_nat hy.1).2.2.2) p4 q4⟩

/-- What is missing: zero with the negative denominator of `C51_zero_denominator_negative` is printed with that sign and
read back as "minus zero", which is not equal to it. -/
theorem C55_negative_denominator : ∃ z, RatOk ⟨⟨[0#32], false⟩, ⟨[3#32], true⟩⟩ ∧
    rDisplay ⟨⟨[0#32], false⟩, ⟨[3#32], true⟩⟩ = .ok ['0', '/', '-', '3'] ∧
    (∀ std, rParse std ['0', '/', '-', '3'] = .ok (some z)) ∧ rEq z ⟨⟨[0#32], false⟩, ⟨[3#32], true⟩⟩ = false :=
  ⟨⟨⟨[0#32], true⟩, ⟨[3#32], false⟩⟩, ⟨⟨by decide, by decide⟩, ⟨by decide, by decide⟩, by decide, by decide⟩, by decide,
    fun _ => rfl, by decide⟩

/-- What is missing: text is not reduced, so that `4/2` is not recognised as an integer. -/
theorem C55_not_reduced : ∃ z, (∀ std, rParse std ['4', '/', '2'] = .ok (some z)) ∧ qval z = 2 ∧ ¬LowestTerms z ∧
    rIsInteger z = some false := by
  refine ⟨⟨⟨[4#32], false⟩, ⟨[2#32], false⟩⟩, fun _ => rfl, ?_, ?_, by decide⟩
  · rw [qval, show ival ⟨[4#32], false⟩ = 4 by decide, show ival ⟨[2#32], false⟩ = 2 by decide]; norm_num
  · rintro ⟨-, -, -, h⟩
    rw [show ival ⟨[4#32], false⟩ = 4 by decide, show ival ⟨[2#32], false⟩ = 2 by decide] at h
    revert h; decide

/-- NaN prints as `NaN`, which does not parse. -/
theorem C55_nan : rDisplay rNan = .ok ['N', 'a', 'N'] ∧ ∀ std, rParse std ['N', 'a', 'N'] = .ok none :=
  ⟨rfl, fun _ => rfl⟩

example : RatOk sampleQ ∧ CanonI sampleQ.a ∧ sampleQ.b.neg = false ∧ rDisplay sampleQ = .ok "-7/12".toList :=
  ⟨sampleQ_ok, sampleQ_canon, rfl, by decide⟩
example : strTrim "0x1F/-0b11".toList = "0x1F/-0b11".toList ∧ '.' ∉ "0x1F/-0b11".toList ∧
    ∀ std, rParse std "0x1F/-0b11".toList = .ok (some ⟨⟨[31#32], true⟩, ⟨[3#32], false⟩⟩) :=
  ⟨by decide, by decide, fun _ => rfl⟩

/-! ## C74 unary operations -/

/-- `-x` and `abs` -/
theorem C74_neg_abs (x : RatV) (hx : RatOk x) :
    (RatOk (rNeg x) ∧ qval (rNeg x) = -qval x) ∧ (RatOk (rAbs x) ∧ CanonI (rAbs x).a ∧ qval (rAbs x) = |qval x|) := by
  obtain ⟨s, n, t, d, rfl, h1, g1⟩ := ratOk_iff.1 hx
  constructor
  · have e : ∃ s', rNeg (raw s n t d) = raw s' n t d ∧ sg s' n = -sg s n := by
      unfold rNeg
      rw [rIsNan_raw, if_neg (by simp)]
      simp only [bNeg, bDeepClone, deepClone_enc, bNegInner, bIsNan, isNan_enc, bEqW, ← enc_zero, eqv_enc]
      by_cases hn : n = 0
      · subst hn
        cases s
        · exact ⟨false, by simp, by simp [sg]⟩
        · exact ⟨false, by simp, by simp [sg]⟩
      · exact ⟨!s, by simp [hn], by cases s <;> simp [sg]⟩
    obtain ⟨s', e1, e2⟩ := e
    rw [e1, qval_raw g1, qval_raw g1, e2]
    exact ⟨ratOk_raw h1 g1, by push_cast; rw [neg_div]⟩
  · have e : rAbs (raw s n t d) = raw false n t d := by simp [rAbs, bDeepClone]
    rw [e, qval_raw g1, qval_raw g1]
    refine ⟨ratOk_raw h1 g1, canonI_mk (by simp), ?_⟩
    rw [abs_div, abs_of_nonneg (a := (d : ℚ)) (by positivity)]
    congr 1
    cases s <;> simp [sg]

/-- An integer becomes a `Rat` of the same value, in lowest terms. -/
theorem C74_from_bigint (n : BInt) (hn : CanonI n) : LowestTerms (rFromBig n) ∧ qval (rFromBig n) = ival n := by
  obtain ⟨a, rfl⟩ := canonI_iff_encI.1 hn
  unfold rFromBig
  have h1 : ival ⟨[1#32], false⟩ = 1 := by decide
  rw [bDeepClone_encI, ← enc_one] at *
  refine ⟨⟨canonI_encI _, canonI_mk (by simp), ?_, ?_⟩, ?_⟩
  · simp [ival_mk, sg]
  · simp [ival_mk, sg]
  · rw [qval]; simp [ival_mk, sg]

/-- `inv` is the reciprocal of a number that is not zero, and an error for zero. -/
theorem C74_inv (x : RatV) (hx : RatOk x) :
    (qval x = 0 → rInv x = none) ∧
    (qval x ≠ 0 → ∃ r, rInv x = some r ∧ RatOk r ∧ CanonI r.a ∧ qval r = (qval x)⁻¹ ∧ (LowestTerms x → LowestTerms r)) := by
  obtain ⟨s, n, t, d, rfl, h1, g1⟩ := ratOk_iff.1 hx
  have h1' : (d : ℚ) ≠ 0 := by exact_mod_cast h1
  have hz : qval (raw s n t d) = 0 ↔ n = 0 := by
    rw [qval_raw g1, div_eq_zero_iff, or_iff_left h1']
    exact_mod_cast sg_eq_zero
  unfold rInv
  rw [rIsNan_raw, if_neg (by simp)]
  simp only [← enc_zero, eqv_enc, deepClone_enc]
  rw [hz]
  constructor
  · intro h; rw [if_pos (by simpa using h)]
  · intro h
    have h : n ≠ 0 := fun h' => h (hz.2 h')
    rw [if_neg (by simpa using h)]
    refine ⟨_, rfl, ratOk_raw h (by simp), canonI_mk (fun _ => h1), ?_, fun hl => ⟨canonI_mk (fun _ => h1),
      canonI_mk (by simp), ?_, ?_⟩⟩
    · rw [show (⟨⟨enc d, s⟩, ⟨enc n, false⟩⟩ : RatV) = raw s d false n from rfl, qval_raw (by simp), qval_raw g1, inv_div]
      cases s <;> simp [sg, neg_div, div_neg]
    · rw [ival_mk]; simp only [sg, Bool.false_eq_true, if_false]; omega
    · have := hl.2.2.2
      rw [ival_mk, ival_mk] at *
      unfold Int.gcd at *
      rw [natAbs_sg, natAbs_sg] at *
      rw [Nat.gcd_comm]; exact this

/-- NaN stays NaN under all of them. -/
theorem C74_nan (x : RatV) (h : bIsNan x.a = true) : rNeg x = rNan ∧ rInv x = some rNan ∧ rIsNan (rAbs x) = true ∧
    rIsInteger x = none ∧ rSignnum x = none := by
  have hn : rIsNan x = true := by simp [rIsNan, h]
  refine ⟨if_pos hn, if_pos hn, ?_, if_pos hn, if_pos h⟩
  have hx : x.a.nat = [] := by simpa [bIsNan, isNan] using h
  simp [rIsNan, rAbs, bIsNan, isNan, hx, deepClone, trim]

/-- `signnum` is the sign of the number.  Missing: "minus zero" has the sign `-1` (`C74_signnum_minus_zero`). -/
theorem C74_signnum_partial (x : RatV) (hx : RatOk x) (ha : CanonI x.a) :
    rSignnum x = some (if qval x < 0 then -1 else if qval x = 0 then 0 else 1) := by
  obtain ⟨s, n, t, d, rfl, h1, g1⟩ := ratOk_iff.1 hx
  have hd : (0 : ℚ) < d := by exact_mod_cast Nat.pos_of_ne_zero h1
  unfold rSignnum
  simp only
  rw [mk_eq_encI (by simpa using ha.2), bSignnum_encI, qval_raw g1]
  generalize sg s n = z
  congr 1
  rcases lt_trichotomy z 0 with h | h | h
  · rw [if_pos (div_neg_of_neg_of_pos (by exact_mod_cast h) hd), Int.sign_eq_neg_one_of_neg h]
  · subst h; simp
  · have : (0 : ℚ) < (z : ℚ) / d := div_pos (by exact_mod_cast h) hd
    rw [if_neg (not_lt.2 this.le), if_neg this.ne', Int.sign_eq_one_of_pos h]

theorem C74_signnum_minus_zero : rSignnum ⟨⟨[0#32], true⟩, ⟨[5#32], false⟩⟩ = some (-1) := by decide

/-- `is_integer` is right for fractions in lowest terms, and for zero in any terms.  Missing: fractions read from text,
which are not reduced (`C55_not_reduced`). -/
theorem C74_is_integer_partial (x : RatV) (hx : RatOk x) (h : LowestTerms x ∨ qval x = 0) :
    ∃ b, rIsInteger x = some b ∧ (b = true ↔ ∃ z : Int, qval x = z) := by
  obtain ⟨s, n, t, d, rfl, h1, g1⟩ := ratOk_iff.1 hx
  have h1' : (d : ℚ) ≠ 0 := by exact_mod_cast h1
  have hz : qval (raw s n t d) = 0 ↔ n = 0 := by
    rw [qval_raw g1, div_eq_zero_iff, or_iff_left h1']
    exact_mod_cast sg_eq_zero
  unfold rIsInteger
  rw [rIsNan_raw, if_neg (by simp)]
  refine ⟨_, rfl, ?_⟩
  simp only [bEqW, ← enc_zero, ← enc_one, eqv_enc, Bool.or_eq_true, decide_eq_true_eq, Bool.and_eq_true,
    Bool.not_eq_true']
  by_cases hn : n = 0
  · exact ⟨fun _ => ⟨0, by rw [hz.2 hn]; simp⟩, fun _ => Or.inl hn⟩
  · have hl : LowestTerms (raw s n t d) := h.resolve_right fun h => hn (hz.1 h)
    have ht : t = false := by
      cases t
      · rfl
      · exact absurd (g1 rfl) hn
    subst ht
    rw [qval_raw g1]
    constructor
    · rintro (h | ⟨-, h⟩)
      · exact absurd h hn
      · subst h; exact ⟨sg s n, by simp⟩
    · rintro ⟨z, hz⟩
      right
      refine ⟨rfl, ?_⟩
      rw [div_eq_iff h1'] at hz
      have hz' : sg s n = z * d := by exact_mod_cast hz
      have hg := hl.2.2.2
      rw [ival_mk, ival_mk, hz'] at hg
      unfold Int.gcd at hg
      rw [natAbs_sg, Int.natAbs_mul, Int.natAbs_natCast, Nat.gcd_mul_left_left] at hg
      exact hg

example : RatOk sampleQ ∧ qval sampleQ ≠ 0 ∧ LowestTerms sampleQ ∧ CanonI sampleQ.a := by
  refine ⟨sampleQ_ok, ?_, ⟨sampleQ_canon, ⟨⟨by decide, by decide⟩, by decide⟩, by decide, by decide⟩, sampleQ_canon⟩
  rw [qval, show ival sampleQ.a = -7 by decide, show ival sampleQ.b = 12 by decide]; norm_num

end RMath
