import Verif.Lemmas.FloatOps
import Verif.Lemmas.RatFloat
import Verif.Lemmas.Jacobi

/-! # Truncation of floats to machine integers, and conversions into floats -/

namespace RMath

/-! ## the top bits -/

theorem msb32_toNat (x : Words) : (msb32 x).toNat = val x * 2 ^ 32 / 2 ^ (32 * x.length) := by
  unfold msb32
  rcases List.eq_nil_or_concat x with rfl | ⟨l, a, rfl⟩
  · simp
  · rw [List.concat_eq_append, List.getLastD_concat, val_append, List.length_append]
    have h := val_lt l
    have e : 2 ^ (32 * (l.length + [a].length)) = 2 ^ (32 * l.length) * 2 ^ 32 := by
      rw [← Nat.pow_add]; rfl
    rw [e, Nat.mul_div_mul_right _ _ (by norm_num)]
    rw [Nat.add_mul_div_left _ _ (by positivity), Nat.div_eq_of_lt h]
    simp

theorem msb64_toNat (x : Words) : (msb64 x).toNat = val x * 2 ^ 64 / 2 ^ (32 * x.length) := by
  unfold msb64
  obtain ⟨r, rfl⟩ : ∃ r, x = List.reverse r := ⟨x.reverse, by simp⟩
  rw [List.reverse_reverse, List.length_reverse]
  match r with
  | [] => simp
  | [h] =>
    have := h.isLt
    simp only [List.reverse_cons, List.reverse_nil, List.nil_append, List.length_cons, List.length_nil, val_cons, val_nil]
    rw [BitVec.toNat_shiftLeft, toD_toNat, Nat.shiftLeft_eq, Nat.mod_eq_of_lt (by omega)]
    omega
  | h :: l :: t =>
    have h1 := h.isLt
    have h2 := l.isLt
    have h3 := val_lt t.reverse
    rw [List.length_reverse] at h3
    have hv : val (h :: l :: t).reverse = val t.reverse + 2 ^ (32 * t.length) * (l.toNat + 2 ^ 32 * h.toNat) := by
      rw [val_reverse_cons, val_reverse_cons, List.length_cons, pow32_succ]; ring
    have e : 2 ^ (32 * (h :: l :: t).length) = 2 ^ (32 * t.length) * 2 ^ 64 := by
      rw [← Nat.pow_add]; congr 1
    rw [hv, e, Nat.mul_div_mul_right _ _ (by norm_num), Nat.add_mul_div_left _ _ (by positivity), Nat.div_eq_of_lt h3]
    have e1 : (toD h <<< 32 : D).toNat = h.toNat <<< 32 := by
      rw [BitVec.toNat_shiftLeft, toD_toNat, Nat.mod_eq_of_lt (by rw [Nat.shiftLeft_eq]; omega)]
    rw [BitVec.toNat_or, e1, toD_toNat, ← Nat.shiftLeft_add_eq_or_of_lt h2, Nat.shiftLeft_eq]
    omega

theorem msb64_enc {m L : Nat} (h : Norm m L) : (msb64 (enc m)).toNat = m * 2 ^ 64 / 2 ^ (32 * L) := by
  rw [msb64_toNat, val_enc, h.length]

theorem msb32_enc {m L : Nat} (h : Norm m L) : (msb32 (enc m)).toNat = m * 2 ^ 32 / 2 ^ (32 * L) := by
  rw [msb32_toNat, val_enc, h.length]

/-! ## integers among the floats -/

theorem minPrec_le {x : FloatV} {m L : Nat} (h : IsFin x m L) (n : Nat) : fMinPrec x ≤ n ↔ 2 ^ (32 * L - n) ∣ m := by
  have hne := h.norm.ne_zero
  unfold fMinPrec
  rw [if_neg (by simp [h.form]), h.len, h.mant]
  obtain ⟨t, q, hq, rfl⟩ := Nat.exists_eq_two_pow_mul_odd hne
  rw [traillingZeros_eq (Nat.odd_iff.1 hq)]
  constructor
  · intro hn
    exact Dvd.dvd.mul_right (pow_dvd_pow 2 (by omega)) q
  · intro hd
    have hco : Nat.Coprime (2 ^ (32 * L - n)) q := Nat.Coprime.pow_left _ (Nat.coprime_two_left.2 hq)
    have := (Nat.pow_dvd_pow_iff_le_right (by norm_num)).1 (hco.dvd_of_dvd_mul_right hd)
    omega

/-- The magnitude is an integer exactly if there are enough trailing zeros. -/
theorem dvd_iff_int {m L n : Nat} : 2 ^ (32 * L - n) ∣ m ↔ ∃ k : Nat, (m : ℚ) * 2 ^ ((n : ℤ) - 32 * L) = k := by
  constructor
  · rintro ⟨k, hk⟩
    refine ⟨k * 2 ^ (n - 32 * L), ?_⟩
    rw [hk]
    push_cast
    rw [← zpow_natCast, ← zpow_natCast]
    rw [mul_right_comm, ← zpow_add₀ (by norm_num), mul_comm]
    congr 2
    omega
  · rintro ⟨k, hk⟩
    rcases le_total (32 * L) n with h | h
    · rw [Nat.sub_eq_zero_of_le h]; simp
    · refine ⟨k, ?_⟩
      have : ((m : Nat) : ℚ) = ((2 ^ (32 * L - n) * k : Nat) : ℚ) := by
        push_cast
        rw [← hk, ← zpow_natCast, mul_left_comm, ← zpow_add₀ (by norm_num)]
        rw [show (((32 * L - n : Nat) : ℤ) + ((n : ℤ) - 32 * L)) = 0 by omega]; simp
      exact_mod_cast this

/-- The integer part of the magnitude. -/
theorem floor_mag {m L n : Nat} : ⌊(m : ℚ) * 2 ^ ((n : ℤ) - 32 * L)⌋ = ((m * 2 ^ n / 2 ^ (32 * L) : Nat) : ℤ) := by
  rw [zpow_sub₀ (by norm_num), zpow_natCast]
  rw [show ((2 : ℚ) ^ ((32 : ℤ) * (L : ℤ))) = ((2 ^ (32 * L) : Nat) : ℚ) by
    rw [Nat.cast_pow, ← zpow_natCast]; push_cast; rfl]
  rw [show ((m : ℚ) * (2 ^ n / ((2 ^ (32 * L) : Nat) : ℚ))) = ((m * 2 ^ n : Nat) : ℚ) / ((2 ^ (32 * L) : Nat) : ℚ) by push_cast; ring]
  rw [Rat.floor_natCast_div_natCast]
  rfl

theorem truncZ_sgn (neg : Bool) {a : ℚ} (ha : 0 < a) : truncZ (sgn neg * a) = sgnZ neg * ⌊a⌋ := by
  unfold truncZ sgn sgnZ
  cases neg
  · simp [ha.le]
  · simp only [if_true, neg_mul, one_mul]
    rw [if_neg (by linarith), Int.ceil_neg]

/-- Shifting the top 64 bits down. -/
theorem msb64_shift {x : FloatV} {m L n : Nat} (h : IsFin x m L) (hn : n ≤ 64) (he : x.exp = n) :
    ((msb64 x.mant >>> (64 - x.exp).toNat).toNat : ℤ) = ⌊(m : ℚ) * 2 ^ (x.exp - 32 * L)⌋ := by
  rw [he, floor_mag, h.mant, BitVec.toNat_ushiftRight, msb64_enc h.norm, Nat.shiftRight_eq_div_pow, Nat.div_div_eq_div_mul]
  rw [show (64 - (n : ℤ)).toNat = 64 - n by omega]
  have : 2 ^ 64 = 2 ^ n * 2 ^ (64 - n) := by rw [← Nat.pow_add]; congr 1; omega
  rw [this, ← Nat.mul_assoc, Nat.mul_div_mul_right _ _ (by positivity)]

theorem floor_eq_iff_int {a : ℚ} (ha : 0 ≤ a) : (∃ k : Nat, a = k) ↔ ((⌊a⌋ : ℤ) : ℚ) = a := by
  constructor
  · rintro ⟨k, rfl⟩; simp
  · intro h
    have : 0 ≤ ⌊a⌋ := Int.floor_nonneg.2 ha
    obtain ⟨k, hk⟩ := Int.eq_ofNat_of_zero_le this
    refine ⟨k, ?_⟩
    rw [← h, hk]; simp

theorem minPrec_int {x : FloatV} {m L : Nat} (h : IsFin x m L) (he : 0 < x.exp) :
    fMinPrec x ≤ x.exp.toNat ↔ ((⌊(m : ℚ) * 2 ^ (x.exp - 32 * L)⌋ : ℤ) : ℚ) = (m : ℚ) * 2 ^ (x.exp - 32 * L) := by
  obtain ⟨n, hn⟩ := Int.eq_ofNat_of_zero_le he.le
  rw [minPrec_le h, ← floor_eq_iff_int h.pos.le, hn]
  simp only [Int.ofNat_eq_natCast, Int.toNat_natCast]
  exact dvd_iff_int

theorem floor_lt_two {a : ℚ} {e : ℤ} (h1 : a < 2 ^ e) {n : Nat} (he : e ≤ n) : ⌊a⌋ < 2 ^ n := by
  rw [Int.floor_lt]
  refine lt_of_lt_of_le h1 ?_
  push_cast
  rw [← zpow_natCast]
  exact zpow_le_iff.2 he

theorem fTruncU64_fin {x : FloatV} {m L : Nat} (h : IsFin x m L) :
    ∃ u a, fTruncU64 x = some (u, a) ∧ (u.toNat : ℤ) = clampZ 0 (2 ^ 64 - 1) (truncZ (fval x)) ∧
      a = accOf (fval x) u.toNat := by
  obtain ⟨b1, b2⟩ := h.norm.bounds x.exp
  have hpos := h.pos
  have hmp := minPrec_int h
  have hsh := @msb64_shift x m L
  rw [h.val, truncZ_sgn _ hpos]
  obtain ⟨A, hA⟩ : ∃ A, A = (m : ℚ) * 2 ^ (x.exp - 32 * L) := ⟨_, rfl⟩
  rw [← hA] at b1 b2 hpos hmp ⊢
  have hfl : 0 ≤ ⌊A⌋ := Int.floor_nonneg.2 hpos.le
  unfold fTruncU64
  simp only [h.form, if_true, reduceCtorEq, if_false]
  cases hneg : x.neg
  · simp only [Bool.false_eq_true, if_false]
    simp only [sgnZ, sgn, Bool.false_eq_true, if_false, one_mul]
    by_cases h0 : x.exp ≤ 0
    · rw [if_pos h0]
      have : A < 1 := lt_of_lt_of_le b2 (by rw [show (1 : ℚ) = 2 ^ (0 : ℤ) by simp]; exact zpow_le_iff.2 h0)
      have h1 : ⌊A⌋ = 0 := by rw [Int.floor_eq_iff]; constructor <;> push_cast <;> linarith
      refine ⟨_, _, rfl, ?_, ?_⟩
      · rw [h1]; simp [clampZ]
      · simp [accOf, hpos]
    · rw [if_neg h0]
      by_cases h64 : x.exp ≤ 64
      · rw [if_pos h64]
        obtain ⟨n, hn⟩ := Int.eq_ofNat_of_zero_le (by omega : 0 ≤ x.exp)
        have hs := hsh (n := n) h (by omega) hn
        rw [← hA] at hs
        have hlt : ⌊A⌋ < 2 ^ 64 := floor_lt_two b2 (by exact_mod_cast h64)
        have hcl : clampZ 0 (2 ^ 64 - 1) ⌊A⌋ = ⌊A⌋ := by unfold clampZ; omega
        have hfle := Int.floor_le A
        by_cases hint : fMinPrec x ≤ x.exp.toNat
        · rw [if_pos hint]
          refine ⟨_, _, rfl, by rw [hs, hcl], ?_⟩
          have e := (hmp (by omega)).1 hint
          rw [← Int.cast_natCast (R := ℚ), hs, e]; simp [accOf]
        · rw [if_neg hint]
          refine ⟨_, _, rfl, by rw [hs, hcl], ?_⟩
          have e := mt (hmp (by omega)).2 hint
          rw [← Int.cast_natCast (R := ℚ), hs]
          unfold accOf
          rw [if_pos (lt_of_le_of_ne hfle e)]
      · rw [if_neg h64]
        have hge : (2 : ℚ) ^ 64 ≤ A := le_trans (by rw [← zpow_natCast]; exact zpow_le_iff.2 (by push_cast; omega)) b1
        have hfge : 2 ^ 64 ≤ ⌊A⌋ := by rw [Int.le_floor]; push_cast; exact hge
        refine ⟨_, _, rfl, ?_, ?_⟩
        · rw [BitVec.toNat_allOnes]; unfold clampZ; omega
        · unfold accOf
          rw [if_pos]
          rw [BitVec.toNat_allOnes]; norm_num; norm_num at hge; linarith
  · simp only [if_true]
    refine ⟨_, _, rfl, ?_, ?_⟩
    · simp [clampZ, sgnZ]; omega
    · simp [accOf, sgn]
      rw [if_neg (by linarith), if_neg (by linarith)]

theorem fTruncI64_fin {x : FloatV} {m L : Nat} (h : IsFin x m L) :
    ∃ u a, fTruncI64 x = some (u, a) ∧ u.toInt = clampZ (-2 ^ 63) (2 ^ 63 - 1) (truncZ (fval x)) ∧
      a = accOf (fval x) u.toInt := by
  obtain ⟨b1, b2⟩ := h.norm.bounds x.exp
  have hpos := h.pos
  have hmp := minPrec_int h
  have hsh := @msb64_shift x m L
  have hmin : (BitVec.intMin 64).toInt = -2 ^ 63 := by decide
  have hmax : (BitVec.intMax 64).toInt = 2 ^ 63 - 1 := by decide
  rw [h.val, truncZ_sgn _ hpos]
  obtain ⟨A, hA⟩ : ∃ A, A = (m : ℚ) * 2 ^ (x.exp - 32 * L) := ⟨_, rfl⟩
  rw [← hA] at b1 b2 hpos hmp ⊢
  have hfl : 0 ≤ ⌊A⌋ := Int.floor_nonneg.2 hpos.le
  have hfle := Int.floor_le A
  unfold fTruncI64
  simp only [h.form, if_true, reduceCtorEq, if_false]
  by_cases h0 : x.exp ≤ 0
  · rw [if_pos h0]
    have : A < 1 := lt_of_lt_of_le b2 (by rw [show (1 : ℚ) = 2 ^ (0 : ℤ) by simp]; exact zpow_le_iff.2 h0)
    have h1 : ⌊A⌋ = 0 := by rw [Int.floor_eq_iff]; constructor <;> push_cast <;> linarith
    refine ⟨_, _, rfl, ?_, ?_⟩
    · rw [h1]; simp [clampZ]
    · cases x.neg <;> simp [accOf, makeAccuracy, sgn, hpos]
      rw [if_neg (by linarith), if_neg (by linarith)]
  · rw [if_neg h0]
    by_cases h63 : x.exp ≤ 63
    · rw [if_pos h63]
      obtain ⟨n, hn⟩ := Int.eq_ofNat_of_zero_le (by omega : 0 ≤ x.exp)
      have hs := hsh (n := n) h (by omega) hn
      rw [← hA] at hs
      have hlt : ⌊A⌋ < 2 ^ 63 := floor_lt_two b2 (by exact_mod_cast h63)
      generalize msb64 x.mant >>> (64 - x.exp).toNat = i at hs ⊢
      have hv : (if x.neg = true then -i else i).toInt = sgnZ x.neg * ⌊A⌋ := by
        rw [← hs]
        cases x.neg
        · simp only [Bool.false_eq_true, if_false, sgnZ, one_mul]
          rw [BitVec.toInt_eq_toNat_of_lt (by omega)]
        · simp only [if_true, sgnZ]
          rw [BitVec.toInt_neg, BitVec.toInt_eq_toNat_of_lt (by omega)]
          have h2 : Int.bmod (-(i.toNat : ℤ)) (2 ^ 64) = -(i.toNat : ℤ) := by
            apply Int.bmod_eq_of_le <;> omega
          rw [h2]; ring
      have hcl : clampZ (-2 ^ 63) (2 ^ 63 - 1) (sgnZ x.neg * ⌊A⌋) = sgnZ x.neg * ⌊A⌋ := by
        unfold clampZ sgnZ; cases x.neg <;> simp <;> omega
      by_cases hint : fMinPrec x ≤ x.exp.toNat
      · rw [if_pos hint]
        refine ⟨_, _, rfl, by rw [hv, hcl], ?_⟩
        have e := (hmp (by omega)).1 hint
        rw [hv]; push_cast; rw [e, sgn_cast]; simp [accOf]
      · rw [if_neg hint]
        refine ⟨_, _, rfl, by rw [hv, hcl], ?_⟩
        have e := lt_of_le_of_ne hfle (mt (hmp (by omega)).2 hint)
        rw [hv]; push_cast; rw [sgn_cast]
        unfold accOf
        cases x.neg <;> simp only [sgn, makeAccuracy, Bool.false_eq_true, if_false, if_true]
        · rw [if_pos (by linarith)]
        · rw [if_neg (by linarith), if_neg (by linarith)]
    · rw [if_neg h63]
      have hge : (2 : ℚ) ^ 63 ≤ A := le_trans (by rw [← zpow_natCast]; exact zpow_le_iff.2 (by push_cast; omega)) b1
      have hfge : 2 ^ 63 ≤ ⌊A⌋ := by rw [Int.le_floor]; push_cast; exact hge
      cases hneg : x.neg
      · simp only [Bool.false_eq_true, if_false]
        refine ⟨_, _, rfl, ?_, ?_⟩
        · rw [hmax]; unfold clampZ sgnZ; simp; omega
        · rw [hmax]; unfold accOf sgn
          rw [if_pos]
          simp only [Bool.false_eq_true, if_false]
          push_cast; linarith
      · simp only [if_true]
        by_cases hex : x.exp = 64 ∧ fMinPrec x = 1
        · rw [if_pos hex]
          refine ⟨_, _, rfl, ?_, ?_⟩
          · rw [hmin]; unfold clampZ sgnZ; simp; omega
          · rw [hmin]
            have hd := (minPrec_le h 1).1 (by omega)
            have hl := h.norm.lo
            have hh := h.norm.hi
            have hL := h.norm.pos
            have hm : m = 2 ^ (32 * L - 1) := by
              obtain ⟨c, hc⟩ := hd
              have h2 : 2 ^ (32 * L) = 2 ^ (32 * L - 1) * 2 := by rw [← Nat.pow_succ]; congr 1; omega
              rw [h2] at hh
              have hp : 0 < 2 ^ (32 * L - 1) := by positivity
              have : c < 2 := by
                rw [hc] at hh; exact Nat.lt_of_mul_lt_mul_left hh
              have : c ≠ 0 := by rintro rfl; omega
              have : c = 1 := by omega
              rw [hc, this, Nat.mul_one]
            have : A = 2 ^ 63 := by
              rw [hA, hm, hex.1, Nat.cast_pow, ← zpow_natCast, Nat.cast_ofNat, ← zadd, ← zpow_natCast]
              congr 1; push_cast; omega
            rw [this]; simp only [accOf, sgn, if_true]; norm_num
        · rw [if_neg hex]
          refine ⟨_, _, rfl, ?_, ?_⟩
          · rw [hmin]; unfold clampZ sgnZ; simp; omega
          · rw [hmin]
            have : (2 : ℚ) ^ 63 ≠ A := by
              intro hc
              apply hex
              have h64 : x.exp = 64 := by
                by_contra hne
                have : (2 : ℚ) ^ (64 : ℤ) ≤ A := le_trans (zpow_le_iff.2 (by omega)) b1
                rw [← hc] at this
                norm_num at this
              refine ⟨h64, ?_⟩
              have h2 : fMinPrec x ≤ 1 := by
                rw [minPrec_le h]
                have hm : (m : ℚ) = ((2 ^ (32 * L - 1) : Nat) : ℚ) := by
                  rw [Nat.cast_pow, ← zpow_natCast, Nat.cast_ofNat]
                  have hL := h.norm.pos
                  have hz := two_zpow_pos (x.exp - 32 * L)
                  have : (m : ℚ) = A * 2 ^ (-(x.exp - 32 * (L : ℤ))) := by
                    rw [hA, mul_assoc, ← zadd]; simp
                  rw [this, ← hc, ← zpow_natCast, ← zadd, h64]
                  congr 1; push_cast; omega
                have hm' : m = 2 ^ (32 * L - 1) := by exact_mod_cast hm
                rw [hm']
              have h3 : ¬ fMinPrec x ≤ 0 := by
                rw [minPrec_le h]
                intro hd
                have := Nat.le_of_dvd (by have := h.norm.ne_zero; omega) hd
                have := h.norm.hi
                simp at *
                omega
              omega
            have := lt_of_le_of_ne hge this
            unfold accOf sgn makeAccuracy
            simp only [if_true]
            push_cast
            rw [if_neg (by linarith), if_neg (by linarith)]

theorem fIsInteger_fin {x : FloatV} {m L : Nat} (h : IsFin x m L) :
    ∃ b, fIsInteger x = some b ∧ (b = true ↔ ∃ k : ℤ, fval x = k) := by
  obtain ⟨b1, b2⟩ := h.norm.bounds x.exp
  have hpos := h.pos
  have key : (∃ k : ℤ, fval x = k) ↔ ∃ k : Nat, (m : ℚ) * 2 ^ (x.exp - 32 * L) = k := by
    rw [h.val]
    constructor
    · rintro ⟨k, hk⟩
      refine ⟨k.natAbs, ?_⟩
      have := sgn_abs x.neg _ hpos.le
      rw [hk] at this
      rw [← this]
      simp
    · rintro ⟨k, hk⟩
      refine ⟨sgnZ x.neg * k, ?_⟩
      rw [hk]; push_cast; rw [sgn_cast]
  unfold fIsInteger
  rw [if_neg (by simp [h.form]), if_neg (by simp [h.form])]
  by_cases h0 : x.exp ≤ 0
  · rw [if_pos h0]
    have hA : (m : ℚ) * 2 ^ (x.exp - 32 * L) < 1 :=
      lt_of_lt_of_le b2 (by rw [show (1 : ℚ) = 2 ^ (0 : ℤ) by simp]; exact zpow_le_iff.2 h0)
    refine ⟨_, rfl, ?_⟩
    rw [key]
    simp only [Bool.false_eq_true, false_iff]
    rintro ⟨k, hk⟩
    rw [hk] at hpos hA
    have : 0 < k := by exact_mod_cast hpos
    have : k < 1 := by exact_mod_cast hA
    omega
  · rw [if_neg h0]
    refine ⟨_, rfl, ?_⟩
    have hmp := minPrec_int h (by omega)
    rw [← floor_eq_iff_int hpos.le, ← key] at hmp
    rw [← hmp, Bool.or_eq_true, decide_eq_true_eq, decide_eq_true_eq]
    constructor
    · rintro (hp | hp)
      · exact le_trans ((minPrec_le h _).2 h.dvd) hp
      · exact hp
    · exact Or.inr

/-! ## conversions into floats -/

/-- A representable number in the range of exponents is delivered exactly. -/
theorem FloatResult.exact {mode : RoundingMode} {p : Nat} {q : ℚ} {z : FloatV} (h : FloatResult mode p q z)
    (hr : Rounded mode p q q) (h1 : 2 ^ (minExp - 1) ≤ |q|) (h2 : |q| < 2 ^ maxExp) :
    z.form = .finite ∧ fval z = q ∧ z.acc = .exact := by
  obtain ⟨_, _, _, _, h5⟩ := h
  cases hf : z.form
  · rw [hf] at h5
    exact absurd h5.1 (not_lt.2 h1)
  · rw [hf] at h5
    simp only at h5
    have := h5.2.1.unique hr
    refine ⟨rfl, this, ?_⟩
    rw [h5.2.2, this]; simp [accOf]
  · rw [hf] at h5
    simp only at h5
    obtain ⟨⟨r, hr', hr''⟩, _⟩ := h5
    rw [hr'.unique hr] at hr''
    exact absurd hr'' (not_le.2 h2)
  · rw [hf] at h5; exact absurd h5 (by simp)

/-- Two words as a number. -/
theorem two_words {t : D} (h : 2 ^ 63 ≤ t.toNat) :
    [toW (t &&& 0xffffffff#64), toW (t >>> 32)] = enc t.toNat ∧ Norm t.toNat 2 := by
  have hlt := t.isLt
  have h1 : (toW (t &&& 0xffffffff#64)).toNat = t.toNat % 2 ^ 32 := by
    rw [toW_toNat, BitVec.toNat_and, show (0xffffffff#64).toNat = 2 ^ 32 - 1 by decide, Nat.and_two_pow_sub_one_eq_mod]
    simp
  have h2 : (toW (t >>> 32)).toNat = t.toNat / 2 ^ 32 := by
    rw [toW_toNat, BitVec.toNat_ushiftRight, Nat.shiftRight_eq_div_pow, Nat.mod_eq_of_lt (by omega)]
  have hv : val [toW (t &&& 0xffffffff#64), toW (t >>> 32)] = t.toNat := by
    simp only [val_cons, val_nil, h1, h2]
    omega
  obtain ⟨a, b⟩ := Norm.of_words (x := [toW (t &&& 0xffffffff#64), toW (t >>> 32)]) (by simp) (by
    rw [hv]; exact h)
  rw [hv] at a b
  exact ⟨a, b⟩

theorem leadingZerosD_spec {x : D} (hx : x ≠ 0#64) :
    (x <<< leadingZerosD x).toNat = x.toNat * 2 ^ leadingZerosD x ∧ 2 ^ 63 ≤ x.toNat * 2 ^ leadingZerosD x ∧
      leadingZerosD x ≤ 63 := by
  have h0 : x.toNat ≠ 0 := fun h => hx (BitVec.eq_of_toNat_eq (by simpa using h))
  have hlt := x.isLt
  unfold leadingZerosD
  rw [if_neg hx]
  have h1 := Nat.log2_self_le h0
  have h2 := Nat.lt_log2_self (n := x.toNat)
  have h3 : x.toNat.log2 < 64 := (Nat.log2_lt h0).2 hlt
  have h4 : 2 ^ 63 ≤ x.toNat * 2 ^ (63 - x.toNat.log2) := by
    calc 2 ^ 63 = 2 ^ x.toNat.log2 * 2 ^ (63 - x.toNat.log2) := by rw [← Nat.pow_add]; congr 1; omega
      _ ≤ _ := Nat.mul_le_mul_right _ h1
  have h5 : x.toNat * 2 ^ (63 - x.toNat.log2) < 2 ^ 64 := by
    calc x.toNat * 2 ^ (63 - x.toNat.log2) < 2 ^ (x.toNat.log2 + 1) * 2 ^ (63 - x.toNat.log2) :=
          Nat.mul_lt_mul_of_pos_right h2 (by positivity)
      _ = 2 ^ 64 := by rw [← Nat.pow_add]; congr 1; omega
  refine ⟨?_, h4, by omega⟩
  rw [BitVec.toNat_shiftLeft, Nat.shiftLeft_eq, Nat.mod_eq_of_lt h5]

theorem floatResult_zero (z : FloatV) (neg : Bool) :
    FloatResult z.mode z.prec 0 { z with acc := .exact, neg := neg, form := .zero } := by
  refine ⟨rfl, rfl, fun h => by simp at h, fun h => absurd rfl h, ?_⟩
  simp only [abs_zero]
  exact ⟨two_zpow_pos _, by simp [accOf]⟩

/-- A normalised mantissa of two words, rounded if the precision is below `b` bits. -/
theorem twoWords_result {z : FloatV} {m b : Nat} (hm : z.mant = enc m) (hN : Norm m 2) (hp : 1 ≤ z.prec) (hb : 33 ≤ b)
    (hd : 2 ^ (64 - b) ∣ m) (hf : z.form = .finite) (ha : z.acc = .exact) (h1 : minExp ≤ z.exp) (h2 : z.exp ≤ maxExp) :
    ∃ r, (if z.prec < b then fRound z 0 else .ok z) = .ok r ∧
      FloatResult z.mode z.prec (sgn z.neg * ((m : ℚ) * 2 ^ (z.exp - 64))) r := by
  by_cases h : z.prec < b
  · rw [if_pos h]
    exact fRound_result hf hm hN hp h1 h2
  · rw [if_neg h]
    have hfin : IsFin z m 2 := ⟨hf, hm, hN, hp, by omega, dvd_trans (pow_dvd_pow 2 (by omega)) hd, h1, h2,
      fval_enc hf hm hN.length⟩
    have := hfin.result z.mode (le_refl z.prec)
    rw [hfin.val] at this
    refine ⟨_, rfl, ?_⟩
    rw [← ha] at this
    exact this

theorem fSetBits_result (z : FloatV) (neg : Bool) (x : D) :
    ∃ r, fSetBits z neg x = .ok r ∧
      FloatResult z.mode (if z.prec = 0 then 64 else z.prec) (sgn neg * (x.toNat : ℚ)) r := by
  unfold fSetBits
  obtain ⟨z', hz'⟩ : ∃ z', z' = if z.prec = 0 then { z with prec := 64 } else z := ⟨_, rfl⟩
  have hm : z'.mode = z.mode := by rw [hz']; split <;> rfl
  have hp : z'.prec = if z.prec = 0 then 64 else z.prec := by rw [hz']; split <;> rfl
  have hp1 : 1 ≤ z'.prec := by rw [hp]; split <;> omega
  simp only [← hz']
  rw [← hp, ← hm]
  by_cases hx : x = 0#64
  · rw [if_pos hx, hx]
    refine ⟨_, rfl, ?_⟩
    simpa using floatResult_zero z' neg
  · rw [if_neg hx]
    obtain ⟨s1, s2, s3⟩ := leadingZerosD_spec hx
    generalize leadingZerosD x = s at *
    obtain ⟨w1, w2⟩ := two_words (t := x <<< s) (by rw [s1]; exact s2)
    obtain ⟨r, hr, hres⟩ := twoWords_result (z := { z' with acc := .exact, neg := neg, form := .finite, mant := [toW ((x <<< s) &&& 0xffffffff#64), toW ((x <<< s) >>> 32)], exp := ((64 - s : Nat) : ℤ) })
      (b := 64) w1 w2 hp1 (by norm_num) (by simp) rfl rfl (by simp only [minExp]; omega) (by simp only [maxExp]; omega)
    refine ⟨r, hr, ?_⟩
    have : ((x <<< s).toNat : ℚ) * 2 ^ (((64 - s : Nat) : ℤ) - 64) = x.toNat := by
      rw [s1]; push_cast
      rw [← zpow_natCast, mul_assoc, ← zadd, show ((s : ℤ) + (((64 - s : Nat) : ℤ) - 64)) = 0 by omega]
      simp
    rw [← this]
    exact hres

theorem rounded_nat (mode : RoundingMode) {p n : Nat} (neg : Bool) (h : n < 2 ^ p) :
    Rounded mode p (sgn neg * (n : ℚ)) (sgn neg * n) := by
  by_cases h0 : n = 0
  · left; subst h0; simp
  · have hN := lzw_norm h0
    have hb := canon_bitLen (canon_enc n)
    rw [val_enc] at hb
    have hl := lzw_lt n
    have hd : 2 ^ (32 * (enc n).length - p) ∣ n * 2 ^ lzw n := by
      refine Dvd.dvd.mul_left (pow_dvd_pow 2 ?_) n
      unfold lzw
      have := bitLen_le_of_lt (by
        by_contra hc
        have : p = 0 := by omega
        subst this
        simp at h; exact h0 h) h
      omega
    have := rounded_of_exact mode hN hd neg (32 * ((enc n).length : ℤ) - lzw n)
    have e : ((n * 2 ^ lzw n : Nat) : ℚ) * 2 ^ (32 * ((enc n).length : ℤ) - lzw n - 32 * ((enc n).length : ℤ)) = n := by
      push_cast
      rw [← zpow_natCast, mul_assoc, ← zadd, show ((lzw n : ℤ) + (32 * ((enc n).length : ℤ) - lzw n - 32 * ((enc n).length : ℤ))) = 0 by ring]
      simp
    rw [e] at this
    exact this

theorem fSetNat_result (z : FloatV) (n : Nat) (neg : Bool) :
    ∃ r, fSetNat z (enc n) neg = .ok r ∧
      FloatResult z.mode (if z.prec = 0 then max (bitLen n) 64 else z.prec) (sgn neg * (n : ℚ)) r := by
  unfold fSetNat
  rw [isNan_enc, bitsLen_enc]
  simp only [Bool.false_eq_true, if_false]
  obtain ⟨z', hz'⟩ : ∃ z', z' = if z.prec = 0 then { z with prec := max (bitLen n) 64 } else z := ⟨_, rfl⟩
  have hm : z'.mode = z.mode := by rw [hz']; split <;> rfl
  have hp : z'.prec = if z.prec = 0 then max (bitLen n) 64 else z.prec := by rw [hz']; split <;> rfl
  have hp1 : 1 ≤ z'.prec := by rw [hp]; split <;> omega
  rw [← hz', ← hp, ← hm, ← enc_zero, eqv_enc]
  by_cases h0 : n = 0
  · subst h0
    simp only [decide_true, if_true]
    refine ⟨_, rfl, ?_⟩
    simpa using floatResult_zero z' neg
  · simp only [h0, decide_false, Bool.false_eq_true, if_false]
    rw [fnorm_enc h0]
    have hN := lzw_norm h0
    obtain ⟨r, hr, hres⟩ := fSetExpAndRound_result (x := { z' with acc := .exact, neg := neg, mant := enc (n * 2 ^ lzw n) }) rfl hN hp1 (bitLen n)
    refine ⟨r, hr, ?_⟩
    have hb := canon_bitLen (canon_enc n)
    rw [val_enc] at hb
    have hl : lzw n + bitLen n = 32 * (enc n).length := by unfold lzw; omega
    have e : ((n * 2 ^ lzw n : Nat) : ℚ) * 2 ^ ((bitLen n : ℤ) - 32 * ((enc n).length : ℤ)) = n := by
      push_cast
      rw [← zpow_natCast, mul_assoc, ← zadd, show ((lzw n : ℤ) + ((bitLen n : ℤ) - 32 * ((enc n).length : ℤ))) = 0 by omega]
      simp
    simp only [e] at hres
    exact hres

theorem f64val_msb (x : D) : f64val x = sgn x.msb * b64.value (mag64 x) := by
  have hx := x.isLt
  have hs : (if x.toNat / 2 ^ 63 = 1 then (-1 : ℚ) else 1) = sgn x.msb := by
    unfold sgn
    rw [BitVec.msb_eq_decide]
    by_cases h : 2 ^ 63 ≤ x.toNat
    · rw [if_pos (by omega)]; simp only [show (2 ^ (64 - 1) ≤ x.toNat) from h, decide_true, if_true]
    · rw [if_neg (by omega)]; simp only [show ¬ (2 ^ (64 - 1) ≤ x.toNat) from h, decide_false, Bool.false_eq_true, if_false]
  have h1 : mag64 x / 2 ^ 52 = x.toNat / 2 ^ 52 % 2 ^ 11 := by unfold mag64; omega
  have h2 : mag64 x % 2 ^ 52 = x.toNat % 2 ^ 52 := by unfold mag64; omega
  unfold f64val Fmt.value
  simp only [hs, b64_mb, h1, h2, b64_bias]
  split
  · rw [mul_div_assoc, div_eq_mul_inv, ← zpow_natCast, ← zpow_neg]
    norm_num
  · have key : ∀ n : Nat, (2 : ℚ) ^ n / 2 ^ 1075 = 2 ^ ((n : ℤ) - (1023 : Nat) - (52 : Nat)) := by
      intro n
      have e : (2 : ℚ) ^ n = 2 ^ (n : ℤ) := (zpow_natCast 2 n).symm
      have e' : (2 : ℚ) ^ 1075 = 2 ^ (1075 : ℤ) := (zpow_natCast 2 1075).symm
      rw [e, e', ← zpow_sub₀ (by norm_num)]
      congr 1; push_cast; ring
    rw [mul_div_assoc, mul_assoc, key]

theorem b64_value_bounds {c : Nat} (h0 : c ≠ 0) (h : c < b64.inf) :
    (2 : ℚ) ^ (-1074 : ℤ) ≤ b64.value c ∧ b64.value c < 2 ^ (1024 : ℤ) := by
  constructor
  · have h1 : b64.value 1 ≤ b64.value c := b64.value_le.2 (by omega)
    rw [value64_denormal 1 (by norm_num)] at h1
    simpa using h1
  · have h1 : b64.value c < b64.value b64.inf := b64.value_lt.2 h
    rw [b64.value_inf, b64_bias] at h1
    simpa using h1

theorem fSetF64_result (z : FloatV) (x : D) (hx : mag64 x < b64.inf) :
    ∃ r, fSetF64 z x = .ok r ∧
      FloatResult z.mode (if z.prec = 0 then 53 else z.prec) (f64val x) r := by
  unfold fSetF64
  rw [if_neg (by omega)]
  obtain ⟨z', hz'⟩ : ∃ z', z' = if z.prec = 0 then { z with prec := 53 } else z := ⟨_, rfl⟩
  have hm : z'.mode = z.mode := by rw [hz']; split <;> rfl
  have hp : z'.prec = if z.prec = 0 then 53 else z.prec := by rw [hz']; split <;> rfl
  have hp1 : 1 ≤ z'.prec := by rw [hp]; split <;> omega
  simp only [← hz']
  rw [← hp, ← hm]
  by_cases h0 : mag64 x = 0
  · have : f64IsZero x = true := by unfold f64IsZero; simpa using h0
    rw [if_pos this]
    refine ⟨_, rfl, ?_⟩
    have e : f64val x = 0 := by rw [f64val_msb, h0, b64.value_zero, mul_zero]
    rw [e]
    exact floatResult_zero z' x.msb
  · have : ¬ f64IsZero x = true := by unfold f64IsZero; simpa using h0
    rw [if_neg this, if_neg (by omega)]
    obtain ⟨f1, f2, f3⟩ := frexp_spec x h0 hx
    obtain ⟨fr, e, hfe⟩ : ∃ fr e, frexp x = (fr, e) := ⟨_, _, rfl⟩
    rw [hfe] at f1 f2 f3
    simp only at f1 f2 f3
    rw [hfe]
    obtain ⟨M, hM⟩ : ∃ M, M = mag64 fr % 2 ^ 52 := ⟨_, rfl⟩
    have hMlt : M < 2 ^ 52 := by rw [hM]; exact Nat.mod_lt _ (by norm_num)
    have hmag : mag64 fr = 2 ^ 52 * 1022 + M := by
      have := Nat.div_add_mod (mag64 fr) (2 ^ 52); omega
    have ht : ((1#64 <<< 63) ||| (fr <<< 11) : D).toNat = 2 ^ 11 * (2 ^ 52 + M) := by
      have hfr : fr = mk64 fr.msb (mag64 fr) := (mk64_mag64 fr).symm
      have h1 : (fr <<< 11).toNat = 2 ^ 11 * M + 2 ^ 63 * 0 ∨ (fr <<< 11).toNat = 2 ^ 11 * M := by
        right
        rw [BitVec.toNat_shiftLeft, Nat.shiftLeft_eq]
        rw [hfr, mk64_toNat _ _ (by omega), hmag]
        split <;> omega
      have h2 : (fr <<< 11).toNat = 2 ^ 11 * M := by rcases h1 with h | h <;> omega
      rw [BitVec.toNat_or, h2]
      have h3 : (1#64 <<< 63).toNat = 1 <<< 63 := by decide
      rw [h3, ← Nat.shiftLeft_add_eq_or_of_lt (by omega), Nat.shiftLeft_eq]
      omega
    have hv : b64.value (mag64 fr) = ((2 ^ 52 + M : Nat) : ℚ) * 2 ^ (-53 : ℤ) := by
      rw [hmag, value64_normal _ _ (by norm_num) hMlt]; norm_num
    obtain ⟨w1, w2⟩ := two_words (t := (1#64 <<< 63) ||| (fr <<< 11)) (by rw [ht]; omega)
    have hval : (((1#64 <<< 63) ||| (fr <<< 11) : D).toNat : ℚ) * 2 ^ (e - 64) = b64.value (mag64 x) := by
      rw [← f3, hv, ht, Nat.cast_mul, Nat.cast_pow, ← zpow_natCast, Nat.cast_ofNat, mul_comm (2 ^ ((11 : Nat) : ℤ)) _, mul_assoc, mul_assoc,
        ← zadd, ← zadd]
      congr 2
      push_cast; ring
    obtain ⟨v1, v2⟩ := b64_value_bounds h0 hx
    rw [← hval] at v1 v2
    obtain ⟨n1, n2⟩ := w2.bounds e
    rw [show e - 32 * ((2 : Nat) : ℤ) = e - 64 by norm_num] at n1 n2
    have g1 := zpow_lt_iff.1 (lt_of_le_of_lt v1 n2)
    have g2 := zpow_lt_iff.1 (lt_of_le_of_lt n1 v2)
    obtain ⟨r, hr, hres⟩ := twoWords_result (z := { z' with acc := .exact, neg := x.msb, form := .finite, mant := [toW (((1#64 <<< 63) ||| (fr <<< 11)) &&& 0xffffffff#64), toW (((1#64 <<< 63) ||| (fr <<< 11)) >>> 32)], exp := e })
      (b := 53) w1 w2 hp1 (by norm_num) (by rw [ht]; exact Dvd.intro _ rfl) rfl rfl (by simp only [minExp]; omega) (by simp only [maxExp]; omega)
    refine ⟨r, hr, ?_⟩
    rw [f64val_msb, ← hval]
    exact hres

end RMath
