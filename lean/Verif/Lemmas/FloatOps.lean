import Verif.Lemmas.Float
import Verif.Lemmas.NatMul
import Verif.Lemmas.NatDiv

/-! # Arithmetic and comparison of finite floats -/

namespace RMath

/-- The value of a finite object, as a natural number times a power of two. -/
structure IsFin (x : FloatV) (m L : Nat) : Prop where
  form : x.form = .finite
  mant : x.mant = enc m
  norm : Norm m L
  prec : 1 ≤ x.prec
  words : 32 * (L - 1) < x.prec
  dvd : 2 ^ (32 * L - x.prec) ∣ m
  emin : minExp ≤ x.exp
  emax : x.exp ≤ maxExp
  val : fval x = sgn x.neg * ((m : ℚ) * 2 ^ (x.exp - 32 * L))

theorem FloatOk.fin {x : FloatV} (h : FloatOk x) (hf : x.form = .finite) : ∃ m L, IsFin x m L := by
  obtain ⟨m, L, h1, h2, h3, h4, h5, h6, h7, h8⟩ := h.finite hf
  exact ⟨m, L, hf, h1, h2, h3, h4, h5, h6, h7, h8⟩

theorem IsFin.ok {x : FloatV} {m L : Nat} (h : IsFin x m L) : FloatOk x :=
  floatOk_enc h.mant h.norm h.prec h.words h.dvd h.emin h.emax

theorem IsFin.len {x : FloatV} {m L : Nat} (h : IsFin x m L) : x.mant.length = L := by rw [h.mant, h.norm.length]

/-- The magnitude. -/
theorem IsFin.pos {x : FloatV} {m L : Nat} (h : IsFin x m L) : (0 : ℚ) < (m : ℚ) * 2 ^ (x.exp - 32 * L) :=
  lt_of_lt_of_le (two_zpow_pos _) (h.norm.bounds x.exp).1

theorem IsFin.abs {x : FloatV} {m L : Nat} (h : IsFin x m L) : |fval x| = (m : ℚ) * 2 ^ (x.exp - 32 * L) := by
  rw [h.val, sgn_abs _ _ h.pos.le]

theorem IsFin.ne_zero {x : FloatV} {m L : Nat} (h : IsFin x m L) : fval x ≠ 0 := by
  rw [h.val]; exact sgn_mul_ne h.pos

theorem IsFin.deepClone {x : FloatV} {m L : Nat} (h : IsFin x m L) : fDeepClone x = x := by
  unfold fDeepClone
  have : RMath.deepClone x.mant = x.mant := by rw [h.mant, deepClone_enc]
  rw [this]

theorem sgn_mul (a b : Bool) : sgn a * sgn b = sgn (a != b) := by
  cases a <;> cases b <;> simp [sgn]

/-! ## normalise, then round -/

theorem enc_length_bits {c k : Nat} (h1 : 2 ^ (32 * k) ≤ c) (h2 : c < 2 ^ (32 * (k + 1))) : (enc c).length = k + 1 := by
  have hb := canon_bitLen (canon_enc c)
  rw [val_enc] at hb
  have hc : c ≠ 0 := by have : 0 < 2 ^ (32 * k) := by positivity
                        omega
  have h3 := lt_pow_bitLen c
  have h4 := pow_bitLen_le hc
  have h5 := (canon_enc c).length_pos
  have a : 32 * k < bitLen c := by
    by_contra hcon
    have := Nat.pow_le_pow_right (n := 2) (by norm_num) (not_lt.1 hcon)
    omega
  have b : bitLen c - 1 < 32 * (k + 1) := by
    by_contra hcon
    have := Nat.pow_le_pow_right (n := 2) (by norm_num) (not_lt.1 hcon)
    omega
  omega

/-- The common end of the operations: normalise the number `c`, whose least bit has weight `2^ec`, and round. -/
theorem normRound {x : FloatV} {c : Nat} (hc : c ≠ 0) (hp : 1 ≤ x.prec) {e : ℤ} {ec : ℤ}
    (he : e = ec + 32 * (enc c).length) :
    ∃ z, (do let s ← fnorm (enc c); fSetExpAndRound { x with mant := s.1 } (e - s.2) 0) = .ok z ∧
      FloatResult x.mode x.prec (sgn x.neg * ((c : ℚ) * 2 ^ ec)) z := by
  have hN := lzw_norm hc
  obtain ⟨z, hz, hr⟩ := fSetExpAndRound_result (x := { x with mant := enc (c * 2 ^ lzw c) }) rfl hN hp (e - lzw c)
  refine ⟨z, ?_, ?_⟩
  · rw [fnorm_enc hc]; exact hz
  · have hv : ((c * 2 ^ lzw c : Nat) : ℚ) * 2 ^ (e - (lzw c : ℤ) - 32 * ((enc c).length : ℤ)) = (c : ℚ) * 2 ^ ec := by
      push_cast
      rw [mul_assoc, ← zpow_natCast, ← zpow_add₀ (by norm_num)]
      congr 2; omega
    rw [hv] at hr
    exact hr

/-! ## multiplication -/

theorem Norm.mul {a b La Lb : Nat} (ha : Norm a La) (hb : Norm b Lb) : (enc (a * b)).length = La + Lb := by
  have h1 := ha.pos
  have h2 := hb.pos
  have h3 : 2 ^ (32 * (La + Lb - 1)) ≤ a * b := by
    refine le_trans ?_ (Nat.mul_le_mul ha.lo hb.lo)
    rw [← Nat.pow_add]
    exact Nat.pow_le_pow_right (by norm_num) (by omega)
  have h4 : a * b < 2 ^ (32 * (La + Lb - 1 + 1)) := by
    refine lt_of_lt_of_eq (Nat.mul_lt_mul'' ha.hi hb.hi) ?_
    rw [← Nat.pow_add]; congr 1; omega
  rw [enc_length_bits h3 h4]; omega

theorem fUmul_result {x y : FloatV} {a b La Lb : Nat} (hx : x.mant = enc a) (ha : Norm a La) (hp : 1 ≤ x.prec)
    (hy : y.mant = enc b) (hb : Norm b Lb) :
    ∃ z, fUmul x y = .ok z ∧
      FloatResult x.mode x.prec (sgn x.neg * (((a : ℚ) * 2 ^ (x.exp - 32 * La)) * ((b : ℚ) * 2 ^ (y.exp - 32 * Lb)))) z := by
  have hc : a * b ≠ 0 := Nat.mul_ne_zero ha.ne_zero hb.ne_zero
  obtain ⟨z, hz, hr⟩ := normRound (x := x) hc hp (e := x.exp + y.exp) (ec := x.exp - 32 * La + (y.exp - 32 * Lb))
    (by rw [ha.mul hb]; push_cast; ring)
  refine ⟨z, ?_, ?_⟩
  · unfold fUmul
    simp only [assignNat, hx, hy, isNan_enc, Bool.or_self, Bool.false_eq_true, if_false, mulInner_enc]
    exact hz
  · have : ((a : ℚ) * 2 ^ (x.exp - 32 * La)) * ((b : ℚ) * 2 ^ (y.exp - 32 * Lb))
        = ((a * b : Nat) : ℚ) * 2 ^ (x.exp - 32 * La + (y.exp - 32 * Lb)) := by
      rw [zpow_add₀ (by norm_num)]; push_cast; ring
    rw [this]; exact hr

/-! ## addition and subtraction of magnitudes -/

theorem align_zpow (a : Nat) {e e' : ℤ} (h : e' ≤ e) : ((a * 2 ^ (e - e').toNat : Nat) : ℚ) * 2 ^ e' = (a : ℚ) * 2 ^ e := by
  push_cast
  rw [mul_assoc, ← zpow_natCast, ← zpow_add₀ (by norm_num)]
  congr 2; omega

theorem fAlign_add {x y : FloatV} {a b La Lb : Nat} (hx : x.mant = enc a) (ha : Norm a La) (hy : y.mant = enc b)
    (hb : Norm b Lb) : ∃ c ec, fAlign addInner x y = (enc c, ec) ∧ c ≠ 0 ∧
      (c : ℚ) * 2 ^ ec = (a : ℚ) * 2 ^ (x.exp - 32 * La) + (b : ℚ) * 2 ^ (y.exp - 32 * Lb) := by
  have ha0 := ha.ne_zero
  have hb0 := hb.ne_zero
  unfold fAlign
  simp only [hx, hy, ha.length, hb.length, mul_comm _ (32 : ℤ)]
  obtain ⟨ex, hex⟩ : ∃ ex, ex = x.exp - 32 * (La : ℤ) := ⟨_, rfl⟩
  obtain ⟨ey, hey⟩ : ∃ ey, ey = y.exp - 32 * (Lb : ℤ) := ⟨_, rfl⟩
  rw [← hex, ← hey]
  split
  · rename_i h
    refine ⟨a + b * 2 ^ (ey - ex).toNat, ex, ?_, by omega, ?_⟩
    · simp [assignNat, natShl, opPrim, shlInner_enc hb0]
    · have := align_zpow b h.le
      rw [Nat.cast_add, add_mul, this]
  · split
    · rename_i h
      have hne : a * 2 ^ (ex - ey).toNat ≠ 0 := Nat.mul_ne_zero ha0 (by positivity)
      refine ⟨a * 2 ^ (ex - ey).toNat + b, ey, ?_, by omega, ?_⟩
      · simp [assignNat, assignPrim, shlInner_enc ha0]
      · have := align_zpow a (le_of_lt h)
        rw [Nat.cast_add, add_mul, this]
    · have : ex = ey := by omega
      refine ⟨a + b, ex, ?_, by omega, ?_⟩
      · simp [assignNat]
      · rw [Nat.cast_add, add_mul, this]

theorem fAlign_sub {x y : FloatV} {a b La Lb : Nat} (hx : x.mant = enc a) (ha : Norm a La) (hy : y.mant = enc b)
    (hb : Norm b Lb) (hle : (b : ℚ) * 2 ^ (y.exp - 32 * Lb) ≤ (a : ℚ) * 2 ^ (x.exp - 32 * La)) :
    ∃ c ec, fAlign subInner x y = (enc c, ec) ∧
      (c : ℚ) * 2 ^ ec = (a : ℚ) * 2 ^ (x.exp - 32 * La) - (b : ℚ) * 2 ^ (y.exp - 32 * Lb) := by
  have ha0 := ha.ne_zero
  have hb0 := hb.ne_zero
  have cle : ∀ {u v : Nat} {e : ℤ}, (u : ℚ) * 2 ^ e ≤ (v : ℚ) * 2 ^ e → u ≤ v := by
    intro u v e h
    have := le_of_mul_le_mul_right h (two_zpow_pos e)
    exact_mod_cast this
  unfold fAlign
  simp only [hx, hy, ha.length, hb.length, mul_comm _ (32 : ℤ)]
  obtain ⟨ex, hex⟩ : ∃ ex, ex = x.exp - 32 * (La : ℤ) := ⟨_, rfl⟩
  obtain ⟨ey, hey⟩ : ∃ ey, ey = y.exp - 32 * (Lb : ℤ) := ⟨_, rfl⟩
  rw [← hex, ← hey] at hle ⊢
  split
  · rename_i h
    have hz := align_zpow b h.le
    rw [← hz] at hle
    have hle' := cle hle
    refine ⟨a - b * 2 ^ (ey - ex).toNat, ex, ?_, ?_⟩
    · simp [assignNat, natShl, opPrim, shlInner_enc hb0, subInner_enc_of_le hle']
    · rw [Nat.cast_sub hle', sub_mul, hz]
  · split
    · rename_i h
      have hz := align_zpow a (le_of_lt h)
      rw [← hz] at hle
      have hle' := cle hle
      refine ⟨a * 2 ^ (ex - ey).toNat - b, ey, ?_, ?_⟩
      · simp [assignNat, assignPrim, shlInner_enc ha0, subInner_enc_of_le hle']
      · rw [Nat.cast_sub hle', sub_mul, hz]
    · have : ex = ey := by omega
      rw [this] at hle ⊢
      have hle' := cle hle
      refine ⟨a - b, ey, ?_, ?_⟩
      · simp [assignNat, subInner_enc_of_le hle']
      · rw [Nat.cast_sub hle', sub_mul]

theorem fUadd_result {x y : FloatV} {a b La Lb : Nat} (hx : x.mant = enc a) (ha : Norm a La) (hp : 1 ≤ x.prec)
    (hy : y.mant = enc b) (hb : Norm b Lb) :
    ∃ z, fUadd x y = .ok z ∧
      FloatResult x.mode x.prec (sgn x.neg * ((a : ℚ) * 2 ^ (x.exp - 32 * La) + (b : ℚ) * 2 ^ (y.exp - 32 * Lb))) z := by
  obtain ⟨c, ec, h1, h2, h3⟩ := fAlign_add hx ha hy hb
  obtain ⟨z, hz, hr⟩ := normRound (x := x) h2 hp (e := ec + ((enc c).length * 32 : Nat)) (ec := ec) (by push_cast; ring)
  refine ⟨z, ?_, ?_⟩
  · unfold fUadd; simp only [h1]; exact hz
  · rw [← h3]; exact hr

theorem fUsub_result {x y : FloatV} {a b La Lb : Nat} (hx : x.mant = enc a) (ha : Norm a La) (hp : 1 ≤ x.prec)
    (hy : y.mant = enc b) (hb : Norm b Lb)
    (hle : (b : ℚ) * 2 ^ (y.exp - 32 * Lb) ≤ (a : ℚ) * 2 ^ (x.exp - 32 * La)) :
    ∃ z, fUsub x y = .ok z ∧
      FloatResult x.mode x.prec (sgn x.neg * ((a : ℚ) * 2 ^ (x.exp - 32 * La) - (b : ℚ) * 2 ^ (y.exp - 32 * Lb))) z ∧
      ((a : ℚ) * 2 ^ (x.exp - 32 * La) = (b : ℚ) * 2 ^ (y.exp - 32 * Lb) → z.form = .zero ∧ z.acc = .exact ∧ z.neg = false) := by
  obtain ⟨c, ec, h1, h3⟩ := fAlign_sub hx ha hy hb hle
  unfold fUsub
  simp only [h1]
  rw [← enc_zero, eqv_enc]
  by_cases hc : c = 0
  · subst hc
    simp only [decide_true, if_true]
    refine ⟨_, rfl, ?_, fun _ => ⟨rfl, rfl, rfl⟩⟩
    rw [← h3]
    refine ⟨rfl, rfl, fun h => by simp at h, fun h => by simp at h, ?_⟩
    simp only [Nat.cast_zero, zero_mul, mul_zero, abs_zero]
    exact ⟨two_zpow_pos _, by simp [accOf]⟩
  · simp only [hc, decide_false, Bool.false_eq_true, if_false]
    obtain ⟨z, hz, hr⟩ := normRound (x := x) hc hp (e := ec + ((enc c).length * 32 : Nat)) (ec := ec) (by push_cast; ring)
    refine ⟨z, hz, by rw [← h3]; exact hr, fun h => ?_⟩
    exfalso
    rw [h, sub_self] at h3
    rcases mul_eq_zero.1 h3 with h4 | h4
    · exact hc (by exact_mod_cast h4)
    · exact (two_zpow_pos ec).ne' h4

/-! ## comparison of magnitudes -/

/-- Three-way comparison of naturals. -/
def cmp3 (a b : Nat) : Int := if a < b then -1 else if b < a then 1 else 0

theorem val_reverse_cons (a : W) (as : Words) :
    val (a :: as).reverse = val as.reverse + 2 ^ (32 * as.length) * a.toNat := by
  rw [List.reverse_cons, val_append]; simp

theorem ucmpLoop_spec : ∀ u v : Words,
    ucmpLoop u v = cmp3 (val u.reverse * 2 ^ (32 * v.length)) (val v.reverse * 2 ^ (32 * u.length))
  | a :: as, b :: bs => by
    have ih := ucmpLoop_spec as bs
    have h1 := val_lt as.reverse
    have h2 := val_lt bs.reverse
    rw [List.length_reverse] at h1 h2
    rw [ucmpLoop, val_reverse_cons, val_reverse_cons, ih, List.length_cons, List.length_cons, pow32_succ, pow32_succ]
    generalize val as.reverse = p at *
    generalize val bs.reverse = q at *
    generalize 2 ^ (32 * as.length) = P at *
    generalize 2 ^ (32 * bs.length) = Q at *
    have e1 : (p + P * a.toNat) * (2 ^ 32 * Q) = 2 ^ 32 * (p * Q + P * Q * a.toNat) := by ring
    have e2 : (q + Q * b.toNat) * (2 ^ 32 * P) = 2 ^ 32 * (q * P + P * Q * b.toNat) := by ring
    rw [e1, e2]
    have hP : p * Q < P * Q := Nat.mul_lt_mul_of_pos_right h1 (by omega)
    have hQ : q * P < P * Q := by rw [Nat.mul_comm P Q]; exact Nat.mul_lt_mul_of_pos_right h2 (by omega)
    have key : ∀ {i j : Nat}, i < j → P * Q * i + P * Q ≤ P * Q * j := by
      intro i j h
      have := Nat.mul_le_mul_left (P * Q) h
      rw [Nat.mul_succ] at this; exact this
    unfold cmp3
    simp only [BitVec.lt_def]
    rcases lt_trichotomy a.toNat b.toNat with h | h | h
    · have := key h
      rw [if_pos h, if_pos (by omega)]
    · rw [if_neg (by omega), if_neg (by omega), h]
      by_cases c1 : p * Q < q * P
      · rw [if_pos c1, if_pos (by omega)]
      · rw [if_neg c1, if_neg (by omega : ¬ 2 ^ 32 * (p * Q + P * Q * b.toNat) < 2 ^ 32 * (q * P + P * Q * b.toNat))]
        by_cases c2 : q * P < p * Q
        · rw [if_pos c2, if_pos (by omega)]
        · rw [if_neg c2, if_neg (by omega)]
    · have := key h
      rw [if_neg (by omega), if_pos h, if_neg (by omega), if_pos (by omega)]
  | a :: as, [] => by
    have ih := ucmpLoop_spec as []
    rw [ucmpLoop, val_reverse_cons, ih]
    simp only [List.length_nil, Nat.mul_zero, Nat.pow_zero, Nat.mul_one, List.reverse_nil, val_nil, Nat.zero_mul]
    unfold cmp3
    simp only [BitVec.lt_def, Nat.not_lt_zero, if_false, BitVec.toNat_ofNat, Nat.zero_mod]
    have : 0 < 2 ^ (32 * as.length) := by positivity
    by_cases h : 0 < a.toNat
    · have := Nat.mul_pos this h
      rw [if_pos h, if_pos (by omega)]
    · have h0 : a.toNat = 0 := by omega
      rw [if_neg h, h0]; simp
  | [], b :: bs => by
    have ih := ucmpLoop_spec [] bs
    rw [ucmpLoop, val_reverse_cons, ih]
    simp only [List.length_nil, Nat.mul_zero, Nat.pow_zero, Nat.mul_one, List.reverse_nil, val_nil, Nat.zero_mul]
    unfold cmp3
    simp only [BitVec.lt_def, Nat.not_lt_zero, if_false, BitVec.toNat_ofNat, Nat.zero_mod]
    have : 0 < 2 ^ (32 * bs.length) := by positivity
    by_cases h : 0 < b.toNat
    · have := Nat.mul_pos this h
      rw [if_pos h, if_pos (by omega)]
    · have h0 : b.toNat = 0 := by omega
      rw [if_neg h, h0]; simp
  | [], [] => by simp [ucmpLoop, cmp3]

/-- Three-way comparison of rationals. -/
def qcmp3 (a b : ℚ) : Int := if a < b then -1 else if b < a then 1 else 0

theorem fUcmp_spec {x y : FloatV} {a b La Lb : Nat} (hx : x.mant = enc a) (ha : Norm a La) (hy : y.mant = enc b)
    (hb : Norm b Lb) :
    fUcmp x y = qcmp3 ((a : ℚ) * 2 ^ (x.exp - 32 * La)) ((b : ℚ) * 2 ^ (y.exp - 32 * Lb)) := by
  obtain ⟨a1, a2⟩ := ha.bounds x.exp
  obtain ⟨b1, b2⟩ := hb.bounds y.exp
  unfold fUcmp qcmp3
  by_cases h1 : x.exp < y.exp
  · have : (2 : ℚ) ^ x.exp ≤ 2 ^ (y.exp - 1) := zpow_le_iff.2 (by omega)
    rw [if_pos h1, if_pos (by linarith)]
  · rw [if_neg h1]
    by_cases h2 : x.exp > y.exp
    · have : (2 : ℚ) ^ y.exp ≤ 2 ^ (x.exp - 1) := zpow_le_iff.2 (by omega)
      rw [if_pos h2, if_neg (by linarith), if_pos (by linarith)]
    · rw [if_neg h2]
      have he : x.exp = y.exp := by omega
      rw [ucmpLoop_spec, List.reverse_reverse, List.reverse_reverse, List.length_reverse, List.length_reverse, hx, hy,
        val_enc, val_enc, ha.length, hb.length, he]
      have key : ∀ {u v Lu Lv : Nat}, (u * 2 ^ (32 * Lv) < v * 2 ^ (32 * Lu)) ↔
          ((u : ℚ) * 2 ^ (y.exp - 32 * Lu) < (v : ℚ) * 2 ^ (y.exp - 32 * Lv)) := by
        intro u v Lu Lv
        rw [← Nat.cast_lt (α := ℚ)]
        push_cast
        have hs := two_zpow_pos (y.exp - 32 * Lu - 32 * Lv)
        rw [← mul_lt_mul_iff_left₀ hs]
        have e1 : (u : ℚ) * 2 ^ (32 * Lv) * 2 ^ (y.exp - 32 * Lu - 32 * Lv) = (u : ℚ) * 2 ^ (y.exp - 32 * Lu) := by
          rw [mul_assoc, ← zpow_natCast, ← zpow_add₀ (by norm_num)]; congr 2; push_cast; ring
        have e2 : (v : ℚ) * 2 ^ (32 * Lu) * 2 ^ (y.exp - 32 * Lu - 32 * Lv) = (v : ℚ) * 2 ^ (y.exp - 32 * Lv) := by
          rw [mul_assoc, ← zpow_natCast, ← zpow_add₀ (by norm_num)]; congr 2; push_cast; ring
        rw [e1, e2]
      unfold cmp3
      simp only [key]

/-! ## signed addition -/

theorem FloatResult.fix_zero {mode : RoundingMode} {p : Nat} {q : ℚ} {z : FloatV} (h : FloatResult mode p q z) :
    FloatResult mode p q (if z.form = .zero ∧ z.mode = .toNegativeInf ∧ z.acc = .exact then { z with neg := true } else z) := by
  split
  · rename_i hz
    obtain ⟨h1, h2, h3, h4, h5⟩ := h
    rw [hz.1] at h5
    simp only at h5
    have hq : q = 0 := by
      have h6 := h5.2
      rw [hz.2.2] at h6
      unfold accOf at h6
      split at h6
      · simp at h6
      · split at h6
        · rename_i h7; exact h7.symm
        · simp at h6
    refine ⟨h1, h2, fun hf => by simp only at hf; rw [hz.1] at hf; simp at hf, fun h => absurd hq h, ?_⟩
    simp only [hz.1]
    exact h5
  · exact h

theorem FloatResult.zero_form {mode : RoundingMode} {p : Nat} {z : FloatV} (h : FloatResult mode p 0 z) :
    z.form = .zero ∧ z.acc = .exact := by
  obtain ⟨h1, h2, h3, h4, h5⟩ := h
  cases hf : z.form
  · rw [hf] at h5
    simp only at h5
    refine ⟨rfl, ?_⟩
    rw [h5.2]; simp [accOf]
  · rw [hf] at h5
    simp only [abs_zero] at h5
    exact absurd h5.1 (not_le.2 (two_zpow_pos _))
  · rw [hf] at h5
    simp only at h5
    obtain ⟨⟨r, hr, hr'⟩, _⟩ := h5
    rcases hr with ⟨_, hr⟩ | ⟨e, k, h6, _⟩
    · rw [hr, abs_zero] at hr'; exact absurd hr' (not_le.2 (two_zpow_pos _))
    · rw [abs_zero] at h6; exact absurd h6 (not_le.2 (two_zpow_pos _))
  · rw [hf] at h5; exact absurd h5 (by simp)

theorem fAddFinite_result {x y : FloatV} {a b La Lb : Nat} (hx : IsFin x a La) (hy : IsFin y b Lb) (same : Bool) :
    let A := (a : ℚ) * 2 ^ (x.exp - 32 * La)
    let B := (b : ℚ) * 2 ^ (y.exp - 32 * Lb)
    let q := if same then sgn x.neg * (A + B) else sgn x.neg * (A - B)
    let own := same = true ∨ B < A
    let mode := if own then x.mode else y.mode
    let prec := if own then x.prec else y.prec
    ∃ z, fAddFinite same x y = .ok z ∧ FloatResult mode prec q z ∧
      (q = 0 → z.neg = decide (mode = .toNegativeInf)) := by
  intro A B q own mode prec
  have hA := hx.pos
  have hB := hy.pos
  -- the part before the sign of zero
  obtain ⟨z0, hz0, hr0, hneg⟩ : ∃ z0, (if same then fUadd x y else if fUcmp x y > 0 then fUsub x y
      else fUsub { fDeepClone y with neg := !x.neg } x) = .ok z0 ∧ FloatResult mode prec q z0 ∧
        (q = 0 → z0.neg = false) := by
    cases same
    · simp only [Bool.false_eq_true, if_false]
      rw [fUcmp_spec hx.mant hx.norm hy.mant hy.norm]
      change ∃ z0, (if qcmp3 A B > 0 then _ else _) = _ ∧ _
      by_cases hlt : B < A
      · have hc : qcmp3 A B > 0 := by unfold qcmp3; rw [if_neg (by linarith), if_pos hlt]; decide
        obtain ⟨z, h1, h2, h3⟩ := fUsub_result hx.mant hx.norm hx.prec hy.mant hy.norm hlt.le
        have ho : own := Or.inr hlt
        rw [if_pos hc]
        refine ⟨z, h1, ?_, fun h => ?_⟩
        · simp only [mode, prec, if_pos ho, q]; exact h2
        · exfalso
          have : 0 < A - B := by linarith
          exact sgn_mul_ne this h
      · have hc : ¬ qcmp3 A B > 0 := by
          unfold qcmp3
          by_cases h : A < B
          · rw [if_pos h]; decide
          · rw [if_neg h, if_neg hlt]; decide
        rw [if_neg hc, hy.deepClone]
        obtain ⟨z, h1, h2, h3⟩ := fUsub_result (x := { y with neg := !x.neg }) (y := x) hy.mant hy.norm hy.prec hx.mant
          hx.norm (not_lt.1 hlt)
        have ho : ¬ own := by simp [own, hlt]
        refine ⟨z, h1, ?_, fun h => ?_⟩
        · simp only [mode, prec, if_neg ho, q]
          have : sgn x.neg * (A - B) = sgn (!x.neg) * (B - A) := by
            cases x.neg <;> simp [sgn]
          simp only [Bool.false_eq_true, if_false]
          rw [this]; exact h2
        · have h4 : sgn x.neg * (A - B) = 0 := h
          have h5 : A - B = 0 := by
            rcases mul_eq_zero.1 h4 with h6 | h6
            · cases hn : x.neg <;> rw [hn] at h6 <;> simp [sgn] at h6
            · exact h6
          exact (h3 (by change B = A; linarith)).2.2
    · simp only [if_true]
      obtain ⟨z, h1, h2⟩ := fUadd_result hx.mant hx.norm hx.prec hy.mant hy.norm
      have ho : own := Or.inl rfl
      refine ⟨z, h1, ?_, fun h => ?_⟩
      · simp only [mode, prec, if_pos ho, q]; exact h2
      · exfalso
        have : 0 < A + B := by linarith
        exact sgn_mul_ne this h
  refine ⟨_, ?_, hr0.fix_zero, fun h => ?_⟩
  · unfold fAddFinite
    cases same
    · by_cases hc : fUcmp x y > 0
      · simp only [Bool.false_eq_true, if_false, if_pos hc] at hz0 ⊢
        rw [hz0]; rfl
      · simp only [Bool.false_eq_true, if_false, if_neg hc] at hz0 ⊢
        rw [hz0]; rfl
    · simp only [if_true] at hz0 ⊢
      rw [hz0]; rfl
  · have hm := hr0.1
    rw [h] at hr0
    obtain ⟨hz, ha⟩ := hr0.zero_form
    by_cases hmode : mode = .toNegativeInf
    · rw [if_pos ⟨hz, by rw [hm, hmode], ha⟩]; simp [hmode]
    · rw [if_neg (by rw [hm]; exact fun h => hmode h.2.1), hneg h]; simp [hmode]

/-! ## copying -/

/-- An object with enough precision for its value is a correct answer for that value. -/
theorem IsFin.result {x : FloatV} {m L : Nat} (h : IsFin x m L) (mode : RoundingMode) {p : Nat} (hp : x.prec ≤ p) :
    FloatResult mode p (fval x) { x with mode := mode, prec := p, acc := .exact } := by
  have hd : 2 ^ (32 * L - p) ∣ m := dvd_trans (pow_dvd_pow 2 (by omega)) h.dvd
  have hfv : fval { x with mode := mode, prec := p, acc := .exact } = fval x := by unfold fval; rfl
  have hok := floatOk_enc (x := { x with mode := mode, prec := p, acc := .exact }) h.mant h.norm
    (by have := h.prec; simp only; omega) (by have := h.words; simp only; omega) hd h.emin h.emax
  refine ⟨rfl, rfl, hok, fun _ => ?_, ?_⟩
  · rw [h.val]; exact (sgn_mul_lt h.pos).symm
  · simp only [h.form] at hfv ⊢
    rw [hfv]
    refine ⟨?_, ?_, by simp [accOf]⟩
    · rw [h.abs]
      exact le_trans (zpow_le_iff.2 (by have := h.emin; omega)) (h.norm.bounds x.exp).1
    · rw [h.val]; exact rounded_of_exact mode h.norm hd x.neg x.exp

theorem fSetFloat_result {z x : FloatV} {m L : Nat} (h : IsFin x m L) (hp : 1 ≤ z.prec) :
    ∃ r, fSetFloat z x = .ok r ∧ FloatResult z.mode z.prec (fval x) r := by
  unfold fSetFloat
  simp only [h.form, if_true]
  rw [if_neg (by omega)]
  by_cases hlt : z.prec < x.prec
  · rw [if_pos hlt]
    rw [h.val]
    exact fRound_result (x := { z with acc := .exact, form := .finite, neg := x.neg, exp := x.exp, mant := x.mant }) rfl
      h.mant h.norm hp h.emin h.emax
  · rw [if_neg hlt]
    refine ⟨_, rfl, ?_⟩
    have := h.result z.mode (p := z.prec) (by omega)
    rw [h.form] at this
    exact this

end RMath
