import Verif.Lemmas.RatFloat
import Verif.Props.Rat

/-!
# C75: conversion of a `Rat` to `f64` and `f32`
-/

namespace RMath

theorem abs_qval_raw {s : Bool} {n : Nat} {t : Bool} {d : Nat} (ht : t = true → n = 0) :
    |qval (raw s n t d)| = (n : ℚ) / d := by
  rw [qval_raw ht, abs_div, abs_of_nonneg (by positivity : (0 : ℚ) ≤ d)]
  congr 1
  cases s <;> simp [sg]

theorem mk64_flip (c : Nat) (h : c < 2 ^ 63) : mk64 false c ^^^ (1#64 <<< 63) = mk64 true c := by
  apply BitVec.eq_of_toNat_eq
  rw [BitVec.toNat_xor, mk64_toNat _ _ h, mk64_toNat _ _ h]
  have : (1#64 <<< 63).toNat = 2 ^ 63 * 1 := by decide
  rw [this]
  have e := Nat.two_pow_add_eq_or_of_lt h 1
  simp only [Bool.false_eq_true, if_false, Nat.zero_add, if_true]
  rw [Nat.xor_comm]
  have : 2 ^ 63 * 1 ^^^ c = 2 ^ 63 * 1 ||| c := by
    apply Nat.eq_of_testBit_eq
    intro i
    rw [Nat.testBit_xor, Nat.testBit_or]
    by_cases hi : i < 63
    · have : (2 ^ 63 * 1).testBit i = false := by
        rw [Nat.mul_one, Nat.testBit_two_pow]; simp; omega
      rw [this]; simp
    · have : c.testBit i = false := Nat.testBit_lt_two_pow (lt_of_lt_of_le h (Nat.pow_le_pow_right (by norm_num) (by omega)))
      rw [this]; simp
  rw [this, ← e]; ring

theorem mk32_flip (c : Nat) (h : c < 2 ^ 31) : mk32 false c ^^^ (1#32 <<< 31) = mk32 true c := by
  apply BitVec.eq_of_toNat_eq
  rw [BitVec.toNat_xor, mk32_toNat _ _ h, mk32_toNat _ _ h]
  have : (1#32 <<< 31).toNat = 2 ^ 31 * 1 := by decide
  rw [this]
  have e := Nat.two_pow_add_eq_or_of_lt h 1
  simp only [Bool.false_eq_true, if_false, Nat.zero_add, if_true]
  rw [Nat.xor_comm]
  have : 2 ^ 31 * 1 ^^^ c = 2 ^ 31 * 1 ||| c := by
    apply Nat.eq_of_testBit_eq
    intro i
    rw [Nat.testBit_xor, Nat.testBit_or]
    by_cases hi : i < 31
    · have : (2 ^ 31 * 1).testBit i = false := by
        rw [Nat.mul_one, Nat.testBit_two_pow]; simp; omega
      rw [this]; simp
    · have : c.testBit i = false := Nat.testBit_lt_two_pow (lt_of_lt_of_le h (Nat.pow_le_pow_right (by norm_num) (by omega)))
      rw [this]; simp
  rw [this, ← e]; ring

theorem msb_mk32 (s : Bool) (c : Nat) (h : c < 2 ^ 31) : (mk32 s c).msb = s := by
  unfold mk32
  rw [BitVec.msb_eq_decide, BitVec.toNat_ofNat]
  cases s <;> simp <;> omega

theorem mk32_code (s : Bool) (c : Nat) (h : c < 2 ^ 31) : (mk32 s c).toNat % 2 ^ 31 = c := by
  rw [mk32_toNat _ _ h]
  cases s <;> simp <;> omega

theorem rToF64_full (x : RatV) (hx : RatOk x) :
    ∃ c ex, rToF64 x = .ok (mk64 x.a.neg c, ex) ∧ b64.Nearest |qval x| c ∧
      (qval x = 0 ∨ (2 : ℚ) ^ (-1075 : Int) ≤ |qval x| → (ex = true ↔ c < b64.inf ∧ b64.value c = |qval x|)) ∧
      (qval x ≠ 0 → |qval x| < 2 ^ (-1075 : Int) → (ex = true ↔ ∃ (N : Nat) (k : Int), N < 2 ^ 53 ∧ |qval x| = N * 2 ^ k)) := by
  obtain ⟨s, n, t, d, rfl, hd, ht⟩ := ratOk_iff.1 hx
  obtain ⟨c, ex, h1, h2, h3, h4⟩ := quoToF64_spec n d hd
  have hq := abs_qval_raw (s := s) (d := d) ht
  have hz : qval (raw s n t d) = 0 ↔ n = 0 := by
    rw [← abs_eq_zero, hq, div_eq_zero_iff]
    simp [hd]
  rw [hq, ne_eq, hz]
  refine ⟨c, ex, ?_, h2, h3, h4⟩
  unfold rToF64 rIsNan bIsNan raw
  simp only [isNan_enc, Bool.or_self, Bool.false_eq_true, if_false]
  rw [← enc_zero, eqv_enc, decide_eq_false hd]
  simp only [Bool.false_eq_true, if_false, h1, bind, Except.bind]
  cases s
  · rfl
  · simp only [if_true, mk64_flip c (nearest64_lt h2)]

theorem rToF32_full (x : RatV) (hx : RatOk x) (h0 : qval x ≠ 0) :
    ∃ c ex, rToF32 x = .ok (mk32 x.a.neg c, ex) ∧ b32.Nearest |qval x| c ∧
      ((2 : ℚ) ^ (-150 : Int) ≤ |qval x| → (ex = true ↔ c < b32.inf ∧ b32.value c = |qval x|)) ∧
      (|qval x| < 2 ^ (-150 : Int) → (ex = true ↔ ∃ (N : Nat) (k : Int), N < 2 ^ 24 ∧ |qval x| = N * 2 ^ k)) := by
  obtain ⟨s, n, t, d, rfl, hd, ht⟩ := ratOk_iff.1 hx
  have hq := abs_qval_raw (s := s) (d := d) ht
  have hz : qval (raw s n t d) = 0 ↔ n = 0 := by
    rw [← abs_eq_zero, hq, div_eq_zero_iff]
    simp [hd]
  obtain ⟨c, ex, h1, h2, h3, h4⟩ := quoToF32_spec n d (fun h => h0 (hz.2 h)) hd
  rw [hq]
  refine ⟨c, ex, ?_, h2, h3, h4⟩
  unfold rToF32 rIsNan bIsNan raw
  simp only [isNan_enc, Bool.or_self, Bool.false_eq_true, if_false]
  rw [← enc_zero, eqv_enc, decide_eq_false hd]
  simp only [Bool.false_eq_true, if_false, h1, bind, Except.bind]
  cases s
  · rfl
  · simp only [if_true, mk32_flip c (nearest32_lt h2)]

/-- **C75.** `to_f64` delivers the double nearest to the fraction, ties to even, infinity beyond the range, with the sign
of the fraction. -/
theorem C75_to_f64 (x : RatV) (hx : RatOk x) :
    ∃ bits exact, rToF64 x = .ok (bits, exact) ∧ bits.msb = x.a.neg ∧ b64.Nearest |qval x| (bits.toNat % 2 ^ 63) := by
  obtain ⟨c, ex, h1, h2, _⟩ := rToF64_full x hx
  have hc := nearest64_lt h2
  refine ⟨_, _, h1, msb_mk64 _ _ hc, ?_⟩
  have := mag64_mk64 x.a.neg c hc
  unfold mag64 at this
  rwa [this]

example : RatOk sampleQ ∧ rToF64 sampleQ = .ok (0xBFE2AAAAAAAAAAAB#64, false) := ⟨sampleQ_ok, by decide +kernel⟩

/-- **C75** for singles.  *Missing:* zero, for which `to_f32` panics (`C75_to_f32_zero_panics`). -/
theorem C75_to_f32_partial (x : RatV) (hx : RatOk x) (h0 : qval x ≠ 0) :
    ∃ bits exact, rToF32 x = .ok (bits, exact) ∧ bits.msb = x.a.neg ∧ b32.Nearest |qval x| (bits.toNat % 2 ^ 31) := by
  obtain ⟨c, ex, h1, h2, _⟩ := rToF32_full x hx h0
  have hc := nearest32_lt h2
  refine ⟨_, _, h1, msb_mk32 _ _ hc, ?_⟩
  rwa [mk32_code _ _ hc]

example : RatOk sampleP ∧ rToF32 sampleP = .ok (0x52AAAAAB#32, false) := ⟨sampleP_ok, by decide +kernel⟩

/-- **C75**, the flag of `to_f64`: true exactly if the double is the fraction.  *Missing:* fractions other than zero
that are less than half the smallest positive double (`C75_flag_wrong`). -/
theorem C75_to_f64_flag_partial (x : RatV) (hx : RatOk x) (hs : qval x = 0 ∨ (2 : ℚ) ^ (-1075 : Int) ≤ |qval x|)
    {bits : BitVec 64} {exact : Bool} (h : rToF64 x = .ok (bits, exact)) :
    exact = true ↔ bits.toNat % 2 ^ 63 < b64.inf ∧ b64.value (bits.toNat % 2 ^ 63) = |qval x| := by
  obtain ⟨c, ex, h1, h2, h3, _⟩ := rToF64_full x hx
  rw [h1] at h
  simp only [Except.ok.injEq, Prod.mk.injEq] at h
  obtain ⟨rfl, rfl⟩ := h
  have := mag64_mk64 x.a.neg c (nearest64_lt h2)
  unfold mag64 at this
  rw [this]
  exact h3 hs

example : RatOk sampleQ ∧ (2 : ℚ) ^ (-1075 : Int) ≤ |qval sampleQ| ∧
    rToF64 ⟨⟨[7#32], true⟩, ⟨[16#32], false⟩⟩ = .ok (0xBFDC000000000000#64, true) := by
  refine ⟨sampleQ_ok, ?_, by decide +kernel⟩
  have h1 : |qval sampleQ| = 7 / 12 := by
    rw [qval, show ival sampleQ.a = -7 by decide, show ival sampleQ.b = 12 by decide]; norm_num [abs_div, abs_of_pos]
  have h2 : (2 : ℚ) ^ (-1075 : Int) ≤ 2 ^ (-1 : Int) := zpow_le_iff.2 (by norm_num)
  rw [h1]
  refine le_trans h2 ?_
  norm_num

/-- **C75**, the flag of `to_f32`, in the same way. -/
theorem C75_to_f32_flag_partial (x : RatV) (hx : RatOk x) (hs : (2 : ℚ) ^ (-150 : Int) ≤ |qval x|)
    {bits : BitVec 32} {exact : Bool} (h : rToF32 x = .ok (bits, exact)) :
    exact = true ↔ bits.toNat % 2 ^ 31 < b32.inf ∧ b32.value (bits.toNat % 2 ^ 31) = |qval x| := by
  have h0 : qval x ≠ 0 := by
    intro h0
    rw [h0, abs_zero] at hs
    exact absurd (two_zpow_pos (-150)) (not_lt.2 hs)
  obtain ⟨c, ex, h1, h2, h3, _⟩ := rToF32_full x hx h0
  rw [h1] at h
  simp only [Except.ok.injEq, Prod.mk.injEq] at h
  obtain ⟨rfl, rfl⟩ := h
  rw [mk32_code _ _ (nearest32_lt h2)]
  exact h3 hs

example : RatOk ⟨⟨[7#32], true⟩, ⟨[16#32], false⟩⟩ ∧
    rToF32 ⟨⟨[7#32], true⟩, ⟨[16#32], false⟩⟩ = .ok (0xBEE00000#32, true) :=
  ⟨⟨⟨by decide, by decide⟩, ⟨by decide, by decide⟩, by decide, by decide⟩, by decide +kernel⟩

/-- **C75 fails**: `to_f32` of zero panics, always.  A `return` is missing at rat.rs:166. -/
theorem C75_to_f32_zero_panics (x : RatV) (hx : RatOk x) (h0 : qval x = 0) : rToF32 x = .error .panic := by
  obtain ⟨s, n, t, d, rfl, hd, ht⟩ := ratOk_iff.1 hx
  have hq := abs_qval_raw (s := s) (d := d) ht
  rw [h0, abs_zero] at hq
  have hn : n = 0 := by
    have := hq.symm
    rw [div_eq_zero_iff] at this
    rcases this with h | h
    · exact_mod_cast h
    · exact absurd (by exact_mod_cast h) hd
  subst hn
  unfold rToF32 rIsNan bIsNan raw
  simp only [isNan_enc, Bool.or_self, Bool.false_eq_true, if_false]
  rw [← enc_zero, eqv_enc, decide_eq_false hd]
  simp only [Bool.false_eq_true, if_false, quoToF32_zero d hd, bind, Except.bind]

example : rToF32 ⟨⟨[0#32], false⟩, ⟨[1#32], false⟩⟩ = .error .panic := by decide +kernel

/-- The fraction 1 / 2^1088. -/
def tinyQ : RatV := ⟨⟨[1#32], false⟩, ⟨List.replicate 34 0#32 ++ [1#32], false⟩⟩

/-- **C75 fails**: 2^-1088 is converted to zero, and the flag says that this is exact; the same for singles. -/
theorem C75_flag_wrong : RatOk tinyQ ∧ ival tinyQ.a ≠ 0 ∧ rToF64 tinyQ = .ok (0#64, true) ∧
    rToF32 tinyQ = .ok (0#32, true) :=
  ⟨⟨⟨by decide, by decide⟩, ⟨by decide, by decide⟩, by decide, by decide⟩, by decide, by decide +kernel, by decide +kernel⟩

/-- **C75 fails**, exactly: every fraction other than zero below half the smallest positive machine number is converted to
zero, and the flag calls this exact if and only if the fraction has at most 53 (24) significant binary digits. -/
theorem C75_flag_tiny (x : RatV) (hx : RatOk x) (h0 : qval x ≠ 0) :
    (|qval x| < 2 ^ (-1075 : Int) → ∃ exact, rToF64 x = .ok (mk64 x.a.neg 0, exact) ∧
      (exact = true ↔ ∃ (N : Nat) (k : Int), N < 2 ^ 53 ∧ |qval x| = N * 2 ^ k)) ∧
    (|qval x| < 2 ^ (-150 : Int) → ∃ exact, rToF32 x = .ok (mk32 x.a.neg 0, exact) ∧
      (exact = true ↔ ∃ (N : Nat) (k : Int), N < 2 ^ 24 ∧ |qval x| = N * 2 ^ k)) := by
  constructor
  · intro ht
    obtain ⟨c, ex, h1, h2, _, h4⟩ := rToF64_full x hx
    have h5 : b64.Nearest |qval x| 0 := b64.nearest_tiny (abs_nonneg _) (by
      rw [b64_bias, b64_mb]; exact le_trans ht.le (zpow_le_iff.2 (by norm_num)))
    rw [h2.unique h5] at h1
    exact ⟨ex, h1, h4 h0 ht⟩
  · intro ht
    obtain ⟨c, ex, h1, h2, _, h4⟩ := rToF32_full x hx h0
    have h5 : b32.Nearest |qval x| 0 := b32.nearest_tiny (abs_nonneg _) (by
      rw [b32_bias, b32_mb]; exact le_trans ht.le (zpow_le_iff.2 (by norm_num)))
    rw [h2.unique h5] at h1
    exact ⟨ex, h1, h4 ht⟩

example : RatOk tinyQ ∧ qval tinyQ ≠ 0 ∧ |qval tinyQ| < 2 ^ (-1075 : Int) := by
  have h1 : ival tinyQ.a = 1 := by decide
  have h2 : ival tinyQ.b = 2 ^ 1088 := by decide +kernel
  have h3 : qval tinyQ = 2 ^ (-1088 : Int) := by
    rw [qval, h1, h2]; push_cast; rw [one_div, zpow_neg, ← zpow_natCast]; norm_num
  refine ⟨⟨⟨by decide, by decide⟩, ⟨by decide, by decide⟩, by decide, by decide⟩, ?_, ?_⟩
  · rw [h3]; exact (two_zpow_pos _).ne'
  · rw [h3, abs_of_pos (two_zpow_pos _)]; exact zpow_lt_iff.2 (by norm_num)

/-- **C75**: a NaN is converted to a NaN. -/
theorem C75_nan (x : RatV) (h : x.a.nat = [] ∨ x.b.nat = []) :
    rToF64 x = .ok (0x7ff8000000000000#64, false) ∧ rToF32 x = .ok (0x7fc00000#32, false) := by
  have : rIsNan x = true := by
    unfold rIsNan bIsNan
    rcases h with h | h <;> simp [h, isNan]
  unfold rToF64 rToF32
  rw [this]
  exact ⟨rfl, rfl⟩

/-- Rounding to nearest has exactly one result, so `C75_to_f64` and `C75_to_f32_partial` determine the conversion. -/
theorem C75_nearest_unique (F : Fmt) (q : ℚ) (a b : Nat) (ha : F.Nearest q a) (hb : F.Nearest q b) : a = b := ha.unique hb

end RMath
