import Verif.Lemmas.FloatMachine
import Verif.Lemmas.FloatDiv
import Verif.Props.Rat

/-!
# C56–C62, C76–C80: multi-precision floating point numbers
-/

namespace RMath

/-- 6, in 64 bits -/
def sampleF : FloatV := ⟨.toNearestEven, .exact, .finite, false, 64, 3, [0#32, 0xC0000000#32]⟩
/-- -7/3 rounded to 33 bits, towards zero -/
def sampleG : FloatV := ⟨.toZero, .above, .finite, true, 33, 2, [0x00000000#32, 0x95555555#32]⟩
/-- 5/16 in 3 bits -/
def sampleFH : FloatV := ⟨.toPositiveInf, .exact, .finite, false, 3, -1, [0xA0000000#32]⟩

theorem sampleF_ok : FloatOk sampleF := by unfold FloatOk; decide
theorem sampleG_ok : FloatOk sampleG := by unfold FloatOk; decide
theorem sampleFH_ok : FloatOk sampleFH := by unfold FloatOk; decide

/-! ## C56: rounding -/

/-- Changing the precision rounds to nearest, up, down, ... as the mode says, and sets the accuracy flag. -/
theorem C56_set_precision {x : FloatV} (hx : FloatOk x) (hf : x.form = .finite) {p : Nat} (hp : 1 ≤ p) :
    ∃ z, fSetPrecision x p = .ok z ∧ FloatResult x.mode (min maxPrec p) (fval x) z := by
  obtain ⟨m, L, h⟩ := hx.fin hf
  unfold fSetPrecision
  rw [if_neg (by omega)]
  have hmp : 1 ≤ min maxPrec p := by have : 1 ≤ maxPrec := by decide
                                     omega
  by_cases hlt : min maxPrec p < x.prec
  · simp only [if_pos hlt]
    rw [h.val]
    exact fRound_result (x := { x with acc := .exact, prec := min maxPrec p }) hf h.mant h.norm hmp h.emin h.emax
  · simp only [if_neg hlt]
    exact ⟨_, rfl, h.result x.mode (by omega)⟩

example : FloatOk sampleG ∧ sampleG.form = .finite := ⟨sampleG_ok, rfl⟩

/-- Precision zero turns a finite number into a zero; the flag tells on which side of the number it is. -/
theorem C56_set_precision_zero {x : FloatV} (hx : FloatOk x) :
    ∃ z, fSetPrecision x 0 = .ok z ∧ z.prec = 0 ∧ z.neg = x.neg ∧ z.mode = x.mode ∧
      (x.form = .finite → z.form = .zero ∧ z.acc = accOf (fval x) 0) ∧
      (x.form ≠ .finite → z.form = x.form ∧ z.acc = .exact) := by
  unfold fSetPrecision
  rw [if_pos rfl]
  by_cases hf : x.form = .finite
  · simp only [if_pos hf]
    refine ⟨_, rfl, rfl, rfl, rfl, fun _ => ⟨rfl, ?_⟩, fun h => absurd hf h⟩
    obtain ⟨m, L, h⟩ := hx.fin hf
    rw [h.val]
    have := h.pos
    simp only [accOf, makeAccuracy, sgn]
    cases x.neg
    · simp only [Bool.false_eq_true, if_false, one_mul]
      rw [if_pos this]
    · simp only [if_true, neg_mul, one_mul]
      rw [if_neg (by linarith), if_neg (by linarith)]
  · simp only [if_neg hf]
    exact ⟨_, rfl, rfl, rfl, rfl, fun h => absurd h hf, fun _ => ⟨rfl, rfl⟩⟩

/-- Zeros, infinities and NaN keep their kind and sign. -/
theorem C56_set_precision_special {x : FloatV} (hf : x.form ≠ .finite) {p : Nat} (hp : 1 ≤ p) :
    fSetPrecision x p = .ok { x with acc := .exact, prec := min maxPrec p } := by
  unfold fSetPrecision
  rw [if_neg (by omega)]
  simp only
  split
  · unfold fRound; simp [hf]
  · rfl

/-- The rounded value is determined by the mode, the precision and the number. -/
theorem C56_rounding_unique {mode : RoundingMode} {p : Nat} {q r r' : ℚ} (h : Rounded mode p q r) (h' : Rounded mode p q r') :
    r = r' := h.unique h'

/-- The error is below one unit in the last place, and at most half of one in the modes that round to nearest; the
directed modes round to the side they name. -/
theorem C56_rounding_error {mode : RoundingMode} {p : Nat} {q r : ℚ} {e : ℤ} (h1 : 2 ^ (e - 1) ≤ |q|) (h2 : |q| < 2 ^ e)
    (h : Rounded mode p q r) :
    |q - r| < 2 ^ (e - p) ∧
    (mode = .toNearestEven ∨ mode = .toNearestAway → |q - r| ≤ 2 ^ (e - p) / 2) ∧
    (mode = .toNegativeInf → r ≤ q) ∧ (mode = .toPositiveInf → q ≤ r) ∧ (mode = .toZero → |r| ≤ |q|) ∧
    (mode = .awayFromZero → |q| ≤ |r|) := by
  have hqpos : 0 < |q| := lt_of_lt_of_le (two_zpow_pos _) h1
  rcases h with ⟨h0, _⟩ | ⟨e', k, g1, g2, hr, hk⟩
  · rw [h0, abs_zero] at hqpos; exact absurd hqpos (lt_irrefl _)
  · have he : e' = e := by
      have a := zpow_lt_iff.1 (lt_of_le_of_lt g1 h2)
      have b := zpow_lt_iff.1 (lt_of_le_of_lt h1 g2)
      omega
    subst he
    have hu := two_zpow_pos (e' - p)
    obtain ⟨y, hy⟩ : ∃ y, y = q / 2 ^ (e' - p) := ⟨_, rfl⟩
    have hq : q = y * 2 ^ (e' - p) := by rw [hy]; field_simp
    rw [← hy] at hk
    have hdiff : q - r = (y - k) * 2 ^ (e' - p) := by rw [hq, hr]; ring
    have habs : |q - r| = |y - k| * 2 ^ (e' - p) := by rw [hdiff, abs_mul, abs_of_pos hu]
    have herr := hk.error
    refine ⟨?_, ?_, ?_, ?_, ?_, ?_⟩
    · rw [habs]; nlinarith
    · intro hm
      rw [habs]
      have : |y - k| ≤ 1 / 2 := by rcases hm with rfl | rfl <;> exact hk.1
      nlinarith
    · rintro rfl
      have : (k : ℚ) ≤ y := by rw [show k = ⌊y⌋ from hk]; exact Int.floor_le y
      rw [hr, hq]; exact mul_le_mul_of_nonneg_right this hu.le
    · rintro rfl
      have : y ≤ (k : ℚ) := by rw [show k = ⌈y⌉ from hk]; exact Int.le_ceil y
      rw [hr, hq]; exact mul_le_mul_of_nonneg_right this hu.le
    · rintro rfl
      rw [hr, hq, abs_mul, abs_mul]
      refine mul_le_mul_of_nonneg_right ?_ (abs_nonneg _)
      have hk' : k = if 0 ≤ y then ⌊y⌋ else ⌈y⌉ := hk
      by_cases h0 : 0 ≤ y
      · rw [if_pos h0] at hk'
        have a := Int.floor_le y
        have b : (0 : ℚ) ≤ k := by rw [hk']; exact_mod_cast Int.floor_nonneg.2 h0
        rw [abs_of_nonneg b, abs_of_nonneg h0, hk']; exact a
      · rw [if_neg h0] at hk'
        push Not at h0
        have a := Int.le_ceil y
        have b : (k : ℚ) ≤ 0 := by rw [hk']; exact_mod_cast Int.ceil_le.2 (by push_cast; exact h0.le)
        rw [abs_of_nonpos b, abs_of_neg h0, hk']; linarith
    · rintro rfl
      rw [hr, hq, abs_mul, abs_mul]
      refine mul_le_mul_of_nonneg_right ?_ (abs_nonneg _)
      have hk' : k = if 0 ≤ y then ⌈y⌉ else ⌊y⌋ := hk
      by_cases h0 : 0 ≤ y
      · rw [if_pos h0] at hk'
        have a := Int.le_ceil y
        have b : (0 : ℚ) ≤ k := by rw [hk']; linarith
        rw [abs_of_nonneg b, abs_of_nonneg h0, hk']; exact a
      · rw [if_neg h0] at hk'
        push Not at h0
        have a := Int.floor_le y
        have b : (k : ℚ) ≤ 0 := by rw [hk']; linarith
        rw [abs_of_nonpos b, abs_of_neg h0, hk']; linarith

example : ∃ z, fSetPrecision sampleG 5 = .ok z ∧ z.mant = [0x90000000#32] ∧ z.acc = .above := ⟨_, rfl, by decide, by decide⟩

/-! ## C57: multiplication -/

theorem fDeepClone_fields (x : FloatV) :
    (fDeepClone x).mode = x.mode ∧ (fDeepClone x).acc = x.acc ∧ (fDeepClone x).form = x.form ∧ (fDeepClone x).neg = x.neg ∧
    (fDeepClone x).prec = x.prec ∧ (fDeepClone x).exp = x.exp := ⟨rfl, rfl, rfl, rfl, rfl, rfl⟩

theorem C57_mul {x y : FloatV} (hx : FloatOk x) (hy : FloatOk y) (fx : x.form = .finite) (fy : y.form = .finite) :
    ∃ z, fMul x y = .ok z ∧ FloatResult x.mode x.prec (fval x * fval y) z := by
  obtain ⟨a, La, ha⟩ := hx.fin fx
  obtain ⟨b, Lb, hb⟩ := hy.fin fy
  unfold fMul fOp
  rw [if_neg (by simp [fx, fy]), ha.deepClone]
  unfold fMulInner
  have hp := ha.prec
  simp only [if_neg (show ¬ x.prec = 0 by omega), fx, fy, and_self, if_true]
  obtain ⟨z, h1, h2⟩ := fUmul_result (x := { x with neg := x.neg != y.neg }) (y := y) ha.mant ha.norm ha.prec hb.mant hb.norm
  refine ⟨z, ?_, ?_⟩
  · simp only [fx] at h1; exact h1
  · have : fval x * fval y = sgn (x.neg != y.neg) * (((a : ℚ) * 2 ^ (x.exp - 32 * La)) * ((b : ℚ) * 2 ^ (y.exp - 32 * Lb))) := by
      rw [ha.val, hb.val, ← sgn_mul]; ring
    rw [this]; exact h2

example : FloatOk sampleF ∧ FloatOk sampleG ∧ sampleF.form = .finite ∧ sampleG.form = .finite :=
  ⟨sampleF_ok, sampleG_ok, rfl, rfl⟩
example : ∃ z, fMul sampleFH sampleG = .ok z ∧ z.mant = [0xA0000000#32] ∧ z.exp = 0 ∧ z.neg = true ∧ z.acc = .above :=
  ⟨_, rfl, by decide, by decide, by decide, by decide⟩

/-- Products with a zero or an infinity: the sign is the product of the signs, zero times infinity is NaN. -/
theorem C57_mul_special {x y : FloatV} (hx : x.form ≠ .nan) (hy : y.form ≠ .nan) (h : ¬ (x.form = .finite ∧ y.form = .finite)) :
    ∃ z, fMul x y = .ok z ∧ z.acc = .exact ∧ z.mode = x.mode ∧
      (if (x.form = .zero ∧ y.form = .inf) ∨ (x.form = .inf ∧ y.form = .zero) then z.form = .nan
       else z.neg = (x.neg != y.neg) ∧ z.form = if x.form = .inf ∨ y.form = .inf then .inf else .zero) := by
  obtain ⟨d1, d2, d3, d4, d5, d6⟩ := fDeepClone_fields x
  unfold fMul fOp
  rw [if_neg (by simp [hx, hy])]
  unfold fMulInner
  generalize fDeepClone x = w at *
  rw [← d3] at h hx ⊢
  rw [← d4, ← d1]
  cases hw : w.form <;> cases hyf : y.form <;> simp only [hw, hyf, ne_eq, not_true_eq_false, and_self, reduceCtorEq] at hx hy h <;>
    by_cases hp : w.prec = 0 <;> simp [hp, hw]

/-- NaN is contagious in all four operations. -/
theorem C57_nan {x y : FloatV} (h : x.form = .nan ∨ y.form = .nan) :
    ∀ f ∈ [fAdd, fSub, fMul, fDiv], ∃ z, f x y = .ok z ∧ z.form = .nan := by
  intro f hf
  simp only [List.mem_cons, List.not_mem_nil, or_false] at hf
  rcases hf with rfl | rfl | rfl | rfl
  · exact ⟨fNan, by unfold fAdd fOp; rw [if_pos h], rfl⟩
  · exact ⟨fNan, by unfold fSub fOp; rw [if_pos h], rfl⟩
  · exact ⟨fNan, by unfold fMul fOp; rw [if_pos h], rfl⟩
  · exact ⟨fNan, by unfold fDiv fOp; rw [if_pos h], rfl⟩

/-- `x ∘= y` leaves in `x` what `x ∘ y` returns. -/
theorem C57_assign {x y : FloatV} (hx : FloatOk x) (fx : x.form = .finite) (hy : y.form ≠ .nan) (f : FloatV → FloatV → Res FloatV) :
    fOpAssign f x y = fOp f x y := by
  obtain ⟨a, La, ha⟩ := hx.fin fx
  unfold fOpAssign fOp
  rw [if_neg (by simp [fx, hy]), if_neg (by simp [fx, hy]), ha.deepClone]

/-! ## C58: addition and subtraction -/

theorem sgn_not (b : Bool) : sgn (!b) = - sgn b := by cases b <;> simp [sgn]

theorem C58_add_actual {x y : FloatV} (hx : FloatOk x) (hy : FloatOk y) (fx : x.form = .finite) (fy : y.form = .finite) :
    ∃ z, fAdd x y = .ok z ∧
      (if x.neg = y.neg ∨ |fval y| < |fval x| then FloatResult x.mode x.prec (fval x + fval y) z
       else FloatResult y.mode y.prec (fval x + fval y) z) ∧
      (fval x + fval y = 0 → z.neg = decide (z.mode = .toNegativeInf)) := by
  obtain ⟨a, La, ha⟩ := hx.fin fx
  obtain ⟨b, Lb, hb⟩ := hy.fin fy
  obtain ⟨z, h1, h2, h3⟩ := fAddFinite_result ha hb (x.neg == y.neg)
  have hq : (if (x.neg == y.neg) = true then sgn x.neg * ((a : ℚ) * 2 ^ (x.exp - 32 * La) + (b : ℚ) * 2 ^ (y.exp - 32 * Lb))
      else sgn x.neg * ((a : ℚ) * 2 ^ (x.exp - 32 * La) - (b : ℚ) * 2 ^ (y.exp - 32 * Lb))) = fval x + fval y := by
    rw [ha.val, hb.val]
    cases x.neg <;> cases y.neg <;> simp [sgn] <;> ring
  rw [hq] at h2 h3
  refine ⟨z, ?_, ?_, ?_⟩
  · unfold fAdd fOp
    rw [if_neg (by simp [fx, fy]), ha.deepClone]
    unfold fAddInner
    have hp := ha.prec
    simp only [if_neg (show ¬ x.prec = 0 by omega), fx, fy, and_self, if_true]
    exact h1
  · rw [ha.abs, hb.abs]
    by_cases ho : (x.neg == y.neg) = true ∨ (b : ℚ) * 2 ^ (y.exp - 32 * Lb) < (a : ℚ) * 2 ^ (x.exp - 32 * La)
    · rw [if_pos (by simpa using ho)]
      simp only [if_pos ho] at h2; exact h2
    · rw [if_neg (by simpa using ho)]
      simp only [if_neg ho] at h2; exact h2
  · intro h0
    have := h2.1
    rw [h3 h0, this]

theorem C58_sub_actual {x y : FloatV} (hx : FloatOk x) (hy : FloatOk y) (fx : x.form = .finite) (fy : y.form = .finite) :
    ∃ z, fSub x y = .ok z ∧
      (if x.neg ≠ y.neg ∨ |fval y| < |fval x| then FloatResult x.mode x.prec (fval x - fval y) z
       else FloatResult y.mode y.prec (fval x - fval y) z) ∧
      (fval x - fval y = 0 → z.neg = decide (z.mode = .toNegativeInf)) := by
  obtain ⟨a, La, ha⟩ := hx.fin fx
  obtain ⟨b, Lb, hb⟩ := hy.fin fy
  obtain ⟨z, h1, h2, h3⟩ := fAddFinite_result ha hb (x.neg != y.neg)
  have hq : (if (x.neg != y.neg) = true then sgn x.neg * ((a : ℚ) * 2 ^ (x.exp - 32 * La) + (b : ℚ) * 2 ^ (y.exp - 32 * Lb))
      else sgn x.neg * ((a : ℚ) * 2 ^ (x.exp - 32 * La) - (b : ℚ) * 2 ^ (y.exp - 32 * Lb))) = fval x - fval y := by
    rw [ha.val, hb.val]
    cases x.neg <;> cases y.neg <;> simp [sgn] <;> ring
  rw [hq] at h2 h3
  refine ⟨z, ?_, ?_, ?_⟩
  · unfold fSub fOp
    rw [if_neg (by simp [fx, fy]), ha.deepClone]
    unfold fSubInner
    have hp := ha.prec
    simp only [if_neg (show ¬ x.prec = 0 by omega), fx, fy, and_self, if_true]
    exact h1
  · rw [ha.abs, hb.abs]
    by_cases ho : (x.neg != y.neg) = true ∨ (b : ℚ) * 2 ^ (y.exp - 32 * Lb) < (a : ℚ) * 2 ^ (x.exp - 32 * La)
    · rw [if_pos (by simpa using ho)]
      simp only [if_pos ho] at h2; exact h2
    · rw [if_neg (by simpa using ho)]
      simp only [if_neg ho] at h2; exact h2
  · intro h0
    have := h2.1
    rw [h3 h0, this]

/-- Sums of finite numbers.  Missing: with signs that cancel and `|x| ≤ |y|`, the precision and mode of `x` are obeyed
only if they are those of `y`. -/
theorem C58_add_partial {x y : FloatV} (hx : FloatOk x) (hy : FloatOk y) (fx : x.form = .finite) (fy : y.form = .finite)
    (h : x.neg = y.neg ∨ |fval y| < |fval x| ∨ (x.mode = y.mode ∧ x.prec = y.prec)) :
    ∃ z, fAdd x y = .ok z ∧ FloatResult x.mode x.prec (fval x + fval y) z := by
  obtain ⟨z, h1, h2, _⟩ := C58_add_actual hx hy fx fy
  refine ⟨z, h1, ?_⟩
  split at h2
  · exact h2
  · rename_i hn
    rcases h with h | h | ⟨h, h'⟩
    · exact absurd (Or.inl h) hn
    · exact absurd (Or.inr h) hn
    · rw [h, h']; exact h2

theorem C58_sub_partial {x y : FloatV} (hx : FloatOk x) (hy : FloatOk y) (fx : x.form = .finite) (fy : y.form = .finite)
    (h : x.neg ≠ y.neg ∨ |fval y| < |fval x| ∨ (x.mode = y.mode ∧ x.prec = y.prec)) :
    ∃ z, fSub x y = .ok z ∧ FloatResult x.mode x.prec (fval x - fval y) z := by
  obtain ⟨z, h1, h2, _⟩ := C58_sub_actual hx hy fx fy
  refine ⟨z, h1, ?_⟩
  split at h2
  · exact h2
  · rename_i hn
    rcases h with h | h | ⟨h, h'⟩
    · exact absurd (Or.inl h) hn
    · exact absurd (Or.inr h) hn
    · rw [h, h']; exact h2

example : FloatOk sampleF ∧ FloatOk sampleFH ∧ sampleF.neg = sampleFH.neg := ⟨sampleF_ok, sampleFH_ok, rfl⟩

/-- The sum `5/16 + (-7/3)` is delivered with the precision of the second operand. -/
theorem C58_violated_precision : ∃ x y z, FloatOk x ∧ FloatOk y ∧ x.form = .finite ∧ y.form = .finite ∧
    fAdd x y = .ok z ∧ ¬ FloatResult x.mode x.prec (fval x + fval y) z := by
  refine ⟨sampleFH, sampleG, _, sampleFH_ok, sampleG_ok, rfl, rfl, rfl, fun h => ?_⟩
  have := h.2.1
  revert this
  decide

/-- A zero on the left: the other operand, rounded. -/
theorem C58_zero_add {x y : FloatV} (hy : FloatOk y) (fx : x.form = .zero) (fy : y.form = .finite) :
    ∃ z, fAdd x y = .ok z ∧ FloatResult x.mode (if x.prec = 0 then y.prec else x.prec) (fval y) z := by
  obtain ⟨b, Lb, hb⟩ := hy.fin fy
  unfold fAdd fOp
  rw [if_neg (by simp [fx, fy])]
  unfold fAddInner
  obtain ⟨d1, d2, d3, d4, d5, d6⟩ := fDeepClone_fields x
  generalize fDeepClone x = w at *
  rw [← d5, ← d1]
  rw [fx] at d3
  by_cases hp : w.prec = 0
  · simp only [if_pos hp, d3, fy]
    simp only [reduceCtorEq, false_and, if_false, or_false]
    exact fSetFloat_result (z := { w with prec := y.prec, form := .zero }) hb hb.prec
  · simp only [if_neg hp, d3, fy]
    simp only [reduceCtorEq, false_and, if_false, or_false]
    exact fSetFloat_result (z := w) hb (by omega)

/-- A zero on the right: the left operand itself.  Its accuracy flag is the one it had before. -/
theorem C58_add_sub_zero {x y : FloatV} (hx : FloatOk x) (fx : x.form = .finite) (fy : y.form = .zero) :
    fAdd x y = .ok x ∧ fSub x y = .ok x := by
  obtain ⟨a, La, ha⟩ := hx.fin fx
  have hp := ha.prec
  constructor
  · unfold fAdd fOp
    rw [if_neg (by simp [fx, fy]), ha.deepClone]
    unfold fAddInner
    simp [show ¬ x.prec = 0 by omega, fx, fy]
  · unfold fSub fOp
    rw [if_neg (by simp [fx, fy]), ha.deepClone]
    unfold fSubInner
    simp [show ¬ x.prec = 0 by omega, fx, fy]

/-- `x + 0` is exact, but the flag may say otherwise. -/
theorem C58_violated_stale_flag : ∃ x y z, FloatOk x ∧ FloatOk y ∧ x.form = .finite ∧ y.form = .zero ∧
    fAdd x y = .ok z ∧ fval z = fval x ∧ z.acc ≠ .exact :=
  ⟨sampleG, fDefault, sampleG, sampleG_ok, fun h => by simp [fDefault] at h, rfl, rfl, rfl, rfl, by decide⟩

/-- `0 - y` is `+y`: a zero on the left makes subtraction the same as addition. -/
theorem C58_violated_zero_sub {x y : FloatV} (fx : x.form = .zero) (fy : y.form = .finite ∨ y.form = .inf) :
    fSub x y = fAdd x y := by
  unfold fSub fAdd fOp
  rcases fy with fy | fy
  · rw [if_neg (by simp [fx, fy]), if_neg (by simp [fx, fy])]
    unfold fSubInner fAddInner
    obtain ⟨_, _, d3, _, _, _⟩ := fDeepClone_fields x
    rw [fx] at d3
    by_cases hp : (fDeepClone x).prec = 0 <;> simp [hp, d3, fy]
  · rw [if_neg (by simp [fx, fy]), if_neg (by simp [fx, fy])]
    unfold fSubInner fAddInner
    obtain ⟨_, _, d3, _, _, _⟩ := fDeepClone_fields x
    rw [fx] at d3
    by_cases hp : (fDeepClone x).prec = 0 <;> simp [hp, d3, fy]

theorem fSetFloat_inf (w : FloatV) {y : FloatV} (fy : y.form = .inf) :
    ∃ z, fSetFloat w y = .ok z ∧ z.form = .inf ∧ z.neg = y.neg := by
  unfold fSetFloat
  simp only [fy, reduceCtorEq, if_false]
  split
  · exact ⟨_, rfl, rfl, rfl⟩
  · split
    · unfold fRound
      simp
    · exact ⟨_, rfl, rfl, rfl⟩

/-- `x - ∞` is `+∞`. -/
theorem C58_violated_sub_inf {x y : FloatV} (fx : x.form = .finite) (fy : y.form = .inf) :
    ∃ z, fSub x y = .ok z ∧ z.form = .inf ∧ z.neg = y.neg := by
  unfold fSub fOp
  rw [if_neg (by simp [fx, fy])]
  unfold fSubInner
  obtain ⟨_, _, d3, _, _, _⟩ := fDeepClone_fields x
  rw [fx] at d3
  generalize fDeepClone x = w at *
  have key := fun w => fSetFloat_inf w fy
  by_cases hp : w.prec = 0
  · simp only [if_pos hp, d3, fy]
    simp only [reduceCtorEq, and_false, false_and, if_false, or_false]
    exact key _
  · simp only [if_neg hp, d3, fy]
    simp only [reduceCtorEq, and_false, false_and, if_false, or_false]
    exact key _

/-- Sums with infinities. -/
theorem C58_add_inf {x y : FloatV} (hx : x.form ≠ .nan) (hy : y.form ≠ .nan) (h : x.form = .inf ∨ y.form = .inf) :
    ∃ z, fAdd x y = .ok z ∧
      (if x.form = .inf ∧ y.form = .inf ∧ x.neg ≠ y.neg then z.form = .nan
       else z.form = .inf ∧ z.neg = if x.form = .inf then x.neg else y.neg) := by
  unfold fAdd fOp
  rw [if_neg (by simp [hx, hy])]
  unfold fAddInner
  obtain ⟨_, _, d3, d4, _, _⟩ := fDeepClone_fields x
  generalize fDeepClone x = w at *
  rw [← d3] at hx h ⊢
  rw [← d4]
  have key := fun w fy => fSetFloat_inf w (y := y) fy
  have nf : ¬ (w.form = .finite ∧ y.form = .finite) := by
    rintro ⟨h1, h2⟩; rw [h1, h2] at h; simp at h
  by_cases hp : w.prec = 0
  · simp only [if_pos hp, if_neg nf]
    by_cases hc : w.form = .inf ∧ y.form = .inf ∧ w.neg ≠ y.neg
    · rw [if_pos hc]
      exact ⟨_, rfl, by rw [if_pos hc]⟩
    · rw [if_neg hc]
      by_cases hi : w.form = .inf
      · rw [if_pos (Or.inl hi)]
        exact ⟨_, rfl, by rw [if_neg hc, if_pos hi]; exact ⟨hi, rfl⟩⟩
      · have hyi := h.resolve_left hi
        rw [if_neg (by simp [hi, hyi])]
        obtain ⟨z, k1, k2, k3⟩ := key _ hyi
        exact ⟨z, k1, by rw [if_neg hc, if_neg hi]; exact ⟨k2, k3⟩⟩
  · simp only [if_neg hp, if_neg nf]
    by_cases hc : w.form = .inf ∧ y.form = .inf ∧ w.neg ≠ y.neg
    · rw [if_pos hc]
      exact ⟨_, rfl, by rw [if_pos hc]⟩
    · rw [if_neg hc]
      by_cases hi : w.form = .inf
      · rw [if_pos (Or.inl hi)]
        exact ⟨_, rfl, by rw [if_neg hc, if_pos hi]; exact ⟨hi, rfl⟩⟩
      · have hyi := h.resolve_left hi
        rw [if_neg (by simp [hi, hyi])]
        obtain ⟨z, k1, k2, k3⟩ := key _ hyi
        exact ⟨z, k1, by rw [if_neg hc, if_neg hi]; exact ⟨k2, k3⟩⟩

end RMath
