import Verif.Lemmas.FloatQuo
import Verif.Props.Float

/-!
# C59–C62, C76–C80: comparison, division, conversions of multi-precision floating point numbers
-/

namespace RMath

/-! ## C59: comparison -/

theorem sign_of_fin {x : FloatV} (hx : FloatOk x) (hf : x.form = .finite) :
    (x.neg = true → fval x < 0) ∧ (x.neg = false → 0 < fval x) := by
  obtain ⟨m, L, h⟩ := hx.fin hf
  have := h.pos
  rw [h.val]
  constructor <;> intro hn <;> rw [hn] <;> simp only [sgn, Bool.false_eq_true, if_true, if_false] <;> linarith

theorem fUcmp_val {x y : FloatV} (hx : FloatOk x) (hy : FloatOk y) (fx : x.form = .finite) (fy : y.form = .finite) :
    fUcmp x y = qcmp3 |fval x| |fval y| := by
  obtain ⟨a, La, ha⟩ := hx.fin fx
  obtain ⟨b, Lb, hb⟩ := hy.fin fy
  rw [ha.abs, hb.abs]
  exact fUcmp_spec ha.mant ha.norm hb.mant hb.norm

theorem C59_compare {x y : FloatV} (hx : FloatOk x) (hy : FloatOk y) {a b : WithBot (WithTop ℚ)} (ha : fext x = some a)
    (hb : fext y = some b) :
    (fPartialCmp x y = some .lt ↔ a < b) ∧ (fPartialCmp x y = some .eq ↔ a = b) ∧ (fPartialCmp x y = some .gt ↔ b < a) := by
  have hz : ∀ {x : FloatV}, x.form = .zero → fval x = 0 := fun h => by simp [fval, h]
  have ht : ∀ q : ℚ, (((q : WithTop ℚ)) : WithBot (WithTop ℚ)) < ⊤ := fun q => WithBot.coe_lt_coe.2 (WithTop.coe_lt_top q)
  have h0 : (0 : WithBot (WithTop ℚ)) < ⊤ := ht 0
  unfold fPartialCmp fCmpInner fOrd
  unfold fext at ha hb
  cases fx : x.form <;> cases fy : y.form <;> simp only [fx, fy, reduceCtorEq, Option.some.injEq] at ha hb <;> subst ha <;>
    subst hb
  case zero.zero => rw [hz fx, hz fy]; cases x.neg <;> cases y.neg <;> simp
  case zero.finite =>
    have := sign_of_fin hy fy
    rw [hz fx]
    cases hy : y.neg <;> cases x.neg <;> simp [hy] at this <;> simp [this, this.ne, this.ne', this.le]
  case zero.inf => rw [hz fx]; cases x.neg <;> cases y.neg <;> simp [h0, h0.ne]
  case finite.zero =>
    have := sign_of_fin hx fx
    rw [hz fy]
    cases hx : x.neg <;> cases y.neg <;> simp [hx] at this <;> simp [this, this.ne, this.ne', this.le]
  case finite.inf => cases x.neg <;> cases y.neg <;> simp [ht]
  case inf.zero => rw [hz fy]; cases x.neg <;> cases y.neg <;> simp [h0, h0.ne']
  case inf.finite => cases x.neg <;> cases y.neg <;> simp [ht]
  case inf.inf => cases x.neg <;> cases y.neg <;> simp
  case finite.finite =>
    have h1 := sign_of_fin hx fx
    have h2 := sign_of_fin hy fy
    have h3 := fUcmp_val hx hy fx fy
    have h4 := fUcmp_val hy hx fy fx
    generalize fval x = u at *
    generalize fval y = v at *
    cases hxn : x.neg <;> cases hyn : y.neg <;> simp only [hxn, hyn, forall_const, Bool.false_eq_true, false_implies, and_true,
      true_and, reduceCtorEq] at h1 h2 <;> simp only [Bool.false_eq_true, if_true, if_false, Option.map_some, WithBot.coe_lt_coe, WithTop.coe_lt_coe,
      WithBot.coe_inj, WithTop.coe_inj]
    · rw [h3, abs_of_pos h1, abs_of_pos h2]
      unfold qcmp3
      rcases lt_trichotomy u v with h | h | h
      · simp [h, h.le, h.ne, h.not_gt]
      · simp [h]
      · simp [h, h.le, h.ne', h.not_gt]
    · have : v < u := by linarith
      simp [this, this.le, this.ne']
    · have : u < v := by linarith
      simp [this, this.le, this.ne]
    · rw [h4, abs_of_neg h1, abs_of_neg h2]
      unfold qcmp3
      rcases lt_trichotomy u v with h | h | h
      · simp [h, h.le, h.ne, h.not_gt]
      · simp [h]
      · simp [h, h.le, h.ne', h.not_gt]

/-- NaN is unordered and differs from everything, itself included. -/
theorem C59_nan {x y : FloatV} (h : fext x = none ∨ fext y = none) : fPartialCmp x y = none ∧ fEq x y = false := by
  have hn : ∀ {x : FloatV}, fext x = none → x.form = .nan := by
    intro x h; unfold fext at h; cases hf : x.form <;> simp [hf] at h ⊢
  have : fCmpInner x y = none := by
    unfold fCmpInner fOrd
    rcases h with h | h
    · rw [hn h]; cases x.neg <;> simp
    · rw [hn h]; cases y.neg <;> simp <;> cases x.neg <;> cases x.form <;> simp
  simp [fPartialCmp, fEq, this]

/-- `==` is equality of the denoted numbers. -/
theorem C59_eq {x y : FloatV} (hx : FloatOk x) (hy : FloatOk y) :
    fEq x y = true ↔ ∃ a, fext x = some a ∧ fext y = some a := by
  cases hxe : fext x with
  | none => rw [(C59_nan (Or.inl hxe)).2]; simp
  | some a =>
    cases hye : fext y with
    | none => rw [(C59_nan (Or.inr hye)).2]; simp
    | some b =>
      have h := (C59_compare hx hy hxe hye).2.1
      have : fEq x y = true ↔ fPartialCmp x y = some .eq := by
        unfold fEq fPartialCmp
        cases fCmpInner x y with
        | none => simp
        | some c =>
          simp only [Option.map_some, Option.some.injEq, beq_iff_eq]
          constructor
          · rintro rfl; simp
          · intro h
            split at h
            · cases h
            · split at h
              · cases h
              · omega
      rw [this, h]
      simp [eq_comm]

example : FloatOk sampleF ∧ FloatOk sampleG ∧ (∃ a, fext sampleF = some a) ∧ ∃ b, fext sampleG = some b :=
  ⟨sampleF_ok, sampleG_ok, ⟨_, rfl⟩, ⟨_, rfl⟩⟩
example : fPartialCmp sampleF sampleG = some .gt ∧ fPartialCmp sampleG sampleFH = some .lt := by decide

/-! ## C60: division -/

theorem rounded_bounds {mode : RoundingMode} {p : Nat} {q r : ℚ} (hp : 1 ≤ p) (hq : q ≠ 0) (h : Rounded mode p q r) :
    |q| / 4 < |r| ∧ |r| < 2 * |q| := by
  rcases h with ⟨h0, _⟩ | ⟨e, k, g1, g2, hr, hk⟩
  · exact absurd h0 hq
  have herr := (C56_rounding_error g1 g2 (Or.inr ⟨e, k, g1, g2, hr, hk⟩)).1
  have hu := two_zpow_pos (e - p)
  have hp1 : (2 : ℚ) ^ (e - p) ≤ 2 ^ (e - 1) := zpow_le_iff.2 (by omega)
  have hs := zsucc (e - 1)
  rw [show e - 1 + 1 = e by ring] at hs
  have hqr := abs_sub_abs_le_abs_sub q r
  have hrq := abs_sub_abs_le_abs_sub r q
  rw [abs_sub_comm] at hrq
  refine ⟨?_, by linarith⟩
  by_cases hp2 : p = 1
  · have hk0 : k ≠ 0 := by
      rintro rfl
      rw [hr] at herr
      simp only [Int.cast_zero, zero_mul, sub_zero] at herr
      linarith
    have hk1 : (1 : ℚ) ≤ |(k : ℚ)| := by exact_mod_cast Int.one_le_abs hk0
    rw [hr, abs_mul, abs_of_pos hu]
    subst hp2
    have : (2 : ℚ) ^ (e - ((1 : Nat) : ℤ)) = 2 ^ (e - 1) := by norm_num
    rw [this] at hu ⊢
    nlinarith
  · have h4 : (2 : ℚ) ^ (e - p) ≤ 2 ^ (e - 2) := zpow_le_iff.2 (by omega)
    have hs2 := zsucc (e - 2)
    rw [show e - 2 + 1 = e - 1 by ring] at hs2
    linarith

/-- The quotient of two finite numbers is never right: its exponent is too small by 29 or more. -/
theorem fUquo_wrong {x y z : FloatV} {a b La Lb : Nat} (hx : IsFin x a La) (hy : IsFin y b Lb) (h : fUquo x y = .ok z)
    (q : ℚ) (hq : |q| = |fval x| / |fval y|) (h1 : 2 ^ (minExp - 1) ≤ |q|) (h2 : |q| < 2 ^ (maxExp - 1)) {mode : RoundingMode} {p : Nat} (hp : 1 ≤ p) :
    ¬ FloatResult mode p q z := by
  rintro ⟨_, _, _, _, h5⟩
  have hq0 : q ≠ 0 := by
    rintro rfl
    rw [abs_zero] at h1
    exact absurd h1 (not_le.2 (two_zpow_pos _))
  cases hf : z.form
  · rw [hf] at h5; exact absurd h5.1 (not_lt.2 h1)
  · rw [hf] at h5
    have hb := (rounded_bounds hp hq0 h5.2.1).1
    have hz := fval_lt_exp z
    have he := fUquo_exp hx hy h hf
    have he' : (2 : ℚ) ^ z.exp ≤ 2 ^ (x.exp - y.exp - 30) := zpow_le_iff.2 he
    obtain ⟨x1, _⟩ := hx.norm.bounds x.exp
    obtain ⟨_, y2⟩ := hy.norm.bounds y.exp
    have hypos := hy.pos
    have hqb : (2 : ℚ) ^ (x.exp - y.exp - 1) < |q| := by
      rw [hq, hx.abs, hy.abs, lt_div_iff₀ hypos]
      calc (2 : ℚ) ^ (x.exp - y.exp - 1) * ((b : ℚ) * 2 ^ (y.exp - 32 * Lb))
          < 2 ^ (x.exp - y.exp - 1) * 2 ^ y.exp := mul_lt_mul_of_pos_left y2 (two_zpow_pos _)
        _ = 2 ^ (x.exp - 1) := by rw [← zadd]; congr 1; ring
        _ ≤ _ := x1
    have : (2 : ℚ) ^ (x.exp - y.exp - 30) ≤ 2 ^ (x.exp - y.exp - 3) := zpow_le_iff.2 (by omega)
    have e2 := zsucc (x.exp - y.exp - 3)
    have e3 := zsucc (x.exp - y.exp - 2)
    rw [show x.exp - y.exp - 3 + 1 = x.exp - y.exp - 2 by ring] at e2
    rw [show x.exp - y.exp - 2 + 1 = x.exp - y.exp - 1 by ring] at e3
    linarith
  · rw [hf] at h5
    obtain ⟨⟨r, hr, hr'⟩, _⟩ := h5
    have := (rounded_bounds hp hq0 hr).2
    have e2 := zsucc (maxExp - 1)
    rw [show maxExp - 1 + 1 = maxExp by ring] at e2
    linarith
  · rw [hf] at h5; exact h5

/-- C60 fails for *every* pair of finite operands whose quotient is within the exponent range. -/
theorem C60_violated {x y z : FloatV} (hx : FloatOk x) (hy : FloatOk y) (fx : x.form = .finite) (fy : y.form = .finite)
    (h1 : 2 ^ (minExp - 1) ≤ |fval x / fval y|) (h2 : |fval x / fval y| < 2 ^ (maxExp - 1)) (h : fDiv x y = .ok z) :
    ¬ FloatResult x.mode x.prec (fval x / fval y) z := by
  obtain ⟨a, La, ha⟩ := hx.fin fx
  obtain ⟨b, Lb, hb⟩ := hy.fin fy
  unfold fDiv fOp at h
  rw [if_neg (by simp [fx, fy]), ha.deepClone] at h
  unfold fDivInner at h
  have hp := ha.prec
  simp only [if_neg (show ¬ x.prec = 0 by omega), fx, fy, and_self, if_true] at h
  have hneg : IsFin { x with neg := x.neg != y.neg } a La :=
    ⟨fx, ha.mant, ha.norm, ha.prec, ha.words, ha.dvd, ha.emin, ha.emax, fval_enc (x := { x with neg := x.neg != y.neg }) fx ha.mant ha.norm.length⟩
  have hab : |fval { x with neg := x.neg != y.neg }| = |fval x| := by rw [hneg.abs, ha.abs]
  refine fUquo_wrong hneg hb ?_ _ ?_ h1 h2 ha.prec
  · simp only [fx]; exact h
  · rw [hab, abs_div]

example : ∃ z, fDiv sampleF sampleG = .ok z := ⟨_, rfl⟩
example : (2 : ℚ) ^ (minExp - 1) ≤ |fval sampleF / fval sampleF| ∧ |fval sampleF / fval sampleF| < 2 ^ (maxExp - 1) := by
  have h : fval sampleF ≠ 0 := by
    obtain ⟨m, L, h⟩ := sampleF_ok.fin rfl
    exact h.ne_zero
  rw [div_self h, abs_one]
  exact ⟨by rw [show (1 : ℚ) = 2 ^ (0 : ℤ) by simp]; exact zpow_le_iff.2 (by decide),
    by rw [show (1 : ℚ) = 2 ^ (0 : ℤ) by simp]; exact zpow_lt_iff.2 (by decide)⟩

/-- 2 in 64 bits -/
def sampleTwo : FloatV := ⟨.toNearestEven, .exact, .finite, false, 64, 2, [0#32, 0x80000000#32]⟩

/-- `6 / 2` is not 3, but `2^-95`. -/
theorem C60_six_halves : ∃ z, fDiv sampleF sampleTwo = .ok z ∧ z.form = .finite ∧ z.mant = [0x80000000#32] ∧ z.exp = -94 :=
  ⟨_, rfl, by decide, by decide, by decide⟩

/-- 7 in 64 bits -/
def sampleSeven : FloatV := ⟨.toNearestEven, .exact, .finite, false, 64, 3, [0#32, 0xE0000000#32]⟩

/-- `6 / 7` is "finite" with an empty mantissa: the object no longer satisfies the invariant. -/
theorem C60_breaks_invariant : FloatOk sampleSeven ∧ ∃ z, fDiv sampleF sampleSeven = .ok z ∧ ¬ FloatOk z := by
  refine ⟨by unfold FloatOk; decide, _, rfl, ?_⟩
  unfold FloatOk
  decide

/-- What the quotient is, if the mantissa of `x`, read as an integer, is at least that of `y`: the integer quotient of the two
mantissas, raised by a tail below `2^-32` if the division leaves a remainder and the quotient does not fit into the precision,
scaled by `2^(exp x - exp y - 32·(prec/32 + 1))` and rounded correctly. -/
theorem C60_described {x y : FloatV} (hx : FloatOk x) (hy : FloatOk y) (fx : x.form = .finite) (fy : y.form = .finite)
    (hq : val y.mant ≤ val x.mant) :
    ∃ z, fDiv x y = .ok z ∧ FloatResult x.mode x.prec ((if x.neg = y.neg then 1 else -1) *
      (((val x.mant / val y.mant : Nat) + quoTail x.prec (val x.mant) (val y.mant)) *
        2 ^ (x.exp - y.exp - 32 * (x.prec / 32 + 1 : Nat)))) z := by
  obtain ⟨a, La, ha⟩ := hx.fin fx
  obtain ⟨b, Lb, hb⟩ := hy.fin fy
  rw [ha.mant, hb.mant, val_enc, val_enc] at hq ⊢
  unfold fDiv fOp
  rw [if_neg (by simp [fx, fy]), ha.deepClone]
  unfold fDivInner
  have hp := ha.prec
  simp only [if_neg (show ¬ x.prec = 0 by omega), fx, fy, and_self, if_true]
  have hneg : IsFin { x with neg := x.neg != y.neg } a La :=
    ⟨fx, ha.mant, ha.norm, ha.prec, ha.words, ha.dvd, ha.emin, ha.emax,
      fval_enc (x := { x with neg := x.neg != y.neg }) fx ha.mant ha.norm.length⟩
  obtain ⟨z, h1, h2⟩ := fUquo_result hneg hb (Nat.div_pos hq (Nat.pos_of_ne_zero hb.norm.ne_zero)).ne'
  refine ⟨z, ?_, ?_⟩
  · rw [fx] at h1; exact h1
  · have : sgn (x.neg != y.neg) = if x.neg = y.neg then 1 else -1 := by
      cases x.neg <;> cases y.neg <;> simp [sgn]
    simp only [this] at h2
    exact h2

/-- … and if it is smaller, the quotient is an object that is not a `Float`: of a finite kind, with mantissa zero (or it is
zero, if the exponent is too small). -/
theorem C60_described_small {x y : FloatV} (hx : FloatOk x) (hy : FloatOk y) (fx : x.form = .finite) (fy : y.form = .finite)
    (hq : val x.mant < val y.mant) (hp : 32 ≤ x.prec) :
    ∃ z, fDiv x y = .ok z ∧ ((z.form = .finite ∧ val z.mant = 0 ∧ ¬ FloatOk z) ∨ z.form = .zero ∨ z.form = .inf) := by
  obtain ⟨a, La, ha⟩ := hx.fin fx
  obtain ⟨b, Lb, hb⟩ := hy.fin fy
  rw [ha.mant, hb.mant, val_enc, val_enc] at hq
  unfold fDiv fOp
  rw [if_neg (by simp [fx, fy]), ha.deepClone]
  unfold fDivInner
  have hp1 := ha.prec
  simp only [if_neg (show ¬ x.prec = 0 by omega), fx, fy, and_self, if_true]
  have hneg : IsFin { x with neg := x.neg != y.neg } a La :=
    ⟨fx, ha.mant, ha.norm, ha.prec, ha.words, ha.dvd, ha.emin, ha.emax,
      fval_enc (x := { x with neg := x.neg != y.neg }) fx ha.mant ha.norm.length⟩
  obtain ⟨e, s, h1⟩ := fUquo_small hneg hb (Nat.div_eq_of_lt hq)
  rw [fx] at h1
  rw [h1]
  unfold fSetExpAndRound
  split
  · exact ⟨_, rfl, Or.inr (Or.inl rfl)⟩
  split
  · exact ⟨_, rfl, Or.inr (Or.inr rfl)⟩
  · unfold fRound
    simp only [ne_eq, not_true_eq_false, if_false, enc_zero, List.length_cons, List.length_nil]
    rw [if_pos (by omega)]
    refine ⟨_, rfl, Or.inl ⟨rfl, by simp [val], fun h => ?_⟩⟩
    have := (h rfl).2.1
    simp [val] at this

example : FloatOk sampleF ∧ FloatOk sampleTwo ∧ val sampleTwo.mant ≤ val sampleF.mant ∧ val sampleF.mant / val sampleTwo.mant = 1 :=
  ⟨sampleF_ok, by unfold FloatOk; decide, by decide, by decide⟩
example : FloatOk sampleSeven ∧ val sampleF.mant < val sampleSeven.mant ∧ 32 ≤ sampleF.prec :=
  ⟨by unfold FloatOk; decide, by decide, by decide⟩

/-- Quotients with a zero or an infinity, the dividend not being infinite.  Missing: infinite dividends
(`C60_violated_inf`) and finite operands (`C60_violated`). -/
theorem C60_special_partial {x y : FloatV} (hx : x.form ≠ .nan) (hy : y.form ≠ .nan) (h : ¬ (x.form = .finite ∧ y.form = .finite))
    (hi : x.form ≠ .inf) :
    ∃ z, fDiv x y = .ok z ∧ z.acc = .exact ∧ z.mode = x.mode ∧
      (if x.form = .zero ∧ y.form = .zero then z.form = .nan
       else z.neg = (x.neg != y.neg) ∧ z.form = if y.form = .zero then .inf else .zero) := by
  obtain ⟨d1, d2, d3, d4, d5, d6⟩ := fDeepClone_fields x
  unfold fDiv fOp
  rw [if_neg (by simp [hx, hy])]
  unfold fDivInner
  generalize fDeepClone x = w at *
  rw [← d3] at h hx hi ⊢
  rw [← d4, ← d1]
  cases hw : w.form <;> cases hyf : y.form <;>
    simp only [hw, hyf, ne_eq, not_true_eq_false, and_self, reduceCtorEq] at hx hy h hi <;>
    by_cases hp : w.prec = 0 <;> simp [hp, hw]

/-- An infinite dividend gives NaN, whatever the divisor. -/
theorem C60_violated_inf {x y : FloatV} (hx : x.form = .inf) : ∃ z, fDiv x y = .ok z ∧ z.form = .nan := by
  obtain ⟨d1, d2, d3, d4, d5, d6⟩ := fDeepClone_fields x
  unfold fDiv fOp
  split
  · exact ⟨_, rfl, rfl⟩
  unfold fDivInner
  generalize fDeepClone x = w at *
  rw [hx] at d3
  by_cases hp : w.prec = 0 <;> simp [hp, d3]

/-! ## C61: truncation -/

theorem C61_truncate_to_u64 {x : FloatV} (hx : FloatOk x) :
    (x.form = .nan → fTruncU64 x = none) ∧
    (x.form = .inf → fTruncU64 x = if x.neg then some (0#64, .above) else some (BitVec.allOnes 64, .below)) ∧
    (x.form = .zero ∨ x.form = .finite → ∃ u a, fTruncU64 x = some (u, a) ∧
      (u.toNat : ℤ) = clampZ 0 (2 ^ 64 - 1) (truncZ (fval x)) ∧ a = accOf (fval x) u.toNat) := by
  refine ⟨fun h => by simp [fTruncU64, h], fun h => by simp [fTruncU64, h], ?_⟩
  rintro (h | h)
  · refine ⟨0#64, .exact, by simp [fTruncU64, h], ?_, ?_⟩
    · simp [fval, h, truncZ, clampZ]
    · simp [fval, h, accOf]
  · obtain ⟨m, L, hm⟩ := hx.fin h
    exact fTruncU64_fin hm

theorem C61_truncate_to_i64 {x : FloatV} (hx : FloatOk x) :
    (x.form = .nan → fTruncI64 x = none) ∧
    (x.form = .inf → ∃ u, fTruncI64 x = some (u, if x.neg then .above else .below) ∧
      u.toInt = if x.neg then -2 ^ 63 else 2 ^ 63 - 1) ∧
    (x.form = .zero ∨ x.form = .finite → ∃ u a, fTruncI64 x = some (u, a) ∧
      u.toInt = clampZ (-2 ^ 63) (2 ^ 63 - 1) (truncZ (fval x)) ∧ a = accOf (fval x) u.toInt) := by
  refine ⟨fun h => by simp [fTruncI64, h], ?_, ?_⟩
  · intro h
    cases hn : x.neg
    · exact ⟨BitVec.intMax 64, by simp [fTruncI64, h, hn], by decide⟩
    · exact ⟨BitVec.intMin 64, by simp [fTruncI64, h, hn], by decide⟩
  rintro (h | h)
  · refine ⟨0#64, .exact, by simp [fTruncI64, h], ?_, ?_⟩
    · simp [fval, h, truncZ, clampZ]
    · simp [fval, h, accOf]
  · obtain ⟨m, L, hm⟩ := hx.fin h
    exact fTruncI64_fin hm

example : fTruncI64 sampleG = some (-2#64, .above) ∧ fTruncU64 sampleF = some (6#64, .exact) := by decide

/-! ## C62: from integers and doubles -/

theorem FloatResult.exactly {mode : RoundingMode} {p : Nat} {q : ℚ} {z : FloatV} (h : FloatResult mode p q z)
    (hr : Rounded mode p q q) (h1 : q ≠ 0 → 2 ^ (minExp - 1) ≤ |q|) (h2 : |q| < 2 ^ maxExp) : Exactly q z := by
  by_cases h0 : q = 0
  · subst h0
    obtain ⟨f1, f2⟩ := h.zero_form
    refine ⟨h.2.2.1, ?_, f2⟩
    simp [fext, f1, fval]
  · obtain ⟨f1, f2, f3⟩ := h.exact hr (h1 h0) h2
    refine ⟨h.2.2.1, ?_, f3⟩
    simp [fext, f1, f2]

theorem one_le_range {q : ℚ} (h : 1 ≤ |q|) : 2 ^ (minExp - 1) ≤ |q| := by
  refine le_trans ?_ h
  rw [show (1 : ℚ) = 2 ^ (0 : ℤ) by simp]
  exact zpow_le_iff.2 (by decide)

theorem sgn_nat_range {neg : Bool} {n : Nat} (h : sgn neg * (n : ℚ) ≠ 0) : 2 ^ (minExp - 1) ≤ |sgn neg * (n : ℚ)| := by
  apply one_le_range
  have : n ≠ 0 := by rintro rfl; simp at h
  have h1 : (1 : ℚ) ≤ n := by exact_mod_cast Nat.one_le_iff_ne_zero.2 this
  cases neg <;> simp [sgn] <;> omega

theorem sgn_nat_abs {neg : Bool} {n : Nat} : |sgn neg * (n : ℚ)| = n := by
  cases neg <;> simp [sgn]

theorem lt_maxExp {q : ℚ} {n : Nat} (h : q < 2 ^ n) (hn : (n : ℤ) ≤ maxExp) : q < 2 ^ maxExp := by
  refine lt_of_lt_of_le h ?_
  have : (2 : ℚ) ^ (n : ℤ) ≤ 2 ^ maxExp := zpow_le_iff.2 hn
  rwa [zpow_natCast] at this

theorem fSetBits_default (neg : Bool) (x : D) : ∃ z, fSetBits fDefault neg x = .ok z ∧ Exactly (sgn neg * (x.toNat : ℚ)) z := by
  obtain ⟨z, h1, h2⟩ := fSetBits_result fDefault neg x
  refine ⟨z, h1, h2.exactly ?_ sgn_nat_range ?_⟩
  · simp only [fDefault, if_true]; exact rounded_nat _ _ x.isLt
  · rw [sgn_nat_abs]
    exact lt_maxExp (n := 64) (by exact_mod_cast x.isLt) (by decide)

theorem C62_from_u64 (x : D) : ∃ z, fFromU64 x = .ok z ∧ Exactly (x.toNat : ℚ) z := by
  obtain ⟨z, h1, h2⟩ := fSetBits_default false x
  exact ⟨z, h1, by simpa [sgn] using h2⟩

theorem sgn_abs_toInt (x : D) : sgn x.msb * (((if x.msb then -x else x).toNat : Nat) : ℚ) = (x.toInt : ℚ) := by
  have h := BitVec.msb_eq_decide x
  have hl := x.isLt
  rw [BitVec.toInt_eq_msb_cond]
  cases hm : x.msb
  · simp [sgn]
  · rw [hm] at h
    have h' : 2 ^ 63 ≤ x.toNat := by simpa using h.symm
    simp only [if_true, sgn, BitVec.toNat_neg]
    rw [Nat.mod_eq_of_lt (by omega)]
    rw [Nat.cast_sub hl.le]
    push_cast
    ring

/-- Missing: `i64::MIN`, which panics in a build with overflow checks. -/
theorem C62_from_i64_partial (x : D) (hx : x.toInt ≠ -2 ^ 63) : ∃ z, fFromI64 x = .ok z ∧ Exactly (x.toInt : ℚ) z := by
  obtain ⟨z, h1, h2⟩ := fSetBits_default x.msb (if x.msb then -x else x)
  rw [sgn_abs_toInt] at h2
  refine ⟨z, ?_, h2⟩
  unfold fFromI64 fSetI64
  rw [if_neg (by rintro rfl; exact hx (by decide))]
  exact h1

theorem C62_from_i64_min : fFromI64 (BitVec.intMin 64) = .error .panic := by decide

/-- Without overflow checks every `i64` is converted exactly. -/
theorem C62_from_i64_wrapping (x : D) : ∃ z, fSetI64Wrap fDefault x = .ok z ∧ Exactly (x.toInt : ℚ) z := by
  obtain ⟨z, h1, h2⟩ := fSetBits_default x.msb (if x.msb then -x else x)
  rw [sgn_abs_toInt] at h2
  exact ⟨z, h1, h2⟩

example : (-5#64).toInt ≠ -2 ^ 63 := by decide

theorem fSetNat_default (n : Nat) (neg : Bool) (h : (n : ℚ) < 2 ^ maxExp) :
    ∃ z, fSetNat fDefault (enc n) neg = .ok z ∧ Exactly (sgn neg * (n : ℚ)) z := by
  obtain ⟨z, h1, h2⟩ := fSetNat_result fDefault n neg
  refine ⟨z, h1, h2.exactly ?_ sgn_nat_range (by rw [sgn_nat_abs]; exact h)⟩
  simp only [fDefault, if_true]
  exact rounded_nat _ _ (lt_of_lt_of_le (lt_pow_bitLen n) (Nat.pow_le_pow_right (by decide) (le_max_left _ _)))

theorem C62_from_nat {x : Words} (hx : Canon x) (h : (val x : ℚ) < 2 ^ maxExp) :
    ∃ z, fFromNat x = .ok z ∧ Exactly (val x : ℚ) z := by
  obtain ⟨n, rfl⟩ := canon_iff_enc.1 hx
  rw [val_enc] at *
  obtain ⟨z, h1, h2⟩ := fSetNat_default n false h
  exact ⟨z, h1, by simpa [sgn] using h2⟩

theorem C62_from_bigint {x : BInt} (hx : Canon x.nat) (h : (val x.nat : ℚ) < 2 ^ maxExp) :
    ∃ z, fFromBigInt x = .ok z ∧ Exactly (ival x : ℚ) z := by
  obtain ⟨n, hn⟩ := canon_iff_enc.1 hx
  obtain ⟨xn, neg⟩ := x
  simp only at hn; subst hn
  rw [val_enc] at h
  obtain ⟨z, h1, h2⟩ := fSetNat_default n neg h
  refine ⟨z, h1, ?_⟩
  have : ((ival ⟨enc n, neg⟩ : Int) : ℚ) = sgn neg * n := by
    rw [ival_mk]; cases neg <;> simp [sg, sgn]
  rw [this]; exact h2

/-- Naturals of more than `maxExp` bits become an infinity. -/
theorem C62_from_nat_overflow {x : Words} (hx : Canon x) (h : (2 : ℚ) ^ maxExp ≤ val x) :
    ∃ z, fFromNat x = .ok z ∧ z.form = .inf ∧ z.neg = false ∧ z.acc = .above := by
  obtain ⟨n, rfl⟩ := canon_iff_enc.1 hx
  rw [val_enc] at *
  have hpos : (0 : ℚ) < n := lt_of_lt_of_le (two_zpow_pos _) h
  obtain ⟨z, h1, h2⟩ := fSetNat_result fDefault n false
  refine ⟨z, h1, ?_⟩
  have hq : sgn false * (n : ℚ) = n := by simp [sgn]
  rw [hq] at h2
  obtain ⟨_, _, h3, h4, h5⟩ := h2
  have hneg : z.neg = false := by rw [h4 hpos.ne']; simp [hpos.le]
  have hr : Rounded fDefault.mode (max (bitLen n) 64) (n : ℚ) n := by
    have := rounded_nat fDefault.mode (p := max (bitLen n) 64) (n := n) false
      (lt_of_lt_of_le (lt_pow_bitLen n) (Nat.pow_le_pow_right (by decide) (le_max_left _ _)))
    rwa [hq] at this
  cases hf : z.form
  · rw [hf] at h5
    have := h5.1
    rw [abs_of_pos hpos] at this
    have : (2 : ℚ) ^ (minExp - 1) < 2 ^ maxExp := zpow_lt_iff.2 (by decide)
    linarith
  · rw [hf] at h5
    have he := h5.2.1
    simp only [fDefault, if_true] at he
    have := he.unique hr
    have hl := fval_lt_exp z
    rw [this, abs_of_pos hpos] at hl
    have hmax := (h3.fin hf)
    obtain ⟨m, L, hm⟩ := hmax
    have : (2 : ℚ) ^ z.exp ≤ 2 ^ maxExp := zpow_le_iff.2 hm.emax
    linarith
  · rw [hf] at h5
    refine ⟨rfl, hneg, ?_⟩
    rw [h5.2, if_neg (not_lt.2 hpos.le)]
  · rw [hf] at h5; exact h5.elim

theorem Rounded.scale {mode : RoundingMode} {p : Nat} {q r : ℚ} (h : Rounded mode p q r) (k : ℤ) :
    Rounded mode p (q * 2 ^ k) (r * 2 ^ k) := by
  have hk := two_zpow_pos k
  rcases h with ⟨rfl, rfl⟩ | ⟨e, c, h1, h2, h3, h4⟩
  · left; simp
  · right
    refine ⟨e + k, c, ?_, ?_, ?_, ?_⟩
    · rw [abs_mul, abs_of_pos hk, show e + k - 1 = e - 1 + k by ring, zadd]
      exact mul_le_mul_of_nonneg_right h1 hk.le
    · rw [abs_mul, abs_of_pos hk, zadd]
      exact mul_lt_mul_of_pos_right h2 hk
    · rw [h3, mul_assoc, ← zadd]; congr 2; ring
    · rw [show e + k - p = e - p + k by ring, zadd, mul_div_mul_right _ _ hk.ne']
      exact h4

theorem b64_value_form (c : Nat) : ∃ (N : Nat) (k : ℤ), N < 2 ^ 53 ∧ b64.value c = (N : ℚ) * 2 ^ k := by
  unfold Fmt.value
  have h : c % 2 ^ b64.mb < 2 ^ 52 := Nat.mod_lt _ (by norm_num)
  simp only
  split
  · exact ⟨c % 2 ^ b64.mb, _, by omega, rfl⟩
  · refine ⟨2 ^ b64.mb + c % 2 ^ b64.mb, ((c / 2 ^ b64.mb : Nat) : ℤ) - b64.bias - b64.mb, ?_, ?_⟩
    · have : 2 ^ b64.mb = 2 ^ 52 := rfl
      omega
    · push_cast; rfl

theorem C62_from_f64 (x : D) (hx : mag64 x < b64.inf) : ∃ z, fFromF64 x = .ok z ∧ Exactly (f64val x) z := by
  obtain ⟨z, h1, h2⟩ := fSetF64_result fDefault x hx
  refine ⟨z, h1, h2.exactly ?_ ?_ ?_⟩
  · simp only [fDefault, if_true]
    obtain ⟨N, k, hN, hv⟩ := b64_value_form (mag64 x)
    rw [f64val_msb, hv, ← mul_assoc]
    exact (rounded_nat _ _ hN).scale k
  · intro h0
    rw [f64val_msb] at h0 ⊢
    have hm : mag64 x ≠ 0 := by rintro h; rw [h, b64.value_zero, mul_zero] at h0; exact h0 rfl
    have hb := (b64_value_bounds hm hx).1
    have hpos := lt_of_lt_of_le (two_zpow_pos _) hb
    rw [sgn_abs _ _ hpos.le]
    exact le_trans (zpow_le_iff.2 (by decide)) hb
  · rw [f64val_msb]
    by_cases hm : mag64 x = 0
    · rw [hm, b64.value_zero, mul_zero, abs_zero]; exact two_zpow_pos _
    · obtain ⟨hb, hb'⟩ := b64_value_bounds hm hx
      have hpos := lt_of_lt_of_le (two_zpow_pos _) hb
      rw [sgn_abs _ _ hpos.le]
      exact lt_trans hb' (zpow_lt_iff.2 (by decide))

/-- The special doubles. -/
theorem C62_from_f64_special (x : D) :
    (mag64 x = b64.inf → ∃ z, fFromF64 x = .ok z ∧ z.form = .inf ∧ z.neg = x.msb) ∧
    (b64.inf < mag64 x → ∃ z, fFromF64 x = .ok z ∧ z.form = .nan) := by
  constructor
  · intro h
    have hz : f64IsZero x = false := by
      have : b64.inf ≠ 0 := by decide
      unfold f64IsZero; simp; omega
    unfold fFromF64 fSetF64
    rw [if_neg (by omega)]
    simp [fDefault, hz, h]
  · intro h
    unfold fFromF64 fSetF64
    rw [if_pos h]
    exact ⟨_, rfl, rfl⟩

example : mag64 0xC004CCCCCCCCCCCD#64 < b64.inf ∧ mag64 1#64 < b64.inf := by decide

/-! ## C76: to machine floats -/

/-- The result is the nearest double, ties to even, with the sign of the number, and the flag compares it with the number.
Missing: numbers strictly between `2^-1075` and `2^-1074`, for which the code returns `2^-1022` (`C76_violated_f64`). -/
theorem C76_to_f64_partial {x : FloatV} (hx : FloatOk x) (hf : x.form = .finite)
    (h : ¬ ((2 : ℚ) ^ (-1075 : ℤ) < |fval x| ∧ |fval x| < 2 ^ (-1074 : ℤ))) :
    ∃ c a, fToF64 x = .ok (mk64 x.neg c, a) ∧ b64.Nearest |fval x| c ∧
      a = if c = b64.inf then (if x.neg then .below else .above) else accOf (fval x) (f64val (mk64 x.neg c)) := by
  obtain ⟨m, L, hm⟩ := hx.fin hf
  obtain ⟨c, h1, h2⟩ := fToF64_fin hm h
  refine ⟨c, _, h1, h2, ?_⟩
  unfold fmtAcc
  by_cases hc : c = b64.inf
  · rw [if_pos hc, if_pos hc]
  · rw [if_neg hc, if_neg hc, f64val_msb]
    have hlt : c < 2 ^ 63 := by
      rcases h2 with h2 | h2
      · exact lt_trans h2.1 (by decide)
      · exact absurd h2.1 hc
    have e1 : (mk64 x.neg c).msb = x.neg := by
      rw [BitVec.msb_eq_decide, mk64_toNat _ _ hlt]
      cases x.neg <;> simp <;> omega
    have e2 : mag64 (mk64 x.neg c) = c := by
      unfold mag64; rw [mk64_toNat _ _ hlt]
      cases x.neg <;> simp <;> omega
    rw [e1, e2]

theorem C76_to_f32_partial {x : FloatV} (hx : FloatOk x) (hf : x.form = .finite)
    (h : ¬ ((2 : ℚ) ^ (-150 : ℤ) < |fval x| ∧ |fval x| < 2 ^ (-149 : ℤ))) :
    ∃ c a, fToF32 x = .ok (mk32 x.neg c, a) ∧ b32.Nearest |fval x| c ∧
      a = if c = b32.inf then (if x.neg then .below else .above) else
        accOf (fval x) ((if x.neg then -1 else 1) * b32.value c) := by
  obtain ⟨m, L, hm⟩ := hx.fin hf
  obtain ⟨c, h1, h2⟩ := fToF32_fin hm h
  exact ⟨c, _, h1, h2, rfl⟩

/-- What the code does in the gap, for every number there: it returns the least *normal* number, whose magnitude is
`2^52` (`2^23`) times that of the nearest one, and `to_f64` drops the sign as well. -/
theorem C76_gap {x : FloatV} (hx : FloatOk x) (hf : x.form = .finite) :
    ((2 : ℚ) ^ (-1075 : ℤ) < |fval x| → |fval x| < 2 ^ (-1074 : ℤ) →
      fToF64 x = .ok (mk64 false (2 ^ 52), if x.neg then .below else .above) ∧ b64.Nearest |fval x| 1 ∧
      b64.value (2 ^ 52) = 2 ^ 52 * b64.value 1) ∧
    ((2 : ℚ) ^ (-150 : ℤ) < |fval x| → |fval x| < 2 ^ (-149 : ℤ) →
      fToF32 x = .ok (mk32 x.neg (2 ^ 23), if x.neg then .below else .above) ∧ b32.Nearest |fval x| 1 ∧
      b32.value (2 ^ 23) = 2 ^ 23 * b32.value 1) := by
  obtain ⟨m, L, hm⟩ := hx.fin hf
  refine ⟨fun h1 h2 => ⟨fToF64_gap hm h1 h2, ?_, ?_⟩, fun h1 h2 => ⟨fToF32_gap hm h1 h2, ?_, ?_⟩⟩
  · have e : b64.value 1 = 2 ^ (-1074 : ℤ) := by rw [b64.value_one, b64_bias, b64_mb]; norm_num
    have e2 : (2 : ℚ) ^ (-1074 : ℤ) = 2 * 2 ^ (-1075 : ℤ) := by rw [show (-1074 : ℤ) = 1 + -1075 by norm_num, zadd]; norm_num
    exact b64.nearest_one (by rw [e, e2]; linarith) (by rw [e]; exact h2)
  · exact b64.value_normal
  · have e : b32.value 1 = 2 ^ (-149 : ℤ) := by rw [b32.value_one, b32_bias, b32_mb]; norm_num
    have e2 : (2 : ℚ) ^ (-149 : ℤ) = 2 * 2 ^ (-150 : ℤ) := by rw [show (-149 : ℤ) = 1 + -150 by norm_num, zadd]; norm_num
    exact b32.nearest_one (by rw [e, e2]; linarith) (by rw [e]; exact h2)
  · exact b32.value_normal

/-- 3/4 of the least positive double -/
def sampleTinyNeg : FloatV := ⟨.toNearestEven, .exact, .finite, true, 64, -1074, [0#32, 0xC0000000#32]⟩

/-- `-3/4 · 2^-1074` becomes plus `2^-1022` instead of minus `2^-1074`. -/
theorem C76_violated_f64 : FloatOk sampleTinyNeg ∧ fToF64 sampleTinyNeg = .ok (mk64 false (2 ^ 52), .below) ∧
    mk64 false (2 ^ 52) ≠ mk64 true 1 := by
  refine ⟨by unfold FloatOk; decide, rfl, by decide⟩

/-- `3/4 · 2^-149` becomes `2^-126` instead of `2^-149`. -/
theorem C76_violated_f32 : ∃ x, FloatOk x ∧ fval x = 3 / 4 * 2 ^ (-149 : ℤ) ∧ fToF32 x = .ok (mk32 false (2 ^ 23), .above) := by
  refine ⟨⟨.toNearestEven, .exact, .finite, false, 64, -149, [0#32, 0xC0000000#32]⟩, by unfold FloatOk; decide, ?_, rfl⟩
  have : val [0#32, 0xC0000000#32] = 3 * 2 ^ 62 := by decide
  simp only [fval, if_true, this, List.length_cons, List.length_nil]
  norm_num

/-- The gap is not empty. -/
example : FloatOk sampleTinyNeg ∧ sampleTinyNeg.form = .finite ∧ (2 : ℚ) ^ (-1075 : ℤ) < |fval sampleTinyNeg| ∧
    |fval sampleTinyNeg| < 2 ^ (-1074 : ℤ) := by
  have hv : fval sampleTinyNeg = -(3 / 4 * 2 ^ (-1074 : ℤ)) := by
    have : val [0#32, 0xC0000000#32] = 3 * 2 ^ 62 := by decide
    simp only [fval, sampleTinyNeg, if_true, this, List.length_cons, List.length_nil]
    norm_num
  have h0 := two_zpow_pos (-1075)
  have e2 : (2 : ℚ) ^ (-1074 : ℤ) = 2 * 2 ^ (-1075 : ℤ) := by rw [show (-1074 : ℤ) = 1 + -1075 by norm_num, zadd]; norm_num
  rw [hv, abs_neg, abs_of_pos (by rw [e2]; linarith), e2]
  exact ⟨by unfold FloatOk; decide, rfl, by linarith, by linarith⟩

theorem C76_special {x : FloatV} :
    (x.form = .zero → fToF64 x = .ok (mk64 x.neg 0, .exact) ∧ fToF32 x = .ok (mk32 x.neg 0, .exact)) ∧
    (x.form = .inf → fToF64 x = .ok (mk64 x.neg b64.inf, .exact) ∧ fToF32 x = .ok (mk32 x.neg b32.inf, .exact)) ∧
    (x.form = .nan → ∃ u v, fToF64 x = .ok (u, .exact) ∧ b64.inf < mag64 u ∧ fToF32 x = .ok (v, .exact) ∧
      b32.inf < v.toNat % 2 ^ 31) := by
  refine ⟨fun h => by simp [fToF64, fToF32, h], fun h => by simp [fToF64, fToF32, h], fun h => ?_⟩
  exact ⟨0x7ff8000000000000#64, 0x7fc00000#32, by simp [fToF64, h], by decide, by simp [fToF32, h], by decide⟩

example : FloatOk sampleG ∧ fToF64 sampleG = .ok (0xC002AAAAAAA00000#64, .exact) := ⟨sampleG_ok, rfl⟩

/-! ## C77: mantissa and exponent -/

theorem isizeSatAdd_round (x : FloatV) (h1 : minExp ≤ x.exp) (h2 : x.exp ≤ maxExp) (e : ℤ) :
    fSetExpAndRound x (isizeSatAdd x.exp e) 0 = fSetExpAndRound x (x.exp + e) 0 := by
  have hmin : minExp = -2 ^ 31 := rfl
  have hmax : maxExp = 2 ^ 31 - 1 := rfl
  by_cases ha : 2 ^ 63 - 1 < x.exp + e
  · have e1 : isizeSatAdd x.exp e = 2 ^ 63 - 1 := by unfold isizeSatAdd; omega
    rw [e1]
    unfold fSetExpAndRound
    rw [if_neg (by omega), if_pos (by omega), if_neg (by omega), if_pos (by omega)]
  · by_cases hb : x.exp + e < -2 ^ 63
    · have e1 : isizeSatAdd x.exp e = -2 ^ 63 := by unfold isizeSatAdd; omega
      rw [e1]
      unfold fSetExpAndRound
      rw [if_pos (by omega), if_pos (by omega)]
    · have e1 : isizeSatAdd x.exp e = x.exp + e := by unfold isizeSatAdd; omega
      rw [e1]

/-- `set_mant_exp(m, e)` is `m · 2^e`, for every `e`: the value, or zero or infinity beyond the exponent range. -/
theorem C77_set_mant_exp {m : FloatV} (hm : FloatOk m) (hf : m.form = .finite) (e : ℤ) :
    ∃ z, fSetMantExp m e = .ok z ∧ FloatResult m.mode m.prec (fval m * 2 ^ e) z := by
  obtain ⟨c, L, h⟩ := hm.fin hf
  obtain ⟨z, h1, h2⟩ := fSetExpAndRound_result h.mant h.norm h.prec (m.exp + e)
  refine ⟨z, ?_, ?_⟩
  · unfold fSetMantExp
    rw [if_pos hf, isizeSatAdd_round m h.emin h.emax]; exact h1
  · rw [h.val, mul_assoc, mul_assoc, ← zadd, show m.exp - 32 * (L : ℤ) + e = m.exp + e - 32 * L by ring]
    exact h2

theorem fval_representable {x : FloatV} (hx : FloatOk x) (hf : x.form = .finite) : Rounded x.mode x.prec (fval x) (fval x) := by
  obtain ⟨m, L, h⟩ := hx.fin hf
  have := h.result x.mode (le_refl x.prec)
  have h5 := this.2.2.2.2
  simp only [hf] at h5
  have e : fval { x with acc := .exact, form := .finite } = fval x := by simp [fval, hf]
  rw [← e]
  have h6 := h5.2.1
  rw [← e] at h6
  exact h6

/-- `mant_exp` splits a number into a fraction in `[1/2, 1)` and an exponent, and `set_mant_exp` puts them together. -/
theorem C77_mant_exp {x : FloatV} (hx : FloatOk x) (hf : x.form = .finite) :
    FloatOk (fMantExp x).1 ∧ (fMantExp x).1.form = .finite ∧ (fMantExp x).1.prec = x.prec ∧
    1 / 2 ≤ |fval (fMantExp x).1| ∧ |fval (fMantExp x).1| < 1 ∧ fval x = fval (fMantExp x).1 * 2 ^ (fMantExp x).2 ∧
    ∃ z, fSetMantExp (fMantExp x).1 (fMantExp x).2 = .ok z ∧ Exactly (fval x) z ∧ z.mode = x.mode ∧ z.prec = x.prec := by
  obtain ⟨c, L, h⟩ := hx.fin hf
  have hM : fMantExp x = ({ x with exp := 0 }, x.exp) := by
    unfold fMantExp
    simp only [h.deepClone, hf, if_true]
  have hI : IsFin { x with exp := 0 } c L :=
    ⟨hf, h.mant, h.norm, h.prec, h.words, h.dvd, show minExp ≤ 0 by decide, show 0 ≤ maxExp by decide, fval_enc (x := { x with exp := 0 }) hf h.mant h.norm.length⟩
  have hv : fval x = fval { x with exp := 0 } * 2 ^ x.exp := by
    rw [h.val, hI.val, mul_assoc, mul_assoc, ← zadd]; congr 3; simp; ring
  obtain ⟨b1, b2⟩ := hI.norm.bounds 0
  rw [hM]
  refine ⟨hI.ok, hf, rfl, ?_, ?_, hv, ?_⟩
  · rw [hI.abs]; refine le_trans ?_ b1; norm_num
  · rw [hI.abs]; refine lt_of_lt_of_le b2 ?_; norm_num
  · obtain ⟨z, h1, h2⟩ := C77_set_mant_exp hI.ok hf x.exp
    rw [← hv] at h2
    refine ⟨z, h1, h2.exactly ?_ ?_ ?_, h2.1, h2.2.1⟩
    · exact fval_representable hx hf
    · intro _
      obtain ⟨n1, _⟩ := h.norm.bounds x.exp
      rw [h.abs]
      exact le_trans (zpow_le_iff.2 (by have := h.emin; omega)) n1
    · obtain ⟨_, n2⟩ := h.norm.bounds x.exp
      rw [h.abs]
      exact lt_of_lt_of_le n2 (zpow_le_iff.2 h.emax)

example : ∃ z, fSetMantExp sampleFH (2 ^ 62) = .ok z ∧ z.form = .inf := ⟨_, rfl, by decide⟩

/-! ## C78: whether the number is an integer; how many bits it needs -/

theorem C78_is_integer {x : FloatV} (hx : FloatOk x) :
    (x.form = .nan → fIsInteger x = none) ∧ (x.form = .inf → fIsInteger x = some false) ∧
    (x.form = .zero ∨ x.form = .finite → ∃ b, fIsInteger x = some b ∧ (b = true ↔ ∃ k : ℤ, fval x = k)) := by
  refine ⟨fun h => by simp [fIsInteger, h], fun h => by simp [fIsInteger, h], ?_⟩
  rintro (h | h)
  · refine ⟨true, by simp [fIsInteger, h], ?_⟩
    simp only [true_iff]
    exact ⟨0, by simp [fval, h]⟩
  · obtain ⟨m, L, hm⟩ := hx.fin h
    exact fIsInteger_fin hm

/-- `required_min_precision` is the least `n` such that the number is an `n`-bit integer times a power of two. -/
theorem C78_required_min_precision {x : FloatV} (hx : FloatOk x) (hf : x.form = .finite) (n : Nat) :
    fMinPrec x ≤ n ↔ ∃ k e : ℤ, |k| < 2 ^ n ∧ fval x = k * 2 ^ e := by
  obtain ⟨m, L, h⟩ := hx.fin hf
  rw [minPrec_le h]
  obtain ⟨b1, b2⟩ := h.norm.bounds x.exp
  have hne := h.norm.ne_zero
  constructor
  · rintro ⟨c, hc⟩
    have hmlt : m < 2 ^ (32 * L) := h.norm.hi
    refine ⟨sgnZ x.neg * c, x.exp - 32 * L + ((32 * L - n : Nat) : ℤ), ?_, ?_⟩
    · have hc' : c < 2 ^ n := by
        by_cases hn : n ≤ 32 * L
        · by_contra hcon
          push Not at hcon
          have : 2 ^ (32 * L) ≤ m := by
            calc 2 ^ (32 * L) = 2 ^ (32 * L - n) * 2 ^ n := by rw [← pow_add]; congr 1; omega
              _ ≤ 2 ^ (32 * L - n) * c := Nat.mul_le_mul_left _ hcon
              _ = m := hc.symm
          omega
        · have e : 32 * L - n = 0 := by omega
          rw [e, pow_zero, one_mul] at hc
          rw [← hc]
          exact lt_of_lt_of_le hmlt (Nat.pow_le_pow_right (by decide) (by omega))
      have : |sgnZ x.neg * (c : ℤ)| = c := by cases x.neg <;> simp [sgnZ]
      rw [this]; exact_mod_cast hc'
    · rw [h.val, zadd, zpow_natCast]
      push_cast
      rw [sgn_cast]
      have : (m : ℚ) = 2 ^ (32 * L - n) * c := by exact_mod_cast hc
      rw [this]; ring
  · rintro ⟨k, e, hk, hv⟩
    have habs : (k.natAbs : ℚ) * 2 ^ e = (m : ℚ) * 2 ^ (x.exp - 32 * L) := by
      rw [← h.abs, hv, abs_mul, abs_of_pos (two_zpow_pos e)]
      congr 1
      rw [← Int.cast_abs, Int.abs_eq_natAbs]; simp
    have hkn : k.natAbs < 2 ^ n := by
      rw [Int.abs_eq_natAbs] at hk; exact_mod_cast hk
    have hk' : (k.natAbs : ℚ) < 2 ^ (n : ℤ) := by rw [zpow_natCast]; exact_mod_cast hkn
    have hlt : (2 : ℚ) ^ (x.exp - 1) < 2 ^ ((n : ℤ) + e) := by
      rw [zadd]
      refine lt_of_le_of_lt b1 ?_
      rw [← habs]
      exact mul_lt_mul_of_pos_right hk' (two_zpow_pos e)
    have he := zpow_lt_iff.1 hlt
    by_cases hn : 32 * L ≤ n
    · rw [show 32 * L - n = 0 by omega]; simp
    · obtain ⟨t, ht⟩ : ∃ t : Nat, e = x.exp - 32 * L + t := ⟨(e - (x.exp - 32 * L)).toNat, by omega⟩
      rw [ht, zadd, mul_comm ((2 : ℚ) ^ (x.exp - 32 * (L : ℤ))), ← mul_assoc] at habs
      have := mul_right_cancel₀ (two_zpow_pos _).ne' habs
      rw [zpow_natCast] at this
      have hm : m = k.natAbs * 2 ^ t := by exact_mod_cast this.symm
      rw [hm]
      exact Dvd.dvd.mul_left (Nat.pow_dvd_pow 2 (by omega)) _

example : fMinPrec sampleF = 2 ∧ fMinPrec sampleG = 32 ∧ fIsInteger sampleF = some true ∧ fIsInteger sampleG = some false := by
  decide

/-! ## C79: sign operations -/

theorem C79_neg_abs {x : FloatV} (hx : FloatOk x) :
    FloatOk (fNeg x) ∧ FloatOk (fAbs x) ∧ (fNeg x).form = x.form ∧ (fAbs x).form = x.form ∧
    (fNeg x).neg = !x.neg ∧ (fAbs x).neg = false ∧
    (fNeg x).prec = x.prec ∧ (fAbs x).prec = x.prec ∧ fval (fNeg x) = - fval x ∧ fval (fAbs x) = |fval x| := by
  by_cases hf : x.form = .finite
  · obtain ⟨m, L, h⟩ := hx.fin hf
    have hN : ∀ s, IsFin { x with neg := s } m L := fun s =>
      ⟨hf, h.mant, h.norm, h.prec, h.words, h.dvd, h.emin, h.emax, fval_enc (x := { x with neg := s }) hf h.mant h.norm.length⟩
    have e1 : fNeg x = { x with neg := !x.neg } := by unfold fNeg; rw [h.deepClone]
    have e2 : fAbs x = { x with neg := false } := by unfold fAbs; rw [h.deepClone]
    rw [e1, e2]
    refine ⟨(hN _).ok, (hN _).ok, rfl, rfl, rfl, rfl, rfl, rfl, ?_, ?_⟩
    · rw [(hN _).val, h.val, sgn_not]; ring
    · rw [(hN _).val, h.abs]; simp [sgn]
  · have e1 : fval x = 0 := by simp [fval, hf]
    refine ⟨fun h => absurd h hf, fun h => absurd h hf, rfl, rfl, rfl, rfl, rfl, rfl, ?_, ?_⟩
    · have : (fNeg x).form ≠ .finite := hf
      simp [fval, this, hf]
    · have : (fAbs x).form ≠ .finite := hf
      simp [fval, this, hf]

theorem C79_signnum {x : FloatV} (hx : FloatOk x) :
    (fext x = none → fSignnum x = none) ∧
    ∀ a, fext x = some a → ∃ s, fSignnum x = some s ∧ (s = 1 ↔ 0 < a) ∧ (s = 0 ↔ a = 0) ∧ (s = -1 ↔ a < 0) := by
  have ht : ∀ q : ℚ, (((q : WithTop ℚ)) : WithBot (WithTop ℚ)) < ⊤ := fun q => WithBot.coe_lt_coe.2 (WithTop.coe_lt_top q)
  have h0 : (0 : WithBot (WithTop ℚ)) < ⊤ := ht 0
  unfold fext fSignnum
  cases fx : x.form <;> simp
  · simp [fval, fx]
  · have := sign_of_fin hx fx
    cases hn : x.neg <;> simp [hn] at this <;> simp [this, this.ne, this.ne', this.le]
  · cases hn : x.neg <;> simp [h0, h0.ne', h0.le]

/-- `is_negative` is the sign of the number; only a zero, which has a sign bit but no sign, can answer either.  `is_infinite`
singles out the two infinities, and `get_inf` makes them. -/
theorem C79_is_negative_infinite {x : FloatV} (hx : FloatOk x) :
    (fext x = none ↔ fIsNegative x = none) ∧ (fext x = none ↔ fIsInfinite x = none) ∧
    (∀ a, fext x = some a → a ≠ 0 → fIsNegative x = some (decide (a < 0))) ∧
    (∀ a, fext x = some a → fIsInfinite x = some (decide (a = ⊥ ∨ a = ⊤))) ∧
    (fext x = some 0 → fIsNegative (fNeg x) = (fIsNegative x).map not) ∧
    ∀ s, FloatOk (fGetInf s) ∧ fext (fGetInf s) = some (if s then ⊥ else ⊤) := by
  have ht : ∀ q : ℚ, (((q : WithTop ℚ)) : WithBot (WithTop ℚ)) < ⊤ := fun q => WithBot.coe_lt_coe.2 (WithTop.coe_lt_top q)
  have h0 : (0 : WithBot (WithTop ℚ)) < ⊤ := ht 0
  refine ⟨?_, ?_, ?_, ?_, ?_, ?_⟩
  · unfold fext fIsNegative
    cases fx : x.form <;> simp
  · unfold fext fIsInfinite
    cases fx : x.form <;> simp
  · intro a ha h
    unfold fext at ha
    unfold fIsNegative
    cases fx : x.form <;> rw [fx] at ha <;> simp at ha <;> subst ha
    · exact absurd (by simp [fval, fx]) h
    · have := sign_of_fin hx fx
      cases hn : x.neg <;> simp [hn] at this <;> simp [this, this.le]
    · cases hn : x.neg <;> simp [h0.le]
  · intro a ha
    unfold fext at ha
    unfold fIsInfinite
    cases fx : x.form <;> rw [fx] at ha <;> simp at ha <;> subst ha
    · simp [(ht _).ne]
    · simp [(ht _).ne]
    · cases hn : x.neg <;> simp
  · intro h
    have e : (fNeg x).form = x.form := rfl
    have e' : (fNeg x).neg = !x.neg := rfl
    unfold fIsNegative
    rw [e, e']
    split <;> rfl
  · intro s
    refine ⟨fun h => by simp [fGetInf] at h, ?_⟩
    cases s <;> simp [fext, fGetInf] <;> rfl

example : fext (fGetInf true) = some ⊥ ∧ fIsNegative (fGetInf true) = some true ∧ fIsInfinite (fGetInf true) = some true := by
  refine ⟨rfl, ?_, ?_⟩ <;> decide

/-! ## C80: from a fraction -/

/-- Integers, as `is_integer` sees them, are converted exactly. -/
theorem C80_from_integer_rat {x : RatV} (hx : RatOk x) (hi : rIsInteger x = some true) (hb : (val x.a.nat : ℚ) < 2 ^ maxExp) :
    ∃ z, fFromRat x = .ok z ∧ Exactly (qval x) z := by
  obtain ⟨z, h1, h2⟩ := C62_from_bigint (x := x.a) hx.1 hb
  refine ⟨z, ?_, ?_⟩
  · unfold fFromRat; rw [hi]; exact h1
  · obtain ⟨s, n, t, d, rfl, h1, g1⟩ := ratOk_iff.1 hx
    have hq : qval (raw s n t d) = (ival (raw s n t d).a : ℚ) := by
      rw [qval_raw g1]
      unfold rIsInteger at hi
      rw [rIsNan_raw, if_neg (by simp)] at hi
      simp only [bEqW, ← enc_zero, ← enc_one, eqv_enc, Option.some.injEq, Bool.or_eq_true, decide_eq_true_eq, Bool.and_eq_true,
        Bool.not_eq_true'] at hi
      rw [ival_mk]
      rcases hi with h | ⟨_, h⟩
      · rw [h, sg_zero]; simp
      · rw [h]; simp
    rw [hq]; exact h2

theorem C80_nan {x : RatV} (h : rIsInteger x = none) : ∃ z, fFromRat x = .ok z ∧ z.form = .nan := by
  unfold fFromRat; rw [h]; exact ⟨_, rfl, rfl⟩

/-- Every other fraction goes through the division and comes out wrong, in whatever precision and mode one reads it. -/
theorem C80_violated {x : RatV} {z : FloatV} (hx : RatOk x) (hi : rIsInteger x = some false)
    (ha : (val x.a.nat : ℚ) < 2 ^ maxExp) (hb : (val x.b.nat : ℚ) < 2 ^ maxExp)
    (h1 : 2 ^ (minExp - 1) ≤ |qval x|) (h2 : |qval x| < 2 ^ (maxExp - 1)) (h : fFromRat x = .ok z)
    {mode : RoundingMode} {p : Nat} (hp : 1 ≤ p) :
    ¬ FloatResult mode p (qval x) z := by
  obtain ⟨u, u1, u2, u3, _⟩ := C62_from_bigint (x := x.a) hx.1 ha
  obtain ⟨v, v1, v2, v3, _⟩ := C62_from_bigint (x := x.b) hx.2.1 hb
  have hq0 : qval x ≠ 0 := by
    intro h
    rw [h, abs_zero] at h1
    exact absurd h1 (not_le.2 (two_zpow_pos _))
  have hab : ival x.a ≠ 0 ∧ ival x.b ≠ 0 := by
    unfold qval at hq0
    constructor <;> intro h <;> rw [h] at hq0 <;> simp at hq0
  have key : ∀ {w : FloatV} {i : Int}, FloatOk w → fext w = some (((i : ℚ) : WithTop ℚ) : WithBot (WithTop ℚ)) → i ≠ 0 →
      w.form = .finite ∧ fval w = i := by
    intro w i hw he hi
    unfold fext at he
    cases hf : w.form <;> rw [hf] at he
    · simp only [fval, hf, reduceCtorEq, if_false, Option.some.injEq, WithBot.coe_inj, WithTop.coe_inj] at he
      exact absurd (by exact_mod_cast he.symm) hi
    · simp only [Option.some.injEq, WithBot.coe_inj, WithTop.coe_inj] at he
      exact ⟨rfl, he⟩
    · cases hn : w.neg
      · rw [hn] at he
        simp only [Bool.false_eq_true, if_false, Option.some.injEq, WithBot.coe_inj] at he
        exact absurd he (WithTop.coe_ne_top).symm
      · rw [hn] at he
        simp only [if_true, Option.some.injEq] at he
        exact absurd he (WithBot.bot_ne_coe)
    · cases he
  obtain ⟨fu, gu⟩ := key u2 u3 hab.1
  obtain ⟨fv, gv⟩ := key v2 v3 hab.2
  obtain ⟨a, La, hu⟩ := u2.fin fu
  obtain ⟨b, Lb, hv⟩ := v2.fin fv
  unfold fFromRat at h
  rw [hi] at h
  simp only [u1, v1, bind, Except.bind] at h
  unfold fOpAssign at h
  rw [if_neg (by simp [fu, fv])] at h
  unfold fDivInner at h
  have hp' := hu.prec
  simp only [if_neg (show ¬ u.prec = 0 by omega), fu, fv, and_self, if_true] at h
  have hneg : IsFin { u with neg := u.neg != v.neg } a La :=
    ⟨fu, hu.mant, hu.norm, hu.prec, hu.words, hu.dvd, hu.emin, hu.emax, fval_enc (x := { u with neg := u.neg != v.neg }) fu hu.mant hu.norm.length⟩
  have hab : |fval { u with neg := u.neg != v.neg }| = |fval u| := by rw [hneg.abs, hu.abs]
  refine fUquo_wrong hneg hv (z := z) ?_ _ ?_ h1 h2 hp
  · simp only [fu]; exact h
  · rw [hab, gu, gv, ← abs_div]; rfl

/-- one half does not become 1/2 -/
example : ∃ z, fFromRat ⟨⟨[1#32], false⟩, ⟨[2#32], false⟩⟩ = .ok z ∧ z.mant = [0x80000000#32] ∧ z.exp = -96 :=
  ⟨_, rfl, by decide, by decide⟩
example : rIsInteger sampleQ = some false ∧ rIsInteger ⟨⟨[12#32], true⟩, ⟨[1#32], false⟩⟩ = some true := by decide

end RMath
