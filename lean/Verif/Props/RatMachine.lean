import Verif.Props.FloatMachine32

/-!
# Property C130: sums, differences, products and quotients of machine floats by way of Rat

`Rat::from` the operands, one operation of `Rat`, `to_f64` or `to_f32` of the result: rounded once, so that this ought to be the operation
of IEEE 754.  It is, for numbers below `2^53` in magnitude, up to the signs of zeros and divisors that are zero.
-/

namespace RMath

/-- IEEE 754: `d` is `x / y` -/
structure IeeeQuot (F : Fmt) (x y d : Bool × Nat) : Prop where
  nan : F.inf < x.2 ∨ F.inf < y.2 ∨ (x.2 = F.inf ∧ y.2 = F.inf) ∨ (x.2 = 0 ∧ y.2 = 0) → F.inf < d.2
  infL : x.2 = F.inf → y.2 < F.inf → d = (x.1 != y.1, F.inf)
  infR : x.2 < F.inf → y.2 = F.inf → d = (x.1 != y.1, 0)
  by_zero : x.2 ≠ 0 → x.2 < F.inf → y.2 = 0 → d = (x.1 != y.1, F.inf)
  zero : x.2 = 0 → y.2 ≠ 0 → y.2 < F.inf → d = (x.1 != y.1, 0)
  num : x.2 ≠ 0 → x.2 < F.inf → y.2 ≠ 0 → y.2 < F.inf → F.Near (F.val x / F.val y) d

/-- an operation on doubles by way of fractions -/
def viaRat (f : RatV → RatV → Res RatV) (x y : D) : Res D := do
  let z ← f (← rFromF64 x) (← rFromF64 y)
  let r ← rToF64 z
  pure r.1

/-- an operation on singles by way of fractions -/
def viaRat32 (f : RatV → RatV → Res RatV) (x y : W) : Res W := do
  let z ← f (← rFromF32 x) (← rFromF32 y)
  let r ← rToF32 z
  pure r.1

/-- What `Rat::from` makes of the number `v`: itself below `2^53` in magnitude, and `v / 4^k` if `2^(52+k) ≤ |v| < 2^(53+k)`: the power of
two is divided by instead of multiplied with. -/
def ReadAs (v q : ℚ) : Prop :=
  (|v| < 2 ^ 53 → q = v) ∧ ∀ k : ℕ, 2 ^ (52 + k) ≤ |v| → |v| < 2 ^ (53 + k) → q = v / 4 ^ k

/-! ## Proof -/

/-- what `Rat::from` makes of a finite double -/
theorem rat_of64 (x : D) (hf : f64Finite x) : ∃ r, rFromF64 x = .ok r ∧ RatOk r ∧ CanonI r.a ∧ ReadAs (f64val x) (qval r) := by
  obtain ⟨m', s', e1, e2, -⟩ := rFromF64_eq x hf
  obtain ⟨r, g1, g2, g3, g4, -, -⟩ := rNorm_spec (s := f64Neg x) (n := m'.toNat) (t := false) (d := 2 ^ s'.natAbs) (by positivity)
  refine ⟨r, by rw [e1, g1], g2, g3, fun h => ?_, fun k h1 h2 => ?_⟩
  · obtain ⟨r', a1, -, -, a2⟩ := C54_from_f64_partial x hf h
    rw [e1, g1] at a1
    cases a1
    exact a2
  · by_cases hk : k = 0
    · subst hk
      obtain ⟨r', a1, -, -, a2⟩ := C54_from_f64_partial x hf (by simpa using h2)
      rw [e1, g1] at a1
      cases a1
      rw [a2]
      simp
    have hs : f64Shift x < 0 := by
      by_contra hs
      have h3 := (f64_small_iff x hf).2 (by omega)
      have h4 : (2 : ℚ) ^ 53 ≤ 2 ^ (52 + k) := pow_le_pow_right₀ (by norm_num) (by omega)
      linarith
    obtain ⟨f1, rfl⟩ := e2 (by omega)
    have hm : f64Mant x < 2 ^ 53 := by unfold f64Mant; split <;> omega
    have hm2 : 2 ^ 52 ≤ f64Mant x := by
      unfold f64Mant f64Shift at *
      split at hs
      · omega
      · rw [if_neg (by assumption)]; omega
    have hm' : (f64Mant x : ℚ) < 2 ^ 53 := by exact_mod_cast hm
    have hm2' : (2 : ℚ) ^ 52 ≤ f64Mant x := by exact_mod_cast hm2
    -- the exponent
    obtain ⟨j, hj⟩ : ∃ j : ℕ, f64Shift x = -(j : ℤ) := ⟨(-f64Shift x).toNat, by omega⟩
    rw [f64_abs x hf, hj, neg_neg, zpow_natCast] at h1 h2
    have hjk : j = k := by
      have a1 : (2 : ℚ) ^ (52 + j) < 2 ^ (53 + k) := by
        rw [pow_add]
        exact lt_of_le_of_lt (mul_le_mul_of_nonneg_right hm2' (by positivity)) h2
      have a2 : (2 : ℚ) ^ (52 + k) < 2 ^ (53 + j) := by
        rw [pow_add _ 53]
        exact lt_of_le_of_lt h1 (mul_lt_mul_of_pos_right hm' (by positivity))
      have b1 := (pow_lt_pow_iff_right₀ (by norm_num : (1 : ℚ) < 2)).1 a1
      have b2 := (pow_lt_pow_iff_right₀ (by norm_num : (1 : ℚ) < 2)).1 a2
      omega
    subst hjk
    rw [g4, f64val_eq x hf, f1, hj, neg_neg, zpow_natCast, Int.natAbs_neg, Int.natAbs_natCast]
    push_cast
    rw [show (4 : ℚ) ^ j = 2 ^ j * 2 ^ j by rw [← mul_pow]; norm_num]
    field_simp

theorem rat_sign {z : RatV} (hz : RatOk z) (hc : CanonI z.a) : z.a.neg = decide (qval z < 0) := by
  obtain ⟨s, n, t, d, rfl, hd, ht⟩ := ratOk_iff.1 hz
  rw [qval_raw ht]
  have hd' : (0 : ℚ) < d := by exact_mod_cast Nat.pos_of_ne_zero hd
  have hs : s = true → n ≠ 0 := by simpa using hc.2
  have e : ((sg s n : ℤ) : ℚ) / d < 0 ↔ s = true := by
    rw [div_lt_iff₀ hd', zero_mul]
    cases s with
    | false => simp [sg]
    | true => simpa [sg] using Nat.pos_of_ne_zero (hs rfl)
  show s = _
  rw [show decide (((sg s n : ℤ) : ℚ) / d < 0) = decide (s = true) from decide_eq_decide.2 e]
  simp

theorem rat_to64 {z : RatV} (hz : RatOk z) (hc : CanonI z.a) : ∃ d ex, rToF64 z = .ok (d, ex) ∧ (qval z = 0 → d = 0#64) ∧
    (qval z ≠ 0 → b64.Near (qval z) (parts64 d)) := by
  obtain ⟨c, ex, h1, h2, -⟩ := rToF64_full z hz
  refine ⟨_, ex, h1, fun h => ?_, fun _ => ?_⟩
  · rw [h, abs_zero] at h2
    rw [h2.unique b64.nearest_zero, rat_sign hz hc, h]
    decide
  · rw [parts_mk64 (nearest64_lt h2)]
    exact ⟨rat_sign hz hc, h2⟩

theorem rat_to32 {z : RatV} (hz : RatOk z) (hc : CanonI z.a) (h0 : qval z ≠ 0) :
    ∃ d ex, rToF32 z = .ok (d, ex) ∧ b32.Near (qval z) (parts32 d) := by
  obtain ⟨c, ex, h1, h2, -⟩ := rToF32_full z hz h0
  refine ⟨_, ex, h1, ?_⟩
  rw [parts_mk32 (nearest32_lt h2)]
  exact ⟨rat_sign hz hc, h2⟩

theorem viaRat_eq {f : RatV → RatV → Res RatV} {x y d : D} {a b z : RatV} {t : Bool} (ha : rFromF64 x = .ok a)
    (hb : rFromF64 y = .ok b) (hz : f a b = .ok z) (hd : rToF64 z = .ok (d, t)) : viaRat f x y = .ok d := by
  unfold viaRat
  rw [ha, hb]
  show (do let z ← f a b; let r ← rToF64 z; pure r.1) = _
  rw [hz]
  show (do let r ← rToF64 z; pure r.1) = _
  rw [hd]
  rfl

theorem viaRat32_eq {f : RatV → RatV → Res RatV} {x y d : W} {a b z : RatV} {t : Bool} (ha : rFromF32 x = .ok a)
    (hb : rFromF32 y = .ok b) (hz : f a b = .ok z) (hd : rToF32 z = .ok (d, t)) : viaRat32 f x y = .ok d := by
  unfold viaRat32
  rw [ha, hb]
  show (do let z ← f a b; let r ← rToF32 z; pure r.1) = _
  rw [hz]
  show (do let r ← rToF32 z; pure r.1) = _
  rw [hd]
  rfl

theorem viaRat_panic {f : RatV → RatV → Res RatV} {x y : D} {a b : RatV} (ha : rFromF64 x = .ok a)
    (hb : rFromF64 y = .ok b) (hz : f a b = .error .panic) : viaRat f x y = .error .panic := by
  unfold viaRat
  rw [ha, hb]
  show (do let z ← f a b; let r ← rToF64 z; pure r.1) = _
  rw [hz]
  rfl

theorem viaRat32_panic {f : RatV → RatV → Res RatV} {x y : W} {a b : RatV} (ha : rFromF32 x = .ok a)
    (hb : rFromF32 y = .ok b) (hz : f a b = .error .panic) : viaRat32 f x y = .error .panic := by
  unfold viaRat32
  rw [ha, hb]
  show (do let z ← f a b; let r ← rToF32 z; pure r.1) = _
  rw [hz]
  rfl

theorem viaRat32_panic' {f : RatV → RatV → Res RatV} {x y : W} {a b z : RatV} (ha : rFromF32 x = .ok a)
    (hb : rFromF32 y = .ok b) (hz : f a b = .ok z) (hd : rToF32 z = .error .panic) : viaRat32 f x y = .error .panic := by
  unfold viaRat32
  rw [ha, hb]
  show (do let z ← f a b; let r ← rToF32 z; pure r.1) = _
  rw [hz]
  show (do let r ← rToF32 z; pure r.1) = _
  rw [hd]
  rfl

/-- The double for the fraction `q`: zero is `+0`. -/
def DoubleOf (q : ℚ) (d : D) : Prop := (q = 0 → d = 0#64) ∧ (q ≠ 0 → b64.Near q (parts64 d))

/-- **C130**, all finite doubles: the result is that of the operation on the fractions that were read, correctly rounded.  (The operations
are those of `Rat`: `+`, `-`, `*`, `/`.) -/
theorem C130_finite (x y : D) (hx : f64Finite x) (hy : f64Finite y) : ∃ p q, ReadAs (f64val x) p ∧ ReadAs (f64val y) q ∧
    (∃ d, viaRat rAdd x y = .ok d ∧ DoubleOf (p + q) d) ∧ (∃ d, viaRat rSub x y = .ok d ∧ DoubleOf (p - q) d) ∧
    (∃ d, viaRat rMul x y = .ok d ∧ DoubleOf (p * q) d) ∧ (q ≠ 0 → ∃ d, viaRat rDiv x y = .ok d ∧ DoubleOf (p / q) d) ∧
    (q = 0 → viaRat rDiv x y = .error .panic) := by
  obtain ⟨a, a1, a2, -, a4⟩ := rat_of64 x hx
  obtain ⟨b, b1, b2, -, b4⟩ := rat_of64 y hy
  refine ⟨qval a, qval b, a4, b4, ?_, ?_, ?_, fun h => ?_, fun h => viaRat_panic a1 b1 ((C51_div_partial a b a2 b2).2 h)⟩
  · obtain ⟨r, r1, r2, r3, r4, -⟩ := C51_add_partial a b a2 b2
    obtain ⟨d, t, d1, d2⟩ := rat_to64 r2 r3
    exact ⟨d, viaRat_eq a1 b1 r1 d1, by rw [← r4]; exact d2⟩
  · obtain ⟨r, r1, r2, r3, r4, -⟩ := C51_sub_partial a b a2 b2
    obtain ⟨d, t, d1, d2⟩ := rat_to64 r2 r3
    exact ⟨d, viaRat_eq a1 b1 r1 d1, by rw [← r4]; exact d2⟩
  · obtain ⟨r, r1, r2, r3, r4, -⟩ := C51_mul_partial a b a2 b2
    obtain ⟨d, t, d1, d2⟩ := rat_to64 r2 r3
    exact ⟨d, viaRat_eq a1 b1 r1 d1, by rw [← r4]; exact d2⟩
  · obtain ⟨r, r1, r2, r3, r4, -⟩ := (C51_div_partial a b a2 b2).1 h
    obtain ⟨d, t, d1, d2⟩ := rat_to64 r2 r3
    exact ⟨d, viaRat_eq a1 b1 r1 d1, by rw [← r4]; exact d2⟩

theorem val_neg {F : Fmt} {x : Bool × Nat} (h : x.1 = true) : F.val x ≤ 0 := by
  rw [F.val_sgn, h]
  have : 0 ≤ F.value x.2 := by
    by_cases h0 : x.2 = 0
    · rw [h0, F.value_zero]
    · exact (F.value_pos h0).le
  simp [sgn, this]

theorem val_pos {F : Fmt} {x : Bool × Nat} (h : x.1 = false) : 0 ≤ F.val x := by
  rw [F.val_sgn, h]
  have : 0 ≤ F.value x.2 := by
    by_cases h0 : x.2 = 0
    · rw [h0, F.value_zero]
    · exact (F.value_pos h0).le
  simp [sgn, this]

theorem val_opp (F : Fmt) (x : Bool × Nat) : F.val (opp x) = -F.val x := by
  unfold Fmt.val opp
  cases x.1 <;> simp

theorem bits_negZero {x : D} (h1 : (parts64 x).1 = true) (h2 : (parts64 x).2 = 0) : x = 0x8000000000000000#64 := by
  rw [← mk64_parts x, h1, h2]
  rfl

theorem bits_zero {x : D} (h1 : (parts64 x).1 = false) (h2 : (parts64 x).2 = 0) : x = 0#64 := by
  rw [← mk64_parts x, h1, h2]
  rfl

/-- **C130** for finite numbers below `2^53` in magnitude.  *Missing:* `-0 + -0`, `-0 - 0`, products and quotients that are `-0`, divisors
that are zero (`C130_zero`), and larger numbers and infinities (`C130_finite`, `C130_not_finite`, `C130_violated`). -/
theorem C130_partial (x y : D) (hx : (parts64 x).2 < b64.inf) (hy : (parts64 y).2 < b64.inf) (lx : |f64val x| < 2 ^ 53)
    (ly : |f64val y| < 2 ^ 53) :
    (x ≠ 0x8000000000000000#64 ∨ y ≠ 0x8000000000000000#64 →
      ∃ d, viaRat rAdd x y = .ok d ∧ IeeeSum b64 (parts64 x) (parts64 y) (parts64 d)) ∧
    (x ≠ 0x8000000000000000#64 ∨ y ≠ 0#64 →
      ∃ d, viaRat rSub x y = .ok d ∧ IeeeSum b64 (parts64 x) (opp (parts64 y)) (parts64 d)) ∧
    (f64val x * f64val y ≠ 0 ∨ (parts64 x).1 = (parts64 y).1 →
      ∃ d, viaRat rMul x y = .ok d ∧ IeeeProd b64 (parts64 x) (parts64 y) (parts64 d)) ∧
    (f64val y ≠ 0 → f64val x ≠ 0 ∨ (parts64 x).1 = (parts64 y).1 →
      ∃ d, viaRat rDiv x y = .ok d ∧ IeeeQuot b64 (parts64 x) (parts64 y) (parts64 d)) := by
  obtain ⟨p, q, h1, h2, ⟨ds, s1, s2, s3⟩, ⟨dd, t1, t2, t3⟩, ⟨dp, m1, m2, m3⟩, hq, -⟩ :=
    C130_finite x y (num_finite hx) (num_finite hy)
  have e1 := h1.1 lx
  have e2 := h2.1 ly
  rw [f64val_parts] at e1 e2
  subst e1 e2
  have z0 : parts64 0#64 = (false, 0) := by decide
  refine ⟨fun hn => ⟨ds, s1, by omega, by omega, by omega, fun _ _ h => ?_, fun _ _ h => s3 h⟩,
    fun hn => ⟨dd, t1, by unfold opp; omega, by omega, by unfold opp; omega, fun _ _ h => ?_, fun _ _ h => ?_⟩,
    fun hn => ⟨dp, m1, by have := b64.inf_pos; omega, by omega, fun _ _ h => ?_, fun _ _ h => m3 h⟩, fun hy0 hn => ?_⟩
  · rw [s2 h, z0]
    by_cases c1 : (parts64 x).1 = true
    · by_cases c2 : (parts64 y).1 = true
      · have v1 := val_neg (F := b64) c1
        have v2 := val_neg (F := b64) c2
        have w1 := bits_negZero c1 (b64.val_zero_iff.1 (by linarith))
        have w2 := bits_negZero c2 (b64.val_zero_iff.1 (by linarith))
        simp [w1, w2] at hn
      · simp [c2]
    · simp [c1]
  · rw [val_opp, ← sub_eq_add_neg] at h
    rw [t2 h, z0]
    show _ = ((parts64 x).1 && !(parts64 y).1, 0)
    by_cases c1 : (parts64 x).1 = true
    · by_cases c2 : (parts64 y).1 = true
      · simp [c2]
      · have c2 : (parts64 y).1 = false := by simpa using c2
        have v1 := val_neg (F := b64) c1
        have v2 := val_pos (F := b64) c2
        have w1 := bits_negZero c1 (b64.val_zero_iff.1 (by linarith))
        have w2 := bits_zero c2 (b64.val_zero_iff.1 (by linarith))
        simp [w1, w2] at hn
    · simp [c1]
  · rw [val_opp, ← sub_eq_add_neg] at h ⊢
    exact t3 h
  · rw [m2 h, z0]
    rw [f64val_parts, f64val_parts] at hn
    rcases hn with hn | hn
    · exact absurd h hn
    · simp [hn]
  · rw [f64val_parts] at hy0
    obtain ⟨d, d1, d2, d3⟩ := hq hy0
    have hy1 : (parts64 y).2 ≠ 0 := fun h => hy0 (b64.val_zero_iff.2 h)
    refine ⟨d, d1, by omega, by omega, by omega, by omega, fun h _ _ => ?_, fun h _ _ _ => ?_⟩
    · have hv := b64.val_zero_iff.2 h
      rw [d2 (by rw [hv, zero_div]), z0]
      rw [f64val_parts] at hn
      rcases hn with hn | hn
      · exact absurd hv hn
      · simp [hn]
    · exact d3 (div_ne_zero (fun hv => h (b64.val_zero_iff.1 hv)) hy0)

/-- What is missing: zero results are `+0`, for all finite doubles below `2^53` in magnitude, and division by a zero panics. -/
theorem C130_zero (x y : D) (hx : f64Finite x) (hy : f64Finite y) (lx : |f64val x| < 2 ^ 53) (ly : |f64val y| < 2 ^ 53) :
    (f64val x + f64val y = 0 → viaRat rAdd x y = .ok 0#64) ∧ (f64val x - f64val y = 0 → viaRat rSub x y = .ok 0#64) ∧
    (f64val x * f64val y = 0 → viaRat rMul x y = .ok 0#64) ∧ (f64val x = 0 → f64val y ≠ 0 → viaRat rDiv x y = .ok 0#64) ∧
    (f64val y = 0 → viaRat rDiv x y = .error .panic) := by
  obtain ⟨p, q, h1, h2, ⟨ds, s1, s2, s3⟩, ⟨dd, t1, t2, t3⟩, ⟨dp, m1, m2, m3⟩, hq, h0⟩ := C130_finite x y hx hy
  rw [← h1.1 lx, ← h2.1 ly]
  refine ⟨fun h => by rw [s1, s2 h], fun h => by rw [t1, t2 h], fun h => by rw [m1, m2 h], fun h h' => ?_, h0⟩
  obtain ⟨d, d1, d2, -⟩ := hq h'
  rw [d1, d2 (by rw [h, zero_div])]

/-- If an operand is not finite, the result is NaN, even if the operands are infinite and the sum is not. -/
theorem C130_not_finite (x y : D) (h : ¬ f64Finite x ∨ ¬ f64Finite y) : ∀ f ∈ [rAdd, rSub, rMul, rDiv],
    viaRat f x y = .ok 0x7ff8000000000000#64 := by
  obtain ⟨a, ha⟩ : ∃ a, rFromF64 x = .ok a := by
    by_cases hx : f64Finite x
    · obtain ⟨a, ha, -⟩ := rat_of64 x hx
      exact ⟨a, ha⟩
    · exact ⟨_, C54_not_finite x hx⟩
  obtain ⟨b, hb⟩ : ∃ b, rFromF64 y = .ok b := by
    by_cases hy : f64Finite y
    · obtain ⟨b, hb, -⟩ := rat_of64 y hy
      exact ⟨b, hb⟩
    · exact ⟨_, C54_not_finite y hy⟩
  have hn : bIsNan a.a = true ∨ bIsNan b.a = true := by
    rcases h with h | h
    · left
      have := ha.symm.trans (C54_not_finite x h)
      cases this
      rfl
    · right
      have := hb.symm.trans (C54_not_finite y h)
      cases this
      rfl
  obtain ⟨n1, n2, n3, n4, -⟩ := C51_nan a b hn
  have e := (C75_nan rNan (.inl rfl)).1
  intro f hf
  simp only [List.mem_cons, List.not_mem_nil, or_false] at hf
  rcases hf with rfl | rfl | rfl | rfl
  · exact viaRat_eq ha hb n1 e
  · exact viaRat_eq ha hb n2 e
  · exact viaRat_eq ha hb n3 e
  · exact viaRat_eq ha hb n4 e

/-- **C130 fails** for `-0 + -0` (`+0`), `1 * -0` (`+0`), `1 / 0` (a panic), `inf + inf` (NaN), and `2^53 + 0`, which is `2^51`. -/
theorem C130_violated :
    (∃ d, viaRat rAdd 0x8000000000000000#64 0x8000000000000000#64 = .ok d ∧ ¬ IeeeSum b64 (true, 0) (true, 0) (parts64 d)) ∧
    (∃ d, viaRat rMul 0x3ff0000000000000#64 0x8000000000000000#64 = .ok d ∧
      ¬ IeeeProd b64 (false, 0x3ff0000000000000) (true, 0) (parts64 d)) ∧
    viaRat rDiv 0x3ff0000000000000#64 0#64 = .error .panic ∧
    (∃ d, viaRat rAdd 0x7ff0000000000000#64 0x7ff0000000000000#64 = .ok d ∧ ¬ IeeeSum b64 (false, b64.inf) (false, b64.inf) (parts64 d)) ∧
    viaRat rAdd 0x4340000000000000#64 0#64 = .ok 0x4320000000000000#64 ∧ f64val 0x4340000000000000#64 = 2 ^ 53 ∧
    f64val 0x4320000000000000#64 = 2 ^ 51 := by
  refine ⟨⟨0#64, by decide +kernel, fun h => ?_⟩, ⟨0#64, by decide +kernel, fun h => ?_⟩, by decide +kernel,
    ⟨0x7ff8000000000000#64, by decide +kernel, fun h => ?_⟩, by decide +kernel, by decide +kernel, by decide +kernel⟩
  · exact absurd (h.zero (by decide) (by decide) (by decide +kernel)) (by decide)
  · exact absurd (h.zero (by decide) (by decide) (by decide +kernel)) (by decide)
  · exact absurd (h.infL rfl le_rfl (by simp)) (by decide)

/-! ## Singles -/

/-- the value of an `f32` is that of the `f64` -/
theorem f64val_widen {x : W} (h : (parts32 x).2 < b32.inf) : f64Finite (hwTo64 x) ∧ f64val (hwTo64 x) = b32.val (parts32 x) := by
  obtain ⟨p1, p2, p3, p4, p5⟩ := parts_hwTo64 x
  exact ⟨num_finite (by omega), by rw [f64val_parts, p5 h]⟩

/-- **C130** for singles, all finite operands: results other than zero are those of the operation on the fractions that were read, correctly
rounded.  *Missing:* zero results panic, see `C75_to_f32_zero_panics`, and the numbers from `2^53` on are not read correctly. -/
theorem C130_singles_partial (x y : W) (hx : (parts32 x).2 < b32.inf) (hy : (parts32 y).2 < b32.inf) :
    ∃ p q, ReadAs (b32.val (parts32 x)) p ∧ ReadAs (b32.val (parts32 y)) q ∧
    (p + q ≠ 0 → ∃ d, viaRat32 rAdd x y = .ok d ∧ b32.Near (p + q) (parts32 d)) ∧
    (p - q ≠ 0 → ∃ d, viaRat32 rSub x y = .ok d ∧ b32.Near (p - q) (parts32 d)) ∧
    (p * q ≠ 0 → ∃ d, viaRat32 rMul x y = .ok d ∧ b32.Near (p * q) (parts32 d)) ∧
    (p / q ≠ 0 → ∃ d, viaRat32 rDiv x y = .ok d ∧ b32.Near (p / q) (parts32 d)) ∧
    (p + q = 0 → viaRat32 rAdd x y = .error .panic) ∧ (p - q = 0 → viaRat32 rSub x y = .error .panic) ∧
    (p * q = 0 → viaRat32 rMul x y = .error .panic) ∧ (p / q = 0 → viaRat32 rDiv x y = .error .panic) := by
  obtain ⟨fx, vx⟩ := f64val_widen hx
  obtain ⟨fy, vy⟩ := f64val_widen hy
  obtain ⟨a, a1, a2, -, a4⟩ := rat_of64 _ fx
  obtain ⟨b, b1, b2, -, b4⟩ := rat_of64 _ fy
  rw [vx] at a4
  rw [vy] at b4
  refine ⟨qval a, qval b, a4, b4, ?_⟩
  obtain ⟨r, r1, r2, r3, r4, -⟩ := C51_add_partial a b a2 b2
  obtain ⟨s, s1, s2, s3, s4, -⟩ := C51_sub_partial a b a2 b2
  obtain ⟨m, m1, m2, m3, m4, -⟩ := C51_mul_partial a b a2 b2
  rw [← r4, ← s4, ← m4]
  refine ⟨fun h => ?_, fun h => ?_, fun h => ?_, fun h => ?_, fun h => viaRat32_panic' a1 b1 r1 (C75_to_f32_zero_panics r r2 h),
    fun h => viaRat32_panic' a1 b1 s1 (C75_to_f32_zero_panics s s2 h),
    fun h => viaRat32_panic' a1 b1 m1 (C75_to_f32_zero_panics m m2 h), fun h => ?_⟩
  · obtain ⟨d, t, d1, d2⟩ := rat_to32 r2 r3 h
    exact ⟨d, viaRat32_eq a1 b1 r1 d1, d2⟩
  · obtain ⟨d, t, d1, d2⟩ := rat_to32 s2 s3 h
    exact ⟨d, viaRat32_eq a1 b1 s1 d1, d2⟩
  · obtain ⟨d, t, d1, d2⟩ := rat_to32 m2 m3 h
    exact ⟨d, viaRat32_eq a1 b1 m1 d1, d2⟩
  · have hq : qval b ≠ 0 := fun e => h (by rw [e, div_zero])
    obtain ⟨z, z1, z2, z3, z4, -⟩ := (C51_div_partial a b a2 b2).1 hq
    obtain ⟨d, t, d1, d2⟩ := rat_to32 z2 z3 (by rw [z4]; exact h)
    exact ⟨d, viaRat32_eq a1 b1 z1 d1, by rw [← z4]; exact d2⟩
  · by_cases hq : qval b = 0
    · exact viaRat32_panic a1 b1 ((C51_div_partial a b a2 b2).2 hq)
    · obtain ⟨z, z1, z2, z3, z4, -⟩ := (C51_div_partial a b a2 b2).1 hq
      exact viaRat32_panic' a1 b1 z1 (C75_to_f32_zero_panics z z2 (by rw [z4]; exact h))

/-- for instance `1 - 1` -/
theorem C130_singles_violated : viaRat32 rSub 0x3f800000#32 0x3f800000#32 = .error .panic ∧ parts32 0x3f800000#32 = (false, 0x3f800000) ∧
    b32.val (false, 0x3f800000) = 1 := by
  refine ⟨by decide +kernel, by decide, by decide +kernel⟩

-- 1/3, 1 + 2^-53, and a subnormal number
example : viaRat rDiv 0x3ff0000000000000#64 0x4008000000000000#64 = .ok 0x3fd5555555555555#64 ∧
    viaRat rAdd 0x3ff0000000000000#64 0x3ca0000000000000#64 = .ok 0x3ff0000000000000#64 ∧
    viaRat rSub 0x3ff0000000000000#64 0xbff0000000000000#64 = .ok 0x4000000000000000#64 ∧
    viaRat rMul 0x2000000000000000#64 0x9e00000000000000#64 = .ok 0x8000000000100000#64 ∧
    viaRat32 rDiv 0x3f800000#32 0x40400000#32 = .ok 0x3eaaaaab#32 ∧ ReadAs 3 3 ∧ ReadAs (2 ^ 53) (2 ^ 51) := by
  refine ⟨by decide +kernel, by decide +kernel, by decide +kernel, by decide +kernel, by decide +kernel, ⟨fun _ => rfl, ?_⟩, ?_, ?_⟩
  · intro k h
    rw [abs_of_pos (by norm_num)] at h
    have : (2 : ℚ) ^ 52 ≤ 2 ^ (52 + k) := pow_le_pow_right₀ (by norm_num) (by omega)
    norm_num at this h
    linarith
  · norm_num
  · intro k h1 h2
    rw [abs_of_pos (by positivity)] at h1 h2
    have b1 := (pow_le_pow_iff_right₀ (by norm_num : (1 : ℚ) < 2)).1 h1
    have b2 := (pow_lt_pow_iff_right₀ (by norm_num : (1 : ℚ) < 2)).1 h2
    have : k = 1 := by omega
    subst this
    norm_num

end RMath
