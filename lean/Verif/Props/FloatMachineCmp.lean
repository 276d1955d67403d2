import Verif.Props.FloatMachine32

/-!
# Property C125: comparisons, signs and conversions of machine floats by way of Float are those of the machine

For all bit patterns of `f64` and `f32`, as in C122 and C123.
-/

namespace RMath

/-- what a machine number stands for: nothing if it is a NaN, a rational number, or an infinity -/
def Fmt.ext (F : Fmt) (x : Bool × Nat) : Option (WithBot (WithTop ℚ)) :=
  if F.inf < x.2 then none
  else if x.2 = F.inf then some (if x.1 then ⊥ else ((⊤ : WithTop ℚ) : WithBot (WithTop ℚ)))
  else some (((F.val x : ℚ) : WithTop ℚ) : WithBot (WithTop ℚ))

/-- IEEE 754: `o` is the result of comparing `x` and `y` -/
structure IeeeOrder (F : Fmt) (x y : Bool × Nat) (o : Option Ordering) : Prop where
  nan : F.ext x = none ∨ F.ext y = none → o = none
  lt : ∀ u v, F.ext x = some u → F.ext y = some v → (o = some .lt ↔ u < v)
  eq : ∀ u v, F.ext x = some u → F.ext y = some v → (o = some .eq ↔ u = v)
  gt : ∀ u v, F.ext x = some u → F.ext y = some v → (o = some .gt ↔ v < u)

/-- IEEE 754: `d`, a number of the format `G`, is `x` converted to that format -/
structure IeeeConv (F G : Fmt) (x d : Bool × Nat) : Prop where
  nan : F.inf < x.2 → G.inf < d.2
  inf : x.2 = F.inf → d = (x.1, G.inf)
  zero : x.2 = 0 → d = (x.1, 0)
  num : x.2 < F.inf → x.2 ≠ 0 → G.Near (F.val x) d

/-! ## Proof -/

theorem MachineF.ext {F : Fmt} {a : FloatV} {x : Bool × Nat} (h : MachineF F a x) : fext a = F.ext x := by
  unfold fext Fmt.ext
  have h1 := h.nan
  have h2 := h.inf
  by_cases hn : F.inf < x.2
  · rw [if_pos hn, h1.2 hn]
  · rw [if_neg hn]
    by_cases hi : x.2 = F.inf
    · rw [if_pos hi, h2.2 hi, h.neg (by rw [h2.2 hi]; decide)]
    · rw [if_neg hi, ← h.val (by omega)]
      cases hf : a.form
      · rfl
      · rfl
      · exact absurd (h2.1 hf) hi
      · exact absurd (h1.1 hf) hn

theorem MachineF.order {F : Fmt} {a b : FloatV} {x y : Bool × Nat} (ha : MachineF F a x) (hb : MachineF F b y) :
    IeeeOrder F x y (fPartialCmp a b) ∧ (fEq a b = true ↔ fPartialCmp a b = some .eq) := by
  refine ⟨⟨?_, ?_, ?_, ?_⟩, ?_⟩
  · rw [← ha.ext, ← hb.ext]
    exact fun h => (C59_nan h).1
  · rw [← ha.ext, ← hb.ext]
    exact fun u v hu hv => (C59_compare ha.ok hb.ok hu hv).1
  · rw [← ha.ext, ← hb.ext]
    exact fun u v hu hv => (C59_compare ha.ok hb.ok hu hv).2.1
  · rw [← ha.ext, ← hb.ext]
    exact fun u v hu hv => (C59_compare ha.ok hb.ok hu hv).2.2
  · rw [C59_eq ha.ok hb.ok]
    by_cases hn : fext a = none ∨ fext b = none
    · rw [(C59_nan hn).1]
      rcases hn with hn | hn <;> rw [hn] <;> simp
    · rw [not_or] at hn
      obtain ⟨u, hu⟩ := Option.ne_none_iff_exists'.1 hn.1
      obtain ⟨v, hv⟩ := Option.ne_none_iff_exists'.1 hn.2
      rw [(C59_compare ha.ok hb.ok hu hv).2.1, hu, hv]
      simp [eq_comm]

theorem MachineF.abs_val {F : Fmt} {a : FloatV} {x : Bool × Nat} (h : MachineF F a x) (hx : x.2 < F.inf) : |fval a| = F.value x.2 := by
  rw [h.val hx, F.val_sgn, abs_mul, abs_of_nonneg (F.value_nonneg _)]
  unfold sgn
  split <;> norm_num

/-- the sign of a number other than zero -/
theorem Fmt.val_neg_iff (F : Fmt) {x : Bool × Nat} (h : x.2 ≠ 0) : decide (F.val x < 0) = x.1 := by
  have := F.value_pos h
  rw [F.val_sgn]
  unfold sgn
  cases x.1
  · rw [decide_eq_false_iff_not]; simpa using this.le
  · rw [decide_eq_true_iff]; simpa using this

/-- to a double, if the value is a multiple of the least double -/
theorem MachineF.to64 {F : Fmt} {a : FloatV} {x : Bool × Nat} (h : MachineF F a x) (hg : x.2 < F.inf → x.2 ≠ 0 → (2 : ℚ) ^ (-1074 : ℤ) ≤ F.value x.2) :
    ∃ d t, fToF64 a = .ok (d, t) ∧ IeeeConv F b64 x (parts64 d) ∧
      (x.2 < F.inf → (parts64 d).2 < b64.inf → t = accOf (F.val x) (b64.val (parts64 d))) ∧ (F.inf ≤ x.2 → t = .exact) := by
  have hp := F.inf_pos
  by_cases hn : F.inf < x.2
  · exact ⟨_, _, to64_nan (h.nan.2 hn), ⟨fun _ => nan64_bits, by omega, by omega, by omega⟩, by omega, fun _ => rfl⟩
  by_cases hi : x.2 = F.inf
  · have hf := h.inf.2 hi
    refine ⟨_, _, to64_inf hf, ⟨by omega, fun _ => ?_, by omega, by omega⟩, by omega, fun _ => rfl⟩
    rw [parts_mk64 inf64_lt, h.neg (by rw [hf]; decide)]
  have hl : x.2 < F.inf := by omega
  by_cases h0 : x.2 = 0
  · have hf := h.zero.2 h0
    refine ⟨_, _, to64_zero hf, ⟨by omega, by omega, fun _ => ?_, by omega⟩, fun _ _ => ?_, by omega⟩
    · rw [parts_mk64 (by norm_num), h.neg (by rw [hf]; decide)]
    · rw [parts_mk64 (by norm_num), F.val_zero_iff.2 h0, b64.val_zero_iff.2 rfl]
      simp [accOf]
  · have hf := h.fin.2 ⟨hl, h0⟩
    have hneg := h.neg (by rw [hf]; decide)
    obtain ⟨c, t, e, hc, ht⟩ := C76_to_f64_partial h.ok hf (by
      rw [h.abs_val hl]
      exact fun g => absurd (hg hl h0) (not_le.2 g.2))
    refine ⟨_, t, e, ⟨by omega, by omega, by omega, fun _ _ => ?_⟩, fun _ g => ?_, by omega⟩
    · rw [parts_mk64 (nearest64_lt hc)]
      refine ⟨?_, ?_⟩
      · rw [F.val_neg_iff h0, hneg]
      · rwa [← h.val hl]
    · rw [parts_mk64 (nearest64_lt hc)] at g ⊢
      rw [ht, if_neg (by dsimp only at g; omega), h.val hl, f64val_parts, parts_mk64 (nearest64_lt hc)]

/-- to a single, with the exception that `to_f32` makes -/
theorem MachineF.to32 {F : Fmt} {a : FloatV} {x : Bool × Nat} (h : MachineF F a x) : ∃ d t, fToF32 a = .ok (d, t) ∧
    (¬ (x.2 < F.inf ∧ (2 : ℚ) ^ (-150 : ℤ) < F.value x.2 ∧ F.value x.2 < 2 ^ (-149 : ℤ)) → IeeeConv F b32 x (parts32 d) ∧
      (x.2 < F.inf → (parts32 d).2 < b32.inf → t = accOf (F.val x) (b32.val (parts32 d))) ∧ (F.inf ≤ x.2 → t = .exact)) ∧
    (x.2 < F.inf → (2 : ℚ) ^ (-150 : ℤ) < F.value x.2 → F.value x.2 < 2 ^ (-149 : ℤ) → d = mk32 x.1 (2 ^ 23)) := by
  have hp := F.inf_pos
  by_cases hn : F.inf < x.2
  · exact ⟨_, _, to32_nan (h.nan.2 hn), fun _ => ⟨⟨fun _ => nan32_bits, by omega, by omega, by omega⟩, by omega, fun _ => rfl⟩, by omega⟩
  by_cases hi : x.2 = F.inf
  · have hf := h.inf.2 hi
    refine ⟨_, _, to32_inf hf, fun _ => ⟨⟨by omega, fun _ => ?_, by omega, by omega⟩, by omega, fun _ => rfl⟩, by omega⟩
    rw [parts_mk32 inf32_lt, h.neg (by rw [hf]; decide)]
  have hl : x.2 < F.inf := by omega
  by_cases h0 : x.2 = 0
  · have hf := h.zero.2 h0
    refine ⟨_, _, to32_zero hf, fun _ => ⟨⟨by omega, by omega, fun _ => ?_, by omega⟩, fun _ _ => ?_, by omega⟩, fun _ g => ?_⟩
    · rw [parts_mk32 (by norm_num), h.neg (by rw [hf]; decide)]
    · rw [parts_mk32 (by norm_num), F.val_zero_iff.2 h0, b32.val_zero_iff.2 rfl]
      simp [accOf]
    · rw [h0, F.value_zero] at g
      exact absurd g (not_lt.2 (two_zpow_pos _).le)
  · have hf := h.fin.2 ⟨hl, h0⟩
    have hneg := h.neg (by rw [hf]; decide)
    by_cases hg : (2 : ℚ) ^ (-150 : ℤ) < F.value x.2 ∧ F.value x.2 < 2 ^ (-149 : ℤ)
    · have hgap := ((C76_gap h.ok hf).2 (by rw [h.abs_val hl]; exact hg.1) (by rw [h.abs_val hl]; exact hg.2)).1
      refine ⟨_, _, hgap, fun g => absurd ⟨hl, hg⟩ g, fun _ _ _ => ?_⟩
      rw [hneg]
    · obtain ⟨c, t, e, hc, ht⟩ := C76_to_f32_partial h.ok hf (by rwa [h.abs_val hl])
      refine ⟨_, t, e, fun _ => ⟨⟨by omega, by omega, by omega, fun _ _ => ?_⟩, fun _ g => ?_, by omega⟩,
        fun _ g1 g2 => absurd ⟨g1, g2⟩ hg⟩
      · rw [parts_mk32 (nearest32_lt hc)]
        refine ⟨?_, ?_⟩
        · rw [F.val_neg_iff h0, hneg]
        · rwa [← h.val hl]
      · rw [parts_mk32 (nearest32_lt hc)] at g ⊢
        rw [ht, if_neg (by dsimp only at g; omega), h.val hl]
        rfl

/-- a number converted to its own format -/
theorem IeeeConv.self {F : Fmt} {x d : Bool × Nat} (h : IeeeConv F F x d) (hx : x.2 ≤ F.inf) : d = x := by
  by_cases hi : x.2 = F.inf
  · rw [h.inf hi, ← hi]
  by_cases h0 : x.2 = 0
  · rw [h.zero h0, ← h0]
  · exact F.near_self (by omega) h0 (h.num (by omega) h0)

theorem value_ge_min64 {c : Nat} (h : c ≠ 0) : (2 : ℚ) ^ (-1074 : ℤ) ≤ b64.value c := by
  have h2 := b64.value_le.2 (Nat.one_le_iff_ne_zero.2 h)
  rw [b64.value_one, b64_bias, b64_mb] at h2
  exact le_trans (le_of_eq (by norm_num)) h2

theorem value_ge_min32 {c : Nat} (h : c ≠ 0) : (2 : ℚ) ^ (-149 : ℤ) ≤ b32.value c := by
  have h2 := b32.value_le.2 (Nat.one_le_iff_ne_zero.2 h)
  rw [b32.value_one, b32_bias, b32_mb] at h2
  exact le_trans (le_of_eq (by norm_num)) h2

theorem parts64_inj {x y : D} (h : parts64 x = parts64 y) : x = y := by
  rw [← mk64_parts x, ← mk64_parts y, h]

theorem parts32_inj {x y : W} (h : parts32 x = parts32 y) : x = y := by
  rw [← mk32_parts x, ← mk32_parts y, h]

theorem MachineF.neg' {F : Fmt} {a : FloatV} {x : Bool × Nat} (h : MachineF F a x) : MachineF F (fNeg a) (opp x) := by
  obtain ⟨h1, -, h2, -, h3, -, h4, -, h5, -⟩ := C79_neg_abs h.ok
  refine ⟨h1, ?_, h.mode, ?_, ?_, ?_, ?_, ?_⟩
  · rw [h2, h4]; exact h.prec
  · rw [h2]; exact h.nan
  · rw [h2]; exact h.inf
  · rw [h2]; exact h.zero
  · rw [h2, h3]; exact fun g => congrArg _ (h.neg g)
  · intro g
    rw [h5, h.val g, F.val_opp]

theorem MachineF.abs {F : Fmt} {a : FloatV} {x : Bool × Nat} (h : MachineF F a x) : MachineF F (fAbs a) (false, x.2) := by
  obtain ⟨-, h1, -, h2, -, h3, -, h4, -, h5⟩ := C79_neg_abs h.ok
  refine ⟨h1, ?_, h.mode, ?_, ?_, ?_, ?_, ?_⟩
  · rw [h2, h4]; exact h.prec
  · rw [h2]; exact h.nan
  · rw [h2]; exact h.inf
  · rw [h2]; exact h.zero
  · rw [h2, h3]; exact fun g => rfl
  · intro g
    rw [h5, h.abs_val g, F.val_sgn]
    simp [sgn]

/-- a unary operation on a double by way of Float -/
def viaFloat1 (f : FloatV → FloatV) (x : D) : Res (D × Accuracy) := do fToF64 (f (← fFromF64 x))

/-- a unary operation on a single by way of Float -/
def viaFloat1s (f : FloatV → FloatV) (x : W) : Res (W × Accuracy) := do fToF32 (f (← fFromF32 x))

theorem exact_of_eq {F : Fmt} {x : Bool × Nat} {t : Accuracy} (h : x.2 < F.inf → t = accOf (F.val x) (F.val x)) (h' : F.inf ≤ x.2 → t = .exact) :
    t = .exact := by
  by_cases hx : x.2 < F.inf
  · rw [h hx]; simp [accOf]
  · exact h' (by omega)

theorem MachineF.back64 {a : FloatV} {x : Bool × Nat} (h : MachineF b64 a x) : ∃ d t, fToF64 a = .ok (d, t) ∧
    (x.2 ≤ b64.inf → parts64 d = x ∧ t = .exact) ∧ (b64.inf < x.2 → b64.inf < (parts64 d).2) := by
  obtain ⟨d, t, e, h1, h2, h3⟩ := h.to64 (fun _ g => value_ge_min64 g)
  refine ⟨d, t, e, fun g => ?_, fun g => h1.nan g⟩
  have hd := h1.self g
  rw [hd] at h2
  exact ⟨hd, exact_of_eq (fun k => h2 k k) h3⟩

theorem MachineF.back32 {a : FloatV} {x : Bool × Nat} (h : MachineF b32 a x) : ∃ d t, fToF32 a = .ok (d, t) ∧
    (x.2 ≤ b32.inf → parts32 d = x ∧ t = .exact) ∧ (b32.inf < x.2 → b32.inf < (parts32 d).2) := by
  obtain ⟨d, t, e, h', -⟩ := h.to32
  obtain ⟨h1, h2, h3⟩ := h' (by
    rintro ⟨-, g1, g2⟩
    have : x.2 ≠ 0 := by
      intro g; rw [g, b32.value_zero] at g1; exact absurd g1 (not_lt.2 (two_zpow_pos _).le)
    exact absurd (value_ge_min32 this) (not_le.2 g2))
  refine ⟨d, t, e, fun g => ?_, fun g => h1.nan g⟩
  have hd := h1.self g
  rw [hd] at h2
  exact ⟨hd, exact_of_eq (fun k => h2 k k) h3⟩

/-! ## C125 -/

/-- **C125**: the order and the equality of doubles, made `Float`s, are those of the machine: NaNs are unordered and differ from
everything, both zeros are equal, and the infinities are at the ends. -/
theorem C125_order64 (x y : D) : ∃ a b, fFromF64 x = .ok a ∧ fFromF64 y = .ok b ∧ IeeeOrder b64 (parts64 x) (parts64 y) (fPartialCmp a b) ∧
    (fEq a b = true ↔ fPartialCmp a b = some .eq) := by
  obtain ⟨a, ea, ha⟩ := from64_shows x
  obtain ⟨b, eb, hb⟩ := from64_shows y
  exact ⟨a, b, ea, eb, ha.order hb⟩

/-- **C125**: the same for singles -/
theorem C125_order32 (x y : W) : ∃ a b, fFromF32 x = .ok a ∧ fFromF32 y = .ok b ∧ IeeeOrder b32 (parts32 x) (parts32 y) (fPartialCmp a b) ∧
    (fEq a b = true ↔ fPartialCmp a b = some .eq) := by
  obtain ⟨a, ea, ha⟩ := from32_shows x
  obtain ⟨b, eb, hb⟩ := from32_shows y
  exact ⟨a, b, ea, eb, ha.order hb⟩

/-- **C125**: `Float::from(x)`, `-Float::from(x)` and `Float::from(x).abs()`, made an `f64` again, are `x`, `-x` and `x.abs()`, bit for bit
and flagged exact, signed zeros and infinities included; a NaN becomes a NaN. -/
theorem C125_back64 (x : D) :
    (∃ d t, viaFloat1 id x = .ok (d, t) ∧ ((parts64 x).2 ≤ b64.inf → d = x ∧ t = .exact) ∧ (b64.inf < (parts64 x).2 → b64.inf < (parts64 d).2)) ∧
    (∃ d t, viaFloat1 fNeg x = .ok (d, t) ∧ ((parts64 x).2 ≤ b64.inf → parts64 d = (!(parts64 x).1, (parts64 x).2) ∧ t = .exact) ∧
      (b64.inf < (parts64 x).2 → b64.inf < (parts64 d).2)) ∧
    (∃ d t, viaFloat1 fAbs x = .ok (d, t) ∧ ((parts64 x).2 ≤ b64.inf → parts64 d = (false, (parts64 x).2) ∧ t = .exact) ∧
      (b64.inf < (parts64 x).2 → b64.inf < (parts64 d).2)) := by
  obtain ⟨a, ea, ha⟩ := from64_shows x
  unfold viaFloat1
  rw [ea]
  refine ⟨?_, ha.neg'.back64, ha.abs.back64⟩
  obtain ⟨d, t, e, h1, h2⟩ := ha.back64
  exact ⟨d, t, e, fun g => ⟨parts64_inj (h1 g).1, (h1 g).2⟩, h2⟩

/-- **C125**: the same for singles -/
theorem C125_back32 (x : W) :
    (∃ d t, viaFloat1s id x = .ok (d, t) ∧ ((parts32 x).2 ≤ b32.inf → d = x ∧ t = .exact) ∧ (b32.inf < (parts32 x).2 → b32.inf < (parts32 d).2)) ∧
    (∃ d t, viaFloat1s fNeg x = .ok (d, t) ∧ ((parts32 x).2 ≤ b32.inf → parts32 d = (!(parts32 x).1, (parts32 x).2) ∧ t = .exact) ∧
      (b32.inf < (parts32 x).2 → b32.inf < (parts32 d).2)) ∧
    (∃ d t, viaFloat1s fAbs x = .ok (d, t) ∧ ((parts32 x).2 ≤ b32.inf → parts32 d = (false, (parts32 x).2) ∧ t = .exact) ∧
      (b32.inf < (parts32 x).2 → b32.inf < (parts32 d).2)) := by
  obtain ⟨a, ea, ha⟩ := from32_shows x
  unfold viaFloat1s
  rw [ea]
  refine ⟨?_, ha.neg'.back32, ha.abs.back32⟩
  obtain ⟨d, t, e, h1, h2⟩ := ha.back32
  exact ⟨d, t, e, fun g => ⟨parts32_inj (h1 g).1, (h1 g).2⟩, h2⟩

/-- **C125**: `Float::from(x).to_f64()` of a single is `x as f64`, exactly. -/
theorem C125_widen (x : W) : ∃ a d, fFromF32 x = .ok a ∧ fToF64 a = .ok (d, .exact) ∧ IeeeConv b32 b64 (parts32 x) (parts64 d) ∧
    ((parts32 x).2 < b32.inf → f64val d = b32.val (parts32 x)) := by
  obtain ⟨a, ea, ha⟩ := from64_shows (hwTo64 x)
  obtain ⟨a', ea', ha'⟩ := from32_shows x
  cases ea.symm.trans ea'
  obtain ⟨p1, p2, p3, p4, p5⟩ := parts_hwTo64 x
  obtain ⟨d, t, e, h1, h2⟩ := ha.back64
  have hlow : (parts32 x).2 < b32.inf → (parts32 x).2 ≠ 0 → (2 : ℚ) ^ (-1074 : ℤ) ≤ b32.value (parts32 x).2 := fun _ g =>
    le_trans (zpow_le_iff.2 (by norm_num)) (value_ge_min32 g)
  obtain ⟨d', t', e', c1, c2, c3⟩ := ha'.to64 hlow
  cases e.symm.trans e'
  have hval : (parts32 x).2 < b32.inf → f64val d = b32.val (parts32 x) := by
    intro g
    rw [f64val_parts, (h1 (by omega)).1, p5 g]
  refine ⟨a, d, ea, ?_, c1, hval⟩
  rw [e]
  by_cases g : (parts32 x).2 ≤ b32.inf
  · rw [(h1 (by omega)).2]
  · rw [c3 (by omega)]

/-- **C125**: `Float::from(x).to_f32()` of a double is `x as f32`, that is, the nearest one, ties to even, except for
`2^-150 < |x| < 2^-149`, which become `±2^-126` (see C76) instead of `±2^-149`. -/
theorem C125_narrow (x : D) : ∃ a d t, fFromF64 x = .ok a ∧ fToF32 a = .ok (d, t) ∧
    (¬ ((parts64 x).2 < b64.inf ∧ (2 : ℚ) ^ (-150 : ℤ) < |f64val x| ∧ |f64val x| < 2 ^ (-149 : ℤ)) → IeeeConv b64 b32 (parts64 x) (parts32 d)) ∧
    ((parts64 x).2 < b64.inf → (2 : ℚ) ^ (-150 : ℤ) < |f64val x| → |f64val x| < 2 ^ (-149 : ℤ) → d = mk32 (parts64 x).1 (2 ^ 23)) := by
  obtain ⟨a, ea, ha⟩ := from64_shows x
  obtain ⟨d, t, e, h1, h2⟩ := ha.to32
  have hv : (parts64 x).2 < b64.inf → |f64val x| = b64.value (parts64 x).2 := fun g => by
    rw [f64val_parts, ← ha.val g, ha.abs_val g]
  refine ⟨a, d, t, ea, e, fun g => (h1 fun k => g ?_).1, fun g1 g2 g3 => ?_⟩
  · rw [hv k.1]; exact k
  · rw [hv g1] at g2 g3
    exact h2 g1 g2 g3

/-- The specifications leave no choice, but which NaN it is. -/
theorem C125_determined {F G : Fmt} {x y d e : Bool × Nat} {o o' : Option Ordering} :
    (IeeeConv F G x d → IeeeConv F G x e → d = e ∨ (G.inf < d.2 ∧ G.inf < e.2)) ∧
    (IeeeOrder F x y o → IeeeOrder F x y o' → o = o') := by
  constructor
  · intro h h'
    by_cases hn : F.inf < x.2
    · exact .inr ⟨h.nan hn, h'.nan hn⟩
    left
    by_cases hi : x.2 = F.inf
    · rw [h.inf hi, h'.inf hi]
    by_cases h0 : x.2 = 0
    · rw [h.zero h0, h'.zero h0]
    obtain ⟨g1, g2⟩ := h.num (by omega) h0
    obtain ⟨g3, g4⟩ := h'.num (by omega) h0
    exact Prod.ext (g1.trans g3.symm) (g2.unique g4)
  · intro h h'
    by_cases hn : F.ext x = none ∨ F.ext y = none
    · rw [h.nan hn, h'.nan hn]
    rw [not_or] at hn
    obtain ⟨u, hu⟩ := Option.ne_none_iff_exists'.1 hn.1
    obtain ⟨v, hv⟩ := Option.ne_none_iff_exists'.1 hn.2
    rcases lt_trichotomy u v with g | g | g
    · rw [(h.lt u v hu hv).2 g, (h'.lt u v hu hv).2 g]
    · rw [(h.eq u v hu hv).2 g, (h'.eq u v hu hv).2 g]
    · rw [(h.gt u v hu hv).2 g, (h'.gt u v hu hv).2 g]

/-- The exception is met: `3/4 · 2^-149` becomes `2^-126`. -/
theorem C125_violated : ∃ x : D, f64val x = 3 / 4 * 2 ^ (-149 : ℤ) ∧
    (do let a ← fFromF64 x; let r ← fToF32 a; pure r.1 : Res W) = .ok 0x00800000#32 := by
  refine ⟨0x3698000000000000#64, by decide +kernel, by decide +kernel⟩

example : viaFloat1 fNeg 0#64 = .ok (0x8000000000000000#64, .exact) ∧ viaFloat1 fAbs 0xfff0000000000000#64 = .ok (0x7ff0000000000000#64, .exact) ∧
    viaFloat1s fNeg 0x3fc00000#32 = .ok (0xbfc00000#32, .exact) := by decide +kernel
example : (do fPartialCmp (← (fFromF64 0#64).toOption) (← (fFromF64 0x8000000000000000#64).toOption)) = some .eq ∧
    (do fPartialCmp (← (fFromF64 0x7ff8000000000000#64).toOption) (← (fFromF64 0#64).toOption)) = none := by decide +kernel

end RMath
