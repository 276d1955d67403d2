import Verif.Props.FloatLaws

/-!
# Property C115: Float arithmetic with 53 or 24 digits is IEEE 754 arithmetic

`Fmt.Nearest` (in `Verif.SpecIeee`) is the rounding that IEEE 754 prescribes for the operations of a format: the nearest number of the
format, ties to even, infinity from half a unit above the largest number on.
-/

namespace RMath

/-- `to_f64` of `z` is the double that IEEE 754 prescribes for the exact result `q` -/
def IeeeDouble (z : FloatV) (q : ℚ) : Prop :=
  ∃ d a, fToF64 z = .ok (d, a) ∧ (q = 0 → f64val d = 0) ∧ (q ≠ 0 → ∃ c, d = mk64 (decide (q < 0)) c ∧ b64.Nearest |q| c)

/-- `to_f32` of `z` is the single that IEEE 754 prescribes for the exact result `q` -/
def IeeeSingle (z : FloatV) (q : ℚ) : Prop :=
  ∃ d a, fToF32 z = .ok (d, a) ∧ (q = 0 → d = mk32 z.neg 0) ∧ (q ≠ 0 → ∃ c, d = mk32 (decide (q < 0)) c ∧ b32.Nearest |q| c)

/-! ## Proof -/

theorem exists_binade {q : ℚ} (hq : q ≠ 0) : ∃ e : ℤ, 2 ^ e ≤ |q| ∧ |q| < 2 ^ (e + 1) := by
  have hn : q.num.natAbs ≠ 0 := by simpa using hq
  have h := floorLog_spec q.num.natAbs q.den hn q.den_ne_zero
  have e : ((q.num.natAbs : ℕ) : ℚ) / q.den = |q| := by
    conv_rhs => rw [← Rat.num_div_den q]
    rw [abs_div, Nat.cast_natAbs]
    push_cast
    rw [abs_of_nonneg (by positivity : (0 : ℚ) ≤ q.den)]
  rw [e] at h
  exact ⟨_, h⟩

/-- rounding to the digits of a format, and then to the format, is rounding to the format -/
theorem fmt_double (F : Fmt) {q r : ℚ} {c : Nat} (hq : 2 ^ (1 - (F.bias : ℤ)) ≤ |q|) (hr : Rounded .toNearestEven (F.mb + 1) q r)
    (hc : F.Nearest |r| c) : F.Nearest |q| c := by
  have hq0 : q ≠ 0 := by
    rintro rfl
    rw [abs_zero] at hq
    exact absurd hq (not_le.2 (two_zpow_pos _))
  obtain ⟨e, h1, h2⟩ := exists_binade hq0
  have he : ¬ e < 1 - (F.bias : ℤ) := by
    intro h
    have := lt_of_le_of_lt hq h2
    rw [zpow_lt_iff] at this
    omega
  obtain ⟨c', g1, g2, -⟩ := fmt_core F h1 h2 (p := F.mb + 1) (by rw [if_neg he]; push_cast; rfl) hr
  rcases Nat.lt_or_ge c' F.inf with h | h
  · rw [Nat.min_eq_left h.le] at g1
    rw [← g2] at hc
    rw [hc.unique (F.nearest_self c' h)]
    exact g1
  · rw [Nat.min_eq_right h] at g1
    have hinf : F.Nearest |r| F.inf := by
      right
      refine ⟨rfl, ?_⟩
      rw [← g2]
      have h3 := F.value_le.2 h
      rw [F.value_inf] at h3
      have := two_zpow_pos ((F.bias : ℤ) - F.mb - 1)
      linarith
    rw [hc.unique hinf]
    exact g1

theorem nearest_huge (F : Fmt) {q : ℚ} (h : 2 ^ ((F.bias : ℤ) + 1) ≤ q) : F.Nearest q F.inf := by
  right
  have := two_zpow_pos ((F.bias : ℤ) - F.mb - 1)
  exact ⟨rfl, by linarith⟩

theorem Rounded.sign {m : RoundingMode} {p : Nat} {q r : ℚ} (h : Rounded m p q r) (hr : r ≠ 0) : (q < 0 ↔ r < 0) := by
  constructor
  · intro hq
    have := h.negate.nonneg (by linarith)
    rcases lt_or_eq_of_le this with g | g
    · linarith
    · exact absurd (by linarith) hr
  · intro hlt
    by_contra hc
    have := h.nonneg (not_lt.1 hc)
    linarith

theorem Rounded.ne_zero {m : RoundingMode} {p : Nat} (hp : 1 ≤ p) {q r : ℚ} (h : Rounded m p q r) {e : ℤ} (hq : 2 ^ e ≤ |q|) : 2 ^ e ≤ |r| := by
  have key : ∀ {m : RoundingMode} {q r : ℚ}, Rounded m p q r → 0 < q → (2 : ℚ) ^ e ≤ |q| → (2 : ℚ) ^ e ≤ |r| := by
    intro m q r h h0 hq
    obtain ⟨f, h1, h2⟩ := exists_binade h0.ne'
    rw [abs_of_pos h0] at h1 h2 hq
    have := (h.binade hp h0 (e := f + 1) (by simpa using h1) h2).1
    have hef : e ≤ f := by
      have := zpow_lt_iff.1 (lt_of_le_of_lt hq h2)
      omega
    rw [abs_of_nonneg (h.nonneg h0.le)]
    refine le_trans (zpow_le_iff.2 hef) ?_
    simpa using this
  have hq0 : q ≠ 0 := by
    rintro rfl
    rw [abs_zero] at hq
    exact absurd hq (not_le.2 (two_zpow_pos _))
  rcases lt_or_gt_of_ne hq0 with g | g
  · have := key h.negate (by linarith) (by rwa [abs_neg])
    rwa [abs_neg] at this
  · exact key h g hq

theorem neg_decide {z : FloatV} {q r : ℚ} {m : RoundingMode} {p : Nat} (hz : FloatOk z) (hf : z.form = .finite) (hv : fval z = r)
    (h : Rounded m p q r) : z.neg = decide (q < 0) := by
  obtain ⟨s1, s2⟩ := sign_of_fin hz hf
  rw [hv] at s1 s2
  have hr : r ≠ 0 := by
    cases hn : z.neg
    · exact (s2 hn).ne'
    · exact (s1 hn).ne
  rw [eq_comm]
  cases hn : z.neg
  · rw [decide_eq_false_iff_not, h.sign hr]
    exact not_lt.2 (s2 hn).le
  · rw [decide_eq_true_iff, h.sign hr]
    exact s1 hn

theorem denX_zero {z : FloatV} {p : Nat} {m : RoundingMode} (h : FDenX z ⟨.num 0, p, m⟩) : z.form = .zero := by
  have h' : FDen z ⟨0, p, m⟩ := h
  rcases h'.2.1 with hf | hf
  · obtain ⟨s1, s2⟩ := sign_of_fin h'.1 hf
    have hv : fval z = 0 := h'.2.2.1
    cases hn : z.neg
    · exact absurd hv (s2 hn).ne'
    · exact absurd hv (s1 hn).ne
  · exact hf

theorem ieee_double {z : FloatV} {q : ℚ} {v : FXVal} {p : Nat} (hp : p = 53) (hv : FRounds .toNearestEven p q v)
    (hz : FDenX z ⟨v, p, .toNearestEven⟩) (hq : q = 0 ∨ 2 ^ (-1022 : ℤ) ≤ |q|) : IeeeDouble z q := by
  subst hp
  rcases hq with rfl | hq
  · have h0 := hv.zero
    subst h0
    refine ⟨_, _, by rw [fToF64, denX_zero hz]; rfl, fun _ => ?_, fun h => absurd rfl h⟩
    cases z.neg <;> decide +kernel
  · have hq0 : q ≠ 0 := by
      rintro rfl
      rw [abs_zero] at hq
      exact absurd hq (not_le.2 (two_zpow_pos _))
    unfold FRounds at hv
    rw [if_neg (not_lt.2 (le_trans (zpow_le_iff.2 (by decide)) hq))] at hv
    obtain ⟨r, hr, hvr⟩ := hv
    by_cases hbig : |r| < 2 ^ maxExp
    · rw [if_pos hbig] at hvr
      subst hvr
      have hz' : FDen z ⟨r, 53, .toNearestEven⟩ := hz
      have hval : fval z = r := hz'.2.2.1
      have hr1 : 2 ^ (-1022 : ℤ) ≤ |r| := hr.ne_zero (by norm_num) hq
      have hf : z.form = .finite := by
        rcases hz'.2.1 with h | h
        · exact h
        · have : fval z = 0 := by unfold fval; rw [if_neg (by rw [h]; decide)]
          rw [← hval, this, abs_zero] at hr1
          exact absurd hr1 (not_le.2 (two_zpow_pos _))
      obtain ⟨c, a, h1, h2, -⟩ := C76_to_f64_partial hz'.1 hf (by
        rintro ⟨-, h⟩
        rw [hval] at h
        exact absurd (lt_of_le_of_lt hr1 h) (not_lt.2 (zpow_le_iff.2 (by norm_num))))
      rw [hval] at h2
      refine ⟨_, _, h1, fun h => absurd h hq0, fun _ => ⟨c, by rw [neg_decide hz'.1 hf hval hr], ?_⟩⟩
      exact fmt_double b64 hq hr h2
    · rw [if_neg hbig] at hvr
      subst hvr
      obtain ⟨x1, x2, -⟩ : z.form = .inf ∧ z.neg = decide (q < 0) ∧ z.prec = 53 ∧ z.mode = .toNearestEven ∧ 1 ≤ z.prec := hz
      refine ⟨mk64 z.neg b64.inf, .exact, by rw [fToF64, x1]; rfl, fun h => absurd h hq0, fun _ => ⟨_, by rw [x2], ?_⟩⟩
      refine fmt_double b64 hq hr (nearest_huge b64 ?_)
      exact le_trans (zpow_le_iff.2 (by decide)) (not_lt.1 hbig)

theorem ieee_single {z : FloatV} {q : ℚ} {v : FXVal} {p : Nat} (hp : p = 24) (hv : FRounds .toNearestEven p q v)
    (hz : FDenX z ⟨v, p, .toNearestEven⟩) (hq : q = 0 ∨ 2 ^ (-126 : ℤ) ≤ |q|) : IeeeSingle z q := by
  subst hp
  rcases hq with rfl | hq
  · have h0 := hv.zero
    subst h0
    exact ⟨_, _, by rw [fToF32, denX_zero hz]; rfl, fun _ => rfl, fun h => absurd rfl h⟩
  · have hq0 : q ≠ 0 := by
      rintro rfl
      rw [abs_zero] at hq
      exact absurd hq (not_le.2 (two_zpow_pos _))
    unfold FRounds at hv
    rw [if_neg (not_lt.2 (le_trans (zpow_le_iff.2 (by decide)) hq))] at hv
    obtain ⟨r, hr, hvr⟩ := hv
    by_cases hbig : |r| < 2 ^ maxExp
    · rw [if_pos hbig] at hvr
      subst hvr
      have hz' : FDen z ⟨r, 24, .toNearestEven⟩ := hz
      have hval : fval z = r := hz'.2.2.1
      have hr1 : 2 ^ (-126 : ℤ) ≤ |r| := hr.ne_zero (by norm_num) hq
      have hf : z.form = .finite := by
        rcases hz'.2.1 with h | h
        · exact h
        · have : fval z = 0 := by unfold fval; rw [if_neg (by rw [h]; decide)]
          rw [← hval, this, abs_zero] at hr1
          exact absurd hr1 (not_le.2 (two_zpow_pos _))
      obtain ⟨c, a, h1, h2, -⟩ := C76_to_f32_partial hz'.1 hf (by
        rintro ⟨-, h⟩
        rw [hval] at h
        exact absurd (lt_of_le_of_lt hr1 h) (not_lt.2 (zpow_le_iff.2 (by norm_num))))
      rw [hval] at h2
      refine ⟨_, _, h1, fun h => absurd h hq0, fun _ => ⟨c, by rw [neg_decide hz'.1 hf hval hr], ?_⟩⟩
      exact fmt_double b32 hq hr h2
    · rw [if_neg hbig] at hvr
      subst hvr
      obtain ⟨x1, x2, -⟩ : z.form = .inf ∧ z.neg = decide (q < 0) ∧ z.prec = 24 ∧ z.mode = .toNearestEven ∧ 1 ≤ z.prec := hz
      refine ⟨mk32 z.neg b32.inf, .exact, by rw [fToF32, x1]; rfl, fun h => absurd h hq0, fun _ => ⟨_, by rw [x2], ?_⟩⟩
      refine fmt_double b32 hq hr (nearest_huge b32 ?_)
      exact le_trans (zpow_le_iff.2 (by decide)) (not_lt.1 hbig)

theorem ieee_double_grid {z : FloatV} {q : ℚ} {v : FXVal} {p : Nat} (hp : p = 53) (hv : FRounds .toNearestEven p q v)
    (hz : FDenX z ⟨v, p, .toNearestEven⟩) (k : ℤ) (hk : q = k * 2 ^ (-1074 : ℤ)) : IeeeDouble z q := by
  by_cases h0 : q = 0
  · exact ieee_double hp hv hz (.inl h0)
  by_cases h1 : 2 ^ (-1022 : ℤ) ≤ |q|
  · exact ieee_double hp hv hz (.inr h1)
  rw [not_le] at h1
  subst hp
  have hk0 : k ≠ 0 := by
    rintro rfl
    exact h0 (by rw [hk]; simp)
  have hu := two_zpow_pos (-1074 : ℤ)
  have habs : |q| = |(k : ℚ)| * 2 ^ (-1074 : ℤ) := by rw [hk, abs_mul, abs_of_pos hu]
  have hlow : (2 : ℚ) ^ (-1074 : ℤ) ≤ |q| := by
    have : (1 : ℚ) ≤ |(k : ℚ)| := by exact_mod_cast Int.one_le_abs hk0
    rw [habs]
    nlinarith
  have hkb : |(k : ℚ)| ≤ 2 ^ 53 := by
    have e : (2 : ℚ) ^ (-1022 : ℤ) = 2 ^ 52 * 2 ^ (-1074 : ℤ) := by
      rw [← zpow_natCast (2 : ℚ) 52, ← zpow_add₀ (by norm_num : (2 : ℚ) ≠ 0)]
      norm_num
    rw [habs, e] at h1
    have := lt_of_mul_lt_mul_right h1 hu.le
    linarith
  have hvq := hv.exact (by norm_num) hk hkb (.inr (le_trans (zpow_le_iff.2 (by decide)) hlow))
    (lt_of_lt_of_le h1 (zpow_le_iff.2 (by decide)))
  subst hvq
  have hz' : FDen z ⟨q, 53, .toNearestEven⟩ := hz
  have hval : fval z = q := hz'.2.2.1
  have hf : z.form = .finite := by
    rcases hz'.2.1 with h | h
    · exact h
    · have : fval z = 0 := by unfold fval; rw [if_neg (by rw [h]; decide)]
      exact absurd (by rw [← hval, this]) h0
  obtain ⟨c, a, g1, g2, -⟩ := C76_to_f64_partial hz'.1 hf (by
    rintro ⟨-, h⟩
    rw [hval] at h
    exact absurd (lt_of_le_of_lt hlow h) (lt_irrefl _))
  rw [hval] at g2
  obtain ⟨s1, s2⟩ := sign_of_fin hz'.1 hf
  rw [hval] at s1 s2
  refine ⟨_, _, g1, fun h => absurd h h0, fun _ => ⟨c, ?_, g2⟩⟩
  congr 1
  rw [eq_comm]
  cases hn : z.neg
  · exact decide_eq_false_iff_not.2 (not_lt.2 (s2 hn).le)
  · exact decide_eq_true_iff.2 (s1 hn)

/-- every finite double is a multiple of the least one -/
theorem f64val_grid (x : D) : ∃ k : ℤ, f64val x = k * 2 ^ (-1074 : ℤ) := by
  have hneg : (2 : ℚ) ^ (-1074 : ℤ) = 1 / 2 ^ 1074 := by rw [zpow_neg, one_div]; norm_cast
  have hsucc : (2 : ℚ) ^ 1075 = 2 * 2 ^ 1074 := pow_succ' _ _
  have hsg : ∃ s : ℤ, (if x.toNat / 2 ^ 63 = 1 then -1 else 1 : ℚ) = s := by
    split
    · exact ⟨-1, by norm_num⟩
    · exact ⟨1, by norm_num⟩
  obtain ⟨s, hs⟩ := hsg
  unfold f64val
  dsimp only
  rw [hneg, hs]
  have hpos : (2 : ℚ) ^ 1074 ≠ 0 := pow_ne_zero _ (by norm_num)
  generalize (2 : ℚ) ^ 1074 = u at *
  generalize x.toNat % 2 ^ 52 = m
  generalize x.toNat / 2 ^ 52 % 2 ^ 11 = e'
  cases e' with
  | zero =>
    refine ⟨s * m, ?_⟩
    rw [if_pos rfl]
    push_cast
    field_simp
  | succ e =>
    refine ⟨s * (2 ^ 52 + m) * 2 ^ e, ?_⟩
    rw [if_neg (by omega), hsucc]
    push_cast
    rw [pow_succ (2 : ℚ) e]
    field_simp
    norm_num

/-! ## C115 -/

/-- numbers of precision 53, or 24, that are rounded to nearest even -/
def Doubles (x y : FloatV) : Prop :=
  FloatOk x ∧ FloatOk y ∧ x.IsNumber ∧ y.IsNumber ∧ x.prec = 53 ∧ y.prec = 53 ∧ x.mode = .toNearestEven ∧ y.mode = .toNearestEven
def Singles (x y : FloatV) : Prop :=
  FloatOk x ∧ FloatOk y ∧ x.IsNumber ∧ y.IsNumber ∧ x.prec = 24 ∧ y.prec = 24 ∧ x.mode = .toNearestEven ∧ y.mode = .toNearestEven

/-- **C115** for doubles: sums, differences and products with 53 digits are what IEEE 754 prescribes, unless the exact result is below the
normal range.  Partial: not `0 - y` (`C113_zero_minus_violated`), and no quotient (`C60_violated`). -/
theorem C115_double_partial (x y : FloatV) (h : Doubles x y) :
    (fval x + fval y = 0 ∨ 2 ^ (-1022 : ℤ) ≤ |fval x + fval y| → ∃ z, fAdd x y = .ok z ∧ IeeeDouble z (fval x + fval y)) ∧
    (fval x - fval y = 0 ∨ 2 ^ (-1022 : ℤ) ≤ |fval x - fval y| → fval x ≠ 0 ∨ fval y = 0 →
      ∃ z, fSub x y = .ok z ∧ IeeeDouble z (fval x - fval y)) ∧
    (fval x * fval y = 0 ∨ 2 ^ (-1022 : ℤ) ≤ |fval x * fval y| → ∃ z, fMul x y = .ok z ∧ IeeeDouble z (fval x * fval y)) := by
  obtain ⟨hx, hy, nx, ny, px, py, mx, my⟩ := h
  have sf : SameFormat x y := ⟨by omega, by rw [px, py], by rw [mx, my]⟩
  have key : ∀ o : FOp, o.sound ⟨fval x, x.prec, x.mode⟩ ⟨fval y, y.prec, y.mode⟩ →
      (o.exact (fval x) (fval y) = 0 ∨ 2 ^ (-1022 : ℤ) ≤ |o.exact (fval x) (fval y)|) →
      ∃ z, fOp o.fn x y = .ok z ∧ IeeeDouble z (o.exact (fval x) (fval y)) := by
    intro o ho hq
    obtain ⟨z, v, hz, hv, dz⟩ := law_op o hx hy (by omega) (by omega) nx ny ho
    rw [mx] at hv dz
    exact ⟨z, hz, ieee_double px hv dz hq⟩
  exact ⟨key .add (add_sound sf), fun hq h0 => key .sub (sub_sound sf (fun h => h0.resolve_left (not_not_intro h))) hq, key .mul trivial⟩

/-- **C115** for singles. -/
theorem C115_single_partial (x y : FloatV) (h : Singles x y) :
    (fval x + fval y = 0 ∨ 2 ^ (-126 : ℤ) ≤ |fval x + fval y| → ∃ z, fAdd x y = .ok z ∧ IeeeSingle z (fval x + fval y)) ∧
    (fval x - fval y = 0 ∨ 2 ^ (-126 : ℤ) ≤ |fval x - fval y| → fval x ≠ 0 ∨ fval y = 0 →
      ∃ z, fSub x y = .ok z ∧ IeeeSingle z (fval x - fval y)) ∧
    (fval x * fval y = 0 ∨ 2 ^ (-126 : ℤ) ≤ |fval x * fval y| → ∃ z, fMul x y = .ok z ∧ IeeeSingle z (fval x * fval y)) := by
  obtain ⟨hx, hy, nx, ny, px, py, mx, my⟩ := h
  have sf : SameFormat x y := ⟨by omega, by rw [px, py], by rw [mx, my]⟩
  have key : ∀ o : FOp, o.sound ⟨fval x, x.prec, x.mode⟩ ⟨fval y, y.prec, y.mode⟩ →
      (o.exact (fval x) (fval y) = 0 ∨ 2 ^ (-126 : ℤ) ≤ |o.exact (fval x) (fval y)|) →
      ∃ z, fOp o.fn x y = .ok z ∧ IeeeSingle z (o.exact (fval x) (fval y)) := by
    intro o ho hq
    obtain ⟨z, v, hz, hv, dz⟩ := law_op o hx hy (by omega) (by omega) nx ny ho
    rw [mx] at hv dz
    exact ⟨z, hz, ieee_single px hv dz hq⟩
  exact ⟨key .add (add_sound sf), fun hq h0 => key .sub (sub_sound sf (fun h => h0.resolve_left (not_not_intro h))) hq, key .mul trivial⟩

theorem from_f64_doubles (x y : D) (hx : f64Finite x) (hy : f64Finite y) : ∃ a b, fFromF64 x = .ok a ∧ fFromF64 y = .ok b ∧
    Doubles a b ∧ fval a = f64val x ∧ fval b = f64val y := by
  have key : ∀ f : D, f64Finite f → ∃ z, fFromF64 f = .ok z ∧ FDen z ⟨f64val f, 53, .toNearestEven⟩ := by
    intro f hf
    have hm := f64Finite_mag f hf
    obtain ⟨z, e, hz⟩ := C62_from_f64 f hm
    obtain ⟨z', e', hz'⟩ := fSetF64_result fDefault f hm
    have : z' = z := by
      have : fFromF64 f = .ok z' := e'
      rw [e] at this; cases this; rfl
    subst this
    refine ⟨_, e, fden_exact (m := .toNearestEven) (p := 53) ?_ hz (by decide)⟩
    simpa [fDefault] using hz'
  obtain ⟨a, e1, a1, a2, a3, a4, a5, -⟩ := key x hx
  obtain ⟨b, e2, b1, b2, b3, b4, b5, -⟩ := key y hy
  exact ⟨a, b, e1, e2, ⟨a1, b1, a2, b2, a4, b4, a5, b5⟩, a3, b3⟩

/-- **C115** for the doubles themselves: `(Float::from(x) + Float::from(y)).to_f64()` is the IEEE 754 sum of any finite doubles, and
correspondingly for differences and products.  A sum or difference of doubles may be below the normal range, it is exact there.
Partial: not `0 - y`, no product below the normal range (rounded twice), and no quotient. -/
theorem C115_from_f64_partial (x y : D) (hx : f64Finite x) (hy : f64Finite y) : ∃ a b, fFromF64 x = .ok a ∧ fFromF64 y = .ok b ∧
    (∃ z, fAdd a b = .ok z ∧ IeeeDouble z (f64val x + f64val y)) ∧
    (f64val x ≠ 0 ∨ f64val y = 0 → ∃ z, fSub a b = .ok z ∧ IeeeDouble z (f64val x - f64val y)) ∧
    (f64val x * f64val y = 0 ∨ 2 ^ (-1022 : ℤ) ≤ |f64val x * f64val y| → ∃ z, fMul a b = .ok z ∧ IeeeDouble z (f64val x * f64val y)) := by
  obtain ⟨a, b, e1, e2, h, v1, v2⟩ := from_f64_doubles x y hx hy
  have hmul := (C115_double_partial a b h).2.2
  rw [v1, v2] at hmul
  refine ⟨a, b, e1, e2, ?_, ?_, hmul⟩
  all_goals
    obtain ⟨ha, hb, na, nb, pa, pb, ma, mb⟩ := h
    have sf : SameFormat a b := ⟨by omega, by rw [pa, pb], by rw [ma, mb]⟩
    obtain ⟨k, hk⟩ := f64val_grid x
    obtain ⟨l, hl⟩ := f64val_grid y
  · obtain ⟨z, v, hz, hv, dz⟩ := law_op .add ha hb (by omega) (by omega) na nb (add_sound sf)
    rw [ma] at hv dz
    rw [← v1, ← v2]
    exact ⟨z, hz, ieee_double_grid pa hv dz (k + l) (by rw [v1, v2, hk, hl, Int.cast_add, add_mul])⟩
  · intro h0
    rw [← v1, ← v2] at h0 ⊢
    obtain ⟨z, v, hz, hv, dz⟩ := law_op .sub ha hb (by omega) (by omega) na nb (sub_sound sf (fun h => h0.resolve_left (not_not_intro h)))
    rw [ma] at hv dz
    exact ⟨z, hz, ieee_double_grid pa hv dz (k - l) (by rw [v1, v2, hk, hl, Int.cast_sub, sub_mul])⟩

/-- two doubles with a product below the normal range -/
def lowX : D := 0x20b8000000000001#64
def lowY : D := 0x1f28000000000011#64
def lowZ : Res FloatV := do fMul (← fFromF64 lowX) (← fFromF64 lowY)

/-- Products below the normal range are rounded twice, to 53 digits and to a double: the result need not be the nearest. -/
theorem C115_low_product_wrong : f64Finite lowX ∧ f64Finite lowY ∧ ∃ z, lowZ = .ok z ∧ ¬ IeeeDouble z (f64val lowX * f64val lowY) := by
  refine ⟨by decide, by decide, ?_⟩
  have h : (do let z ← lowZ; let r ← fToF64 z; pure r.1 : Res D) = .ok (mk64 false 0x4800000000004) := by decide +kernel
  cases hz : lowZ with
  | error e => rw [hz] at h; cases h
  | ok z =>
    rw [hz] at h
    refine ⟨z, rfl, ?_⟩
    rintro ⟨d, a, h1, -, h2⟩
    have h' : (do let r ← fToF64 z; pure r.1 : Res D) = .ok (mk64 false 0x4800000000004) := h
    rw [h1] at h'
    have hd : d = mk64 false 0x4800000000004 := by cases h'; rfl
    obtain ⟨c, hc, hn⟩ := h2 (by decide +kernel)
    have hcc : c = 0x4800000000004 := by
      have hlt : c < 2 ^ 63 := by
        have : b64.inf < 2 ^ 63 := by decide
        rcases hn with h | h <;> omega
      have e1 := mag64_mk64 (decide (f64val lowX * f64val lowY < 0)) c hlt
      rw [← hc, hd, mag64_mk64 _ _ (by norm_num)] at e1
      exact e1.symm
    subst hcc
    rcases hn with ⟨-, -, hn⟩ | ⟨hn, -⟩
    · exact absurd (hn 0x4800000000003 (by decide)).1 (by decide +kernel)
    · exact absurd hn (by decide)

/-- an operation on doubles by way of Floats -/
def viaFloat (f : FloatV → FloatV → Res FloatV) (x y : D) : Res D := do
  let z ← f (← fFromF64 x) (← fFromF64 y)
  let r ← fToF64 z
  pure r.1

/-- `0 - 1` is `1`, and `3 / 2` is `2^-64` (bits `0x3bf0...`). -/
theorem C115_violated : viaFloat fSub 0#64 0x3ff0000000000000#64 = .ok 0x3ff0000000000000#64 ∧
    viaFloat fDiv 0x4008000000000000#64 0x4000000000000000#64 = .ok 0x3bf0000000000000#64 ∧
    f64val 0x3ff0000000000000#64 = 1 ∧ f64val 0x4008000000000000#64 = 3 ∧ f64val 0x4000000000000000#64 = 2 ∧
    f64val 0x3bf0000000000000#64 = 1 / 2 ^ 64 := by
  refine ⟨by decide +kernel, by decide +kernel, by decide +kernel, by decide +kernel, by decide +kernel, by decide +kernel⟩

/-- numbers with 53, or 24, digits -/
def ieeeX (p : Nat) : FloatV := ⟨.toNearestEven, .exact, .finite, false, p, 1, [0xC0000000#32]⟩

theorem ieeeX_val (p : Nat) : fval (ieeeX p) = 3 / 2 := by
  rw [fval, if_pos (show (ieeeX p).form = .finite from rfl), show val (ieeeX p).mant = 0xC0000000 by show val [0xC0000000#32] = _; decide]
  norm_num [ieeeX]

example : Doubles (ieeeX 53) (ieeeX 53) ∧ Singles (ieeeX 24) (ieeeX 24) ∧ 2 ^ (-126 : ℤ) ≤ |fval (ieeeX 24) * fval (ieeeX 24)| ∧
    f64Finite 0x0010000000000001#64 ∧ f64Finite 0x8010000000000000#64 := by
  refine ⟨⟨by unfold FloatOk; decide, by unfold FloatOk; decide, .inl rfl, .inl rfl, rfl, rfl, rfl, rfl⟩,
    ⟨by unfold FloatOk; decide, by unfold FloatOk; decide, .inl rfl, .inl rfl, rfl, rfl, rfl, rfl⟩, ?_, by decide, by decide⟩
  rw [ieeeX_val]
  norm_num

end RMath
