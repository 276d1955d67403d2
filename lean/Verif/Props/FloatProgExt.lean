import Verif.Props.FloatProg

/-!
# Property C104, continued: programs with overflow, underflow, infinities and NaN

The values are those of extended arithmetic: rational numbers, two infinities and NaN.  Every statement delivers the exact result,
rounded once: an infinity if the rounded result is too large, zero if the exact result is too small.
-/

namespace RMath

set_option linter.unusedSimpArgs false

/-- a value of extended arithmetic -/
inductive FXVal where
  | num (q : ℚ)
  | inf (neg : Bool)
  | nan

/-- a value with the precision and the mode of the variable that holds it -/
structure FXNum where
  v : FXVal
  prec : Nat
  mode : RoundingMode

/-- binding a variable -/
def fxSet (t : Nat → Option FXNum) (x : Nat) (a : FXNum) : Nat → Option FXNum := fun y => if y = x then some a else t y

/-- what becomes of the exact result `q` in precision `p` and mode `m`: zero if it is smaller than the smallest number; otherwise
the rounded number, or an infinity of its sign if that is too large -/
def FRounds (m : RoundingMode) (p : Nat) (q : ℚ) (v : FXVal) : Prop :=
  if |q| < 2 ^ (minExp - 1) then v = .num 0
  else ∃ r, Rounded m p q r ∧ v = if |r| < 2 ^ maxExp then .num r else .inf (decide (q < 0))

/-- the operations if an operand is not a number, where the code is right.  `none`: a number minus an infinity
(`C58_violated_sub_inf`) and an infinity divided (`C60_violated_inf`), where it is not -/
def FOp.special : FOp → FXVal → FXVal → Option FXVal
  | _, .nan, _ => some .nan
  | _, _, .nan => some .nan
  | _, .num _, .num _ => none
  | .add, .inf s, .num _ => some (.inf s)
  | .add, .num _, .inf s => some (.inf s)
  | .add, .inf s, .inf s' => some (if s = s' then .inf s else .nan)
  | .sub, .inf s, .num _ => some (.inf s)
  | .sub, .num _, .inf _ => none
  | .sub, .inf s, .inf s' => some (if s = s' then .nan else .inf s)
  | .mul, .inf s, .num q => some (if q = 0 then .nan else .inf (s != decide (q < 0)))
  | .mul, .num q, .inf s => some (if q = 0 then .nan else .inf (decide (q < 0) != s))
  | .mul, .inf s, .inf s' => some (.inf (s != s'))
  | .div, .num _, .inf _ => some (.num 0)
  | .div, .inf _, _ => none

/-- the value of `a ∘ b`, in the precision and mode of `a` -/
def FOp.gives (o : FOp) (a b : FXNum) (v : FXVal) : Prop :=
  match a.v, b.v with
  | .num p, .num q => o.sound ⟨p, a.prec, a.mode⟩ ⟨q, b.prec, b.mode⟩ ∧ FRounds a.mode a.prec (o.exact p q) v
  | x, y => o.special x y = some v

/-- a function of numbers, rounded; infinities and NaN stay as they are -/
def FXVal.gives (a : FXVal) (f : ℚ → ℚ) (p : Nat) (m : RoundingMode) (v : FXVal) : Prop :=
  match a with
  | .num q => FRounds m p (f q) v
  | x => v = x

/-- the value of an `f64` given by its bits -/
def f64ext (f : D) : FXVal :=
  if f.toNat / 2 ^ 52 % 2 ^ 11 ≠ 2047 then .num (f64val f)
  else if f.toNat % 2 ^ 52 = 0 then .inf (decide (2 ^ 63 ≤ f.toNat)) else .nan

/-- the opposite -/
def FXVal.neg : FXVal → FXVal
  | .num q => .num (-q)
  | .inf s => .inf !s
  | .nan => .nan

/-- the absolute value -/
def FXVal.abs : FXVal → FXVal
  | .num q => .num |q|
  | .inf _ => .inf false
  | .nan => .nan

/-- one statement, on extended values -/
def FCmd.xstep (t : Nat → Option FXNum) (t' : Nat → Option FXNum) : FCmd → Prop
  | .fromU64 x u => t' = fxSet t x ⟨.num u.toNat, 64, .toNearestEven⟩
  | .fromF64 x f => t' = fxSet t x ⟨f64ext f, 53, .toNearestEven⟩
  | .clone _ _ => False
  | .deepClone x y => ∃ a, t y = some a ∧ t' = fxSet t x a
  | .neg x y => ∃ a, t y = some a ∧ t' = fxSet t x ⟨a.v.neg, a.prec, a.mode⟩
  | .abs x y => ∃ a, t y = some a ∧ t' = fxSet t x ⟨a.v.abs, a.prec, a.mode⟩
  | .op o z x y => ∃ a b v, t x = some a ∧ t y = some b ∧ o.gives a b v ∧ t' = fxSet t z ⟨v, a.prec, a.mode⟩
  | .assign o x y => ∃ a b v, t x = some a ∧ t y = some b ∧ o.gives a b v ∧ t' = fxSet t x ⟨v, a.prec, a.mode⟩
  | .setPrecision x p => ∃ a v, t x = some a ∧ 1 ≤ p ∧ a.v.gives id (min maxPrec p) a.mode v ∧
      t' = fxSet t x ⟨v, min maxPrec p, a.mode⟩
  | .setMode x m => ∃ a, t x = some a ∧ t' = fxSet t x ⟨a.v, a.prec, m⟩
  | .setMantExp x y e => x ≠ y ∧ t x ≠ none ∧ ∃ b v, t y = some b ∧ b.v.gives (· * 2 ^ e) b.prec b.mode v ∧
      t' = fxSet t x ⟨v, b.prec, b.mode⟩

/-- a program, on extended values -/
def FxRun : (Nat → Option FXNum) → List FCmd → (Nat → Option FXNum) → Prop
  | t, [], t' => t' = t
  | t, c :: cs, t' => ∃ t1, c.xstep t t1 ∧ FxRun t1 cs t'

/-- a `Float` that denotes the value.  Of a NaN nothing but that is specified. -/
def FDenX (v : FloatV) (a : FXNum) : Prop :=
  match a.v with
  | .num q => FDen v ⟨q, a.prec, a.mode⟩
  | .inf s => v.form = .inf ∧ v.neg = s ∧ v.prec = a.prec ∧ v.mode = a.mode ∧ 1 ≤ v.prec
  | .nan => v.form = .nan

/-- the variables of the table show these values -/
def ShowsX (vs : Nat → Option FloatV) (t : Nat → Option FXNum) : Prop := ∀ x a, t x = some a → ∃ v, vs x = some v ∧ FDenX v a

theorem showsX_set {vs : Nat → Option FloatV} {t : Nat → Option FXNum} (h : ShowsX vs t) (x : Nat) {v : FloatV} {a : FXNum}
    (hv : FDenX v a) : ShowsX (FCmd.vstep.set vs x v) (fxSet t x a) := by
  intro y b hb
  simp only [FCmd.vstep.set, fxSet] at hb ⊢
  by_cases hy : y = x
  · simp only [hy, if_true, Option.some.injEq] at hb ⊢; subst hb; exact ⟨v, rfl, hv⟩
  · simp only [hy, if_false] at hb ⊢; exact h y b hb

/-! ## Rounding -/

theorem FRounds.unique {m : RoundingMode} {p : Nat} {q : ℚ} {v w : FXVal} (hv : FRounds m p q v) (hw : FRounds m p q w) :
    v = w := by
  unfold FRounds at hv hw
  split at hv
  · rename_i h; rw [if_pos h] at hw; rw [hv, hw]
  · rename_i h
    rw [if_neg h] at hw
    obtain ⟨r, hr, rfl⟩ := hv
    obtain ⟨r', hr', rfl⟩ := hw
    rw [hr.unique hr']

theorem FRounds.exists (m : RoundingMode) (p : Nat) (q : ℚ) : ∃ v, FRounds m p q v := by
  unfold FRounds
  split
  · exact ⟨_, rfl⟩
  · obtain ⟨r, hr⟩ := C104_rounding_exists m p q
    exact ⟨_, r, hr, rfl⟩

theorem FRounds.zero {m : RoundingMode} {p : Nat} {v : FXVal} (h : FRounds m p 0 v) : v = .num 0 := by
  unfold FRounds at h
  rwa [if_pos (by rw [abs_zero]; exact two_zpow_pos _)] at h

/-- a rounded number is at most three times the number -/
theorem Rounded.le {m : RoundingMode} {p : Nat} {q r : ℚ} (h : Rounded m p q r) : |r| ≤ 3 * |q| := by
  rcases h with ⟨h0, hr⟩ | ⟨e, k, h1, h2, hr, hk⟩
  · simp [h0, hr]
  · have he := hk.error
    have hu : (0 : ℚ) < 2 ^ (e - (p : ℤ)) := two_zpow_pos _
    have hu2 : (2 : ℚ) ^ (e - (p : ℤ)) ≤ 2 * 2 ^ (e - 1) := by
      rw [← zpow_one_add₀ (by norm_num)]
      exact zpow_le_iff.2 (by omega)
    have : |q - r| ≤ 2 ^ (e - (p : ℤ)) := by
      have e1 : q - r = (q / 2 ^ (e - (p : ℤ)) - k) * 2 ^ (e - (p : ℤ)) := by rw [hr]; field_simp
      rw [e1, abs_mul, abs_of_pos hu]
      nlinarith
    have h3 : |r| ≤ |q| + |q - r| := by
      have := abs_sub_abs_le_abs_sub r q
      rw [abs_sub_comm r q] at this
      linarith
    linarith

theorem not_tiny_of_huge {m : RoundingMode} {p : Nat} {q r : ℚ} (h : Rounded m p q r) (hr : 2 ^ maxExp ≤ |r|) :
    ¬ |q| < 2 ^ (minExp - 1) := by
  intro hq
  have h1 := h.le
  have h2 : (2 : ℚ) ^ (minExp - 1) ≤ 2 ^ (-1 : ℤ) := zpow_le_iff.2 (by decide)
  have h3 : (2 : ℚ) ^ (1 : ℤ) ≤ 2 ^ maxExp := zpow_le_iff.2 (by decide)
  norm_num at h2 h3
  linarith

/-- a correct answer shows the rounded result -/
theorem fdenx_result {m : RoundingMode} {p : Nat} {q : ℚ} {z : FloatV} {v : FXVal} (h : FloatResult m p q z) (hp : 1 ≤ p)
    (hv : FRounds m p q v) : FDenX z ⟨v, p, m⟩ := by
  obtain ⟨g1, g2, g3, g4, g5⟩ := h
  cases hf : z.form <;> rw [hf] at g5 <;> simp only at g5
  · unfold FRounds at hv
    rw [if_pos g5.1] at hv
    subst hv
    exact ⟨g3, Or.inr hf, by simp [fval, hf], g2, g1, g2 ▸ hp⟩
  · unfold FRounds at hv
    rw [if_neg (not_lt.2 g5.1)] at hv
    obtain ⟨r, hr, rfl⟩ := hv
    have e := g5.2.1.unique hr
    obtain ⟨a, L, ha⟩ := g3.fin hf
    have : |r| < 2 ^ maxExp := by
      rw [← e]; exact lt_of_lt_of_le (fval_lt_exp z) (zpow_le_iff.2 ha.emax)
    rw [if_pos this]
    exact ⟨g3, Or.inl hf, e, g2, g1, g2 ▸ hp⟩
  · obtain ⟨⟨r', hr', hb⟩, -⟩ := g5
    have ht := not_tiny_of_huge hr' hb
    unfold FRounds at hv
    rw [if_neg ht] at hv
    obtain ⟨r, hr, rfl⟩ := hv
    rw [hr.unique hr', if_neg (not_lt.2 hb)]
    refine ⟨hf, g4 ?_, g2, g1, g2 ▸ hp⟩
    rintro rfl
    exact ht (by rw [abs_zero]; exact two_zpow_pos _)

theorem fval_ge_exp {x : FloatV} {m L : Nat} (h : IsFin x m L) : 2 ^ (x.exp - 1) ≤ |fval x| := by
  rw [h.abs]; exact (h.norm.bounds x.exp).1

/-- the number of a variable is not changed by rounding -/
theorem FDen.rounds {x : FloatV} {a : FNum} (h : FDen x a) {v : FXVal} (hv : FRounds a.mode a.prec a.q v) : v = .num a.q := by
  obtain ⟨h1, h2, h3, h4, h5, h6⟩ := id h
  rcases h2 with hf | hf
  · obtain ⟨m, L, hm⟩ := h1.fin hf
    have hlo : (2 : ℚ) ^ (minExp - 1) ≤ |a.q| := by
      rw [← h3]; exact le_trans (zpow_le_iff.2 (by have := hm.emin; omega)) (fval_ge_exp hm)
    have hhi : |a.q| < 2 ^ maxExp := by
      rw [← h3]; exact lt_of_lt_of_le (fval_lt_exp x) (zpow_le_iff.2 hm.emax)
    unfold FRounds at hv
    rw [if_neg (not_lt.2 hlo)] at hv
    obtain ⟨r, hr, rfl⟩ := hv
    rw [← h.round hr, if_pos hhi]
  · have h0 := h.zero hf
    rw [h0] at hv ⊢
    exact hv.zero

/-! ## Operations -/

/-- two numbers -/
theorem fnx_num (o : FOp) {x y : FloatV} {a b : FNum} (hx : FDen x a) (hy : FDen y b) (ho : o.sound a b) {v : FXVal}
    (hv : FRounds a.mode a.prec (o.exact a.q b.q) v) : ∃ z, o.fn x y = .ok z ∧ FDenX z ⟨v, a.prec, a.mode⟩ := by
  obtain ⟨x1, x2, x3, x4, x5, x6⟩ := id hx
  obtain ⟨y1, y2, y3, y4, y5, y6⟩ := id hy
  have hp : ¬ x.prec = 0 := by omega
  have hpa : 1 ≤ a.prec := by omega
  -- a zero of the receiver's format is returned
  have zer : ∀ w : FloatV, w.form = .zero → w.prec = x.prec → w.mode = x.mode → o.exact a.q b.q = 0 → FDenX w ⟨v, a.prec, a.mode⟩ := by
    intro w e1 e5 e6 e
    rw [e] at hv
    rw [hv.zero]
    exact ⟨ok_of_not_finite (by rw [e1]; decide), Or.inr e1, by simp [fval, e1], by rw [e5, x4], by rw [e6, x5],
      by rw [e5]; exact x6⟩
  rcases x2 with fx | fx <;> rcases y2 with fy | fy
  · -- both finite
    cases o with
    | div => exact ho.elim
    | add =>
      obtain ⟨z, e, h⟩ := C58_add_partial x1 y1 fx fy (by
        rcases ho with ho | ho | ho
        · left; rw [← x3, ← y3] at ho; exact (neg_of_mul x1 y1 fx fy).1 ho
        · right; left; rw [x3, y3]; exact ho
        · right; right; rw [x4, x5, y4, y5]; exact ho)
      rw [x3, y3, x4, x5] at h
      exact ⟨z, fn_of_op x1 fx fy _ e, fdenx_result h hpa hv⟩
    | sub =>
      obtain ⟨z, e, h⟩ := C58_sub_partial x1 y1 fx fy (by
        rcases ho.2 with ho | ho | ho
        · left; rw [← x3, ← y3] at ho; exact (neg_of_mul x1 y1 fx fy).2 ho
        · right; left; rw [x3, y3]; exact ho
        · right; right; rw [x4, x5, y4, y5]; exact ho)
      rw [x3, y3, x4, x5] at h
      exact ⟨z, fn_of_op x1 fx fy _ e, fdenx_result h hpa hv⟩
    | mul =>
      obtain ⟨z, e, h⟩ := C57_mul x1 y1 fx fy
      rw [x3, y3, x4, x5] at h
      exact ⟨z, fn_of_op x1 fx fy _ e, fdenx_result h hpa hv⟩
  · -- the second is zero
    have hb := hy.zero fy
    cases o with
    | div => exact ho.elim
    | add =>
      simp only [FOp.exact, hb, add_zero] at hv
      refine ⟨x, ?_, ?_⟩
      · simp [FOp.fn, fAddInner, hp, fx, fy]
      · rw [hx.rounds hv]; exact hx
    | sub =>
      simp only [FOp.exact, hb, sub_zero] at hv
      refine ⟨x, ?_, ?_⟩
      · simp [FOp.fn, fSubInner, hp, fx, fy]
      · rw [hx.rounds hv]; exact hx
    | mul =>
      simp only [FOp.fn, fMulInner, hp, fx, fy, if_false, if_true, reduceCtorEq, and_false, false_and, or_false]
      exact ⟨_, rfl, zer _ rfl rfl rfl (by simp [FOp.exact, hb])⟩
  · -- the first is zero
    have ha := hx.zero fx
    cases o with
    | div => exact ho.elim
    | add =>
      obtain ⟨m, L, hm⟩ := y1.fin fy
      obtain ⟨z, e, h⟩ := fSetFloat_result (z := x) hm x6
      rw [y3, x4, x5] at h
      simp only [FOp.exact, ha, zero_add] at hv
      refine ⟨z, ?_, fdenx_result h hpa hv⟩
      simpa [FOp.fn, fAddInner, hp, fx, fy] using e
    | sub =>
      have := ho.1 ha
      rw [← y3] at this
      obtain ⟨m, L, hm⟩ := y1.fin fy
      exact absurd this hm.ne_zero
    | mul =>
      simp only [FOp.fn, fMulInner, hp, fx, fy, if_false, if_true, reduceCtorEq, and_false, false_and, or_false]
      exact ⟨_, rfl, zer _ rfl rfl rfl (by simp [FOp.exact, ha])⟩
  · -- both zero
    have ha := hx.zero fx
    have hb := hy.zero fy
    cases o with
    | div => exact ho.elim
    | add =>
      refine ⟨x, ?_, zer x fx rfl rfl (by simp [FOp.exact, ha, hb])⟩
      simp [FOp.fn, fAddInner, hp, fx, fy]
    | sub =>
      simp only [FOp.fn, fSubInner, hp, fx, fy, if_false, if_true, reduceCtorEq, and_false, false_and, or_false, and_true, and_self]
      exact ⟨_, rfl, zer _ rfl rfl rfl (by simp [FOp.exact, ha, hb])⟩
    | mul =>
      simp only [FOp.fn, fMulInner, hp, fx, fy, if_false, if_true, reduceCtorEq, and_false, false_and, or_false]
      exact ⟨_, rfl, zer _ rfl rfl rfl (by simp [FOp.exact, ha])⟩

/-- the sign of a number -/
theorem FDen.sign {x : FloatV} {a : FNum} (h : FDen x a) :
    (x.form = .zero ∧ a.q = 0) ∨ (x.form = .finite ∧ a.q ≠ 0 ∧ x.neg = decide (a.q < 0)) := by
  obtain ⟨h1, h2, h3, -⟩ := id h
  rcases h2 with hf | hf
  · right
    obtain ⟨m, L, hm⟩ := h1.fin hf
    obtain ⟨s1, s2⟩ := sign_of_fin h1 hf
    rw [h3] at s1 s2
    refine ⟨hf, by rw [← h3]; exact hm.ne_zero, ?_⟩
    cases hn : x.neg
    · simp [(s2 hn).le]
    · simp [s1 hn]
  · exact Or.inl ⟨hf, h.zero hf⟩

/-- an infinity among the operands -/
theorem fnx_special (o : FOp) {x y : FloatV} {a b : FXNum} (hx : FDenX x a) (hy : FDenX y b) (na : a.v ≠ .nan) (nb : b.v ≠ .nan)
    {v : FXVal} (hv : o.special a.v b.v = some v) : ∃ z, o.fn x y = .ok z ∧ FDenX z ⟨v, a.prec, a.mode⟩ := by
  obtain ⟨av, ap, am⟩ := a
  obtain ⟨bv, bp, bm⟩ := b
  cases av with
  | nan => exact absurd rfl na
  | num p =>
    cases bv with
    | nan => exact absurd rfl nb
    | num q => cases o <;> simp [FOp.special] at hv
    | inf s =>
      have hx' : FDen x ⟨p, ap, am⟩ := hx
      obtain ⟨y1, y2, y3, y4, y5⟩ : y.form = .inf ∧ y.neg = s ∧ y.prec = bp ∧ y.mode = bm ∧ 1 ≤ y.prec := hy
      obtain ⟨-, -, -, x4, x5, x6⟩ := id hx'
      have hp : ¬ x.prec = 0 := by omega
      simp only at x4 x5
      cases o with
      | add =>
        simp only [FOp.special, Option.some.injEq] at hv
        subst hv
        rcases hx'.sign with ⟨f, g⟩ | ⟨f, g, n⟩ <;>
        · simp only [FOp.fn, fAddInner, hp, f, y1, if_false, reduceCtorEq, and_false, false_and, or_false, false_or, fSetFloat]
          split
          · rw [fRound_special (by simp)]; exact ⟨_, rfl, rfl, y2, x4, x5, x6⟩
          · exact ⟨_, rfl, rfl, y2, x4, x5, x6⟩
      | sub => simp [FOp.special] at hv
      | mul =>
        simp only [FOp.special, Option.some.injEq] at hv
        subst hv
        rcases hx'.sign with ⟨f, g⟩ | ⟨f, g, n⟩
        · simp only at g
          simp only [FOp.fn, fMulInner, hp, f, y1, g, if_false, if_true, reduceCtorEq, and_false, false_and, or_false, and_self]
          exact ⟨_, rfl, rfl⟩
        · simp only at g n
          simp only [FOp.fn, fMulInner, hp, f, y1, g, if_false, if_true, reduceCtorEq, and_false, false_and, or_false, or_true]
          exact ⟨_, rfl, rfl, by rw [n, y2], x4, x5, x6⟩
      | div =>
        simp only [FOp.special, Option.some.injEq] at hv
        subst hv
        rcases hx'.sign with ⟨f, g⟩ | ⟨f, g, n⟩ <;>
        · simp only [FOp.fn, fDivInner, hp, f, y1, if_false, if_true, reduceCtorEq, and_false, false_and, or_false, or_true,
            and_self]
          exact ⟨_, rfl, ok_of_not_finite (by simp), Or.inr rfl, by simp [fval], x4, x5, x6⟩
  | inf s =>
    obtain ⟨x1, x2, x3, x4, x5⟩ : x.form = .inf ∧ x.neg = s ∧ x.prec = ap ∧ x.mode = am ∧ 1 ≤ x.prec := hx
    have hp : ¬ x.prec = 0 := by omega
    cases bv with
    | nan => exact absurd rfl nb
    | num q =>
      have hy' : FDen y ⟨q, bp, bm⟩ := hy
      cases o with
      | add =>
        simp only [FOp.special, Option.some.injEq] at hv
        subst hv
        rcases hy'.sign with ⟨f, g⟩ | ⟨f, g, n⟩ <;>
        · simp only [FOp.fn, fAddInner, hp, f, x1, if_false, if_true, reduceCtorEq, and_false, false_and, or_false, true_or]
          exact ⟨_, rfl, x1, x2, x3, x4, x5⟩
      | sub =>
        simp only [FOp.special, Option.some.injEq] at hv
        subst hv
        rcases hy'.sign with ⟨f, g⟩ | ⟨f, g, n⟩ <;>
        · simp only [FOp.fn, fSubInner, hp, f, x1, if_false, if_true, reduceCtorEq, and_false, false_and, or_false, true_or]
          exact ⟨_, rfl, x1, x2, x3, x4, x5⟩
      | mul =>
        simp only [FOp.special, Option.some.injEq] at hv
        subst hv
        rcases hy'.sign with ⟨f, g⟩ | ⟨f, g, n⟩
        · simp only at g
          simp only [FOp.fn, fMulInner, hp, f, x1, g, if_false, if_true, reduceCtorEq, and_false, false_and, or_true, and_self]
          exact ⟨_, rfl, rfl⟩
        · simp only at g n
          simp only [FOp.fn, fMulInner, hp, f, x1, g, if_false, if_true, reduceCtorEq, and_false, false_and, or_false]
          exact ⟨_, rfl, rfl, by rw [n, x2], x3, x4, x5⟩
      | div => simp [FOp.special] at hv
    | inf s' =>
      obtain ⟨y1, y2, -⟩ : y.form = .inf ∧ y.neg = s' ∧ y.prec = bp ∧ y.mode = bm ∧ 1 ≤ y.prec := hy
      cases o with
      | add =>
        simp only [FOp.special, Option.some.injEq] at hv
        subst hv
        simp only [FOp.fn, fAddInner, hp, x1, y1, x2, y2, if_false, reduceCtorEq, and_false, true_and, or_false, ne_eq]
        by_cases hss : s = s'
        · rw [if_neg (by simp [hss]), if_pos hss]; exact ⟨_, rfl, x1, x2, x3, x4, x5⟩
        · rw [if_pos hss, if_neg hss]; exact ⟨_, rfl, rfl⟩
      | sub =>
        simp only [FOp.special, Option.some.injEq] at hv
        subst hv
        simp only [FOp.fn, fSubInner, hp, x1, y1, x2, y2, if_false, reduceCtorEq, and_false, true_and, or_false]
        by_cases hss : s = s'
        · rw [if_pos hss, if_pos hss]; exact ⟨_, rfl, rfl⟩
        · rw [if_neg hss, if_neg hss]; exact ⟨_, rfl, x1, x2, x3, x4, x5⟩
      | mul =>
        simp only [FOp.special, Option.some.injEq] at hv
        subst hv
        simp only [FOp.fn, fMulInner, hp, x1, y1, x2, y2, if_false, if_true, reduceCtorEq, and_false, false_and, or_false]
        exact ⟨_, rfl, rfl, rfl, x3, x4, x5⟩
      | div => simp [FOp.special] at hv

theorem FDenX.nan_iff {v : FloatV} {a : FXNum} (h : FDenX v a) : v.form = .nan ↔ a.v = .nan := by
  unfold FDenX at h
  cases ha : a.v <;> rw [ha] at h <;> simp only at h
  · rcases h.2.1 with h | h <;> simp [h]
  · simp [h.1]
  · simp [h]

theorem FDenX.deepClone {v : FloatV} {a : FXNum} (h : FDenX v a) : FDenX (fDeepClone v) a := by
  unfold FDenX at h ⊢
  cases ha : a.v <;> rw [ha] at h <;> simp only at h ⊢
  · exact FDen.deepClone h
  · exact h
  · exact h

theorem fopx_den (o : FOp) {x y : FloatV} {a b : FXNum} (hx : FDenX x a) (hy : FDenX y b) {v : FXVal} (hv : o.gives a b v) :
    (∃ z, fOp o.fn x y = .ok z ∧ FDenX z ⟨v, a.prec, a.mode⟩) ∧ ∃ z, fOpAssign o.fn x y = .ok z ∧ FDenX z ⟨v, a.prec, a.mode⟩ := by
  by_cases hn : x.form = .nan ∨ y.form = .nan
  · unfold fOp fOpAssign
    rw [if_pos hn, if_pos hn]
    rw [hx.nan_iff, hy.nan_iff] at hn
    have : v = .nan := by
      unfold FOp.gives at hv
      rcases hn with hn | hn
      · rw [hn] at hv
        cases hb : b.v <;> rw [hb] at hv <;> simp only [FOp.special, Option.some.injEq] at hv <;> exact hv.symm
      · rw [hn] at hv
        cases ha : a.v <;> rw [ha] at hv <;> simp only [FOp.special, Option.some.injEq] at hv <;> exact hv.symm
    subst this
    exact ⟨⟨_, rfl, rfl⟩, ⟨_, rfl, rfl⟩⟩
  · unfold fOp fOpAssign
    rw [if_neg hn, if_neg hn]
    rw [hx.nan_iff, hy.nan_iff] at hn
    push Not at hn
    have key : ∀ x', FDenX x' a → ∃ z, o.fn x' y = .ok z ∧ FDenX z ⟨v, a.prec, a.mode⟩ := by
      intro x' hx'
      unfold FOp.gives at hv
      split at hv
      · rename_i p q hp hq
        unfold FDenX at hx' hy
        rw [hp] at hx'
        rw [hq] at hy
        exact fnx_num o hx' hy hv.1 hv.2
      · exact fnx_special o hx' hy hn.1 hn.2 hv
    exact ⟨key _ hx.deepClone, key _ hx⟩

theorem f64ext_cases (f : D) : (mag64 f < b64.inf ∧ f64ext f = .num (f64val f)) ∨ (mag64 f = b64.inf ∧ f64ext f = .inf f.msb) ∨
    (b64.inf < mag64 f ∧ f64ext f = .nan) := by
  have e : b64.inf = 2047 * 2 ^ 52 := by decide
  have hlt := f.isLt
  unfold mag64 f64ext
  rw [e, BitVec.msb_eq_decide]
  by_cases h : f.toNat / 2 ^ 52 % 2 ^ 11 ≠ 2047
  · rw [if_pos h]; left; exact ⟨by omega, rfl⟩
  · rw [if_neg h]
    by_cases h' : f.toNat % 2 ^ 52 = 0
    · rw [if_pos h']; right; left; exact ⟨by omega, rfl⟩
    · rw [if_neg h']; right; right; exact ⟨by omega, rfl⟩

/-- one statement -/
theorem xstep_sim {vs : Nat → Option FloatV} {t t' : Nat → Option FXNum} (h : ShowsX vs t) (c : FCmd) (hc : c.xstep t t') :
    c.unshared ∧ ∃ vs', c.vstep vs = .ok vs' ∧ ShowsX vs' t' := by
  have hget : ∀ x a, t x = some a → ∃ v, FCmd.vstep.get vs x = .ok v ∧ FDenX v a := by
    intro x a hx
    obtain ⟨v, e, hv⟩ := h x a hx
    exact ⟨v, by simp only [FCmd.vstep.get, e], hv⟩
  cases c with
  | fromU64 x u =>
    refine ⟨trivial, ?_⟩
    obtain ⟨-, vs', e, hs⟩ := qstep_sim_float (vs := fun _ => none) (t := fun _ => none) (fun _ _ h => by simp at h) (.fromU64 x u) rfl
    obtain ⟨z, e1, -⟩ := C62_from_u64 u
    simp only [FCmd.vstep, bind, Except.bind, e1] at e ⊢
    cases e
    refine ⟨_, rfl, ?_⟩
    rw [show t' = _ from hc]
    obtain ⟨w, hw, hd⟩ := hs x ⟨u.toNat, 64, .toNearestEven⟩ (by simp [fnSet])
    simp only [FCmd.vstep.set, if_true, Option.some.injEq] at hw
    subst hw
    exact showsX_set h x hd
  | fromF64 x f =>
    refine ⟨trivial, ?_⟩
    rw [show t' = _ from hc]
    have : ∃ z, fFromF64 f = .ok z ∧ FDenX z ⟨f64ext f, 53, .toNearestEven⟩ := by
      rcases f64ext_cases f with ⟨hm, e⟩ | ⟨hm, e⟩ | ⟨hm, e⟩ <;> rw [e]
      · obtain ⟨z, e, hz⟩ := C62_from_f64 f hm
        obtain ⟨z', e', hz'⟩ := fSetF64_result fDefault f hm
        have : z' = z := by
          have : fFromF64 f = .ok z' := e'
          rw [e] at this; cases this; rfl
        subst this
        refine ⟨_, e, fden_exact (m := .toNearestEven) (p := 53) ?_ hz (by decide)⟩
        simpa [fDefault] using hz'
      · have hz : f64IsZero f = false := by
          have : b64.inf ≠ 0 := by decide
          simp [f64IsZero, hm, this]
        refine ⟨{ fDefault with prec := 53, acc := .exact, neg := f.msb, form := .inf }, ?_, rfl, rfl, rfl, rfl, by simp⟩
        simp [fFromF64, fSetF64, hm, hz, fDefault]
      · obtain ⟨z, e, hz⟩ := (C62_from_f64_special f).2 hm
        exact ⟨z, e, hz⟩
    obtain ⟨z, e, hz⟩ := this
    simp only [FCmd.vstep, bind, Except.bind, e]
    exact ⟨_, rfl, showsX_set h x hz⟩
  | clone x y => exact hc.elim
  | deepClone x y =>
    refine ⟨trivial, ?_⟩
    obtain ⟨a, ha, rfl⟩ := hc
    obtain ⟨v, e, hv⟩ := hget y a ha
    simp only [FCmd.vstep, bind, Except.bind, e]
    exact ⟨_, rfl, showsX_set h x hv.deepClone⟩
  | neg x y =>
    refine ⟨trivial, ?_⟩
    obtain ⟨a, ha, rfl⟩ := hc
    obtain ⟨v, e, hv⟩ := hget y a ha
    simp only [FCmd.vstep, bind, Except.bind, e]
    refine ⟨_, rfl, showsX_set h x ?_⟩
    obtain ⟨av, ap, am⟩ := a
    cases av with
    | num q =>
      have hv : FDen v ⟨q, ap, am⟩ := hv
      obtain ⟨g1, -, g3, -, -, -, g7, -, g9, -⟩ := C79_neg_abs hv.1
      exact ⟨g1, by rw [g3]; exact hv.2.1, by rw [g9, hv.2.2.1], by rw [g7, hv.2.2.2.1], hv.2.2.2.2.1, by rw [g7]; exact hv.2.2.2.2.2⟩
    | inf s =>
      obtain ⟨x1, x2, x3, x4, x5⟩ : v.form = .inf ∧ v.neg = s ∧ v.prec = ap ∧ v.mode = am ∧ 1 ≤ v.prec := hv
      exact ⟨x1, by show (!v.neg) = !s; rw [x2], x3, x4, x5⟩
    | nan => exact hv
  | abs x y =>
    refine ⟨trivial, ?_⟩
    obtain ⟨a, ha, rfl⟩ := hc
    obtain ⟨v, e, hv⟩ := hget y a ha
    simp only [FCmd.vstep, bind, Except.bind, e]
    refine ⟨_, rfl, showsX_set h x ?_⟩
    obtain ⟨av, ap, am⟩ := a
    cases av with
    | num q =>
      have hv : FDen v ⟨q, ap, am⟩ := hv
      obtain ⟨-, g1, -, g3, -, -, -, g7, -, g9⟩ := C79_neg_abs hv.1
      exact ⟨g1, by rw [g3]; exact hv.2.1, by rw [g9, hv.2.2.1], by rw [g7, hv.2.2.2.1], hv.2.2.2.2.1, by rw [g7]; exact hv.2.2.2.2.2⟩
    | inf s =>
      obtain ⟨x1, x2, x3, x4, x5⟩ : v.form = .inf ∧ v.neg = s ∧ v.prec = ap ∧ v.mode = am ∧ 1 ≤ v.prec := hv
      exact ⟨x1, rfl, x3, x4, x5⟩
    | nan => exact hv
  | op o z x y =>
    refine ⟨trivial, ?_⟩
    obtain ⟨a, b, r, ha, hb, ho, rfl⟩ := hc
    obtain ⟨v, e, hv⟩ := hget x a ha
    obtain ⟨w, e', hw⟩ := hget y b hb
    obtain ⟨u, e2, hu⟩ := (fopx_den o hv hw ho).1
    simp only [FCmd.vstep, bind, Except.bind, e, e', e2]
    exact ⟨_, rfl, showsX_set h z hu⟩
  | assign o x y =>
    refine ⟨trivial, ?_⟩
    obtain ⟨a, b, r, ha, hb, ho, rfl⟩ := hc
    obtain ⟨v, e, hv⟩ := hget x a ha
    obtain ⟨w, e', hw⟩ := hget y b hb
    obtain ⟨u, e2, hu⟩ := (fopx_den o hv hw ho).2
    simp only [FCmd.vstep, bind, Except.bind, e, e', e2]
    exact ⟨_, rfl, showsX_set h x hu⟩
  | setPrecision x p =>
    refine ⟨trivial, ?_⟩
    obtain ⟨a, r, ha, hp, hr, rfl⟩ := hc
    obtain ⟨v, e, hv⟩ := hget x a ha
    have hmp : 1 ≤ min maxPrec p := by have : 1 ≤ maxPrec := by decide
                                       omega
    have : ∃ u, fSetPrecision v p = .ok u ∧ FDenX u ⟨r, min maxPrec p, a.mode⟩ := by
      obtain ⟨av, ap, am⟩ := a
      cases av with
      | num q =>
        have hv : FDen v ⟨q, ap, am⟩ := hv
        obtain ⟨v1, v2, v3, v4, v5, v6⟩ := id hv
        have hr : FRounds am (min maxPrec p) q r := hr
        rcases v2 with hf | hf
        · obtain ⟨u, e2, hu⟩ := C56_set_precision v1 hf hp
          rw [v3, v5] at hu
          exact ⟨u, e2, fdenx_result hu hmp hr⟩
        · rw [C56_set_precision_special (by rw [hf]; decide) hp]
          have h0 : q = 0 := hv.zero hf
          rw [h0] at hr
          rw [hr.zero]
          exact ⟨_, rfl, ok_of_not_finite (by simp [hf]), Or.inr hf, by simp [fval, hf], rfl, v5, hmp⟩
      | inf s =>
        have hr : r = .inf s := hr
        subst hr
        obtain ⟨x1, x2, x3, x4, x5⟩ : v.form = .inf ∧ v.neg = s ∧ v.prec = ap ∧ v.mode = am ∧ 1 ≤ v.prec := hv
        rw [C56_set_precision_special (by rw [x1]; decide) hp]
        exact ⟨_, rfl, x1, x2, rfl, x4, hmp⟩
      | nan =>
        have hr : r = .nan := hr
        subst hr
        have hv : v.form = .nan := hv
        rw [C56_set_precision_special (by rw [hv]; decide) hp]
        exact ⟨_, rfl, hv⟩
    obtain ⟨u, e2, hu⟩ := this
    simp only [FCmd.vstep, bind, Except.bind, e, e2]
    exact ⟨_, rfl, showsX_set h x hu⟩
  | setMode x m =>
    refine ⟨trivial, ?_⟩
    obtain ⟨a, ha, rfl⟩ := hc
    obtain ⟨v, e, hv⟩ := hget x a ha
    simp only [FCmd.vstep, bind, Except.bind, e]
    refine ⟨_, rfl, showsX_set h x ?_⟩
    obtain ⟨av, ap, am⟩ := a
    cases av with
    | num q =>
      have hv : FDen v ⟨q, ap, am⟩ := hv
      refine ⟨hv.1, hv.2.1, ?_, hv.2.2.2.1, rfl, hv.2.2.2.2.2⟩
      rw [← hv.2.2.1]; rfl
    | inf s =>
      obtain ⟨x1, x2, x3, x4, x5⟩ : v.form = .inf ∧ v.neg = s ∧ v.prec = ap ∧ v.mode = am ∧ 1 ≤ v.prec := hv
      exact ⟨x1, x2, x3, rfl, x5⟩
    | nan => exact hv
  | setMantExp x y k =>
    obtain ⟨hne, hx, b, r, hb, hr, rfl⟩ := hc
    refine ⟨hne, ?_⟩
    obtain ⟨a, ha⟩ := Option.ne_none_iff_exists'.1 hx
    obtain ⟨v, e, -⟩ := hget x a ha
    obtain ⟨w, e', hw⟩ := hget y b hb
    have : ∃ u, fSetMantExp w k = .ok u ∧ FDenX u ⟨r, b.prec, b.mode⟩ := by
      obtain ⟨bv, bp, bm⟩ := b
      have keep : w.form ≠ .finite → fSetMantExp w k = .ok w := by
        intro hf; unfold fSetMantExp; rw [if_neg hf]
      cases bv with
      | num q =>
        have hw : FDen w ⟨q, bp, bm⟩ := hw
        obtain ⟨v1, v2, v3, v4, v5, v6⟩ := id hw
        have hr : FRounds bm bp (q * 2 ^ k) r := hr
        simp only at v3 v4 v5
        rcases v2 with hf | hf
        · obtain ⟨u, e2, hu⟩ := C77_set_mant_exp v1 hf k
          rw [v3, v4, v5] at hu
          exact ⟨u, e2, fdenx_result hu (by rw [← v4]; exact v6) hr⟩
        · have h0 : q = 0 := hw.zero hf
          rw [h0, zero_mul] at hr
          rw [hr.zero, keep (by rw [hf]; decide)]
          exact ⟨_, rfl, v1, Or.inr hf, by simp [fval, hf], v4, v5, v6⟩
      | inf s =>
        have hr : r = .inf s := hr
        subst hr
        have hf : w.form = .inf := hw.1
        exact ⟨_, keep (by rw [hf]; decide), hw⟩
      | nan =>
        have hr : r = .nan := hr
        subst hr
        have hf : w.form = .nan := hw
        exact ⟨_, keep (by rw [hf]; decide), hf⟩
    obtain ⟨u, e2, hu⟩ := this
    simp only [FCmd.vstep, bind, Except.bind, e, e', e2]
    exact ⟨_, rfl, showsX_set h x hu⟩

theorem vRun_simX (cs : List FCmd) : ∀ {vs : Nat → Option FloatV} {t t' : Nat → Option FXNum}, ShowsX vs t → FxRun t cs t' →
    (∀ c ∈ cs, c.unshared) ∧ ∃ vs', vRun vs cs = .ok vs' ∧ ShowsX vs' t' := by
  induction cs with
  | nil => intro vs t t' h hr; exact ⟨by simp, vs, rfl, by rw [show t' = t from hr]; exact h⟩
  | cons c cs ih =>
    intro vs t t' h ⟨t1, h1, h2⟩
    obtain ⟨hu, vs1, e, hs⟩ := xstep_sim h c h1
    obtain ⟨hu', vs2, e', hs'⟩ := ih hs h2
    refine ⟨fun c' hc' => ?_, vs2, by rw [vRun, e]; exact e', hs'⟩
    rcases List.mem_cons.1 hc' with rfl | hc'
    · exact hu
    · exact hu' c' hc'

/-- A program that runs on extended values — every statement delivering its exact result, rounded once to the precision and mode of
its receiver, with infinities for what is too large, zero for what is too small, and NaN for what has no value — runs on `Float`s to
variables that show these values.  Missing for the full property: shallow clones, and the operations on which the code is wrong
(`FOp.sound`, `FOp.special`). -/
theorem C104_extended_partial (s : FState) (hs : s.Separate) (t t' : Nat → Option FXNum) (h : ShowsX s.value t) (cs : List FCmd)
    (hr : FxRun t cs t') : ∃ s', fRun s cs = .ok s' ∧ ShowsX s'.value t' := by
  obtain ⟨hu, vs, e, hv⟩ := vRun_simX cs h hr
  have := run_refines cs hs hu
  rw [e] at this
  revert this
  rcases fRun s cs with e' | s'
  · exact fun h => h.elim
  · rintro ⟨-, h2⟩
    refine ⟨s', rfl, fun x a hx => ?_⟩
    obtain ⟨v, e1, e2⟩ := hv x a hx
    exact ⟨v, by rw [h2 x]; exact e1, e2⟩

/-- Every exact result becomes exactly one value. -/
theorem C104_extended_rounding (m : RoundingMode) (p : Nat) (q : ℚ) : ∃! v, FRounds m p q v := by
  obtain ⟨v, hv⟩ := FRounds.exists m p q
  exact ⟨v, hv, fun w hw => hw.unique hv⟩

/-- 3 is scaled beyond the largest number, the opposite infinity is added, and 3 is scaled below the smallest number -/
example : ∃ t', FxRun (fun _ => none) [.fromU64 0 3#64, .fromU64 1 3#64, .fromU64 2 3#64, .setMantExp 1 0 2147483647, .neg 3 1,
      .op .add 4 1 3, .setMantExp 2 0 (-2147483659), .op .mul 5 3 0] t' ∧
    t' 1 = some ⟨.inf false, 64, .toNearestEven⟩ ∧ t' 2 = some ⟨.num 0, 64, .toNearestEven⟩ ∧
    t' 4 = some ⟨.nan, 64, .toNearestEven⟩ ∧ t' 5 = some ⟨.inf true, 64, .toNearestEven⟩ := by
  have e1 : ((3#64 : D).toNat : ℚ) = 3 := by norm_num
  have hbig : FRounds .toNearestEven 64 (((3#64 : D).toNat : ℚ) * 2 ^ (2147483647 : ℤ)) (.inf false) := by
    have h1 : (2 : ℚ) ^ (minExp - 1) ≤ 2 ^ (2147483647 : ℤ) := zpow_le_iff.2 (by decide)
    have h2 : (2 : ℚ) ^ maxExp = 2 ^ (2147483647 : ℤ) := by rw [show maxExp = 2147483647 by decide]
    have hr : Rounded .toNearestEven 64 ((3 : ℚ) * 2 ^ (2147483647 : ℤ)) (3 * 2 ^ (2147483647 : ℤ)) :=
      Rounded.scale (q := 3) (r := 3) (by simpa [sgn] using rounded_nat (n := 3) (p := 64) .toNearestEven false (by norm_num)) _
    rw [e1]
    have h0 := two_zpow_pos 2147483647
    unfold FRounds
    rw [h2]
    generalize (2 : ℚ) ^ (2147483647 : ℤ) = X at *
    have ha : |3 * X| = 3 * X := abs_of_pos (by linarith)
    rw [if_neg (by rw [ha]; linarith)]
    refine ⟨_, hr, ?_⟩
    rw [if_neg (by rw [ha]; linarith)]
    have : ¬ (3 * X < 0) := by linarith
    simp [this]
  have hsmall : FRounds .toNearestEven 64 (((3#64 : D).toNat : ℚ) * 2 ^ (-2147483659 : ℤ)) (.num 0) := by
    have h1 : (4 : ℚ) * 2 ^ (-2147483659 : ℤ) ≤ 2 ^ (minExp - 1) := by
      rw [show (4 : ℚ) = 2 ^ (2 : ℤ) by norm_num, ← zpow_add₀ (by norm_num)]
      exact zpow_le_iff.2 (by decide)
    rw [e1]
    have h0 := two_zpow_pos (-2147483659)
    unfold FRounds
    generalize (2 : ℚ) ^ (-2147483659 : ℤ) = X at *
    have ha : |3 * X| = 3 * X := abs_of_pos (by linarith)
    rw [if_pos (by rw [ha]; linarith)]
  refine ⟨_, ⟨_, rfl, _, rfl, _, rfl, _, ⟨by decide, by simp [fxSet], _, _, rfl, hbig, rfl⟩, _, ⟨_, rfl, rfl⟩, _,
    ⟨_, _, .nan, rfl, rfl, ?_, rfl⟩, _, ⟨by decide, by simp [fxSet], _, _, rfl, hsmall, rfl⟩, _,
    ⟨_, _, .inf true, rfl, rfl, ?_, rfl⟩, rfl⟩, ?_, ?_, ?_, ?_⟩
  · simp [FOp.gives, FXVal.neg, FOp.special]
  · simp [FOp.gives, FXVal.neg, FOp.special]
  all_goals simp [fxSet]

end RMath
