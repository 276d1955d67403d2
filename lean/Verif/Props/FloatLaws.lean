import Verif.Lemmas.FloatLaws

/-!
# Property C113: the laws that rounding leaves

`+` and `*` of Floats are commutative and monotone, commute with negation unless the mode is directed, and are exact whenever the exact
result fits.
-/

namespace RMath

/-- `x <= y` as the operator computes it -/
def fLeOp (x y : FloatV) : Bool := fPartialCmp x y == some .lt || fPartialCmp x y == some .eq

/-- a `Float` that is a number: neither infinite nor NaN -/
def FloatV.IsNumber (x : FloatV) : Prop := x.form = .finite ∨ x.form = .zero

/-- two `Float`s of one format: the same precision, which is not 0, and the same mode -/
def SameFormat (x y : FloatV) : Prop := 1 ≤ x.prec ∧ x.prec = y.prec ∧ x.mode = y.mode

/-! ## Proof -/

theorem FloatV.IsNumber.fx {x : FloatV} (h : x.IsNumber) : x.fx = .num (fval x) := by
  unfold FloatV.fx
  rcases h with h | h <;> rw [h]

theorem law_op (o : FOp) {x y : FloatV} (hx : FloatOk x) (hy : FloatOk y) (px : 1 ≤ x.prec) (py : 1 ≤ y.prec) (nx : x.IsNumber)
    (ny : y.IsNumber) (hs : o.sound ⟨fval x, x.prec, x.mode⟩ ⟨fval y, y.prec, y.mode⟩) :
    ∃ z v, fOp o.fn x y = .ok z ∧ FRounds x.mode x.prec (o.exact (fval x) (fval y)) v ∧ FDenX z ⟨v, x.prec, x.mode⟩ := by
  obtain ⟨v, hv⟩ := FRounds.exists x.mode x.prec (o.exact (fval x) (fval y))
  obtain ⟨z, hz, hd⟩ := (fopx_den o (x.denX hx px) (y.denX hy py) (v := v) (by
    unfold FOp.gives
    rw [nx.fx, ny.fx]
    exact ⟨hs, hv⟩)).1
  exact ⟨z, v, hz, hv, hd⟩

theorem law_le {x y : FloatV} {a b : FXNum} (hx : FDenX x a) (hy : FDenX y b) (h : ∃ s t, a.v.ext = some s ∧ b.v.ext = some t ∧ s ≤ t) :
    fLeOp x y = true := by
  obtain ⟨s, t, hs, ht, hle⟩ := h
  obtain ⟨h1, h2⟩ := hx.ext
  obtain ⟨h3, h4⟩ := hy.ext
  have := C59_compare h1 h3 (h2.trans hs) (h4.trans ht)
  unfold fLeOp
  rcases lt_or_eq_of_le hle with h | h
  · simp [this.1.2 h]
  · simp [this.2.1.2 h]

theorem law_eq {x y : FloatV} {a b : FXNum} (hx : FDenX x a) (hy : FDenX y b) (h : a.v = b.v) :
    fEq x y = true ∨ x.form = .nan ∧ y.form = .nan := by
  by_cases hn : a.v = .nan
  · exact Or.inr ⟨hx.nan_iff.2 hn, hy.nan_iff.2 (h ▸ hn)⟩
  · left
    obtain ⟨h1, h2⟩ := hx.ext
    obtain ⟨h3, h4⟩ := hy.ext
    refine (C59_eq h1 h3).2 ?_
    rw [h2, h4, h]
    cases hb : b.v with
    | nan => exact absurd (h.trans hb) hn
    | num q => exact ⟨_, rfl, rfl⟩
    | inf s => exact ⟨_, rfl, rfl⟩

theorem denX_neg {x : FloatV} {a : FXNum} (h : FDenX x a) : FDenX (fNeg x) ⟨a.v.neg, a.prec, a.mode⟩ := by
  obtain ⟨av, ap, am⟩ := a
  cases av with
  | num q =>
    have hv : FDen x ⟨q, ap, am⟩ := h
    obtain ⟨g1, -, g3, -, -, -, g7, -, g9, -⟩ := C79_neg_abs hv.1
    exact ⟨g1, by rw [g3]; exact hv.2.1, by rw [g9, hv.2.2.1], by rw [g7, hv.2.2.2.1], hv.2.2.2.2.1, by rw [g7]; exact hv.2.2.2.2.2⟩
  | inf s =>
    obtain ⟨x1, x2, x3, x4, x5⟩ : x.form = .inf ∧ x.neg = s ∧ x.prec = ap ∧ x.mode = am ∧ 1 ≤ x.prec := h
    exact ⟨x1, by show (!x.neg) = !s; rw [x2], x3, x4, x5⟩
  | nan => exact h

theorem add_sound {x y : FloatV} (h : SameFormat x y) : FOp.sound .add ⟨fval x, x.prec, x.mode⟩ ⟨fval y, y.prec, y.mode⟩ :=
  Or.inr (Or.inr ⟨h.2.2, h.2.1⟩)

theorem sub_sound {x y : FloatV} (h : SameFormat x y) (h0 : fval x = 0 → fval y = 0) :
    FOp.sound .sub ⟨fval x, x.prec, x.mode⟩ ⟨fval y, y.prec, y.mode⟩ :=
  ⟨h0, Or.inr (Or.inr ⟨h.2.2, h.2.1⟩)⟩

/-! ## C113 -/

/-- **C113, commutativity**: `x + y == y + x` and `x * y == y * x` for all Floats of one format, the infinities and NaN included
(for which both results are NaN, if one is). -/
theorem C113_commutative (x y : FloatV) (hx : FloatOk x) (hy : FloatOk y) (h : SameFormat x y) :
    (∃ z w, fAdd x y = .ok z ∧ fAdd y x = .ok w ∧ (fEq z w = true ∨ z.form = .nan ∧ w.form = .nan)) ∧
    (∃ z w, fMul x y = .ok z ∧ fMul y x = .ok w ∧ (fEq z w = true ∨ z.form = .nan ∧ w.form = .nan)) := by
  have px := h.1
  have py : 1 ≤ y.prec := h.2.1 ▸ h.1
  have key : ∀ o : FOp, (∃ v, o.gives ⟨x.fx, x.prec, x.mode⟩ ⟨y.fx, y.prec, y.mode⟩ v ∧ o.gives ⟨y.fx, y.prec, y.mode⟩ ⟨x.fx, x.prec, x.mode⟩ v) →
      ∃ z w, fOp o.fn x y = .ok z ∧ fOp o.fn y x = .ok w ∧ (fEq z w = true ∨ z.form = .nan ∧ w.form = .nan) := by
    rintro o ⟨v, h1, h2⟩
    obtain ⟨z, hz, hzd⟩ := (fopx_den o (x.denX hx px) (y.denX hy py) h1).1
    obtain ⟨w, hw, hwd⟩ := (fopx_den o (y.denX hy py) (x.denX hx px) h2).1
    exact ⟨z, w, hz, hw, law_eq hzd hwd rfl⟩
  obtain ⟨-, e2, e3⟩ := h
  constructor
  · refine key .add ?_
    unfold FOp.gives
    cases x.fx with
    | num p =>
      cases y.fx with
      | num q =>
        obtain ⟨v, hv⟩ := FRounds.exists x.mode x.prec (p + q)
        exact ⟨v, ⟨Or.inr (Or.inr ⟨e3, e2⟩), hv⟩, Or.inr (Or.inr ⟨e3.symm, e2.symm⟩), by
          rw [← e2, ← e3]; simpa only [FOp.exact, add_comm] using hv⟩
      | inf s => exact ⟨_, rfl, rfl⟩
      | nan => exact ⟨_, rfl, rfl⟩
    | inf s =>
      cases y.fx with
      | num q => exact ⟨_, rfl, rfl⟩
      | inf s' => refine ⟨_, rfl, ?_⟩; cases s <;> cases s' <;> rfl
      | nan => exact ⟨_, rfl, rfl⟩
    | nan => cases y.fx <;> exact ⟨_, rfl, rfl⟩
  · refine key .mul ?_
    unfold FOp.gives
    cases x.fx with
    | num p =>
      cases y.fx with
      | num q =>
        obtain ⟨v, hv⟩ := FRounds.exists x.mode x.prec (p * q)
        exact ⟨v, ⟨trivial, hv⟩, trivial, by
          rw [← e2, ← e3]; simpa only [FOp.exact, mul_comm] using hv⟩
      | inf s => refine ⟨_, rfl, ?_⟩; simp only [FOp.special]; cases s <;> simp [Bool.xor_comm]
      | nan => exact ⟨_, rfl, rfl⟩
    | inf s =>
      cases y.fx with
      | num q => refine ⟨_, rfl, ?_⟩; simp only [FOp.special]; cases s <;> simp [Bool.xor_comm]
      | inf s' => refine ⟨_, rfl, ?_⟩; cases s <;> cases s' <;> rfl
      | nan => exact ⟨_, rfl, rfl⟩
    | nan => cases y.fx <;> exact ⟨_, rfl, rfl⟩

/-- **C113, monotonicity**: if `x <= y` then `x + c <= y + c`, and `x * c <= y * c` if `c` is not negative, for all numbers of one
format, whatever is rounded, overflows or underflows. -/
theorem C113_monotone (x y c : FloatV) (hx : FloatOk x) (hy : FloatOk y) (hc : FloatOk c) (nx : x.IsNumber) (ny : y.IsNumber)
    (nc : c.IsNumber) (h1 : SameFormat x y) (h2 : SameFormat x c) (hle : fval x ≤ fval y) :
    (∃ z w, fAdd x c = .ok z ∧ fAdd y c = .ok w ∧ fLeOp z w = true) ∧
    (0 ≤ fval c → ∃ z w, fMul x c = .ok z ∧ fMul y c = .ok w ∧ fLeOp z w = true) := by
  have px := h1.1
  have py : 1 ≤ y.prec := h1.2.1 ▸ px
  have pc : 1 ≤ c.prec := h2.2.1 ▸ px
  have h3 : SameFormat y c := ⟨py, h1.2.1.symm.trans h2.2.1, h1.2.2.symm.trans h2.2.2⟩
  constructor
  · obtain ⟨z, v, hz, hv, dz⟩ := law_op .add hx hc px pc nx nc (add_sound h2)
    obtain ⟨w, u, hw, hu, dw⟩ := law_op .add hy hc py pc ny nc (add_sound h3)
    refine ⟨z, w, hz, hw, law_le dz dw ?_⟩
    rw [← h1.2.1, ← h1.2.2] at hu
    exact hv.mono px hu (by simp only [FOp.exact]; linarith)
  · intro h0
    obtain ⟨z, v, hz, hv, dz⟩ := law_op .mul hx hc px pc nx nc trivial
    obtain ⟨w, u, hw, hu, dw⟩ := law_op .mul hy hc py pc ny nc trivial
    refine ⟨z, w, hz, hw, law_le dz dw ?_⟩
    rw [← h1.2.1, ← h1.2.2] at hu
    exact hv.mono px hu (by simp only [FOp.exact]; exact mul_le_mul_of_nonneg_right hle h0)

/-- `x <= y` on numbers is the order of the values, so the hypothesis of monotonicity can be tested. -/
theorem C113_le (x y : FloatV) (hx : FloatOk x) (hy : FloatOk y) (nx : x.IsNumber) (ny : y.IsNumber) :
    fLeOp x y = true ↔ fval x ≤ fval y := by
  have e : ∀ {x : FloatV}, x.IsNumber → fext x = some ((fval x : WithTop ℚ) : WithBot (WithTop ℚ)) := by
    intro x h; unfold fext; rcases h with h | h <;> rw [h]
  obtain ⟨h1, h2, h3⟩ := C59_compare hx hy (e nx) (e ny)
  unfold fLeOp
  rw [WithBot.coe_lt_coe, WithTop.coe_lt_coe] at h1
  rw [WithBot.coe_inj, WithTop.coe_inj] at h2
  rw [Bool.or_eq_true, beq_iff_eq, beq_iff_eq, h1, h2, le_iff_lt_or_eq]

/-- **C113, negation**: in the modes that are not directed, `(-x) + (-y) == -(x + y)` and `(-x) * y == -(x * y)`. -/
theorem C113_negation (x y : FloatV) (hx : FloatOk x) (hy : FloatOk y) (nx : x.IsNumber) (ny : y.IsNumber) (h : SameFormat x y)
    (hm : x.mode ≠ .toNegativeInf ∧ x.mode ≠ .toPositiveInf) :
    (∃ z w, fAdd x y = .ok z ∧ fAdd (fNeg x) (fNeg y) = .ok w ∧ fEq w (fNeg z) = true) ∧
    (∃ z w, fMul x y = .ok z ∧ fMul (fNeg x) y = .ok w ∧ fEq w (fNeg z) = true) := by
  have px := h.1
  have py : 1 ≤ y.prec := h.2.1 ▸ px
  have fl : x.mode.flip = x.mode := by revert hm; cases x.mode <;> simp [RoundingMode.flip]
  have hneg : ∀ {x : FloatV}, FloatOk x → x.IsNumber → FloatOk (fNeg x) ∧ (fNeg x).IsNumber ∧ (fNeg x).prec = x.prec ∧
      (fNeg x).mode = x.mode ∧ fval (fNeg x) = -fval x := by
    intro x hx nx
    obtain ⟨g1, -, g3, -, -, -, g7, -, g9, -⟩ := C79_neg_abs hx
    exact ⟨g1, by unfold FloatV.IsNumber at nx ⊢; rwa [g3], g7, rfl, g9⟩
  obtain ⟨a1, a2, a3, a4, a5⟩ := hneg hx nx
  obtain ⟨b1, b2, b3, b4, b5⟩ := hneg hy ny
  have fin : ∀ {z w : FloatV} {v u : FXVal} {q : ℚ}, FRounds x.mode x.prec q v → FDenX z ⟨v, x.prec, x.mode⟩ →
      FRounds x.mode x.prec (-q) u → FDenX w ⟨u, x.prec, x.mode⟩ → fEq w (fNeg z) = true := by
    intro z w v u q hv dz hu dw
    have hv' := hv.negate
    rw [fl] at hv'
    rcases law_eq dw (denX_neg dz) (hu.unique hv') with h | ⟨h, -⟩
    · exact h
    · exfalso
      have hn := dw.nan_iff.1 h
      unfold FRounds at hu
      rw [show u = .nan from hn] at hu
      split at hu
      · cases hu
      · obtain ⟨r, -, hr⟩ := hu
        split at hr <;> cases hr
  constructor
  · obtain ⟨z, v, hz, hv, dz⟩ := law_op .add hx hy px py nx ny (add_sound h)
    obtain ⟨w, u, hw, hu, dw⟩ := law_op .add a1 b1 (a3 ▸ px) (b3 ▸ py) a2 b2
      (add_sound ⟨a3 ▸ px, by rw [a3, b3, h.2.1], by rw [a4, b4, h.2.2]⟩)
    rw [a3, a4, a5, b5] at hu
    rw [a3, a4] at dw
    refine ⟨z, w, hz, hw, fin hv dz ?_ dw⟩
    simpa only [FOp.exact, neg_add_rev, add_comm] using hu
  · obtain ⟨z, v, hz, hv, dz⟩ := law_op .mul hx hy px py nx ny trivial
    obtain ⟨w, u, hw, hu, dw⟩ := law_op .mul a1 hy (a3 ▸ px) py a2 ny trivial
    rw [a3, a4, a5] at hu
    rw [a3, a4] at dw
    refine ⟨z, w, hz, hw, fin hv dz ?_ dw⟩
    simpa only [FOp.exact, neg_mul] using hu

theorem law_exact (o : FOp) {x y : FloatV} (hx : FloatOk x) (hy : FloatOk y) (nx : x.IsNumber) (ny : y.IsNumber) (h : SameFormat x y) {q : ℚ}
    {c k : ℤ} (hq : q = c * 2 ^ k) (hc : |c| ≤ 2 ^ x.prec) (h1 : q = 0 ∨ 2 ^ (minExp - 1) ≤ |q|) (h2 : |q| < 2 ^ maxExp)
    (ho : o.sound ⟨fval x, x.prec, x.mode⟩ ⟨fval y, y.prec, y.mode⟩) (he : q = o.exact (fval x) (fval y)) :
    ∃ z, fOp o.fn x y = .ok z ∧ z.IsNumber ∧ fval z = q := by
  have px := h.1
  have py : 1 ≤ y.prec := h.2.1 ▸ px
  have hc' : |(c : ℚ)| ≤ 2 ^ x.prec := by exact_mod_cast hc
  obtain ⟨z, v, hz, hv, dz⟩ := law_op o hx hy px py nx ny ho
  rw [← he] at hv
  have := hv.exact px hq hc' h1 h2
  subst this
  have dz' : FDen z ⟨q, x.prec, x.mode⟩ := dz
  exact ⟨z, hz, dz'.2.1, dz'.2.2.1⟩

/-- **C113, exactness**: if the exact sum or product has at most as many significant binary digits as the precision, and is in the
range of the exponents, it is the result. -/
theorem C113_exact (x y : FloatV) (hx : FloatOk x) (hy : FloatOk y) (nx : x.IsNumber) (ny : y.IsNumber) (h : SameFormat x y) (q : ℚ)
    (c k : ℤ) (hq : q = c * 2 ^ k) (hc : |c| ≤ 2 ^ x.prec) (h1 : q = 0 ∨ 2 ^ (minExp - 1) ≤ |q|) (h2 : |q| < 2 ^ maxExp) :
    (q = fval x + fval y → ∃ z, fAdd x y = .ok z ∧ z.IsNumber ∧ fval z = q) ∧
    (q = fval x * fval y → ∃ z, fMul x y = .ok z ∧ z.IsNumber ∧ fval z = q) :=
  ⟨law_exact .add hx hy nx ny h hq hc h1 h2 (add_sound h), law_exact .mul hx hy nx ny h hq hc h1 h2 trivial⟩

/-- The same for the difference.  Partial: not for `0 - y`, see `C113_zero_minus_violated`. -/
theorem C113_exact_difference_partial (x y : FloatV) (hx : FloatOk x) (hy : FloatOk y) (nx : x.IsNumber) (ny : y.IsNumber)
    (h : SameFormat x y) (h0 : fval x ≠ 0 ∨ fval y = 0) (q : ℚ)
    (c k : ℤ) (hq : q = c * 2 ^ k) (hc : |c| ≤ 2 ^ x.prec) (h1 : q = 0 ∨ 2 ^ (minExp - 1) ≤ |q|) (h2 : |q| < 2 ^ maxExp)
    (he : q = fval x - fval y) : ∃ z, fSub x y = .ok z ∧ z.IsNumber ∧ fval z = q :=
  law_exact .sub hx hy nx ny h hq hc h1 h2 (sub_sound h (fun h => h0.resolve_left (not_not_intro h))) he

/-- If `x <= y` then `x - c <= y - c` and `c - y <= c - x`.  Partial: not for `0 - y`, see `C113_zero_minus_violated`. -/
theorem C113_monotone_difference_partial (x y c : FloatV) (hx : FloatOk x) (hy : FloatOk y) (hc : FloatOk c) (nx : x.IsNumber)
    (ny : y.IsNumber) (nc : c.IsNumber) (h1 : SameFormat x y) (h2 : SameFormat x c) (hle : fval x ≤ fval y) :
    (fval x ≠ 0 → fval y ≠ 0 → ∃ z w, fSub x c = .ok z ∧ fSub y c = .ok w ∧ fLeOp z w = true) ∧
    (fval c ≠ 0 → ∃ z w, fSub c y = .ok z ∧ fSub c x = .ok w ∧ fLeOp z w = true) := by
  have px := h1.1
  have py : 1 ≤ y.prec := h1.2.1 ▸ px
  have pc : 1 ≤ c.prec := h2.2.1 ▸ px
  have h3 : SameFormat y c := ⟨py, h1.2.1.symm.trans h2.2.1, h1.2.2.symm.trans h2.2.2⟩
  have flip : ∀ {a b : FloatV}, SameFormat a b → SameFormat b a := fun h => ⟨h.2.1 ▸ h.1, h.2.1.symm, h.2.2.symm⟩
  constructor
  · intro n1 n2
    obtain ⟨z, v, hz, hv, dz⟩ := law_op .sub hx hc px pc nx nc (sub_sound h2 (fun h => absurd h n1))
    obtain ⟨w, u, hw, hu, dw⟩ := law_op .sub hy hc py pc ny nc (sub_sound h3 (fun h => absurd h n2))
    refine ⟨z, w, hz, hw, law_le dz dw ?_⟩
    rw [← h1.2.1, ← h1.2.2] at hu
    exact hv.mono px hu (by simp only [FOp.exact]; linarith)
  · intro n1
    obtain ⟨z, v, hz, hv, dz⟩ := law_op .sub hc hy pc py nc ny (sub_sound (flip h3) (fun h => absurd h n1))
    obtain ⟨w, u, hw, hu, dw⟩ := law_op .sub hc hx pc px nc nx (sub_sound (flip h2) (fun h => absurd h n1))
    exact ⟨z, w, hz, hw, law_le dz dw (hv.mono pc hu (by simp only [FOp.exact]; linarith))⟩

/-- **C113, cancellation** (Sterbenz): the difference of two numbers of one format and one sign, neither more than twice the other,
is exact, unless it is below the range of the exponents. -/
theorem C113_sterbenz (x y : FloatV) (hx : FloatOk x) (hy : FloatOk y) (fx : x.form = .finite) (fy : y.form = .finite)
    (h : SameFormat x y) (hs : x.neg = y.neg) (h1 : |fval x| ≤ 2 * |fval y|) (h2 : |fval y| ≤ 2 * |fval x|)
    (h3 : fval x = fval y ∨ 2 ^ (minExp - 1) ≤ |fval x - fval y|) :
    ∃ z, fSub x y = .ok z ∧ z.IsNumber ∧ fval z = fval x - fval y := by
  have hx0 : fval x ≠ 0 := by
    obtain ⟨s1, s2⟩ := sign_of_fin hx fx
    cases hn : x.neg
    · exact (s2 hn).ne'
    · exact (s1 hn).ne
  have hsgn : (0 ≤ fval x ∧ 0 ≤ fval y) ∨ (fval x ≤ 0 ∧ fval y ≤ 0) := by
    obtain ⟨s1, s2⟩ := sign_of_fin hx fx
    obtain ⟨s3, s4⟩ := sign_of_fin hy fy
    cases hn : x.neg
    · exact Or.inl ⟨(s2 hn).le, (s4 (hs ▸ hn)).le⟩
    · exact Or.inr ⟨(s1 hn).le, (s3 (hs ▸ hn)).le⟩
  have hd1 : |fval x - fval y| ≤ |fval x| := by
    rcases hsgn with ⟨a, b⟩ | ⟨a, b⟩
    · rw [abs_of_nonneg a, abs_of_nonneg b] at h1 h2
      rw [abs_of_nonneg a, abs_le]
      constructor <;> linarith
    · rw [abs_of_nonpos a, abs_of_nonpos b] at h1 h2
      rw [abs_of_nonpos a, abs_le]
      constructor <;> linarith
  have hd2 : |fval x - fval y| ≤ |fval y| := by
    rcases hsgn with ⟨a, b⟩ | ⟨a, b⟩
    · rw [abs_of_nonneg a, abs_of_nonneg b] at h1 h2
      rw [abs_of_nonneg b, abs_le]
      constructor <;> linarith
    · rw [abs_of_nonpos a, abs_of_nonpos b] at h1 h2
      rw [abs_of_nonpos b, abs_le]
      constructor <;> linarith
  obtain ⟨m, L, hm⟩ := hx.fin fx
  have hmax : |fval x - fval y| < 2 ^ maxExp :=
    lt_of_le_of_lt hd1 (lt_of_lt_of_le (fval_lt_exp x) (zpow_le_iff.2 hm.emax))
  -- both are multiples of units in the last place
  have hrx : fval x ≠ 0 → ∃ e k : ℤ, |fval x| < 2 ^ e ∧ fval x = k * 2 ^ (e - (x.prec : ℤ)) := by
    intro h0
    rcases fval_representable hx fx with ⟨h, -⟩ | ⟨e, k, -, g2, g3, -⟩
    · exact absurd h h0
    · exact ⟨e, k, g2, g3⟩
  have hry : ∃ e k : ℤ, |fval y| < 2 ^ e ∧ fval y = k * 2 ^ (e - (x.prec : ℤ)) := by
    rcases fval_representable hy fy with ⟨h, -⟩ | ⟨e, k, -, g2, g3, -⟩
    · exact ⟨0, 0, by rw [h]; norm_num, by rw [h]; simp⟩
    · exact ⟨e, k, g2, by rw [h.2.1]; exact g3⟩
  obtain ⟨e, k, e1, e2⟩ := hrx hx0
  obtain ⟨f, l, f1, f2⟩ := hry
  have fit : ∃ c g : ℤ, fval x - fval y = c * 2 ^ (g - (x.prec : ℤ)) ∧ |fval x - fval y| < 2 ^ g := by
    rcases le_total e f with hef | hef
    · refine ⟨k - l * 2 ^ (f - e).toNat, e, ?_, lt_of_le_of_lt hd1 e1⟩
      have : (2 : ℚ) ^ (f - e).toNat = 2 ^ (f - e) := by rw [← zpow_natCast, Int.toNat_of_nonneg (by omega)]
      push_cast
      rw [this, sub_mul, ← e2, mul_assoc, ← zadd, show f - e + (e - (x.prec : ℤ)) = f - x.prec by ring, ← f2]
    · refine ⟨k * 2 ^ (e - f).toNat - l, f, ?_, lt_of_le_of_lt hd2 f1⟩
      have : (2 : ℚ) ^ (e - f).toNat = 2 ^ (e - f) := by rw [← zpow_natCast, Int.toNat_of_nonneg (by omega)]
      push_cast
      rw [this, sub_mul, ← f2, mul_assoc, ← zadd, show e - f + (f - (x.prec : ℤ)) = e - x.prec by ring, ← e2]
  obtain ⟨c, g, hq, hg⟩ := fit
  have hu := two_zpow_pos (g - (x.prec : ℤ))
  have hc : |c| ≤ 2 ^ x.prec := by
    have : |(c : ℚ)| * 2 ^ (g - (x.prec : ℤ)) < 2 ^ x.prec * 2 ^ (g - (x.prec : ℤ)) := by
      rw [← zpow_natCast, ← zadd, show (x.prec : ℤ) + (g - x.prec) = g by ring]
      refine lt_of_le_of_lt (le_of_eq ?_) hg
      rw [hq, abs_mul, abs_of_pos hu]
    have := (lt_of_mul_lt_mul_right this hu.le).le
    exact_mod_cast this
  exact C113_exact_difference_partial x y hx hy (Or.inl fx) (Or.inl fy) h (Or.inl hx0) _ c _ hq hc
    (h3.imp (fun h => by rw [h, sub_self]) id) hmax rfl

/-- 0.75 and 0.5 with 5 digits, to nearest even, and 24 -/
def lawX : FloatV := ⟨.toNearestEven, .exact, .finite, false, 5, 0, [0xC0000000#32]⟩
def lawY : FloatV := ⟨.toNearestEven, .exact, .finite, false, 5, 0, [0x80000000#32]⟩
def lawC : FloatV := ⟨.toNearestEven, .exact, .finite, false, 5, 5, [0xC0000000#32]⟩

theorem lawX_ok : FloatOk lawX := by unfold FloatOk; decide
theorem lawY_ok : FloatOk lawY := by unfold FloatOk; decide
theorem lawC_ok : FloatOk lawC := by unfold FloatOk; decide

theorem lawX_val : fval lawX = 3 / 4 := by
  rw [fval, if_pos (show lawX.form = .finite from rfl), show val lawX.mant = 0xC0000000 by decide]; norm_num [lawX]

theorem lawY_val : fval lawY = 1 / 2 := by
  rw [fval, if_pos (show lawY.form = .finite from rfl), show val lawY.mant = 0x80000000 by decide]; norm_num [lawY]

/-- the hypotheses are met; 24 + 0.75 = 25 and 24 + 0.5 = 24 are rounded, up and down -/
example : FloatOk lawX ∧ FloatOk lawY ∧ FloatOk lawC ∧ SameFormat lawY lawX ∧ SameFormat lawY lawC ∧ lawX.IsNumber ∧ lawY.IsNumber ∧
    lawC.IsNumber ∧ fLeOp lawY lawX = true ∧
    fAdd lawX lawC = .ok ⟨.toNearestEven, .above, .finite, false, 5, 5, [0xC8000000#32]⟩ ∧
    fAdd lawY lawC = .ok ⟨.toNearestEven, .below, .finite, false, 5, 5, [0xC0000000#32]⟩ := by
  refine ⟨lawX_ok, lawY_ok, lawC_ok, ⟨by decide, rfl, rfl⟩, ⟨by decide, rfl, rfl⟩, Or.inl rfl, Or.inl rfl, Or.inl rfl, ?_,
    by decide +kernel, by decide +kernel⟩
  rw [C113_le _ _ lawY_ok lawX_ok (Or.inl rfl) (Or.inl rfl), lawX_val, lawY_val]
  norm_num

/-- 0.75 - 0.5 is exact -/
example : lawX.neg = lawY.neg ∧ |fval lawX| ≤ 2 * |fval lawY| ∧ |fval lawY| ≤ 2 * |fval lawX| ∧
    2 ^ (minExp - 1) ≤ |fval lawX - fval lawY| := by
  rw [lawX_val, lawY_val]
  refine ⟨rfl, by norm_num, by norm_num, ?_⟩
  refine le_trans (b := (2 : ℚ) ^ (-2 : ℤ)) (zpow_le_iff.2 (by decide)) (by norm_num)

/-- Associativity is no law: (24 + 0.5) + 0.5 = 24 and 24 + (0.5 + 0.5) = 25. -/
theorem C113_not_associative : ∃ x y z l r, FloatOk x ∧ FloatOk y ∧ FloatOk z ∧ SameFormat x y ∧ SameFormat y z ∧
    (fAdd x y).bind (fAdd · z) = .ok l ∧ (fAdd y z).bind (fAdd x ·) = .ok r ∧ fEq l r = false := by
  refine ⟨lawC, lawY, lawY, ⟨.toNearestEven, .below, .finite, false, 5, 5, [0xC0000000#32]⟩,
    ⟨.toNearestEven, .exact, .finite, false, 5, 5, [0xC8000000#32]⟩, lawC_ok, lawY_ok, lawY_ok, ⟨by decide, rfl, rfl⟩,
    ⟨by decide, rfl, rfl⟩, by decide +kernel, by decide +kernel, ?_⟩
  rw [← Bool.not_eq_true, C59_eq (by unfold FloatOk; decide) (by unfold FloatOk; decide)]
  rintro ⟨q, h1, h2⟩
  rw [← h2] at h1
  simp only [fext, Option.some.injEq, WithBot.coe_inj, WithTop.coe_inj] at h1
  norm_num [fval, val] at h1

/-- zero in the same format -/
def lawZ : FloatV := ⟨.toNearestEven, .exact, .zero, false, 5, 0, [0#32]⟩

/-- `0 - 0.5` is 0.5. -/
theorem C113_zero_minus_violated : FloatOk lawZ ∧ lawZ.IsNumber ∧ SameFormat lawZ lawY ∧ ∃ z, fSub lawZ lawY = .ok z ∧ fval z = 1 / 2 := by
  refine ⟨by unfold FloatOk; decide, Or.inr rfl, ⟨by decide, rfl, rfl⟩, lawY, by decide +kernel, lawY_val⟩

end RMath
