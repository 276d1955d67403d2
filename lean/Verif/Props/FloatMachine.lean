import Verif.Props.FloatIeee
import Verif.Props.Corners

/-!
# Property C122: sums, differences and products of doubles by way of Float are those of the machine, bit for bit

For all bit patterns of two `f64`: the numbers, both zeros, both infinities and the NaNs.  The specification is that of IEEE 754 in the
rounding mode of Rust (nearest, ties to even), with the signs of zero results (IEEE 754, 6.3).
-/

namespace RMath

/-- the number with a sign (`true` for negative) and a code -/
def Fmt.val (F : Fmt) (x : Bool × Nat) : ℚ := (if x.1 then -1 else 1) * F.value x.2

/-- `d` is the number of the format nearest to `q`, other than zero -/
def Fmt.Near (F : Fmt) (q : ℚ) (d : Bool × Nat) : Prop := d.1 = decide (q < 0) ∧ F.Nearest |q| d.2

/-- IEEE 754: `d` is `x + y`.  Machine numbers are given by sign and code, see `Verif.SpecIeee`: an infinity has the code `F.inf`, the NaNs
have larger ones. -/
structure IeeeSum (F : Fmt) (x y d : Bool × Nat) : Prop where
  nan : F.inf < x.2 ∨ F.inf < y.2 ∨ (x.2 = F.inf ∧ y.2 = F.inf ∧ x.1 ≠ y.1) → F.inf < d.2
  infL : x.2 = F.inf → y.2 ≤ F.inf → ¬ (y.2 = F.inf ∧ x.1 ≠ y.1) → d = x
  infR : x.2 < F.inf → y.2 = F.inf → d = y
  zero : x.2 < F.inf → y.2 < F.inf → F.val x + F.val y = 0 → d = (x.1 && y.1, 0)
  num : x.2 < F.inf → y.2 < F.inf → F.val x + F.val y ≠ 0 → F.Near (F.val x + F.val y) d

/-- IEEE 754: `d` is `x * y` -/
structure IeeeProd (F : Fmt) (x y d : Bool × Nat) : Prop where
  nan : F.inf < x.2 ∨ F.inf < y.2 ∨ (x.2 = F.inf ∧ y.2 = 0) ∨ (x.2 = 0 ∧ y.2 = F.inf) → F.inf < d.2
  inf : x.2 = F.inf ∨ y.2 = F.inf → x.2 ≤ F.inf → y.2 ≤ F.inf → x.2 ≠ 0 → y.2 ≠ 0 → d = (x.1 != y.1, F.inf)
  zero : x.2 < F.inf → y.2 < F.inf → F.val x * F.val y = 0 → d = (x.1 != y.1, 0)
  num : x.2 < F.inf → y.2 < F.inf → F.val x * F.val y ≠ 0 → F.Near (F.val x * F.val y) d

/-- `-y` -/
def opp (y : Bool × Nat) : Bool × Nat := (!y.1, y.2)

/-- sign and code of an `f64` -/
def parts64 (x : D) : Bool × Nat := (x.msb, x.toNat % 2 ^ 63)

/-! ## Proof -/

theorem Fmt.inf_pos (F : Fmt) : 0 < F.inf := by
  rw [F.inf_eq]
  positivity

theorem Fmt.value_pos (F : Fmt) {c : Nat} (h : c ≠ 0) : 0 < F.value c := by
  have h2 := F.value_le.2 (Nat.one_le_iff_ne_zero.2 h)
  rw [F.value_one] at h2
  exact lt_of_lt_of_le (two_zpow_pos _) h2

theorem Fmt.val_sgn (F : Fmt) (x : Bool × Nat) : F.val x = sgn x.1 * F.value x.2 := rfl

theorem Fmt.val_zero_iff (F : Fmt) {x : Bool × Nat} : F.val x = 0 ↔ x.2 = 0 := by
  rw [F.val_sgn]
  have hs : sgn x.1 ≠ 0 := by unfold sgn; split <;> norm_num
  rw [mul_eq_zero, or_iff_right hs]
  constructor
  · intro e
    by_contra hne
    exact absurd e (F.value_pos hne).ne'
  · intro e
    rw [e, F.value_zero]

theorem Fmt.val_opp (F : Fmt) (y : Bool × Nat) : F.val (opp y) = - F.val y := by
  rw [F.val_sgn, F.val_sgn, opp, sgn_not, neg_mul]

/-- opposite numbers other than zero have opposite signs -/
theorem Fmt.sign_opp (F : Fmt) {x y : Bool × Nat} (h : F.val x + F.val y = 0) (hx : x.2 ≠ 0) : x.1 = !y.1 := by
  have vx := F.value_pos hx
  have vy := F.value_nonneg y.2
  rw [F.val_sgn, F.val_sgn] at h
  unfold sgn at h
  cases h1 : x.1 <;> cases h2 : y.1 <;> simp [h1, h2] at h ⊢ <;> linarith

theorem Fmt.near_self (F : Fmt) {y : Bool × Nat} (hy : y.2 < F.inf) (h0 : y.2 ≠ 0) {d : Bool × Nat} (h : F.Near (F.val y) d) : d = y := by
  obtain ⟨h1, h2⟩ := h
  have hpos := F.value_pos h0
  have hv := F.val_sgn y
  have ha : |F.val y| = F.value y.2 := by
    rw [hv]
    unfold sgn
    split
    · rw [neg_one_mul, abs_neg, abs_of_pos hpos]
    · rw [one_mul, abs_of_pos hpos]
  have hs : decide (F.val y < 0) = y.1 := by
    unfold sgn at hv
    cases hm : y.1
    · rw [hm] at hv
      rw [decide_eq_false_iff_not, hv]
      simpa using hpos.le
    · rw [hm] at hv
      rw [decide_eq_true_iff, hv]
      simpa using hpos
  rw [ha] at h2
  exact Prod.ext (h1.trans hs) (h2.unique (F.nearest_self _ hy))

/-- the `Float` shows the machine number -/
structure MachineF (F : Fmt) (a : FloatV) (x : Bool × Nat) : Prop where
  ok : FloatOk a
  prec : a.form ≠ .nan → a.prec = 53
  mode : a.mode = .toNearestEven
  nan : a.form = .nan ↔ F.inf < x.2
  inf : a.form = .inf ↔ x.2 = F.inf
  zero : a.form = .zero ↔ x.2 = 0
  neg : a.form ≠ .nan → a.neg = x.1
  val : x.2 < F.inf → fval a = F.val x

theorem MachineF.fin {F : Fmt} {a : FloatV} {x : Bool × Nat} (h : MachineF F a x) : a.form = .finite ↔ x.2 < F.inf ∧ x.2 ≠ 0 := by
  have h1 := h.nan
  have h2 := h.inf
  have h3 := h.zero
  have := F.inf_pos
  cases hf : a.form <;> simp [hf] at h1 h2 h3 ⊢ <;> omega

theorem MachineF.number {F : Fmt} {a : FloatV} {x : Bool × Nat} (h : MachineF F a x) (hx : x.2 < F.inf) : a.IsNumber := by
  by_cases h0 : x.2 = 0
  · exact .inr (h.zero.2 h0)
  · exact .inl (h.fin.2 ⟨hx, h0⟩)

/-- a `Float` rounded from `q` -/
def RoundedFrom (q : ℚ) (z : FloatV) : Prop := ∃ v, FRounds .toNearestEven 53 q v ∧ FDenX z ⟨v, 53, .toNearestEven⟩

/-- the kinds of sums -/
structure SumForm (F : Fmt) (x y : Bool × Nat) (z : FloatV) : Prop where
  nan : F.inf < x.2 ∨ F.inf < y.2 ∨ (x.2 = F.inf ∧ y.2 = F.inf ∧ x.1 ≠ y.1) → z.form = .nan
  infL : x.2 = F.inf → y.2 ≤ F.inf → ¬ (y.2 = F.inf ∧ x.1 ≠ y.1) → z.form = .inf ∧ z.neg = x.1
  infR : x.2 < F.inf → y.2 = F.inf → z.form = .inf ∧ z.neg = y.1
  zero : x.2 < F.inf → y.2 < F.inf → F.val x + F.val y = 0 → z.form = .zero ∧ z.neg = (x.1 && y.1)
  num : x.2 < F.inf → y.2 < F.inf → F.val x + F.val y ≠ 0 → RoundedFrom (F.val x + F.val y) z

/-- the kinds of products -/
structure ProdForm (F : Fmt) (x y : Bool × Nat) (z : FloatV) : Prop where
  nan : F.inf < x.2 ∨ F.inf < y.2 ∨ (x.2 = F.inf ∧ y.2 = 0) ∨ (x.2 = 0 ∧ y.2 = F.inf) → z.form = .nan
  inf : x.2 = F.inf ∨ y.2 = F.inf → x.2 ≤ F.inf → y.2 ≤ F.inf → x.2 ≠ 0 → y.2 ≠ 0 → z.form = .inf ∧ z.neg = (x.1 != y.1)
  zero : x.2 < F.inf → y.2 < F.inf → F.val x * F.val y = 0 → z.form = .zero ∧ z.neg = (x.1 != y.1)
  num : x.2 < F.inf → y.2 < F.inf → F.val x * F.val y ≠ 0 → RoundedFrom (F.val x * F.val y) z

theorem result_zero {m : RoundingMode} {p : Nat} {z : FloatV} (h : FloatResult m p 0 z) : z.form = .zero := by
  obtain ⟨-, -, -, -, h⟩ := h
  cases hf : z.form
  case zero => rfl
  case finite =>
    rw [hf] at h
    have h := h.1
    rw [abs_zero] at h
    exact absurd h (not_le.2 (two_zpow_pos _))
  case inf =>
    rw [hf] at h
    obtain ⟨⟨r, h1, h2⟩, -⟩ := h
    have hr : r = 0 := by
      have h3 := h1.nonneg le_rfl
      have h4 := h1.negate.nonneg (by simp)
      linarith
    rw [hr, abs_zero] at h2
    exact absurd h2 (not_le.2 (two_zpow_pos _))
  case nan =>
    rw [hf] at h
    exact h.elim

theorem sub_inf {x y : FloatV} (hx : x.form = .inf) (hy : y.form ≠ .nan) :
    ∃ z, fSub x y = .ok z ∧ (if y.form = .inf ∧ x.neg = y.neg then z.form = .nan else z.form = .inf ∧ z.neg = x.neg) := by
  unfold fSub fOp
  rw [if_neg (by simp [hx, hy])]
  unfold fSubInner
  obtain ⟨_, _, d3, d4, _, _⟩ := fDeepClone_fields x
  generalize fDeepClone x = w at *
  rw [← d4]
  have hw : w.form = .inf := d3.trans hx
  have key : ∀ v : FloatV, v.form = .inf → v.neg = w.neg → ∃ z, (if v.form = .finite ∧ y.form = .finite then fAddFinite (v.neg != y.neg) v y
      else if v.form = .inf ∧ y.form = .inf ∧ v.neg = y.neg then .ok { v with acc := .exact, form := .nan, neg := false }
      else if v.form = .zero ∧ y.form = .zero then .ok { v with acc := .exact, form := .zero, neg := v.neg && !y.neg }
      else if v.form = .inf ∨ y.form = .zero then .ok v
      else fSetFloat v y) = .ok z ∧ (if y.form = .inf ∧ w.neg = y.neg then z.form = .nan else z.form = .inf ∧ z.neg = w.neg) := by
    intro v h1 h2
    rw [if_neg (by simp [h1])]
    by_cases hc : y.form = .inf ∧ w.neg = y.neg
    · rw [if_pos ⟨h1, hc.1, h2.trans hc.2⟩]
      exact ⟨_, rfl, by rw [if_pos hc]⟩
    · rw [if_neg (fun h => hc ⟨h.2.1, h2.symm.trans h.2.2⟩), if_neg (by simp [h1]), if_pos (.inl h1)]
      exact ⟨_, rfl, by rw [if_neg hc]; exact ⟨h1, h2⟩⟩
  by_cases hp : w.prec = 0
  · rw [if_pos hp]
    exact key _ hw rfl
  · rw [if_neg hp]
    exact key _ hw rfl

section forms

variable {F : Fmt} {a b : FloatV} {x y : Bool × Nat}

theorem MachineF.op (ha : MachineF F a x) (hb : MachineF F b y) (hx : x.2 < F.inf) (hy : y.2 < F.inf) (o : FOp)
    (ho : SameFormat a b → o.sound ⟨fval a, a.prec, a.mode⟩ ⟨fval b, b.prec, b.mode⟩) :
    ∃ z, fOp o.fn a b = .ok z ∧ RoundedFrom (o.exact (F.val x) (F.val y)) z := by
  have na := ha.number hx
  have nb := hb.number hy
  have pa := ha.prec (by rw [Ne, ha.nan]; omega)
  have pb := hb.prec (by rw [Ne, hb.nan]; omega)
  have sf : SameFormat a b := ⟨by omega, by rw [pa, pb], by rw [ha.mode, hb.mode]⟩
  obtain ⟨z, v, hz, hv, dz⟩ := law_op o ha.ok hb.ok (by omega) (by omega) na nb (ho sf)
  rw [ha.mode, pa, ha.val hx, hb.val hy] at hv
  rw [ha.mode, pa] at dz
  exact ⟨z, hz, v, hv, dz⟩

theorem add_forms (ha : MachineF F a x) (hb : MachineF F b y) : ∃ z, fAdd a b = .ok z ∧
    (¬ (x = (true, 0) ∧ y = (false, 0)) → SumForm F x y z) ∧ (x = (true, 0) ∧ y = (false, 0) → z.form = .zero ∧ z.neg = true) := by
  have hi := F.inf_pos
  by_cases hn : F.inf < x.2 ∨ F.inf < y.2
  · obtain ⟨z, hz, hf⟩ := C57_nan (hn.imp ha.nan.2 hb.nan.2) fAdd (by simp)
    refine ⟨z, hz, fun _ => ⟨fun _ => hf, ?_, ?_, ?_, ?_⟩, ?_⟩
    all_goals intros; first | omega | skip
    rename_i h
    rw [h.1, h.2] at hn
    exact absurd hn (by simp)
  have nx : a.form ≠ .nan := fun h => hn (.inl (ha.nan.1 h))
  have ny : b.form ≠ .nan := fun h => hn (.inr (hb.nan.1 h))
  have sa := ha.neg nx
  have sb := hb.neg ny
  by_cases hinf : x.2 = F.inf ∨ y.2 = F.inf
  · obtain ⟨z, hz, h⟩ := C58_add_inf nx ny (hinf.imp ha.inf.2 hb.inf.2)
    rw [sa, sb] at h
    have hex : ¬ (x = (true, 0) ∧ y = (false, 0)) := by
      rintro ⟨rfl, rfl⟩
      simp at hinf
      omega
    refine ⟨z, hz, fun _ => ⟨?_, ?_, ?_, ?_, ?_⟩, fun h => absurd h hex⟩
    · rintro (g | g | g)
      · omega
      · omega
      · rwa [if_pos ⟨ha.inf.2 g.1, hb.inf.2 g.2.1, g.2.2⟩] at h
    · intro g1 _ g3
      rw [if_neg (fun k => g3 ⟨hb.inf.1 k.2.1, k.2.2⟩), if_pos (ha.inf.2 g1)] at h
      exact h
    · intro g1 g2
      have : a.form ≠ .inf := fun k => by have := ha.inf.1 k; omega
      rw [if_neg (fun k => this k.1), if_neg this] at h
      exact h
    · intro g1 g2; omega
    · intro g1 g2; omega
  have lx : x.2 < F.inf := by omega
  have ly : y.2 < F.inf := by omega
  by_cases hzz : x.2 = 0 ∧ y.2 = 0
  · obtain ⟨z, hz, h1, h2, -⟩ := (C58_zero_zero (ha.zero.2 hzz.1) (hb.zero.2 hzz.2)).1
    rw [sa] at h2
    refine ⟨z, hz, fun hne => ⟨by omega, by omega, by omega, fun _ _ _ => ⟨h1, ?_⟩, fun _ _ h => absurd ?_ h⟩, fun h => ⟨h1, by rw [h2, h.1]⟩⟩
    · rw [h2]
      obtain ⟨x1, x2⟩ := x
      obtain ⟨y1, y2⟩ := y
      obtain ⟨rfl, rfl⟩ := hzz
      cases x1 <;> cases y1 <;> first | rfl | exact absurd ⟨rfl, rfl⟩ hne
    · rw [F.val_zero_iff.2 hzz.1, F.val_zero_iff.2 hzz.2, add_zero]
  have hex : ¬ (x = (true, 0) ∧ y = (false, 0)) := by
    rintro ⟨rfl, rfl⟩
    exact hzz ⟨rfl, rfl⟩
  obtain ⟨z, hz, hr⟩ := ha.op hb lx ly .add add_sound
  refine ⟨z, hz, fun _ => ⟨by omega, by omega, by omega, fun _ _ h0 => ?_, fun _ _ _ => hr⟩, fun h => absurd h hex⟩
  have hx0 : x.2 ≠ 0 := fun h => hzz ⟨h, F.val_zero_iff.1 (by rw [F.val_zero_iff.2 h] at h0; linarith)⟩
  have hy0 : y.2 ≠ 0 := fun h => hzz ⟨F.val_zero_iff.1 (by rw [F.val_zero_iff.2 h] at h0; linarith), h⟩
  obtain ⟨z', hz', hr, hs⟩ := C58_add_actual ha.ok hb.ok (ha.fin.2 ⟨lx, hx0⟩) (hb.fin.2 ⟨ly, hy0⟩)
  cases hz.symm.trans hz'
  rw [ha.val lx, hb.val ly, h0, ha.mode, hb.mode] at hr
  rw [ha.val lx, hb.val ly] at hs
  have hneg := hs h0
  have hzm : z.mode = .toNearestEven := by split at hr <;> exact hr.1
  rw [hzm] at hneg
  refine ⟨by split at hr <;> exact result_zero hr, ?_⟩
  rw [hneg, F.sign_opp h0 hx0]
  cases y.1 <;> rfl

theorem sub_forms (ha : MachineF F a x) (hb : MachineF F b y) : ∃ z, fSub a b = .ok z ∧
    (¬ (x.2 = 0 ∧ y.2 ≠ 0 ∧ y.2 < F.inf) ∧ ¬ (x.2 < F.inf ∧ y.2 = F.inf) → SumForm F x (opp y) z) ∧
    (x.2 = 0 ∧ y.2 ≠ 0 ∧ y.2 < F.inf → RoundedFrom (F.val y) z) ∧ (x.2 < F.inf ∧ y.2 = F.inf → z.form = .inf ∧ z.neg = y.1) := by
  have hi := F.inf_pos
  have hy2 : (opp y).2 = y.2 := rfl
  by_cases hn : F.inf < x.2 ∨ F.inf < y.2
  · obtain ⟨z, hz, hf⟩ := C57_nan (hn.imp ha.nan.2 hb.nan.2) fSub (by simp)
    refine ⟨z, hz, fun _ => ⟨fun _ => hf, ?_, ?_, ?_, ?_⟩, ?_, ?_⟩
    all_goals intros; omega
  have nx : a.form ≠ .nan := fun h => hn (.inl (ha.nan.1 h))
  have ny : b.form ≠ .nan := fun h => hn (.inr (hb.nan.1 h))
  have sa := ha.neg nx
  have sb := hb.neg ny
  by_cases hxi : x.2 = F.inf
  · obtain ⟨z, hz, h⟩ := sub_inf (ha.inf.2 hxi) ny
    rw [sa, sb] at h
    refine ⟨z, hz, fun _ => ⟨?_, ?_, by omega, by omega, by omega⟩, by omega, by omega⟩
    · rintro (g | g | g)
      · omega
      · omega
      · rwa [if_pos ⟨hb.inf.2 g.2.1, by have := g.2.2; revert this; cases h1 : x.1 <;> cases h2 : y.1 <;> simp [opp, h2]⟩] at h
    · intro g1 _ g3
      rw [if_neg (fun k => g3 ⟨hb.inf.1 k.1, by rw [k.2]; cases h2 : y.1 <;> simp [opp, h2]⟩)] at h
      exact h
  have lx : x.2 < F.inf := by omega
  by_cases hyi : y.2 = F.inf
  · refine Exists.imp (fun z h => ⟨h.1, by omega, by omega, fun _ => h.2⟩)
      (p := fun z => fSub a b = .ok z ∧ z.form = .inf ∧ z.neg = y.1) ?_
    rw [← sb]
    by_cases hx0 : x.2 = 0
    · rw [C58_violated_zero_sub (ha.zero.2 hx0) (.inr (hb.inf.2 hyi))]
      obtain ⟨z, hz, h⟩ := C58_add_inf nx ny (.inr (hb.inf.2 hyi))
      have : a.form ≠ .inf := by rw [ha.zero.2 hx0]; decide
      rw [if_neg (fun k => this k.1), if_neg this] at h
      exact ⟨z, hz, h⟩
    · exact C58_violated_sub_inf (ha.fin.2 ⟨lx, hx0⟩) (hb.inf.2 hyi)
  have ly : y.2 < F.inf := by omega
  by_cases hzz : x.2 = 0 ∧ y.2 = 0
  · obtain ⟨z, hz, h1, h2, -⟩ := (C58_zero_zero (ha.zero.2 hzz.1) (hb.zero.2 hzz.2)).2
    rw [sa, sb] at h2
    refine ⟨z, hz, fun _ => ⟨by omega, by omega, by omega, fun _ _ _ => ⟨h1, h2⟩, fun _ _ h => absurd ?_ h⟩, by omega, by omega⟩
    rw [F.val_opp, F.val_zero_iff.2 hzz.1, F.val_zero_iff.2 hzz.2, add_neg_cancel]
  by_cases hx0 : x.2 = 0
  · have hy0 : y.2 ≠ 0 := fun h => hzz ⟨hx0, h⟩
    obtain ⟨z, hz, hr⟩ := ha.op hb lx ly .add add_sound
    have hr : RoundedFrom (F.val x + F.val y) z := hr
    rw [F.val_zero_iff.2 hx0, zero_add] at hr
    exact ⟨z, (C58_violated_zero_sub (ha.zero.2 hx0) (.inl (hb.fin.2 ⟨ly, hy0⟩))).trans hz, by omega, fun _ => hr, by omega⟩
  obtain ⟨z, hz, hr⟩ := ha.op hb lx ly .sub (fun sf => sub_sound sf (fun h => absurd (F.val_zero_iff.1 ((ha.val lx).symm.trans h)) hx0))
  have hr : RoundedFrom (F.val x - F.val y) z := hr
  rw [sub_eq_add_neg, ← F.val_opp] at hr
  refine ⟨z, hz, fun _ => ⟨by omega, by omega, by omega, fun _ _ h0 => ?_, fun _ _ _ => hr⟩, by omega, by omega⟩
  have hy0 : y.2 ≠ 0 := fun h => hx0 (F.val_zero_iff.1 (by rw [F.val_opp, F.val_zero_iff.2 h] at h0; linarith))
  obtain ⟨z', hz', hr, hs⟩ := C58_sub_actual ha.ok hb.ok (ha.fin.2 ⟨lx, hx0⟩) (hb.fin.2 ⟨ly, hy0⟩)
  cases hz.symm.trans hz'
  have h0' : F.val x - F.val y = 0 := by rw [sub_eq_add_neg, ← F.val_opp, h0]
  rw [ha.val lx, hb.val ly, h0', ha.mode, hb.mode] at hr
  rw [ha.val lx, hb.val ly] at hs
  have hneg := hs h0'
  have hzm : z.mode = .toNearestEven := by split at hr <;> exact hr.1
  rw [hzm] at hneg
  refine ⟨by split at hr <;> exact result_zero hr, ?_⟩
  rw [hneg, F.sign_opp h0 hx0]
  cases (opp y).1 <;> rfl

theorem mul_forms (ha : MachineF F a x) (hb : MachineF F b y) : ∃ z, fMul a b = .ok z ∧ ProdForm F x y z := by
  have hi := F.inf_pos
  by_cases hn : F.inf < x.2 ∨ F.inf < y.2
  · obtain ⟨z, hz, hf⟩ := C57_nan (hn.imp ha.nan.2 hb.nan.2) fMul (by simp)
    refine ⟨z, hz, fun _ => hf, ?_, ?_, ?_⟩
    all_goals intros; omega
  have nx : a.form ≠ .nan := fun h => hn (.inl (ha.nan.1 h))
  have ny : b.form ≠ .nan := fun h => hn (.inr (hb.nan.1 h))
  have sa := ha.neg nx
  have sb := hb.neg ny
  by_cases hff : a.form = .finite ∧ b.form = .finite
  · obtain ⟨lx, hx0⟩ := ha.fin.1 hff.1
    obtain ⟨ly, hy0⟩ := hb.fin.1 hff.2
    obtain ⟨z, hz, hr⟩ := ha.op hb lx ly .mul (fun _ => trivial)
    refine ⟨z, hz, by omega, by omega, fun _ _ g => ?_, fun _ _ _ => hr⟩
    rcases mul_eq_zero.1 g with g | g
    · exact absurd (F.val_zero_iff.1 g) hx0
    · exact absurd (F.val_zero_iff.1 g) hy0
  · obtain ⟨z, hz, -, -, hc⟩ := C57_mul_special nx ny hff
    rw [sa, sb] at hc
    refine ⟨z, hz, ?_, ?_, ?_, ?_⟩
    · rintro (g | g | g | g)
      · omega
      · omega
      · rwa [if_pos (.inr ⟨ha.inf.2 g.1, hb.zero.2 g.2⟩)] at hc
      · rwa [if_pos (.inl ⟨ha.zero.2 g.1, hb.inf.2 g.2⟩)] at hc
    · intro g _ _ g1 g2
      rw [if_neg (by rw [ha.zero, ha.inf, hb.zero, hb.inf]; omega), if_pos (by rwa [ha.inf, hb.inf])] at hc
      exact hc.symm
    · intro lx ly _
      rw [if_neg (by rw [ha.zero, ha.inf, hb.zero, hb.inf]; omega), if_neg (by rw [ha.inf, hb.inf]; omega)] at hc
      exact hc.symm
    · intro lx ly g
      refine absurd ⟨ha.fin.2 ⟨lx, fun h => g ?_⟩, hb.fin.2 ⟨ly, fun h => g ?_⟩⟩ hff
      · rw [F.val_zero_iff.2 h, zero_mul]
      · rw [F.val_zero_iff.2 h, mul_zero]

end forms

theorem to64_nan {z : FloatV} (h : z.form = .nan) : fToF64 z = .ok (0x7ff8000000000000#64, .exact) := by simp [fToF64, h]
theorem to64_inf {z : FloatV} (h : z.form = .inf) : fToF64 z = .ok (mk64 z.neg b64.inf, .exact) := (C76_special.2.1 h).1
theorem to64_zero {z : FloatV} (h : z.form = .zero) : fToF64 z = .ok (mk64 z.neg 0, .exact) := (C76_special.1 h).1

theorem parts_mk64 {s : Bool} {c : Nat} (h : c < 2 ^ 63) : parts64 (mk64 s c) = (s, c) :=
  Prod.ext (msb_mk64 s c h) (mag64_mk64 s c h)

theorem mk64_parts (x : D) : mk64 (parts64 x).1 (parts64 x).2 = x := by
  unfold mk64 parts64
  apply BitVec.eq_of_toNat_eq
  rw [BitVec.toNat_ofNat, BitVec.msb_eq_decide]
  have := x.isLt
  by_cases h : 2 ^ (64 - 1) ≤ x.toNat
  · simp only [h, decide_true, if_true]; omega
  · simp only [h, decide_false, Bool.false_eq_true, if_false]; omega

theorem num_finite {x : D} (h : (parts64 x).2 < b64.inf) : f64Finite x := by
  unfold parts64 at h
  unfold f64Finite
  have : b64.inf = 2047 * 2 ^ 52 := by decide
  omega

theorem f64val_parts (x : D) : f64val x = b64.val (parts64 x) := f64val_msb x

/-- what `Float::from` makes of a double -/
theorem from64_shows (x : D) : ∃ a, fFromF64 x = .ok a ∧ MachineF b64 a (parts64 x) := by
  have hinf : b64.inf = 2047 * 2 ^ 52 := by decide
  have hp : (parts64 x).2 = mag64 x := rfl
  have hval : ∀ a, fFromF64 x = .ok a → mag64 x < b64.inf → FloatOk a ∧ fval a = b64.val (parts64 x) := by
    intro a ha hm
    obtain ⟨a', b', e1, e2, ⟨h1, -⟩, h2, -⟩ := from_f64_doubles x x (num_finite hm) (num_finite hm)
    cases ha.symm.trans e1
    exact ⟨h1, h2.trans (f64val_parts x)⟩
  obtain ⟨a, ha, hk⟩ : ∃ a, fFromF64 x = .ok a ∧ a.mode = .toNearestEven ∧ (a.form = .nan ↔ b64.inf < mag64 x) ∧
      (a.form = .inf ↔ mag64 x = b64.inf) ∧ (a.form = .zero ↔ mag64 x = 0) ∧ (a.form ≠ .nan → a.neg = x.msb ∧ a.prec = 53) := by
    unfold fFromF64 fSetF64
    by_cases h1 : b64.inf < mag64 x
    · rw [if_pos h1]
      refine ⟨_, rfl, rfl, by simp [h1], by simp; omega, by simp; omega, fun h => absurd rfl h⟩
    rw [if_neg h1]
    simp only [fDefault, if_true]
    by_cases h2 : mag64 x = 0
    · rw [if_pos (by unfold f64IsZero; rw [h2]; rfl)]
      refine ⟨_, rfl, rfl, by simp [h1], by simp; omega, by simp [h2], fun _ => ⟨rfl, rfl⟩⟩
    rw [if_neg (by unfold f64IsZero; simpa using h2)]
    by_cases h3 : mag64 x = b64.inf
    · rw [if_pos h3]
      refine ⟨_, rfl, rfl, by simp [h1], by simp [h3], by simp; omega, fun _ => ⟨rfl, rfl⟩⟩
    rw [if_neg h3, if_neg (by decide)]
    exact ⟨_, rfl, rfl, by simp [h1], by simp [h3], by simp [h2], fun _ => ⟨rfl, rfl⟩⟩
  obtain ⟨k1, k2, k3, k4, k5⟩ := hk
  refine ⟨a, ha, ?_, fun h => (k5 h).2, k1, k2, k3, k4, fun h => (k5 h).1, fun h => (hval a ha h).2⟩
  by_cases hm : mag64 x < b64.inf
  · exact (hval a ha hm).1
  · intro hf
    have : a.form = .nan ∨ a.form = .inf := by
      rw [k2, k3]; omega
    rw [hf] at this
    simp at this

theorem via_eq {f : FloatV → FloatV → Res FloatV} {x y d : D} {a b z : FloatV} {t : Accuracy} (ha : fFromF64 x = .ok a)
    (hb : fFromF64 y = .ok b) (hz : f a b = .ok z) (hd : fToF64 z = .ok (d, t)) : viaFloat f x y = .ok d := by
  unfold viaFloat
  rw [ha, hb]
  show (do let z ← f a b; let r ← fToF64 z; pure r.1) = _
  rw [hz]
  show (do let r ← fToF64 z; pure r.1) = _
  rw [hd]
  rfl

theorem nan64_bits : b64.inf < (parts64 0x7ff8000000000000#64).2 := by decide
theorem inf64_lt : b64.inf < 2 ^ 63 := by decide

theorem IeeeDouble.near {z : FloatV} {q : ℚ} (h : IeeeDouble z q) (hq : q ≠ 0) : ∃ d t, fToF64 z = .ok (d, t) ∧ b64.Near q (parts64 d) := by
  obtain ⟨d, t, h1, -, h2⟩ := h
  obtain ⟨c, rfl, h3⟩ := h2 hq
  refine ⟨_, t, h1, ?_⟩
  rw [parts_mk64 (nearest64_lt h3)]
  exact ⟨rfl, h3⟩

/-- from the kind of a sum to the double -/
theorem SumForm.to64 {x : D} {w : Bool × Nat} (hw : ∃ v : D, w = parts64 v) {z : FloatV} (h : SumForm b64 (parts64 x) w z) :
    ∃ d t, fToF64 z = .ok (d, t) ∧ IeeeSum b64 (parts64 x) w (parts64 d) := by
  obtain ⟨v, rfl⟩ := hw
  have mk : ∀ {s c}, c < 2 ^ 63 → parts64 (mk64 s c) = (s, c) := fun h => parts_mk64 h
  by_cases hn : b64.inf < (parts64 x).2 ∨ b64.inf < (parts64 v).2 ∨
      ((parts64 x).2 = b64.inf ∧ (parts64 v).2 = b64.inf ∧ (parts64 x).1 ≠ (parts64 v).1)
  · refine ⟨_, _, to64_nan (h.nan hn), fun _ => nan64_bits, fun g1 g2 g3 => ?_, fun g1 g2 => ?_, fun g1 g2 => ?_, fun g1 g2 => ?_⟩
    all_goals
      rcases hn with hn | hn | hn
      · omega
      · omega
      · first | omega | exact absurd hn.2 g3
  by_cases hx : (parts64 x).2 = b64.inf
  · obtain ⟨g1, g2⟩ := h.infL hx (by omega) (fun k => hn (.inr (.inr ⟨hx, k⟩)))
    refine ⟨_, _, to64_inf g1, fun g => absurd g hn, fun _ _ _ => ?_, by omega, by omega, by omega⟩
    rw [mk inf64_lt, g2, ← hx]
  by_cases hv : (parts64 v).2 = b64.inf
  · obtain ⟨g1, g2⟩ := h.infR (by omega) hv
    refine ⟨_, _, to64_inf g1, fun g => absurd g hn, by omega, fun _ _ => ?_, by omega, by omega⟩
    rw [mk inf64_lt, g2, ← hv]
  have lx : (parts64 x).2 < b64.inf := by omega
  have lv : (parts64 v).2 < b64.inf := by omega
  by_cases h0 : b64.val (parts64 x) + b64.val (parts64 v) = 0
  · obtain ⟨g1, g2⟩ := h.zero lx lv h0
    refine ⟨_, _, to64_zero g1, fun g => absurd g hn, by omega, by omega, fun _ _ _ => ?_, fun _ _ g => absurd h0 g⟩
    rw [mk (by norm_num), g2]
  · obtain ⟨w, hw, dw⟩ := h.num lx lv h0
    obtain ⟨k, hk⟩ := f64val_grid x
    obtain ⟨l, hl⟩ := f64val_grid v
    obtain ⟨d, t, e, hd⟩ := (ieee_double_grid rfl hw dw (k + l) (by
      rw [← f64val_parts, ← f64val_parts, hk, hl, Int.cast_add, add_mul])).near h0
    exact ⟨d, t, e, fun g => absurd g hn, by omega, by omega, fun _ _ g => absurd g h0, fun _ _ _ => hd⟩

/-! ## C122 -/

/-- **C122** for sums: for all doubles, whatever they are, except `-0 + 0`, which is `-0` instead of `0`. -/
theorem C122_add (x y : D) : ∃ d, viaFloat fAdd x y = .ok d ∧
    (¬ (x = 0x8000000000000000#64 ∧ y = 0#64) → IeeeSum b64 (parts64 x) (parts64 y) (parts64 d)) ∧
    (x = 0x8000000000000000#64 ∧ y = 0#64 → d = 0x8000000000000000#64) := by
  obtain ⟨a, ea, ha⟩ := from64_shows x
  obtain ⟨b, eb, hb⟩ := from64_shows y
  obtain ⟨z, hz, h1, h2⟩ := add_forms ha hb
  have hex : (x = 0x8000000000000000#64 ∧ y = 0#64) ↔ (parts64 x = (true, 0) ∧ parts64 y = (false, 0)) := by
    constructor
    · rintro ⟨rfl, rfl⟩
      decide
    · rintro ⟨e1, e2⟩
      have k1 := mk64_parts x
      have k2 := mk64_parts y
      rw [e1] at k1
      rw [e2] at k2
      exact ⟨k1.symm, k2.symm⟩
  by_cases hc : x = 0x8000000000000000#64 ∧ y = 0#64
  · obtain ⟨g1, g2⟩ := h2 (hex.1 hc)
    have e := to64_zero g1
    rw [g2] at e
    exact ⟨_, via_eq ea eb hz e, fun h => absurd hc h, fun _ => rfl⟩
  · obtain ⟨d, t, e, hd⟩ := SumForm.to64 ⟨y, rfl⟩ (h1 (fun h => hc (hex.2 h)))
    exact ⟨d, via_eq ea eb hz e, fun _ => hd, fun h => absurd h hc⟩

/-- **C122** for differences: `x - y` is `x + (-y)`, except in two cases: `0 - y`, for a number `y` other than zero, and a number minus an
infinity.  The result is `y` then. -/
theorem C122_sub (x y : D) : ∃ d, viaFloat fSub x y = .ok d ∧
    (¬ ((parts64 x).2 = 0 ∧ (parts64 y).2 ≠ 0 ∧ (parts64 y).2 < b64.inf) ∧ ¬ ((parts64 x).2 < b64.inf ∧ (parts64 y).2 = b64.inf) →
      IeeeSum b64 (parts64 x) (opp (parts64 y)) (parts64 d)) ∧
    (((parts64 x).2 = 0 ∧ (parts64 y).2 ≠ 0 ∧ (parts64 y).2 < b64.inf) ∨ ((parts64 x).2 < b64.inf ∧ (parts64 y).2 = b64.inf) → d = y) := by
  obtain ⟨a, ea, ha⟩ := from64_shows x
  obtain ⟨b, eb, hb⟩ := from64_shows y
  obtain ⟨z, hz, h1, h2, h3⟩ := sub_forms ha hb
  have hlt : (parts64 y).2 < 2 ^ 63 := Nat.mod_lt _ (by norm_num)
  by_cases hc : (parts64 x).2 = 0 ∧ (parts64 y).2 ≠ 0 ∧ (parts64 y).2 < b64.inf
  · obtain ⟨w, hw, dw⟩ := h2 hc
    obtain ⟨k, hk⟩ := f64val_grid y
    obtain ⟨d, t, e, hd⟩ := (ieee_double_grid rfl hw dw k (by rw [← f64val_parts, hk])).near (fun h => hc.2.1 (b64.val_zero_iff.1 h))
    refine ⟨d, via_eq ea eb hz e, fun h => absurd hc h.1, fun _ => ?_⟩
    rw [← mk64_parts d, b64.near_self hc.2.2 hc.2.1 hd, mk64_parts]
  by_cases hc' : (parts64 x).2 < b64.inf ∧ (parts64 y).2 = b64.inf
  · obtain ⟨g1, g2⟩ := h3 hc'
    have e := to64_inf g1
    rw [g2, ← hc'.2, mk64_parts] at e
    exact ⟨_, via_eq ea eb hz e, fun h => absurd hc' h.2, fun _ => rfl⟩
  · obtain ⟨d, t, e, hd⟩ := SumForm.to64 ⟨mk64 (!(parts64 y).1) (parts64 y).2, by rw [parts_mk64 hlt]; rfl⟩ (h1 ⟨hc, hc'⟩)
    exact ⟨d, via_eq ea eb hz e, fun _ => hd, fun h => absurd h (not_or.2 ⟨hc, hc'⟩)⟩

/-- **C122** for products: for all doubles, except numbers whose product is below the normal range and not zero
(`C115_low_product_wrong`). -/
theorem C122_mul_partial (x y : D) (h : (parts64 x).2 < b64.inf → (parts64 y).2 < b64.inf →
      f64val x * f64val y = 0 ∨ 2 ^ (-1022 : ℤ) ≤ |f64val x * f64val y|) :
    ∃ d, viaFloat fMul x y = .ok d ∧ IeeeProd b64 (parts64 x) (parts64 y) (parts64 d) := by
  obtain ⟨a, ea, ha⟩ := from64_shows x
  obtain ⟨b, eb, hb⟩ := from64_shows y
  obtain ⟨z, hz, f1, f2, f3, f4⟩ := mul_forms ha hb
  rw [f64val_parts, f64val_parts] at h
  have hi := b64.inf_pos
  by_cases hn : b64.inf < (parts64 x).2 ∨ b64.inf < (parts64 y).2 ∨ ((parts64 x).2 = b64.inf ∧ (parts64 y).2 = 0) ∨
      ((parts64 x).2 = 0 ∧ (parts64 y).2 = b64.inf)
  · refine ⟨_, via_eq ea eb hz (to64_nan (f1 hn)), fun _ => nan64_bits, by omega, by omega, by omega⟩
  by_cases hinf : (parts64 x).2 = b64.inf ∨ (parts64 y).2 = b64.inf
  · obtain ⟨g1, g2⟩ := f2 hinf (by omega) (by omega) (by omega) (by omega)
    refine ⟨_, via_eq ea eb hz (to64_inf g1), fun g => absurd g hn, fun _ _ _ _ _ => ?_, by omega, by omega⟩
    rw [parts_mk64 inf64_lt, g2]
  have lx : (parts64 x).2 < b64.inf := by omega
  have ly : (parts64 y).2 < b64.inf := by omega
  by_cases h0 : b64.val (parts64 x) * b64.val (parts64 y) = 0
  · obtain ⟨g1, g2⟩ := f3 lx ly h0
    refine ⟨_, via_eq ea eb hz (to64_zero g1), fun g => absurd g hn, by omega, fun _ _ _ => ?_, fun _ _ g => absurd h0 g⟩
    rw [parts_mk64 (by norm_num), g2]
  · obtain ⟨w, hw, dw⟩ := f4 lx ly h0
    obtain ⟨d, t, e, hd⟩ := (ieee_double rfl hw dw (h lx ly)).near h0
    exact ⟨d, via_eq ea eb hz e, fun g => absurd g hn, by omega, fun _ _ g => absurd g h0, fun _ _ _ => hd⟩

/-- The specification determines the result, but for the bits of a NaN. -/
theorem C122_determined {F : Fmt} {x y d e : Bool × Nat} :
    (IeeeSum F x y d → IeeeSum F x y e → d = e ∨ (F.inf < d.2 ∧ F.inf < e.2)) ∧
    (IeeeProd F x y d → IeeeProd F x y e → d = e ∨ (F.inf < d.2 ∧ F.inf < e.2)) := by
  have near : ∀ {q : ℚ} {d e : Bool × Nat}, F.Near q d → F.Near q e → d = e := by
    rintro q d e ⟨h1, h2⟩ ⟨h3, h4⟩
    exact Prod.ext (h1.trans h3.symm) (h2.unique h4)
  constructor
  · intro h h'
    by_cases hn : F.inf < x.2 ∨ F.inf < y.2 ∨ (x.2 = F.inf ∧ y.2 = F.inf ∧ x.1 ≠ y.1)
    · exact .inr ⟨h.nan hn, h'.nan hn⟩
    left
    by_cases hx : x.2 = F.inf
    · rw [h.infL hx (by omega) (fun g => hn (.inr (.inr ⟨hx, g⟩))), h'.infL hx (by omega) (fun g => hn (.inr (.inr ⟨hx, g⟩)))]
    by_cases hy : y.2 = F.inf
    · rw [h.infR (by omega) hy, h'.infR (by omega) hy]
    by_cases h0 : F.val x + F.val y = 0
    · rw [h.zero (by omega) (by omega) h0, h'.zero (by omega) (by omega) h0]
    · exact near (h.num (by omega) (by omega) h0) (h'.num (by omega) (by omega) h0)
  · intro h h'
    by_cases hn : F.inf < x.2 ∨ F.inf < y.2 ∨ (x.2 = F.inf ∧ y.2 = 0) ∨ (x.2 = 0 ∧ y.2 = F.inf)
    · exact .inr ⟨h.nan hn, h'.nan hn⟩
    left
    by_cases hi : x.2 = F.inf ∨ y.2 = F.inf
    · have := F.inf_pos
      rw [h.inf hi (by omega) (by omega) (by omega) (by omega), h'.inf hi (by omega) (by omega) (by omega) (by omega)]
    by_cases h0 : F.val x * F.val y = 0
    · rw [h.zero (by omega) (by omega) h0, h'.zero (by omega) (by omega) h0]
    · exact near (h.num (by omega) (by omega) h0) (h'.num (by omega) (by omega) h0)

/-- **C122 fails** for `-0 + 0`, which is `-0`, for `0 - 1`, which is `1`, and for `1 - inf`, which is `inf`. -/
theorem C122_violated :
    (∃ d, viaFloat fAdd 0x8000000000000000#64 0#64 = .ok d ∧ ¬ IeeeSum b64 (true, 0) (false, 0) (parts64 d)) ∧
    (∃ d, viaFloat fSub 0#64 0x3ff0000000000000#64 = .ok d ∧ ¬ IeeeSum b64 (false, 0) (true, 0x3ff0000000000000) (parts64 d)) ∧
    (∃ d, viaFloat fSub 0x3ff0000000000000#64 0x7ff0000000000000#64 = .ok d ∧
      ¬ IeeeSum b64 (false, 0x3ff0000000000000) (true, 0x7ff0000000000000) (parts64 d)) := by
  refine ⟨⟨0x8000000000000000#64, by decide +kernel, fun h => ?_⟩, ⟨0x3ff0000000000000#64, by decide +kernel, fun h => ?_⟩,
    ⟨0x7ff0000000000000#64, by decide +kernel, fun h => ?_⟩⟩
  · exact absurd (h.zero (by decide) (by decide) (by decide +kernel)) (by decide)
  · have h0 : b64.val (false, 0) = 0 := b64.val_zero_iff.2 rfl
    have := h.num (by decide) (by decide)
    rw [h0, zero_add] at this
    exact absurd (b64.near_self (by decide) (by decide) (this (fun h => absurd (b64.val_zero_iff.1 h) (by decide)))) (by decide)
  · exact absurd (h.infR (by decide) (by decide)) (by decide)

example : parts64 0xbff0000000000000#64 = (true, 0x3ff0000000000000) ∧ b64.val (true, 0x3ff0000000000000) = -1 ∧
    viaFloat fAdd 0x3ff0000000000000#64 0x3ca0000000000000#64 = .ok 0x3ff0000000000000#64 ∧
    viaFloat fSub 0x3ff0000000000000#64 0xbff0000000000000#64 = .ok 0x4000000000000000#64 ∧
    viaFloat fMul 0x7fe0000000000000#64 0xc000000000000000#64 = .ok 0xfff0000000000000#64 := by
  refine ⟨by decide, by decide +kernel, by decide +kernel, by decide +kernel, by decide +kernel⟩

end RMath
