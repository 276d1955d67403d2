import Verif.Props.FloatHeap
import Verif.Props.Float
import Verif.Props.FloatMore
import Mathlib.Algebra.Order.Archimedean.Basic
import Mathlib.Algebra.Order.Round

/-!
# Property C104: programs over `Float` variables are sequences of correctly rounded operations

The program on the heap of word vectors (`fRun`) is compared with a program on rational numbers (`FqRun`): every variable is a
number with a precision and a mode, and every statement delivers its exact result rounded once (`Rounded`).
-/

namespace RMath

/-! ## The invariant -/

/-- the operator is not the division -/
def FCmd.divFree : FCmd → Prop
  | .op o _ _ _ => o ≠ .div
  | .assign o _ _ => o ≠ .div
  | _ => True

/-- the variables a statement reads -/
def FCmd.reads : FCmd → List Nat
  | .fromU64 _ _ => []
  | .fromF64 _ _ => []
  | .clone _ y => [y]
  | .deepClone _ y => [y]
  | .neg _ y => [y]
  | .abs _ y => [y]
  | .op _ _ x y => [x, y]
  | .assign _ x y => [x, y]
  | .setPrecision x _ => [x]
  | .setMode x _ => [x]
  | .setMantExp x y _ => [x, y]

/-- the variable a statement binds or changes -/
def FCmd.target : FCmd → Nat
  | .fromU64 x _ => x
  | .fromF64 x _ => x
  | .clone x _ => x
  | .deepClone x _ => x
  | .neg x _ => x
  | .abs x _ => x
  | .op _ z _ _ => z
  | .assign _ x _ => x
  | .setPrecision x _ => x
  | .setMode x _ => x
  | .setMantExp x _ _ => x

/-- every variable that a statement reads is bound before; `B` are those bound at the beginning -/
def FScoped : (Nat → Prop) → List FCmd → Prop
  | _, [] => True
  | B, c :: cs => (∀ x ∈ c.reads, B x) ∧ FScoped (fun x => B x ∨ x = c.target) cs

theorem ok_of_not_finite {z : FloatV} (h : z.form ≠ .finite) : FloatOk z := fun hf => absurd hf h

theorem ok_deepClone {x : FloatV} (h : FloatOk x) : FloatOk (fDeepClone x) := by
  by_cases hf : x.form = .finite
  · obtain ⟨m, L, hx⟩ := h.fin hf
    rw [hx.deepClone]; exact h
  · exact ok_of_not_finite hf

theorem fRound_special {x : FloatV} (hf : x.form ≠ .finite) (s : Nat) : fRound x s = .ok { x with acc := .exact } := by
  unfold fRound; simp [hf]

theorem fSetFloat_ok {z y : FloatV} (hy : FloatOk y) (hz : y.form = .finite → 1 ≤ z.prec) :
    ∃ r, fSetFloat z y = .ok r ∧ FloatOk r := by
  by_cases hf : y.form = .finite
  · obtain ⟨m, L, h⟩ := hy.fin hf
    obtain ⟨r, e, hr⟩ := fSetFloat_result h (hz hf)
    exact ⟨r, e, hr.2.2.1⟩
  · unfold fSetFloat
    simp only [hf, if_false]
    split
    · exact ⟨_, rfl, ok_of_not_finite hf⟩
    · split
      · rw [fRound_special (by exact hf)]; exact ⟨_, rfl, ok_of_not_finite hf⟩
      · exact ⟨_, rfl, ok_of_not_finite hf⟩

/-- the functions behind `+`, `-` and `*` on finite operands are the operators -/
theorem fn_of_op {x y z : FloatV} (hx : FloatOk x) (fx : x.form = .finite) (fy : y.form = .finite)
    (f : FloatV → FloatV → Res FloatV) (h : fOp f x y = .ok z) : f x y = .ok z := by
  obtain ⟨a, La, ha⟩ := hx.fin fx
  unfold fOp at h
  rwa [if_neg (by simp [fx, fy]), ha.deepClone] at h

theorem fn_ok {o : FOp} (ho : o ≠ .div) {x y : FloatV} (hx : FloatOk x) (hy : FloatOk y) (nx : x.form ≠ .nan)
    (ny : y.form ≠ .nan) : ∃ z, o.fn x y = .ok z ∧ FloatOk z := by
  by_cases hxy : x.form = .finite ∧ y.form = .finite
  · obtain ⟨fx, fy⟩ := hxy
    cases o with
    | div => exact absurd rfl ho
    | add =>
      obtain ⟨z, e, h, -⟩ := C58_add_actual hx hy fx fy
      refine ⟨z, fn_of_op hx fx fy _ e, ?_⟩
      split at h <;> exact h.2.2.1
    | sub =>
      obtain ⟨z, e, h, -⟩ := C58_sub_actual hx hy fx fy
      refine ⟨z, fn_of_op hx fx fy _ e, ?_⟩
      split at h <;> exact h.2.2.1
    | mul =>
      obtain ⟨z, e, h⟩ := C57_mul hx hy fx fy
      exact ⟨z, fn_of_op hx fx fy _ e, h.2.2.1⟩
  · obtain ⟨w, hw⟩ : ∃ w, w = if x.prec = 0 then { x with prec := y.prec } else x := ⟨_, rfl⟩
    have hwf : w.form = x.form := by rw [hw]; split <;> rfl
    have hwok : FloatOk w := by
      rw [hw]
      split
      · rename_i h0
        refine ok_of_not_finite fun hf => ?_
        obtain ⟨m, L, h⟩ := hx.fin hf
        have := h.prec
        omega
      · exact hx
    have hset : ∃ r, fSetFloat w y = .ok r ∧ FloatOk r := by
      refine fSetFloat_ok hy fun hf => ?_
      obtain ⟨m, L, h⟩ := hy.fin hf
      have := h.prec
      rw [hw]; split
      · exact this
      · show 1 ≤ x.prec; omega
    have hxy' : ¬ (w.form = .finite ∧ y.form = .finite) := by rw [hwf]; exact hxy
    cases o with
    | div => exact absurd rfl ho
    | add =>
      simp only [FOp.fn, fAddInner, ← hw, if_neg hxy']
      split
      · exact ⟨_, rfl, ok_of_not_finite (by simp)⟩
      · split
        · exact ⟨_, rfl, hwok⟩
        · exact hset
    | sub =>
      simp only [FOp.fn, fSubInner, ← hw, if_neg hxy']
      split
      · exact ⟨_, rfl, ok_of_not_finite (by simp)⟩
      · split
        · exact ⟨_, rfl, ok_of_not_finite (by simp)⟩
        · split
          · exact ⟨_, rfl, hwok⟩
          · exact hset
    | mul =>
      simp only [FOp.fn, fMulInner, ← hw, if_neg hxy']
      split
      · exact ⟨_, rfl, ok_of_not_finite (by simp)⟩
      · split <;> exact ⟨_, rfl, ok_of_not_finite (by simp)⟩

theorem fOp_ok {o : FOp} (ho : o ≠ .div) {x y : FloatV} (hx : FloatOk x) (hy : FloatOk y) :
    (∃ z, fOp o.fn x y = .ok z ∧ FloatOk z) ∧ ∃ z, fOpAssign o.fn x y = .ok z ∧ FloatOk z := by
  by_cases h : x.form = .nan ∨ y.form = .nan
  · unfold fOp fOpAssign
    rw [if_pos h, if_pos h]
    exact ⟨⟨_, rfl, ok_of_not_finite (by simp [fNan])⟩, ⟨_, rfl, ok_of_not_finite (by simp)⟩⟩
  · unfold fOp fOpAssign
    rw [if_neg h, if_neg h]
    push Not at h
    exact ⟨fn_ok ho (ok_deepClone hx) hy h.1 h.2, fn_ok ho hx hy h.1 h.2⟩

theorem fSetPrecision_ok {x : FloatV} (hx : FloatOk x) (p : Nat) : ∃ z, fSetPrecision x p = .ok z ∧ FloatOk z := by
  by_cases hp : p = 0
  · subst hp
    obtain ⟨z, e, -, -, -, h1, h2⟩ := C56_set_precision_zero hx
    refine ⟨z, e, ok_of_not_finite ?_⟩
    by_cases hf : x.form = .finite
    · rw [(h1 hf).1]; decide
    · rw [(h2 hf).1]; exact hf
  · by_cases hf : x.form = .finite
    · obtain ⟨z, e, h⟩ := C56_set_precision hx hf (p := p) (by omega)
      exact ⟨z, e, h.2.2.1⟩
    · rw [C56_set_precision_special hf (by omega)]
      exact ⟨_, rfl, ok_of_not_finite hf⟩

theorem fSetMantExp_ok {x : FloatV} (hx : FloatOk x) (e : Int) : ∃ z, fSetMantExp x e = .ok z ∧ FloatOk z := by
  by_cases hf : x.form = .finite
  · obtain ⟨z, h1, h⟩ := C77_set_mant_exp hx hf e
    exact ⟨z, h1, h.2.2.1⟩
  · unfold fSetMantExp
    rw [if_neg hf]
    exact ⟨_, rfl, hx⟩

theorem fFromF64_ok (f : D) : ∃ z, fFromF64 f = .ok z ∧ FloatOk z := by
  rcases lt_trichotomy (mag64 f) b64.inf with h | h | h
  · obtain ⟨z, e, hz⟩ := C62_from_f64 f h; exact ⟨z, e, hz.1⟩
  · obtain ⟨z, e, hz, -⟩ := (C62_from_f64_special f).1 h; exact ⟨z, e, ok_of_not_finite (by rw [hz]; decide)⟩
  · obtain ⟨z, e, hz⟩ := (C62_from_f64_special f).2 h; exact ⟨z, e, ok_of_not_finite (by rw [hz]; decide)⟩

/-- every bound variable satisfies the representation invariant -/
def AllOk (vs : Nat → Option FloatV) : Prop := ∀ x v, vs x = some v → FloatOk v

theorem allOk_set {vs : Nat → Option FloatV} (h : AllOk vs) (x : Nat) {v : FloatV} (hv : FloatOk v) :
    AllOk (FCmd.vstep.set vs x v) := by
  intro y w hw
  simp only [FCmd.vstep.set] at hw
  split at hw
  · cases hw; exact hv
  · exact h y w hw

theorem vstep_ok {vs : Nat → Option FloatV} (h : AllOk vs) (c : FCmd) (hc : c.divFree) (hb : ∀ x ∈ c.reads, vs x ≠ none) :
    ∃ v, c.vstep vs = .ok (FCmd.vstep.set vs c.target v) ∧ FloatOk v := by
  have hget : ∀ x, vs x ≠ none → ∃ v, FCmd.vstep.get vs x = .ok v ∧ FloatOk v := by
    intro x hx
    obtain ⟨v, hv⟩ := Option.ne_none_iff_exists'.1 hx
    exact ⟨v, by simp only [FCmd.vstep.get, hv], h x v hv⟩
  cases c with
  | fromU64 x u =>
    obtain ⟨z, e, hz⟩ := C62_from_u64 u
    exact ⟨z, by simp only [FCmd.vstep, bind, Except.bind, e, FCmd.target], hz.1⟩
  | fromF64 x f =>
    obtain ⟨z, e, hz⟩ := fFromF64_ok f
    exact ⟨z, by simp only [FCmd.vstep, bind, Except.bind, e, FCmd.target], hz⟩
  | clone x y =>
    obtain ⟨v, e, hv⟩ := hget y (hb y (by simp [FCmd.reads]))
    exact ⟨v, by simp only [FCmd.vstep, bind, Except.bind, e, FCmd.target], hv⟩
  | deepClone x y =>
    obtain ⟨v, e, hv⟩ := hget y (hb y (by simp [FCmd.reads]))
    exact ⟨fDeepClone v, by simp only [FCmd.vstep, bind, Except.bind, e, FCmd.target], ok_deepClone hv⟩
  | neg x y =>
    obtain ⟨v, e, hv⟩ := hget y (hb y (by simp [FCmd.reads]))
    exact ⟨fNeg v, by simp only [FCmd.vstep, bind, Except.bind, e, FCmd.target], (C79_neg_abs hv).1⟩
  | abs x y =>
    obtain ⟨v, e, hv⟩ := hget y (hb y (by simp [FCmd.reads]))
    exact ⟨fAbs v, by simp only [FCmd.vstep, bind, Except.bind, e, FCmd.target], (C79_neg_abs hv).2.1⟩
  | op o z x y =>
    obtain ⟨v, e, hv⟩ := hget x (hb x (by simp [FCmd.reads]))
    obtain ⟨w, e', hw⟩ := hget y (hb y (by simp [FCmd.reads]))
    obtain ⟨r, e2, hr⟩ := (fOp_ok hc hv hw).1
    exact ⟨r, by simp only [FCmd.vstep, bind, Except.bind, e, e', e2, FCmd.target], hr⟩
  | assign o x y =>
    obtain ⟨v, e, hv⟩ := hget x (hb x (by simp [FCmd.reads]))
    obtain ⟨w, e', hw⟩ := hget y (hb y (by simp [FCmd.reads]))
    obtain ⟨r, e2, hr⟩ := (fOp_ok hc hv hw).2
    exact ⟨r, by simp only [FCmd.vstep, bind, Except.bind, e, e', e2, FCmd.target], hr⟩
  | setPrecision x p =>
    obtain ⟨v, e, hv⟩ := hget x (hb x (by simp [FCmd.reads]))
    obtain ⟨r, e2, hr⟩ := fSetPrecision_ok hv p
    exact ⟨r, by simp only [FCmd.vstep, bind, Except.bind, e, e2, FCmd.target], hr⟩
  | setMode x m =>
    obtain ⟨v, e, hv⟩ := hget x (hb x (by simp [FCmd.reads]))
    exact ⟨fSetMode v m, by simp only [FCmd.vstep, bind, Except.bind, e, FCmd.target], hv⟩
  | setMantExp x y k =>
    obtain ⟨v, e, hv⟩ := hget x (hb x (by simp [FCmd.reads]))
    obtain ⟨w, e', hw⟩ := hget y (hb y (by simp [FCmd.reads]))
    obtain ⟨r, e2, hr⟩ := fSetMantExp_ok hw k
    exact ⟨r, by simp only [FCmd.vstep, bind, Except.bind, e, e', e2, FCmd.target], hr⟩

theorem vRun_ok (cs : List FCmd) : ∀ {vs : Nat → Option FloatV} {B : Nat → Prop}, AllOk vs → (∀ x, B x → vs x ≠ none) →
    (∀ c ∈ cs, c.divFree) → FScoped B cs → ∃ vs', vRun vs cs = .ok vs' ∧ AllOk vs' := by
  induction cs with
  | nil => intro vs B h _ _ _; exact ⟨vs, rfl, h⟩
  | cons c cs ih =>
    intro vs B h hB hd hs
    obtain ⟨v, e, hv⟩ := vstep_ok h c (hd c (by simp)) fun x hx => hB x (hs.1 x hx)
    rw [vRun, e]
    refine ih (allOk_set h _ hv) ?_ (fun c' hc' => hd c' (List.mem_cons_of_mem _ hc')) hs.2
    intro x hx
    simp only [FCmd.vstep.set]
    split
    · simp
    · rename_i hne
      rcases hx with hx | hx
      · exact hB x hx
      · exact absurd hx hne

/-- A program without division and without shallow clones, run from variables that do not share buffers and satisfy the
invariant, does not panic and leaves every variable with the invariant — whatever overflows, underflows or turns into a NaN on
the way.  Missing for the full property: division, which breaks the invariant (`C60_breaks_invariant`), and clones. -/
theorem C104_invariant_partial (s : FState) (hs : s.Separate) (hok : ∀ x v, s.value x = some v → FloatOk v) (cs : List FCmd)
    (hc : ∀ c ∈ cs, c.unshared) (hd : ∀ c ∈ cs, c.divFree) (hb : FScoped (fun x => s.value x ≠ none) cs) :
    ∃ s', fRun s cs = .ok s' ∧ ∀ x v, s'.value x = some v → FloatOk v := by
  obtain ⟨vs, e, hv⟩ := vRun_ok cs hok (fun _ h => h) hd hb
  have := run_refines cs hs hc
  rw [e] at this
  revert this
  rcases fRun s cs with e' | s'
  · exact fun h => h.elim
  · rintro ⟨-, h2⟩
    exact ⟨s', rfl, fun x v hx => hv x v (by rw [← h2 x]; exact hx)⟩

/-- a program of that kind: an infinity, a NaN and a number that is rounded -/
def sampleFI : List FCmd := [.fromU64 0 15#64, .fromF64 1 0x7ff0000000000000#64, .op .mul 2 0 1, .op .sub 3 2 1, .setPrecision 0 3,
  .assign .mul 0 0, .op .mul 4 3 0]

theorem emptyF_separate : emptyF.Separate := ⟨fun x v h => absurd h (by simp [emptyF]), fun x y v w h => absurd h (by simp [emptyF])⟩

theorem emptyF_value (x : Nat) : emptyF.value x = none := rfl

example : emptyF.Separate ∧ (∀ x v, emptyF.value x = some v → FloatOk v) ∧ (∀ c ∈ sampleFI, c.unshared) ∧
    (∀ c ∈ sampleFI, c.divFree) ∧ FScoped (fun x => emptyF.value x ≠ none) sampleFI ∧
    ∃ s', fRun emptyF sampleFI = .ok s' ∧ (s'.value 2).map FloatV.form = some .inf ∧ (s'.value 4).map FloatV.form = some .nan :=
  ⟨emptyF_separate, fun x v h => by simp [emptyF_value] at h, by simp [sampleFI, FCmd.unshared], by simp [sampleFI, FCmd.divFree],
    by simp [sampleFI, FScoped, FCmd.reads, FCmd.target], _, rfl, rfl, rfl⟩

/-- With a division the invariant is lost: `6 / 7`. -/
theorem C104_violated_division : ∃ s', fRun emptyF [.fromU64 0 6#64, .fromU64 1 7#64, .assign .div 0 1] = .ok s' ∧
    ∃ v, s'.value 0 = some v ∧ ¬ FloatOk v := by
  refine ⟨_, rfl, _, rfl, ?_⟩
  unfold FloatOk
  decide

/-! ## The numbers -/

/-- a number with the precision and the mode of the variable that holds it -/
structure FNum where
  q : ℚ
  prec : Nat
  mode : RoundingMode

/-- binding a variable -/
def fnSet (t : Nat → Option FNum) (x : Nat) (a : FNum) : Nat → Option FNum := fun y => if y = x then some a else t y

/-- the exact operation -/
def FOp.exact : FOp → ℚ → ℚ → ℚ
  | .add, a, b => a + b
  | .sub, a, b => a - b
  | .mul, a, b => a * b
  | .div, a, b => a / b

/-- what has to be avoided, see the findings of C58 and C60: a sum or difference in which terms cancel and the second is not the
smaller one, if the operands differ in precision or mode; zero minus a number; division -/
def FOp.sound : FOp → FNum → FNum → Prop
  | .add, a, b => 0 ≤ a.q * b.q ∨ |b.q| < |a.q| ∨ (a.mode = b.mode ∧ a.prec = b.prec)
  | .sub, a, b => (a.q = 0 → b.q = 0) ∧ (a.q * b.q ≤ 0 ∨ |b.q| < |a.q| ∨ (a.mode = b.mode ∧ a.prec = b.prec))
  | .mul, _, _ => True
  | .div, _, _ => False

/-- `x` becomes the exact result `q`, rounded to precision `p` in mode `m`, without overflow or underflow -/
def FRoundsInto (t : Nat → Option FNum) (x : Nat) (q : ℚ) (p : Nat) (m : RoundingMode) (t' : Nat → Option FNum) : Prop :=
  ∃ r, Rounded m p q r ∧ (q ≠ 0 → 2 ^ (minExp - 1) ≤ |q|) ∧ |r| < 2 ^ maxExp ∧ t' = fnSet t x ⟨r, p, m⟩

/-- one statement, on rational numbers -/
def FCmd.qstep (t : Nat → Option FNum) (t' : Nat → Option FNum) : FCmd → Prop
  | .fromU64 x u => t' = fnSet t x ⟨u.toNat, 64, .toNearestEven⟩
  | .fromF64 x f => f64Finite f ∧ t' = fnSet t x ⟨f64val f, 53, .toNearestEven⟩
  | .clone _ _ => False
  | .deepClone x y => ∃ a, t y = some a ∧ t' = fnSet t x a
  | .neg x y => ∃ a, t y = some a ∧ t' = fnSet t x ⟨-a.q, a.prec, a.mode⟩
  | .abs x y => ∃ a, t y = some a ∧ t' = fnSet t x ⟨|a.q|, a.prec, a.mode⟩
  | .op o z x y => ∃ a b, t x = some a ∧ t y = some b ∧ o.sound a b ∧ FRoundsInto t z (o.exact a.q b.q) a.prec a.mode t'
  | .assign o x y => ∃ a b, t x = some a ∧ t y = some b ∧ o.sound a b ∧ FRoundsInto t x (o.exact a.q b.q) a.prec a.mode t'
  | .setPrecision x p => ∃ a, t x = some a ∧ 1 ≤ p ∧ FRoundsInto t x a.q (min maxPrec p) a.mode t'
  | .setMode x m => ∃ a, t x = some a ∧ t' = fnSet t x ⟨a.q, a.prec, m⟩
  | .setMantExp x y e => x ≠ y ∧ t x ≠ none ∧ ∃ b, t y = some b ∧ FRoundsInto t x (b.q * 2 ^ e) b.prec b.mode t'

/-- a program, on rational numbers -/
def FqRun : (Nat → Option FNum) → List FCmd → (Nat → Option FNum) → Prop
  | t, [], t' => t' = t
  | t, c :: cs, t' => ∃ t1, c.qstep t t1 ∧ FqRun t1 cs t'

/-- a `Float` that denotes the number -/
def FDen (v : FloatV) (a : FNum) : Prop :=
  FloatOk v ∧ (v.form = .finite ∨ v.form = .zero) ∧ fval v = a.q ∧ v.prec = a.prec ∧ v.mode = a.mode ∧ 1 ≤ v.prec

/-- the variables of the table show these numbers -/
def ShowsF (vs : Nat → Option FloatV) (t : Nat → Option FNum) : Prop := ∀ x a, t x = some a → ∃ v, vs x = some v ∧ FDen v a

theorem showsF_set {vs : Nat → Option FloatV} {t : Nat → Option FNum} (h : ShowsF vs t) (x : Nat) {v : FloatV} {a : FNum}
    (hv : FDen v a) : ShowsF (FCmd.vstep.set vs x v) (fnSet t x a) := by
  intro y b hb
  simp only [FCmd.vstep.set, fnSet] at hb ⊢
  by_cases hy : y = x
  · simp only [hy, if_true, Option.some.injEq] at hb ⊢; subst hb; exact ⟨v, rfl, hv⟩
  · simp only [hy, if_false] at hb ⊢; exact h y b hb

theorem fden_result {m : RoundingMode} {p : Nat} {q r : ℚ} {z : FloatV} (h : FloatResult m p q z) (hp : 1 ≤ p)
    (hr : Rounded m p q r) (h1 : q ≠ 0 → 2 ^ (minExp - 1) ≤ |q|) (h2 : |r| < 2 ^ maxExp) : FDen z ⟨r, p, m⟩ := by
  obtain ⟨g1, g2, g3, -, g5⟩ := h
  have hz : z.form = .zero → |q| < 2 ^ (minExp - 1) → FDen z ⟨r, p, m⟩ := by
    intro hf hlt
    have h0 : q = 0 := by by_contra h0; exact absurd (h1 h0) (not_le.2 hlt)
    have : r = 0 := hr.unique (Or.inl ⟨h0, rfl⟩)
    exact ⟨g3, Or.inr hf, by simp [fval, hf, this], g2, g1, g2 ▸ hp⟩
  cases hf : z.form <;> rw [hf] at g5 <;> simp only at g5
  · exact hz hf g5.1
  · exact ⟨g3, Or.inl hf, g5.2.1.unique hr, g2, g1, g2 ▸ hp⟩
  · obtain ⟨⟨r', hr', hb⟩, -⟩ := g5
    rw [hr'.unique hr] at hb
    exact absurd h2 (not_lt.2 hb)

theorem FDen.deepClone {v : FloatV} {a : FNum} (h : FDen v a) : FDen (fDeepClone v) a := by
  obtain ⟨h1, h2, h3, h4, h5, h6⟩ := h
  rcases h2 with hf | hf
  · obtain ⟨m, L, hx⟩ := h1.fin hf
    rw [hx.deepClone]; exact ⟨h1, Or.inl hf, h3, h4, h5, h6⟩
  · refine ⟨ok_deepClone h1, Or.inr hf, ?_, h4, h5, h6⟩
    rw [← h3]; simp [fval, fDeepClone, hf]

theorem FDen.zero {v : FloatV} {a : FNum} (h : FDen v a) (hf : v.form = .zero) : a.q = 0 := by
  rw [← h.2.2.1]; simp [fval, hf]

/-- the number of a variable is representable -/
theorem FDen.round {v : FloatV} {a : FNum} (h : FDen v a) {r : ℚ} (hr : Rounded a.mode a.prec a.q r) : a.q = r := by
  obtain ⟨h1, h2, h3, h4, h5, h6⟩ := h
  rcases h2 with hf | hf
  · have := fval_representable h1 hf
    rw [h3, h4, h5] at this
    exact this.unique hr
  · have : a.q = 0 := by rw [← h3]; simp [fval, hf]
    rw [this] at hr ⊢
    exact (hr.unique (Or.inl ⟨rfl, rfl⟩)).symm

theorem neg_of_mul {x y : FloatV} (hx : FloatOk x) (hy : FloatOk y) (fx : x.form = .finite) (fy : y.form = .finite) :
    (0 ≤ fval x * fval y → x.neg = y.neg) ∧ (fval x * fval y ≤ 0 → x.neg ≠ y.neg) := by
  obtain ⟨a1, a2⟩ := sign_of_fin hx fx
  obtain ⟨b1, b2⟩ := sign_of_fin hy fy
  cases h : x.neg <;> cases h' : y.neg
  · have := mul_pos (a2 h) (b2 h'); exact ⟨fun _ => rfl, fun h => absurd h (not_le.2 this)⟩
  · have := mul_neg_of_pos_of_neg (a2 h) (b1 h'); exact ⟨fun h => absurd h (not_le.2 this), fun _ => by decide⟩
  · have := mul_neg_of_neg_of_pos (a1 h) (b2 h'); exact ⟨fun h => absurd h (not_le.2 this), fun _ => by decide⟩
  · have := mul_pos_of_neg_of_neg (a1 h) (b1 h'); exact ⟨fun _ => rfl, fun h => absurd h (not_le.2 this)⟩

/-- the functions behind the operators -/
theorem fn_den (o : FOp) {x y : FloatV} {a b : FNum} (hx : FDen x a) (hy : FDen y b) (ho : o.sound a b) {r : ℚ}
    (hr : Rounded a.mode a.prec (o.exact a.q b.q) r) (h1 : o.exact a.q b.q ≠ 0 → 2 ^ (minExp - 1) ≤ |o.exact a.q b.q|)
    (h2 : |r| < 2 ^ maxExp) : ∃ z, o.fn x y = .ok z ∧ FDen z ⟨r, a.prec, a.mode⟩ := by
  obtain ⟨x1, x2, x3, x4, x5, x6⟩ := id hx
  obtain ⟨y1, y2, y3, y4, y5, y6⟩ := id hy
  have hp : ¬ x.prec = 0 := by omega
  have hpa : 1 ≤ a.prec := by omega
  -- the receiver is returned
  have same : ∀ w : FloatV, w.form = x.form → w.mant = x.mant → w.exp = x.exp → w.neg = x.neg → w.prec = x.prec → w.mode = x.mode →
      a.q = r → FDen w ⟨r, a.prec, a.mode⟩ := by
    intro w e1 e2 e3 e4 e5 e6 e
    refine ⟨?_, by rw [e1]; exact x2, ?_, by rw [e5, x4], by rw [e6, x5], by rw [e5]; exact x6⟩
    · unfold FloatOk at x1 ⊢
      rw [e1, e2, e3, e5]; exact x1
    · rw [← e, ← x3]
      unfold fval
      rw [e1, e2, e3, e4]
  -- a zero of the receiver's format is returned
  have zer : ∀ w : FloatV, w.form = .zero → w.prec = x.prec → w.mode = x.mode → r = 0 → FDen w ⟨r, a.prec, a.mode⟩ := by
    intro w e1 e5 e6 e
    exact ⟨ok_of_not_finite (by rw [e1]; decide), Or.inr e1, by simp [fval, e1, e], by rw [e5, x4], by rw [e6, x5],
      by rw [e5]; exact x6⟩
  have r0 : o.exact a.q b.q = 0 → r = 0 := fun h => hr.unique (Or.inl ⟨h, rfl⟩)
  rcases x2 with fx | fx <;> rcases y2 with fy | fy
  · -- both finite
    cases o with
    | div => exact ho.elim
    | add =>
      obtain ⟨z, e, h⟩ := C58_add_partial x1 y1 fx fy (by
        rcases ho with ho | ho | ho
        · left; rw [← x3, ← y3] at ho; exact (neg_of_mul x1 y1 fx fy).1 ho
        · right; left; rw [x3, y3]; exact ho
        · right; right; rw [x4, x5, y4, y5]; exact ho)
      rw [x3, y3, x4, x5] at h
      exact ⟨z, fn_of_op x1 fx fy _ e, fden_result h hpa hr h1 h2⟩
    | sub =>
      obtain ⟨z, e, h⟩ := C58_sub_partial x1 y1 fx fy (by
        rcases ho.2 with ho | ho | ho
        · left; rw [← x3, ← y3] at ho; exact (neg_of_mul x1 y1 fx fy).2 ho
        · right; left; rw [x3, y3]; exact ho
        · right; right; rw [x4, x5, y4, y5]; exact ho)
      rw [x3, y3, x4, x5] at h
      exact ⟨z, fn_of_op x1 fx fy _ e, fden_result h hpa hr h1 h2⟩
    | mul =>
      obtain ⟨z, e, h⟩ := C57_mul x1 y1 fx fy
      rw [x3, y3, x4, x5] at h
      exact ⟨z, fn_of_op x1 fx fy _ e, fden_result h hpa hr h1 h2⟩
  · -- the second is zero
    have hb := hy.zero fy
    cases o with
    | div => exact ho.elim
    | add =>
      simp only [FOp.exact, hb, add_zero] at hr
      refine ⟨x, ?_, same x rfl rfl rfl rfl rfl rfl (hx.round hr)⟩
      simp [FOp.fn, fAddInner, hp, fx, fy]
    | sub =>
      simp only [FOp.exact, hb, sub_zero] at hr
      refine ⟨x, ?_, same x rfl rfl rfl rfl rfl rfl (hx.round hr)⟩
      simp [FOp.fn, fSubInner, hp, fx, fy]
    | mul =>
      simp only [FOp.fn, fMulInner, hp, fx, fy, if_false, if_true, reduceCtorEq, and_false, false_and, or_false]
      exact ⟨_, rfl, zer _ rfl rfl rfl (r0 (by simp [FOp.exact, hb]))⟩
  · -- the first is zero
    have ha := hx.zero fx
    cases o with
    | div => exact ho.elim
    | add =>
      obtain ⟨m, L, hm⟩ := y1.fin fy
      obtain ⟨z, e, h⟩ := fSetFloat_result (z := x) hm x6
      rw [y3, x4, x5] at h
      simp only [FOp.exact, ha, zero_add] at hr h1
      refine ⟨z, ?_, fden_result h hpa hr h1 h2⟩
      simpa [FOp.fn, fAddInner, hp, fx, fy] using e
    | sub =>
      have := ho.1 ha
      rw [← y3] at this
      obtain ⟨m, L, hm⟩ := y1.fin fy
      exact absurd this hm.ne_zero
    | mul =>
      simp only [FOp.fn, fMulInner, hp, fx, fy, if_false, if_true, reduceCtorEq, and_false, false_and, or_false]
      exact ⟨_, rfl, zer _ rfl rfl rfl (r0 (by simp [FOp.exact, ha]))⟩
  · -- both zero
    have ha := hx.zero fx
    have hb := hy.zero fy
    cases o with
    | div => exact ho.elim
    | add =>
      refine ⟨x, ?_, zer x fx rfl rfl (r0 (by simp [FOp.exact, ha, hb]))⟩
      simp [FOp.fn, fAddInner, hp, fx, fy]
    | sub =>
      simp only [FOp.fn, fSubInner, hp, fx, fy, if_false, if_true, reduceCtorEq, and_false, false_and, or_false, and_true, and_self]
      exact ⟨_, rfl, zer _ rfl rfl rfl (r0 (by simp [FOp.exact, ha, hb]))⟩
    | mul =>
      simp only [FOp.fn, fMulInner, hp, fx, fy, if_false, if_true, reduceCtorEq, and_false, false_and, or_false]
      exact ⟨_, rfl, zer _ rfl rfl rfl (r0 (by simp [FOp.exact, ha]))⟩

theorem fop_den (o : FOp) {x y : FloatV} {a b : FNum} (hx : FDen x a) (hy : FDen y b) (ho : o.sound a b) {r : ℚ}
    (hr : Rounded a.mode a.prec (o.exact a.q b.q) r) (h1 : o.exact a.q b.q ≠ 0 → 2 ^ (minExp - 1) ≤ |o.exact a.q b.q|)
    (h2 : |r| < 2 ^ maxExp) :
    (∃ z, fOp o.fn x y = .ok z ∧ FDen z ⟨r, a.prec, a.mode⟩) ∧ ∃ z, fOpAssign o.fn x y = .ok z ∧ FDen z ⟨r, a.prec, a.mode⟩ := by
  have hn : ¬ (x.form = .nan ∨ y.form = .nan) := by
    rcases hx.2.1 with h | h <;> rcases hy.2.1 with h' | h' <;> simp [h, h']
  unfold fOp fOpAssign
  rw [if_neg hn, if_neg hn]
  exact ⟨fn_den o hx.deepClone hy ho hr h1 h2, fn_den o hx hy ho hr h1 h2⟩

theorem fden_exact {m : RoundingMode} {p : Nat} {q : ℚ} {z : FloatV} (h : FloatResult m p q z) (h' : Exactly q z) (hp : 1 ≤ p) :
    FDen z ⟨q, p, m⟩ := by
  obtain ⟨g1, g2, g3, -, g5⟩ := h
  have he := h'.2.1
  unfold fext at he
  refine ⟨g3, ?_, ?_, g2, g1, g2 ▸ hp⟩
  · cases hf : z.form <;> rw [hf] at he g5 <;> simp at he g5 ⊢
    cases hn : z.neg <;> simp [hn] at he
  · cases hf : z.form <;> rw [hf] at he g5 <;> simp at he g5 ⊢
    · exact_mod_cast he
    · exact_mod_cast he
    · cases hn : z.neg <;> simp [hn] at he

theorem f64Finite_mag (f : D) (h : f64Finite f) : mag64 f < b64.inf := by
  have e : b64.inf = 2047 * 2 ^ 52 := by decide
  unfold f64Finite at h
  unfold mag64
  rw [e]
  omega

/-- one statement -/
theorem qstep_sim_float {vs : Nat → Option FloatV} {t t' : Nat → Option FNum} (h : ShowsF vs t) (c : FCmd) (hc : c.qstep t t') :
    c.unshared ∧ ∃ vs', c.vstep vs = .ok vs' ∧ ShowsF vs' t' := by
  have hget : ∀ x a, t x = some a → ∃ v, FCmd.vstep.get vs x = .ok v ∧ FDen v a := by
    intro x a hx
    obtain ⟨v, e, hv⟩ := h x a hx
    exact ⟨v, by simp only [FCmd.vstep.get, e], hv⟩
  cases c with
  | fromU64 x u =>
    refine ⟨trivial, ?_⟩
    obtain ⟨z, e, hz⟩ := C62_from_u64 u
    obtain ⟨z', e', hz'⟩ := fSetBits_result fDefault false u
    have : z' = z := by
      have : fFromU64 u = .ok z' := e'
      rw [e] at this; cases this; rfl
    subst this
    simp only [FCmd.vstep, bind, Except.bind, e]
    refine ⟨_, rfl, ?_⟩
    rw [show t' = _ from hc]
    refine showsF_set h x (fden_exact (m := .toNearestEven) (p := 64) ?_ hz (by decide))
    simpa [fDefault, sgn] using hz'
  | fromF64 x f =>
    refine ⟨trivial, ?_⟩
    have hm := f64Finite_mag f hc.1
    obtain ⟨z, e, hz⟩ := C62_from_f64 f hm
    obtain ⟨z', e', hz'⟩ := fSetF64_result fDefault f hm
    have : z' = z := by
      have : fFromF64 f = .ok z' := e'
      rw [e] at this; cases this; rfl
    subst this
    simp only [FCmd.vstep, bind, Except.bind, e]
    refine ⟨_, rfl, ?_⟩
    rw [hc.2]
    refine showsF_set h x (fden_exact (m := .toNearestEven) (p := 53) ?_ hz (by decide))
    simpa [fDefault] using hz'
  | clone x y => exact hc.elim
  | deepClone x y =>
    refine ⟨trivial, ?_⟩
    obtain ⟨a, ha, rfl⟩ := hc
    obtain ⟨v, e, hv⟩ := hget y a ha
    simp only [FCmd.vstep, bind, Except.bind, e]
    exact ⟨_, rfl, showsF_set h x hv.deepClone⟩
  | neg x y =>
    refine ⟨trivial, ?_⟩
    obtain ⟨a, ha, rfl⟩ := hc
    obtain ⟨v, e, hv⟩ := hget y a ha
    simp only [FCmd.vstep, bind, Except.bind, e]
    obtain ⟨g1, -, g3, -, -, -, g7, -, g9, -⟩ := C79_neg_abs hv.1
    exact ⟨_, rfl, showsF_set h x ⟨g1, by rw [g3]; exact hv.2.1, by rw [g9, hv.2.2.1], by rw [g7, hv.2.2.2.1],
      hv.2.2.2.2.1, by rw [g7]; exact hv.2.2.2.2.2⟩⟩
  | abs x y =>
    refine ⟨trivial, ?_⟩
    obtain ⟨a, ha, rfl⟩ := hc
    obtain ⟨v, e, hv⟩ := hget y a ha
    simp only [FCmd.vstep, bind, Except.bind, e]
    obtain ⟨-, g1, -, g3, -, -, -, g7, -, g9⟩ := C79_neg_abs hv.1
    exact ⟨_, rfl, showsF_set h x ⟨g1, by rw [g3]; exact hv.2.1, by rw [g9, hv.2.2.1], by rw [g7, hv.2.2.2.1],
      hv.2.2.2.2.1, by rw [g7]; exact hv.2.2.2.2.2⟩⟩
  | op o z x y =>
    refine ⟨trivial, ?_⟩
    obtain ⟨a, b, ha, hb, ho, r, hr, h1, h2, rfl⟩ := hc
    obtain ⟨v, e, hv⟩ := hget x a ha
    obtain ⟨w, e', hw⟩ := hget y b hb
    obtain ⟨u, e2, hu⟩ := (fop_den o hv hw ho hr h1 h2).1
    simp only [FCmd.vstep, bind, Except.bind, e, e', e2]
    exact ⟨_, rfl, showsF_set h z hu⟩
  | assign o x y =>
    refine ⟨trivial, ?_⟩
    obtain ⟨a, b, ha, hb, ho, r, hr, h1, h2, rfl⟩ := hc
    obtain ⟨v, e, hv⟩ := hget x a ha
    obtain ⟨w, e', hw⟩ := hget y b hb
    obtain ⟨u, e2, hu⟩ := (fop_den o hv hw ho hr h1 h2).2
    simp only [FCmd.vstep, bind, Except.bind, e, e', e2]
    exact ⟨_, rfl, showsF_set h x hu⟩
  | setPrecision x p =>
    refine ⟨trivial, ?_⟩
    obtain ⟨a, ha, hp, r, hr, h1, h2, rfl⟩ := hc
    obtain ⟨v, e, hv⟩ := hget x a ha
    have hmp : 1 ≤ min maxPrec p := by have : 1 ≤ maxPrec := by decide
                                       omega
    have : ∃ u, fSetPrecision v p = .ok u ∧ FDen u ⟨r, min maxPrec p, a.mode⟩ := by
      obtain ⟨v1, v2, v3, v4, v5, v6⟩ := id hv
      rcases v2 with hf | hf
      · obtain ⟨u, e2, hu⟩ := C56_set_precision v1 hf hp
        rw [v3, v5] at hu
        exact ⟨u, e2, fden_result hu hmp hr h1 h2⟩
      · rw [C56_set_precision_special (by rw [hf]; decide) hp]
        have h0 : r = 0 := hr.unique (Or.inl ⟨hv.zero hf, rfl⟩)
        exact ⟨_, rfl, ok_of_not_finite (by simp [hf]), Or.inr hf, by simp [fval, hf, h0], rfl, v5, hmp⟩
    obtain ⟨u, e2, hu⟩ := this
    simp only [FCmd.vstep, bind, Except.bind, e, e2]
    exact ⟨_, rfl, showsF_set h x hu⟩
  | setMode x m =>
    refine ⟨trivial, ?_⟩
    obtain ⟨a, ha, rfl⟩ := hc
    obtain ⟨v, e, hv⟩ := hget x a ha
    simp only [FCmd.vstep, bind, Except.bind, e]
    refine ⟨_, rfl, showsF_set h x ⟨hv.1, hv.2.1, ?_, hv.2.2.2.1, rfl, hv.2.2.2.2.2⟩⟩
    rw [← hv.2.2.1]; rfl
  | setMantExp x y k =>
    obtain ⟨hne, hx, b, hb, r, hr, h1, h2, rfl⟩ := hc
    refine ⟨hne, ?_⟩
    obtain ⟨a, ha⟩ := Option.ne_none_iff_exists'.1 hx
    obtain ⟨v, e, -⟩ := hget x a ha
    obtain ⟨w, e', hw⟩ := hget y b hb
    have : ∃ u, fSetMantExp w k = .ok u ∧ FDen u ⟨r, b.prec, b.mode⟩ := by
      obtain ⟨v1, v2, v3, v4, v5, v6⟩ := id hw
      rcases v2 with hf | hf
      · obtain ⟨u, e2, hu⟩ := C77_set_mant_exp v1 hf k
        rw [v3, v4, v5] at hu
        exact ⟨u, e2, fden_result hu (by omega) hr h1 h2⟩
      · have h0 : r = 0 := hr.unique (Or.inl ⟨by rw [hw.zero hf, zero_mul], rfl⟩)
        unfold fSetMantExp
        rw [if_neg (by rw [hf]; decide)]
        exact ⟨_, rfl, v1, Or.inr hf, by simp [fval, hf, h0], v4, v5, v6⟩
    obtain ⟨u, e2, hu⟩ := this
    simp only [FCmd.vstep, bind, Except.bind, e, e', e2]
    exact ⟨_, rfl, showsF_set h x hu⟩

theorem vRun_sim (cs : List FCmd) : ∀ {vs : Nat → Option FloatV} {t t' : Nat → Option FNum}, ShowsF vs t → FqRun t cs t' →
    (∀ c ∈ cs, c.unshared) ∧ ∃ vs', vRun vs cs = .ok vs' ∧ ShowsF vs' t' := by
  induction cs with
  | nil => intro vs t t' h hr; exact ⟨by simp, vs, rfl, by rw [show t' = t from hr]; exact h⟩
  | cons c cs ih =>
    intro vs t t' h ⟨t1, h1, h2⟩
    obtain ⟨hu, vs1, e, hs⟩ := qstep_sim_float h c h1
    obtain ⟨hu', vs2, e', hs'⟩ := ih hs h2
    refine ⟨fun c' hc' => ?_, vs2, by rw [vRun, e]; exact e', hs'⟩
    rcases List.mem_cons.1 hc' with rfl | hc'
    · exact hu
    · exact hu' c' hc'

/-- A program that runs on rational numbers — every statement delivering its exact result, rounded once to the precision and mode
of its receiver — runs on `Float`s to variables that show these numbers, with their precisions and modes.  Missing for the full
property: overflow and underflow, shallow clones, and the operations on which the code is wrong (`FOp.sound`). -/
theorem C104_rounded_partial (s : FState) (hs : s.Separate) (t t' : Nat → Option FNum) (h : ShowsF s.value t) (cs : List FCmd)
    (hr : FqRun t cs t') : ∃ s', fRun s cs = .ok s' ∧ ShowsF s'.value t' := by
  obtain ⟨hu, vs, e, hv⟩ := vRun_sim cs h hr
  have := run_refines cs hs hu
  rw [e] at this
  revert this
  rcases fRun s cs with e' | s'
  · exact fun h => h.elim
  · rintro ⟨-, h2⟩
    refine ⟨s', rfl, fun x a hx => ?_⟩
    obtain ⟨v, e1, e2⟩ := hv x a hx
    exact ⟨v, by rw [h2 x]; exact e1, e2⟩

/-- 15 is rounded to 16 in three bits, the square of that is exact, and 16 - 15 is rounded into the 3 bits of the receiver -/
example : ∃ t', FqRun (fun _ => none) [.fromU64 0 15#64, .deepClone 1 0, .setPrecision 0 3, .op .mul 2 0 0, .assign .sub 0 1] t' ∧
    t' 0 = some ⟨1, 3, .toNearestEven⟩ ∧ t' 1 = some ⟨15, 64, .toNearestEven⟩ ∧ t' 2 = some ⟨256, 3, .toNearestEven⟩ := by
  have e1 : ((15#64 : D).toNat : ℚ) = 15 := by norm_num
  have hlo : (2 : ℚ) ^ (minExp - 1) ≤ 1 := by
    have := (zpow_le_iff (a := minExp - 1) (b := 0)).2 (by decide); simpa using this
  have hhi : (2 : ℚ) ^ (10 : ℤ) ≤ 2 ^ maxExp := zpow_le_iff.2 (by decide)
  norm_num at hhi
  refine ⟨_, ⟨_, rfl, _, ⟨_, rfl, rfl⟩, _, ⟨_, rfl, by decide, 16, ?_, ?_, ?_, rfl⟩, _,
    ⟨_, _, rfl, rfl, trivial, 256, ?_, ?_, ?_, rfl⟩, _, ⟨_, _, rfl, rfl, ?_, 1, ?_, ?_, ?_, rfl⟩, rfl⟩, ?_, ?_, ?_⟩
  · right
    refine ⟨4, 8, ?_, ?_, ?_, ?_, ?_⟩ <;> norm_num [maxPrec, abs_of_pos]
  · intro _; rw [e1]; exact le_trans hlo (by norm_num)
  · refine lt_of_lt_of_le ?_ hhi; norm_num
  · right
    refine ⟨9, 4, ?_, ?_, ?_, ?_, ?_⟩ <;> norm_num [maxPrec, abs_of_pos, FOp.exact]
  · intro _; exact le_trans hlo (by norm_num [FOp.exact])
  · refine lt_of_lt_of_le ?_ hhi; norm_num
  · exact ⟨fun h => by norm_num at h, Or.inr (Or.inl (by rw [e1]; norm_num [abs_of_pos]))⟩
  · right
    refine ⟨1, 4, ?_, ?_, ?_, ?_, ?_⟩ <;> norm_num [maxPrec, abs_of_pos, FOp.exact]
  · intro _; exact le_trans hlo (by norm_num [FOp.exact])
  · refine lt_of_lt_of_le ?_ hhi; norm_num
  · rfl
  · simp [fnSet]
  · rfl

/-- Every number can be rounded: the program on rational numbers stops only where a guard fails. -/
theorem C104_rounding_exists (m : RoundingMode) (p : Nat) (q : ℚ) : ∃ r, Rounded m p q r := by
  by_cases h0 : q = 0
  · exact ⟨0, Or.inl ⟨h0, rfl⟩⟩
  obtain ⟨n, hn1, hn2⟩ := exists_mem_Ico_zpow (abs_pos.2 h0) (show (1 : ℚ) < 2 by norm_num)
  have key : ∃ k, RoundsTo m (q / 2 ^ (n + 1 - (p : ℤ))) k := by
    generalize q / 2 ^ (n + 1 - (p : ℤ)) = x
    cases m
    · -- to nearest even
      have h1 := Int.floor_le x
      have h2 := Int.lt_floor_add_one x
      rcases lt_trichotomy (x - ⌊x⌋) (1 / 2) with h | h | h
      · refine ⟨⌊x⌋, ?_, fun he => ?_⟩
        · rw [abs_of_nonneg (by linarith)]; linarith
        · rw [abs_of_nonneg (by linarith)] at he; linarith
      · rcases Int.emod_two_eq_zero_or_one ⌊x⌋ with he | he
        · exact ⟨⌊x⌋, by rw [abs_of_nonneg (by linarith)]; linarith, fun _ => he⟩
        · refine ⟨⌊x⌋ + 1, ?_, fun _ => by omega⟩
          push_cast
          rw [abs_of_nonpos (by linarith)]; linarith
      · refine ⟨⌊x⌋ + 1, ?_, fun he => ?_⟩
        · push_cast; rw [abs_of_nonpos (by linarith)]; linarith
        · push_cast at he; rw [abs_of_nonpos (by linarith)] at he; linarith
    · -- to nearest away
      have h1 := Int.floor_le x
      have h2 := Int.lt_floor_add_one x
      rcases lt_trichotomy (x - ⌊x⌋) (1 / 2) with h | h | h
      · refine ⟨⌊x⌋, ?_, fun he => ?_⟩
        · rw [abs_of_nonneg (by linarith)]; linarith
        · rw [abs_of_nonneg (by linarith)] at he; linarith
      · by_cases hs : 0 ≤ x
        · refine ⟨⌊x⌋ + 1, ?_, fun _ => ?_⟩
          · push_cast
            rw [abs_of_nonpos (by linarith)]; linarith
          · push_cast
            rw [abs_of_nonneg hs, abs_of_nonneg (by linarith)]; linarith
        · refine ⟨⌊x⌋, ?_, fun _ => ?_⟩
          · rw [abs_of_nonneg (by linarith)]; linarith
          · rw [abs_of_neg (by linarith), abs_of_nonpos (by linarith)]; linarith
      · refine ⟨⌊x⌋ + 1, ?_, fun he => ?_⟩
        · push_cast; rw [abs_of_nonpos (by linarith)]; linarith
        · push_cast at he; rw [abs_of_nonpos (by linarith)] at he; linarith
    all_goals exact ⟨_, rfl⟩
  obtain ⟨k, hk⟩ := key
  exact ⟨_, Or.inr ⟨n + 1, k, by simpa using hn1, hn2, rfl, hk⟩⟩

end RMath
