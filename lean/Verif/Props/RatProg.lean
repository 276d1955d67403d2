import Verif.Props.RatHeap
import Verif.Props.Rat

/-!
# Property C102: programs over `Rat` variables compute rational numbers

The program on the heap of word vectors (`rRun`) is compared with the program on rational numbers (`qRun`): an assignment of
rational numbers to variables, changed by the arithmetic of `ℚ`.
-/

namespace RMath

/-- the operators on rational numbers; none for a division by zero -/
def RatOp.qspec : RatOp → ℚ → ℚ → Option ℚ
  | .add, a, b => some (a + b)
  | .sub, a, b => some (a - b)
  | .mul, a, b => some (a * b)
  | .div, a, b => if b = 0 then none else some (a / b)

/-- binding a variable -/
def qSet (s : Nat → Option ℚ) (x : Nat) (a : ℚ) : Nat → Option ℚ := fun y => if y = x then some a else s y

/-- one statement, on rational numbers; none for a division by zero and for a variable that is not bound -/
def RCmd.qstep (s : Nat → Option ℚ) : RCmd → Option (Nat → Option ℚ)
  | .fromFrac _ x n d => if d.toInt = 0 then none else some (qSet s x ((n.toInt : ℚ) / d.toInt))
  | .fromF64 x f => some (qSet s x (f64val f))
  | .clone x y => (s y).map (qSet s x)
  | .deepClone x y => (s y).map (qSet s x)
  | .neg x y => (s y).map fun a => qSet s x (-a)
  | .abs x y => (s y).map fun a => qSet s x |a|
  | .inv x y => (s y).bind fun a => if a = 0 then none else some (qSet s x a⁻¹)
  | .op o z x y => (s x).bind fun a => (s y).bind fun b => (o.qspec a b).map (qSet s z)
  | .assign o x y => (s x).bind fun a => (s y).bind fun b => (o.qspec a b).map (qSet s x)

/-- a program, on rational numbers -/
def qRun : (Nat → Option ℚ) → List RCmd → Option (Nat → Option ℚ)
  | s, [] => some s
  | s, c :: cs => (c.qstep s).bind fun s => qRun s cs

/-- what has to be avoided: the constant `isize::MIN` as a denominator, or as a numerator over a negative denominator, and doubles
that are not finite or whose magnitude is `2^53` or more.  This depends on the text of the program only. -/
def RCmd.qsafe : RCmd → Prop
  | .fromFrac c _ n d => ¬(d.toInt < 0 ∧ n.toInt = -2 ^ 63) ∧ (c = true → d.toInt ≠ -2 ^ 63)
  | .fromF64 _ f => f64Finite f ∧ |f64val f| < 2 ^ 53
  | _ => True

/-- a `Rat` that denotes `a`: a denominator that is not zero, canonical words, and a positive sign or a numerator that is not zero -/
def Denotes (v : RatV) (a : ℚ) : Prop := RatOk v ∧ CanonI v.a ∧ qval v = a

/-- the variables show these rational numbers -/
def ShowsQ (vs : Nat → Option RatV) (t : Nat → Option ℚ) : Prop :=
  ∀ x, match t x with
    | some a => ∃ v, vs x = some v ∧ Denotes v a
    | none => vs x = none

theorem Denotes.not_nan {v : RatV} {a : ℚ} (h : Denotes v a) : rIsNan v = false := by
  obtain ⟨s, n, t, d, rfl, h1, g1⟩ := ratOk_iff.1 h.1
  exact rIsNan_raw _ _ _ _

theorem showsQ_set {vs : Nat → Option RatV} {t : Nat → Option ℚ} (h : ShowsQ vs t) (x : Nat) {v : RatV} {a : ℚ}
    (hv : Denotes v a) : ShowsQ (rvSet vs x v) (qSet t x a) := by
  intro y
  simp only [rvSet, qSet]
  by_cases hy : y = x
  · simp only [hy, if_true]; exact ⟨v, rfl, hv⟩
  · simp only [hy, if_false]; exact h y

/-- the operators -/
theorem qfn_spec (o : RatOp) {v w : RatV} {a b : ℚ} (hv : Denotes v a) (hw : Denotes w b) :
    match o.qspec a b with
    | some c => ∃ r, o.fn v w = .ok r ∧ o.assignFn v w = .ok r ∧ Denotes r c
    | none => o.fn v w = .error .panic ∧ o.assignFn v w = .error .panic := by
  obtain ⟨h1, -, rfl⟩ := hv
  obtain ⟨h2, -, rfl⟩ := hw
  obtain ⟨a1, a2, a3, a4⟩ := C51_assign v w h1 h2
  cases o with
  | add =>
    obtain ⟨r, e1, e2, e3, e4, -⟩ := C51_add_partial v w h1 h2
    exact ⟨r, e1, by rw [← e1]; exact a1, e2, e3, e4⟩
  | sub =>
    obtain ⟨r, e1, e2, e3, e4, -⟩ := C51_sub_partial v w h1 h2
    exact ⟨r, e1, by rw [← e1]; exact a2, e2, e3, e4⟩
  | mul =>
    obtain ⟨r, e1, e2, e3, e4, -⟩ := C51_mul_partial v w h1 h2
    exact ⟨r, e1, by rw [← e1]; exact a3, e2, e3, e4⟩
  | div =>
    obtain ⟨g1, g2⟩ := C51_div_partial v w h1 h2
    simp only [RatOp.qspec]
    by_cases hz : qval w = 0
    · rw [if_pos hz]
      exact ⟨g2 hz, by rw [← g2 hz]; exact a4⟩
    · rw [if_neg hz]
      obtain ⟨r, e1, e2, e3, e4, -⟩ := g1 hz
      exact ⟨r, e1, by rw [← e1]; exact a4, e2, e3, e4⟩

theorem denotes_neg {v : RatV} {a : ℚ} (h : Denotes v a) : Denotes (rNeg v) (-a) := by
  obtain ⟨h1, h2⟩ := (C74_neg_abs v h.1).1
  refine ⟨h1, ?_, by rw [h2, h.2.2]⟩
  rw [rNeg, h.not_nan]
  exact (C36_neg v.a h.2.1).1

theorem denotes_deepClone {v : RatV} {a : ℚ} (h : Denotes v a) : rDeepClone v = v := by
  obtain ⟨s, n, t, d, rfl, h1, g1⟩ := ratOk_iff.1 h.1
  simp [rDeepClone, bDeepClone, raw]

/-- one statement: the same outcome on the values and on the rational numbers -/
theorem qstep_sim {vs : Nat → Option RatV} {t : Nat → Option ℚ} (h : ShowsQ vs t) (c : RCmd) (hc : c.qsafe) :
    c.calm vs ∧ match c.qstep t with
      | some t' => ∃ vs', c.vstep vs = .ok vs' ∧ ShowsQ vs' t'
      | none => c.vstep vs = .error .panic := by
  have hnone : ∀ x, t x = none → rvGet vs x = .error .panic := fun x hx => by
    have := h x
    rw [hx] at this
    simp only [rvGet, this]
  have hsome : ∀ x a, t x = some a → ∃ v, rvGet vs x = .ok v ∧ Denotes v a := fun x a hx => by
    have := h x
    rw [hx] at this
    obtain ⟨v, e, hv⟩ := this
    exact ⟨v, by simp only [rvGet, e], hv⟩
  cases c with
  | fromFrac c x n d =>
    refine ⟨trivial, ?_⟩
    obtain ⟨g1, g2⟩ := C53_from_frac_partial c n d
    simp only [RCmd.qstep, RCmd.vstep, bind, Except.bind]
    by_cases hd : d.toInt = 0
    · rw [if_pos hd, g1 hd]; rfl
    · rw [if_neg hd]
      obtain ⟨r, e1, e2, e3, e4, -⟩ := g2 hd hc.1 hc.2
      rw [e1]
      exact ⟨_, rfl, showsQ_set h x ⟨e2, e3, e4⟩⟩
  | fromF64 x f =>
    refine ⟨trivial, ?_⟩
    obtain ⟨r, e1, e2, e3, e4⟩ := C54_from_f64_partial f hc.1 hc.2
    simp only [RCmd.qstep, RCmd.vstep, bind, Except.bind, e1]
    exact ⟨_, rfl, showsQ_set h x ⟨e3, e2.1, e4⟩⟩
  | clone x y =>
    refine ⟨trivial, ?_⟩
    simp only [RCmd.qstep, RCmd.vstep, bind, Except.bind]
    cases hy : t y with
    | none => simp only [hnone y hy, Option.map_none]
    | some a =>
      obtain ⟨v, e, hv⟩ := hsome y a hy
      simp only [e, Option.map_some]
      exact ⟨_, rfl, showsQ_set h x hv⟩
  | deepClone x y =>
    refine ⟨trivial, ?_⟩
    simp only [RCmd.qstep, RCmd.vstep, bind, Except.bind]
    cases hy : t y with
    | none => simp only [hnone y hy, Option.map_none]
    | some a =>
      obtain ⟨v, e, hv⟩ := hsome y a hy
      simp only [e, Option.map_some, denotes_deepClone hv]
      exact ⟨_, rfl, showsQ_set h x hv⟩
  | neg x y =>
    refine ⟨trivial, ?_⟩
    simp only [RCmd.qstep, RCmd.vstep, bind, Except.bind]
    cases hy : t y with
    | none => simp only [hnone y hy, Option.map_none]
    | some a =>
      obtain ⟨v, e, hv⟩ := hsome y a hy
      simp only [e, Option.map_some]
      exact ⟨_, rfl, showsQ_set h x (denotes_neg hv)⟩
  | abs x y =>
    refine ⟨trivial, ?_⟩
    simp only [RCmd.qstep, RCmd.vstep, bind, Except.bind]
    cases hy : t y with
    | none => simp only [hnone y hy, Option.map_none]
    | some a =>
      obtain ⟨v, e, hv⟩ := hsome y a hy
      simp only [e, Option.map_some]
      obtain ⟨g1, g2, g3⟩ := (C74_neg_abs v hv.1).2
      exact ⟨_, rfl, showsQ_set h x ⟨g1, g2, by rw [g3, hv.2.2]⟩⟩
  | inv x y =>
    refine ⟨trivial, ?_⟩
    simp only [RCmd.qstep, RCmd.vstep, bind, Except.bind]
    cases hy : t y with
    | none => simp only [hnone y hy, Option.bind_none]
    | some a =>
      obtain ⟨v, e, hv⟩ := hsome y a hy
      obtain ⟨g1, g2⟩ := C74_inv v hv.1
      rw [hv.2.2] at g1 g2
      simp only [e, Option.bind_some]
      by_cases hz : a = 0
      · rw [if_pos hz, g1 hz]; rfl
      · rw [if_neg hz]
        obtain ⟨r, e1, e2, e3, e4, -⟩ := g2 hz
        rw [e1]
        exact ⟨_, rfl, showsQ_set h x ⟨e2, e3, e4⟩⟩
  | op o z x y =>
    refine ⟨trivial, ?_⟩
    simp only [RCmd.qstep, RCmd.vstep, bind, Except.bind]
    cases hx : t x with
    | none => simp only [hnone x hx, Option.bind_none]
    | some a =>
      obtain ⟨v, e, hv⟩ := hsome x a hx
      cases hy : t y with
      | none => simp only [e, hnone y hy, Option.bind_some, Option.bind_none]
      | some b =>
        obtain ⟨w, e', hw⟩ := hsome y b hy
        have hf := qfn_spec o hv hw
        simp only [e, e', Option.bind_some]
        revert hf
        cases o.qspec a b with
        | none => rintro ⟨g, -⟩; simp only [g, Option.map_none]
        | some c =>
          rintro ⟨r, g, -, hr⟩
          simp only [g, Option.map_some]
          exact ⟨_, rfl, showsQ_set h z hr⟩
  | assign o x y =>
    constructor
    · intro v w hv hw
      have h1 := h x
      have h2 := h y
      constructor
      · revert h1
        cases t x with
        | none => rw [hv]; exact fun h => nomatch h
        | some a =>
          rintro ⟨v', e, hd⟩
          rw [hv] at e; cases e
          exact hd.not_nan
      · intro _
        revert h2
        cases t y with
        | none => rw [hw]; exact fun h => nomatch h
        | some a =>
          rintro ⟨v', e, hd⟩
          rw [hw] at e; cases e
          exact hd.not_nan
    · simp only [RCmd.qstep, RCmd.vstep, bind, Except.bind]
      cases hx : t x with
      | none => simp only [hnone x hx, Option.bind_none]
      | some a =>
        obtain ⟨v, e, hv⟩ := hsome x a hx
        cases hy : t y with
        | none => simp only [e, hnone y hy, Option.bind_some, Option.bind_none]
        | some b =>
          obtain ⟨w, e', hw⟩ := hsome y b hy
          have hf := qfn_spec o hv hw
          simp only [e, e', Option.bind_some]
          revert hf
          cases o.qspec a b with
          | none => rintro ⟨-, g⟩; simp only [g, Option.map_none]
          | some c =>
            rintro ⟨r, -, g, hr⟩
            simp only [g, Option.map_some]
            exact ⟨_, rfl, showsQ_set h x hr⟩

theorem qRun_sim (cs : List RCmd) (hc : ∀ c ∈ cs, c.qsafe) (vs : Nat → Option RatV) (t : Nat → Option ℚ) (h : ShowsQ vs t) :
    Calm vs cs ∧ match qRun t cs with
      | some t' => ∃ vs', rvRun vs cs = .ok vs' ∧ ShowsQ vs' t'
      | none => rvRun vs cs = .error .panic := by
  induction cs generalizing vs t with
  | nil => exact ⟨trivial, vs, rfl, h⟩
  | cons c cs ih =>
    obtain ⟨h1, h2⟩ := qstep_sim h c (hc c (by simp))
    have ih := ih fun c h => hc c (by simp [h])
    simp only [qRun, rvRun, Calm]
    revert h2
    cases c.qstep t with
    | none =>
      intro e
      simp only [e, Option.bind_none]
      exact ⟨⟨h1, fun s' h => nomatch h⟩, trivial⟩
    | some t' =>
      rintro ⟨vs', e, hs⟩
      obtain ⟨g1, g2⟩ := ih vs' t' hs
      simp only [e, Option.bind_some]
      exact ⟨⟨h1, fun s' h => by cases h; exact g1⟩, g2⟩

/-- A program over `Rat` variables, with any shallow clones, deep clones, in-place operators and whatever shares: it panics exactly
if the program on rational numbers divides by zero (or uses an unbound variable), and otherwise at its end every variable shows its
rational number, in a form that `==` and `<` read correctly.  Missing from the full property: the constants that the constructors
get wrong (`RCmd.qsafe`; C53, C54). -/
theorem C102_programs_partial (cs : List RCmd) (s : RState) (t : Nat → Option ℚ) (hs : s.Ok) (ht : ShowsQ s.value t)
    (hc : ∀ c ∈ cs, c.qsafe) :
    match qRun t cs with
    | some t' => ∃ s', rRun s cs = .ok s' ∧ ShowsQ s'.value t'
    | none => rRun s cs = .error .panic := by
  obtain ⟨g1, g2⟩ := qRun_sim cs hc s.value t ht
  have h1 := C93_clones_partial s hs cs g1
  revert g2 h1
  cases qRun t cs with
  | none =>
    intro e
    rw [e]
    cases rRun s cs with
    | error e => exact fun h => congrArg _ h
    | ok s' => exact fun h => h.elim
  | some t' =>
    rintro ⟨vs', e, hv⟩
    rw [e]
    cases rRun s cs with
    | error e => exact fun h => h.elim
    | ok s' =>
      intro h
      have : s'.value = vs' := funext h
      exact ⟨s', rfl, by rw [this]; exact hv⟩

/-- Comparisons at the end of such a program are those of the rational numbers. -/
theorem C102_comparisons_partial (cs : List RCmd) (s s' : RState) (t t' : Nat → Option ℚ) (hs : s.Ok) (ht : ShowsQ s.value t)
    (hc : ∀ c ∈ cs, c.qsafe) (hn : qRun t cs = some t') (hr : rRun s cs = .ok s') (x y : Nat) (a b : ℚ)
    (hx : t' x = some a) (hy : t' y = some b) :
    ∃ v w, s'.value x = some v ∧ s'.value y = some w ∧ (rEq v w = true ↔ a = b) ∧ rCmp v w = some (compare a b) := by
  have := C102_programs_partial cs s t hs ht hc
  rw [hn] at this
  obtain ⟨s'', e, hv⟩ := this
  rw [hr] at e
  cases e
  have h1 := hv x
  have h2 := hv y
  rw [hx] at h1
  rw [hy] at h2
  obtain ⟨v, e1, c1, c2, rfl⟩ := h1
  obtain ⟨w, e2, d1, d2, rfl⟩ := h2
  exact ⟨v, w, e1, e2, C52_eq_partial v w c1 d1 c2 d2, C52_cmp_partial v w c1 d1 c2 d2⟩

/-- `sampleRP` on rational numbers: `a = 1/2; b = a.clone(); a += b; c = a / b; b *= c; d = -b; a -= d` -/
example : emptyR.Ok ∧ ShowsQ emptyR.value (fun _ => none) ∧ (∀ c ∈ sampleRP, c.qsafe) ∧
    (qRun (fun _ => none) sampleRP).map (fun t => (t 0, t 1)) = some (some 2, some 1) := by
  refine ⟨emptyR_ok, fun _ => rfl, ?_, by decide +kernel⟩
  simp [sampleRP, RCmd.qsafe]

end RMath
