import Verif.Lemmas.RatHeap
import Verif.Lemmas.Rat

/-!
# Properties C92–C94: clones of a `Rat` share buffers

The objects are `HRat`s: references to the buffers of numerator and denominator on a heap (`Verif.Model.RatHeap`).
`x.value h` is what the object shows.  `RatOp.fn` and `RatOp.assignFn` are the operators on values, for which the properties
C48–C55 are proved.  Programs are lists of statements (`RCmd`) over variables; `s.value x` is what the variable `x` shows.
-/

namespace RMath

open Heap

/-- both references of the object are allocated -/
def HRat.In (x : HRat) (h : Heap) : Prop := x.a.addr < h.next ∧ x.b.addr < h.next

instance (x : HRat) (h : Heap) : Decidable (x.In h) := inferInstanceAs (Decidable (_ ∧ _))

/-! ## C92 operators -/

/-- `x op y`, whatever `x` and `y` share: the result is that of the operation on values, in buffers of its own, and every `Rat`
and every `BigInt` that existed before shows what it showed before. -/
theorem C92_value_operators (op : RatOp) (h : Heap) (x y : HRat) (hx : x.In h) (hy : y.In h) (v : RatV)
    (hv : op.fn (x.value h) (y.value h) = .ok v) :
    ∃ h' z, hrOp op h x y = .ok (h', z) ∧ z.value h' = v ∧ h.next ≤ z.a.addr ∧ h.next ≤ z.b.addr ∧ z.a.addr ≠ z.b.addr ∧
      z.In h' ∧ (∀ w : HRat, w.In h → w.value h' = w.value h) ∧ ∀ n : HInt, n.addr < h.next → n.value h' = n.value h := by
  have := hrOp_spec op h x y hx.1 hx.2 hy.1 hy.2
  rw [hv] at this
  rcases hm : hrOp op h x y with e | ⟨h', z⟩
  · rw [hm] at this; exact this.elim
  · rw [hm] at this
    obtain ⟨e1, e2, e3, e4, e5, e6, e7⟩ := this
    exact ⟨h', z, rfl, e2, e3, e5, e7, ⟨e4, e6⟩, fun w hw => e1.rvalue hw.1 hw.2, fun n hn => e1.value hn⟩

/-- It panics exactly where the operation on values does. -/
theorem C92_value_operators_panic (op : RatOp) (h : Heap) (x y : HRat) (hx : x.In h) (hy : y.In h) (e : Err) :
    hrOp op h x y = .error e ↔ op.fn (x.value h) (y.value h) = .error e := by
  have := hrOp_spec op h x y hx.1 hx.2 hy.1 hy.2
  revert this
  rcases op.fn (x.value h) (y.value h) with e' | v <;> rcases hrOp op h x y with e'' | ⟨h', z⟩
  · intro h; rw [show e' = e'' from h]; simp
  · exact fun h => h.elim
  · exact fun h => h.elim
  · simp

/-- `x op= y`, whatever `x`, `y` and other objects share, if neither is NaN (for `*=`, if `x` is not): the new value of `x` is
that of the operation on values, and every `Rat` and `BigInt` that existed before, also every clone of the old `x`, shows what
it showed before.  Missing: NaN, see `C92_violated`. -/
theorem C92_assign_partial (op : RatOp) (h : Heap) (x y : HRat) (hx : x.In h) (hy : y.In h)
    (hxn : rIsNan (x.value h) = false) (hyn : op ≠ .mul → rIsNan (y.value h) = false) (v : RatV)
    (hv : op.assignFn (x.value h) (y.value h) = .ok v) :
    ∃ h' x', hrAssign op h x y = .ok (h', x') ∧ x'.value h' = v ∧
      (∀ w : HRat, w.In h → w.value h' = w.value h) ∧ ∀ n : HInt, n.addr < h.next → n.value h' = n.value h := by
  have hn : (hrIsNan h x || (op != .mul && hrIsNan h y)) = false := by
    have h1 : hrIsNan h x = false := hxn
    rw [h1, Bool.false_or]
    by_cases ho : op = .mul
    · simp [ho]
    · have h2 : hrIsNan h y = false := hyn ho
      rw [h2, Bool.and_false]
  have := hrAssign_spec op h x y hx.1 hx.2 hy.1 hy.2 hn
  rw [hv] at this
  rcases hm : hrAssign op h x y with e | ⟨h', z⟩
  · rw [hm] at this; exact this.elim
  · rw [hm] at this
    obtain ⟨e1, e2, e3, e4, e5, e6, e7⟩ := this
    exact ⟨h', z, rfl, e2, fun w hw => e1.rvalue hw.1 hw.2, fun n hn => e1.value hn⟩

/-- 1/2 in buffers 0 and 1 -/
def sampleRH : Heap := ⟨fun a => if a = 0 then [1#32] else [2#32], 2⟩
/-- 1/2 -/
def sampleHalf : HRat := ⟨⟨0, false⟩, ⟨1, false⟩⟩

example : sampleHalf.In sampleRH ∧ RatOp.fn .add (sampleHalf.value sampleRH) (sampleHalf.value sampleRH) =
    .ok (⟨⟨[1#32], false⟩, ⟨[1#32], false⟩⟩ : RatV) := ⟨by decide, by decide +kernel⟩
example : ∃ h' x', hrAssign .add sampleRH sampleHalf sampleHalf = .ok (h', x') ∧
    x'.value h' = ⟨⟨[1#32], false⟩, ⟨[1#32], false⟩⟩ ∧ sampleHalf.value h' = sampleHalf.value sampleRH := by
  obtain ⟨h', x', h1, h2, h3, _⟩ := C92_assign_partial .add sampleRH sampleHalf sampleHalf (by decide) (by decide) (by decide)
    (by decide) (⟨⟨[1#32], false⟩, ⟨[1#32], false⟩⟩ : RatV) (by decide +kernel)
  exact ⟨h', x', h1, h2, h3 _ (by decide)⟩

/-- no variable is bound -/
def emptyR : RState := ⟨fun _ => none, ⟨fun _ => [], 0⟩⟩

/-- The code violates C92: `let a = Rat::from_frac(1, 2).unwrap(); let b = a.clone(); a += Rat::from(f64::NAN);` turns `b`
into NaN as well. -/
theorem C92_violated : ∃ s s', rRun emptyR [.fromFrac true 0 1#64 2#64, .clone 1 0, .fromF64 2 0x7ff8000000000000#64] = .ok s ∧
    s.value 1 = some ⟨⟨[1#32], false⟩, ⟨[2#32], false⟩⟩ ∧ RCmd.step s (.assign .add 0 2) = .ok s' ∧
    (s'.value 1).map rIsNan = some true := by
  refine ⟨_, _, rfl, ?_, rfl, ?_⟩ <;> decide +kernel

/-! ## C93 programs -/

/-- the value of a variable that is bound -/
def rvGet (s : Nat → Option RatV) (x : Nat) : Res RatV :=
  match s x with
  | some v => .ok v
  | none => .error .panic

/-- binding a variable -/
def rvSet (s : Nat → Option RatV) (x : Nat) (v : RatV) : Nat → Option RatV := fun y => if y = x then some v else s y

/-- one statement, if every variable holds a value of its own -/
def RCmd.vstep (s : Nat → Option RatV) : RCmd → Res (Nat → Option RatV)
  | .fromFrac c x n d => do
    let v ← rFromFrac c n d
    let v ← unwrapR v
    .ok (rvSet s x v)
  | .fromF64 x f => do
    let v ← rFromF64 f
    .ok (rvSet s x v)
  | .clone x y => do
    let v ← rvGet s y
    .ok (rvSet s x v)
  | .deepClone x y => do
    let v ← rvGet s y
    .ok (rvSet s x (rDeepClone v))
  | .neg x y => do
    let v ← rvGet s y
    .ok (rvSet s x (rNeg v))
  | .abs x y => do
    let v ← rvGet s y
    .ok (rvSet s x (rAbs v))
  | .inv x y => do
    let v ← rvGet s y
    let w ← unwrapR (rInv v)
    .ok (rvSet s x w)
  | .op o z x y => do
    let v ← rvGet s x
    let w ← rvGet s y
    let r ← o.fn v w
    .ok (rvSet s z r)
  | .assign o x y => do
    let v ← rvGet s x
    let w ← rvGet s y
    let r ← o.assignFn v w
    .ok (rvSet s x r)

/-- a program, if every variable holds a value of its own -/
def rvRun : (Nat → Option RatV) → List RCmd → Res (Nat → Option RatV)
  | s, [] => .ok s
  | s, c :: cs =>
    match c.vstep s with
    | .ok s => rvRun s cs
    | .error e => .error e

/-- the references are allocated, and numerator and denominator of a variable are different buffers -/
def RState.Ok (s : RState) : Prop :=
  ∀ x v, s.env x = some v → v.In s.heap ∧ v.a.addr ≠ v.b.addr

/-- no two variables share a buffer -/
def RState.Separate (s : RState) : Prop :=
  ∀ x y v w, s.env x = some v → s.env y = some w → x ≠ y →
    v.a.addr ≠ w.a.addr ∧ v.a.addr ≠ w.b.addr ∧ v.b.addr ≠ w.a.addr ∧ v.b.addr ≠ w.b.addr

/-- if the statement is an assigning operator, neither operand is NaN (for `*=`, the receiver is not) -/
def RCmd.calm (s : Nat → Option RatV) : RCmd → Prop
  | .assign o x y => ∀ v w, s x = some v → s y = some w → rIsNan v = false ∧ (o ≠ .mul → rIsNan w = false)
  | _ => True

/-- in the course of the program, run on values, no assigning operator meets NaN -/
def Calm : (Nat → Option RatV) → List RCmd → Prop
  | _, [] => True
  | s, c :: cs => c.calm s ∧ ∀ s', c.vstep s = .ok s' → Calm s' cs

/-- the statement does not make a second reference to a buffer -/
def RCmd.unshared : RCmd → Prop
  | .clone _ _ => False
  | _ => True

/-- the same outcome: the same error, or states in which every variable shows its value -/
def SameR (out : Res RState) (vout : Res (Nat → Option RatV)) : Prop :=
  match out, vout with
  | .ok s, .ok vs => ∀ x, s.value x = vs x
  | .error e, .error e' => e = e'
  | _, _ => False

/-- the same outcome, and the invariants hold -/
def SimR (sep : Prop) (out : Res RState) (vout : Res (Nat → Option RatV)) : Prop :=
  match out, vout with
  | .ok s, .ok vs => s.Ok ∧ (sep → s.Separate) ∧ s.value = vs
  | .error e, .error e' => e = e'
  | _, _ => False

theorem rvGet_value (s : RState) (x : Nat) :
    rvGet s.value x = match s.env x with | some v => .ok (v.value s.heap) | none => .error .panic := by
  simp only [rvGet, RState.value]
  cases s.env x <;> rfl

theorem sim_new {s : RState} (hs : s.Ok) {sep : Prop} (hp : sep → s.Separate) (x : Nat) (r : Res RatV)
    (out : Res (Heap × HRat)) (h : RNew s.heap r out) :
    SimR sep (out.map (s.bind x)) (r.map (rvSet s.value x)) := by
  rcases r with e | v <;> rcases out with e' | ⟨h', z⟩
  · exact Eq.symm h
  · exact h.elim
  · exact h.elim
  · obtain ⟨e1, e2, e3, e4, e5, e6, e7⟩ := h
    refine ⟨fun y w hy => ?_, fun hsep y1 y2 w1 w2 hy1 hy2 hne => ?_, funext fun y => ?_⟩
    · simp only [RState.bind] at hy
      split at hy
      · cases hy; exact ⟨⟨e4, e6⟩, e7⟩
      · have := hs y w hy
        exact ⟨⟨Nat.lt_of_lt_of_le this.1.1 e1.1, Nat.lt_of_lt_of_le this.1.2 e1.1⟩, this.2⟩
    · simp only [RState.bind] at hy1 hy2
      split at hy1 <;> split at hy2
      · omega
      · cases hy1; have := (hs _ _ hy2).1; have h1 := this.1; have h2 := this.2; omega
      · cases hy2; have := (hs _ _ hy1).1; have h1 := this.1; have h2 := this.2; omega
      · exact hp hsep _ _ _ _ hy1 hy2 hne
    · simp only [RState.value, RState.bind, rvSet]
      split
      · simp [e2]
      · cases hy : s.env y with
        | none => rfl
        | some w =>
          have := (hs y w hy).1
          simp only [Option.map_some, e1.rvalue this.1 this.2]

theorem sim_fresh {s : RState} (hs : s.Ok) {sep : Prop} (hp : sep → s.Separate) (x : Nat) (v : RatV) :
    SimR sep (.ok (s.bind x (hrNew s.heap v))) (.ok (rvSet s.value x v)) :=
  sim_new hs hp x (.ok v) (.ok (hrNew s.heap v)) (hrNew_new _ _)

theorem step_sim {s : RState} (hs : s.Ok) {sep : Prop} (hp : sep → s.Separate) (c : RCmd)
    (hc : (sep ∧ c.unshared) ∨ (¬sep ∧ c.calm s.value)) : SimR sep (c.step s) (c.vstep s.value) := by
  cases c with
  | fromFrac c x n d =>
    simp only [RCmd.step, RCmd.vstep, bind, Except.bind]
    cases rFromFrac c n d with
    | error e => exact rfl
    | ok v => cases v with
      | none => exact rfl
      | some v => exact sim_fresh hs hp x v
  | fromF64 x f =>
    simp only [RCmd.step, RCmd.vstep, bind, Except.bind]
    cases rFromF64 f with
    | error e => exact rfl
    | ok v => exact sim_fresh hs hp x v
  | clone x y =>
    have hsep : ¬sep := by
      rcases hc with hc | hc
      · exact hc.2.elim
      · exact hc.1
    simp only [RCmd.step, RCmd.vstep, bind, Except.bind, rvGet_value, RState.get]
    cases hy : s.env y with
    | none => exact rfl
    | some v =>
      refine ⟨fun z w hz => ?_, fun h => absurd h hsep, funext fun z => ?_⟩
      · simp only [RState.bind] at hz
        split at hz
        · cases hz; exact hs y v hy
        · exact hs z w hz
      · simp only [RState.value, RState.bind, rvSet]
        split <;> rfl
  | deepClone x y =>
    simp only [RCmd.step, RCmd.vstep, bind, Except.bind, rvGet_value, RState.get]
    cases s.env y with
    | none => exact rfl
    | some v => exact sim_fresh hs hp x _
  | neg x y =>
    simp only [RCmd.step, RCmd.vstep, bind, Except.bind, rvGet_value, RState.get]
    cases s.env y with
    | none => exact rfl
    | some v => exact sim_fresh hs hp x _
  | abs x y =>
    simp only [RCmd.step, RCmd.vstep, bind, Except.bind, rvGet_value, RState.get]
    cases s.env y with
    | none => exact rfl
    | some v => exact sim_fresh hs hp x _
  | inv x y =>
    simp only [RCmd.step, RCmd.vstep, bind, Except.bind, rvGet_value, RState.get]
    cases s.env y with
    | none => exact rfl
    | some v =>
      simp only
      cases rInv (v.value s.heap) with
      | none => exact rfl
      | some w => exact sim_fresh hs hp x _
  | op o z x y =>
    simp only [RCmd.step, RCmd.vstep, bind, Except.bind, rvGet_value, RState.get]
    cases hx : s.env x with
    | none => exact rfl
    | some v =>
      cases hy : s.env y with
      | none => exact rfl
      | some w =>
        have h1 := (hs x v hx).1
        have h2 := (hs y w hy).1
        have := sim_new hs hp z _ _ (hrOp_spec o s.heap v w h1.1 h1.2 h2.1 h2.2)
        simp only
        revert this
        cases hrOp o s.heap v w <;> cases o.fn (v.value s.heap) (w.value s.heap) <;> exact fun h => h
  | assign o x y =>
    simp only [RCmd.step, RCmd.vstep, bind, Except.bind, rvGet_value, RState.get]
    cases hx : s.env x with
    | none => exact rfl
    | some v =>
      cases hy : s.env y with
      | none => exact rfl
      | some w =>
        have h1 := hs x v hx
        have h2 := hs y w hy
        simp only
        cases hn : (hrIsNan s.heap v || (o != .mul && hrIsNan s.heap w)) with
        | false =>
          have := sim_new hs hp x _ _ (hrAssign_spec o s.heap v w h1.1.1 h1.1.2 h2.1.1 h2.1.2 hn)
          revert this
          cases hrAssign o s.heap v w <;> cases o.assignFn (v.value s.heap) (w.value s.heap) <;> exact fun h => h
        | true =>
          have hsep : sep := by
            rcases hc with hc | hc
            · exact hc.1
            · have hcalm := hc.2 (v.value s.heap) (w.value s.heap) (by simp [RState.value, hx]) (by simp [RState.value, hy])
              have e1 : hrIsNan s.heap v = false := hcalm.1
              rw [e1, Bool.false_or] at hn
              by_cases ho : o = .mul
              · rw [ho] at hn; cases hn
              · have e2 : hrIsNan s.heap w = false := hcalm.2 ho
                rw [e2, Bool.and_false] at hn; cases hn
          obtain ⟨e1, e2⟩ := hrAssign_nan o s.heap v w h1.2 hn
          rw [e1, e2]
          have hsp := hp hsep
          have henv : ∀ z, (s.bind x (s.heap.write v.a.addr [], v)).env z = s.env z := by
            intro z
            simp only [RState.bind]
            split
            · rename_i h; rw [h, hx]
            · rfl
          refine ⟨fun z u hz => ?_, fun _ z1 z2 u1 u2 hz1 hz2 hne => ?_, funext fun z => ?_⟩
          · rw [henv] at hz; exact hs z u hz
          · rw [henv] at hz1 hz2; exact hsp _ _ _ _ hz1 hz2 hne
          · simp only [RState.value, henv, rvSet]
            split
            · rename_i h; rw [h, hx]; rfl
            · rename_i h
              cases hz : s.env z with
              | none => rfl
              | some u =>
                have := hsp x z v u hx hz (Ne.symm h)
                simp [RState.bind, HRat.value, HInt.value, write_buf_ne _ _ this.1.symm, write_buf_ne _ _ this.2.1.symm]

theorem same_of_sim {sep : Prop} {out : Res RState} {vout : Res (Nat → Option RatV)} (h : SimR sep out vout) :
    SameR out vout := by
  rcases out with e | s <;> rcases vout with e' | vs
  · exact h
  · exact h.elim
  · exact h.elim
  · exact fun x => congrFun h.2.2 x

/-- Programs without shallow clones behave as if every variable held a value of its own, also with NaN. -/
theorem C93_unshared_partial (s : RState) (hs : s.Ok) (hp : s.Separate) (cs : List RCmd) (hc : ∀ c ∈ cs, c.unshared) :
    SameR (rRun s cs) (rvRun s.value cs) := by
  induction cs generalizing s with
  | nil => exact fun x => rfl
  | cons c cs ih =>
    have := step_sim hs (sep := True) (fun _ => hp) c (.inl ⟨trivial, hc c (by simp)⟩)
    simp only [rRun, rvRun]
    revert this
    rcases c.step s with e | s' <;> rcases c.vstep s.value with e' | vs
    · exact fun h => h
    · exact fun h => h.elim
    · exact fun h => h.elim
    · rintro ⟨h1, h2, rfl⟩
      exact ih s' h1 (h2 trivial) (fun c hc' => hc c (by simp [hc']))

/-- Programs with any number of shallow clones behave as if every variable held a value of its own, as long as no assigning
operator meets NaN (`Calm`).  Missing: programs where one does, see `C92_violated`. -/
theorem C93_clones_partial (s : RState) (hs : s.Ok) (cs : List RCmd) (hc : Calm s.value cs) :
    SameR (rRun s cs) (rvRun s.value cs) := by
  induction cs generalizing s with
  | nil => exact fun x => rfl
  | cons c cs ih =>
    have := step_sim hs (sep := False) (fun h => h.elim) c (.inr ⟨fun h => h, hc.1⟩)
    have hc2 := hc.2
    simp only [rRun, rvRun]
    revert this
    revert hc2
    rcases c.step s with e | s' <;> rcases c.vstep s.value with e' | vs
    · exact fun _ h => h
    · exact fun _ h => h.elim
    · exact fun _ h => h.elim
    · rintro hc2 ⟨h1, h2, rfl⟩
      exact ih s' h1 (hc2 _ rfl)

/-- `a = 1/2; b = a.clone(); a += b; c = a / b; b *= c; d = -b; a -= d` -/
def sampleRP : List RCmd := [.fromFrac true 0 1#64 2#64, .clone 1 0, .assign .add 0 1, .op .div 2 0 1, .assign .mul 1 2,
  .neg 3 1, .assign .sub 0 3]

theorem emptyR_ok : emptyR.Ok := fun _ _ h => by cases h

/-- a decision procedure for `Calm`, on the variables below `n` -/
def calmb : (Nat → Option RatV) → List RCmd → Bool
  | _, [] => true
  | s, c :: cs =>
    (match c with
      | .assign o x y => match s x, s y with
        | some v, some w => !rIsNan v && (o == .mul || !rIsNan w)
        | _, _ => true
      | _ => true) &&
    match c.vstep s with
    | .ok s' => calmb s' cs
    | .error _ => true

theorem calm_of_calmb : ∀ (cs : List RCmd) (s : Nat → Option RatV), calmb s cs = true → Calm s cs := by
  intro cs
  induction cs with
  | nil => exact fun _ _ => trivial
  | cons c cs ih =>
    intro s h
    simp only [calmb, Bool.and_eq_true] at h
    refine ⟨?_, fun s' hs' => ?_⟩
    · cases c <;> try trivial
      rename_i o x y
      intro v w hv hw
      simp only [hv, hw, Bool.and_eq_true, Bool.or_eq_true, Bool.not_eq_true', beq_iff_eq] at h
      exact ⟨h.1.1, fun ho => h.1.2.resolve_left ho⟩
    · rw [hs'] at h
      exact ih s' h.2

example : emptyR.Ok ∧ Calm emptyR.value sampleRP ∧ ∃ s', rRun emptyR sampleRP = .ok s' ∧
    s'.value 0 = some ⟨⟨[2#32], false⟩, ⟨[1#32], false⟩⟩ ∧ s'.value 1 = some ⟨⟨[1#32], false⟩, ⟨[1#32], false⟩⟩ := by
  refine ⟨emptyR_ok, calm_of_calmb _ _ (by decide +kernel), _, rfl, ?_, ?_⟩ <;> decide +kernel
example : emptyR.Ok ∧ emptyR.Separate ∧ ∀ c ∈ [RCmd.fromFrac true 0 1#64 2#64, .deepClone 1 0, .fromF64 2 0x7ff8000000000000#64,
    .assign .add 0 2, .assign .sub 0 1], c.unshared :=
  ⟨emptyR_ok, (fun _ _ _ _ h _ _ => by cases h), by simp [RCmd.unshared]⟩

/-! ## C94 numerator and denominator -/

/-- A `BigInt` with a buffer of its own, for instance `r.numerator().deep_clone()`: no assigning operator on it changes what the
`Rat` shows.  Missing: `r.numerator().clone()`, see `C94_violated`. -/
theorem C94_own_partial (op : NatOp) (h : Heap) (r : HRat) (n y : HInt) (hr : r.In h) (hn : n.addr < h.next)
    (hy : y.addr < h.next) (hna : n.addr ≠ r.a.addr) (hnb : n.addr ≠ r.b.addr) (hny : y.addr ≠ n.addr) (h' : Heap) (n' : HInt)
    (he : hbAssign op h n y = .ok (h', n')) : r.value h' = r.value h := by
  have := hbAssign_ne op h n y hn hy hny
  rw [he] at this
  revert this
  rcases op.bfn (n.value h) (y.value h) with e | v
  · exact fun h => h.elim
  · rintro ⟨_, _, _, h4⟩
    simp only [HRat.value, HInt.value, h4 _ hr.1 (Ne.symm hna), h4 _ hr.2 (Ne.symm hnb)]

/-- The operators that return a new `BigInt` never change the `Rat`, also on `r.numerator().clone()`. -/
theorem C94_value_operators (op : NatOp) (h : Heap) (r : HRat) (n y : HInt) (hr : r.In h) (hy : y.addr < h.next)
    (h' : Heap) (n' : HInt) (he : hbOp op h n y = .ok (h', n')) : r.value h' = r.value h := by
  have := hbOp_spec op h n y hy
  rw [he] at this
  revert this
  rcases op.bfn (bDeepClone (n.value h)) (y.value h) with e | v
  · exact fun h => h.elim
  · rintro ⟨_, _, _, h4⟩
    have h1 := hr.1
    have h2 := hr.2
    simp only [HRat.value, HInt.value, h4 _ hr.1 (by omega), h4 _ hr.2 (by omega)]

/-- 1/2 in buffers 0 and 1, and 3 in buffer 2 -/
def sampleRH3 : Heap := ⟨fun a => if a = 0 then [1#32] else if a = 1 then [2#32] else [3#32], 4⟩

example : sampleHalf.In sampleRH3 ∧ ∃ h' n', hbAssign .add sampleRH3 ⟨2, false⟩ ⟨1, false⟩ = .ok (h', n') ∧
    n'.value h' = ⟨[5#32], false⟩ := by
  refine ⟨by decide, _, _, rfl, by decide +kernel⟩
example : ∃ h' n', hbOp .add sampleRH3 sampleHalf.a ⟨2, false⟩ = .ok (h', n') ∧ n'.value h' = ⟨[4#32], false⟩ := by
  refine ⟨_, _, rfl, by decide +kernel⟩

/-- The code violates C94: `let r = Rat::from_frac(1, 2).unwrap(); let mut n = r.numerator().clone(); n += BigInt::from(3);`
turns `r` into 4/2, which is not even in lowest terms: `r == Rat::from(2)` holds, but `is_integer` says no. -/
theorem C94_violated : ∃ h' n', hbAssign .add sampleRH3 sampleHalf.a ⟨2, false⟩ = .ok (h', n') ∧
    sampleHalf.value sampleRH3 = ⟨⟨[1#32], false⟩, ⟨[2#32], false⟩⟩ ∧
    sampleHalf.value h' = ⟨⟨[4#32], false⟩, ⟨[2#32], false⟩⟩ ∧
    rEq (sampleHalf.value h') ⟨⟨[2#32], false⟩, ⟨[1#32], false⟩⟩ = true ∧ rIsInteger (sampleHalf.value h') = some false := by
  refine ⟨_, _, rfl, ?_, ?_, ?_, ?_⟩ <;> decide +kernel

end RMath
