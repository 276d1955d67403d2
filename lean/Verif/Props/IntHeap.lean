import Verif.Lemmas.IntHeap

/-!
# Properties C96, C97: programs over `BigInt` variables

The objects are `HInt`s: a reference to the buffer of the magnitude, and the sign (`Verif.Model.Heap`, `Verif.Model.IntHeap`).
`x.value h` is what the object shows.  `IntOp.fn` and `shiftFn` are the functions on values, for which C36–C41 and C47 are proved.
Programs are lists of statements (`BCmd`) over variables; `s.value x` is what the variable `x` shows.
-/

namespace RMath

open Heap

/-! ## C96 functions that return a new `BigInt` -/

/-- `x op y`, `x.and_not(y)`, `x.rem_euclid(y)`, `x.div_euclid(y)`, whatever `x` and `y` share: the result is that of the function
on values, in a buffer of its own, and every `BigInt` that existed before shows what it showed before. -/
theorem C96_functions (op : IntOp) (h : Heap) (x y : HInt) (hy : y.addr < h.next) (v : BInt)
    (hv : op.fn (bDeepClone (x.value h)) (y.value h) = .ok v) :
    ∃ h' z, hiOp op h x y = .ok (h', z) ∧ z.value h' = v ∧ h.next ≤ z.addr ∧ z.addr < h'.next ∧
      ∀ w : HInt, w.addr < h.next → w.value h' = w.value h := by
  have := hiOp_new op h x y hy
  rw [hv] at this
  rcases hm : hiOp op h x y with e | ⟨h', z⟩
  · rw [hm] at this; exact this.elim
  · rw [hm] at this
    obtain ⟨e1, e2, e3, e4⟩ := this
    exact ⟨h', z, rfl, e2, e3, e4, fun w hw => e1.value hw⟩

/-- It panics exactly where the function on values does. -/
theorem C96_functions_panic (op : IntOp) (h : Heap) (x y : HInt) (hy : y.addr < h.next) (e : Err) :
    hiOp op h x y = .error e ↔ op.fn (bDeepClone (x.value h)) (y.value h) = .error e := by
  have := hiOp_new op h x y hy
  revert this
  rcases op.fn (bDeepClone (x.value h)) (y.value h) with e' | v <;> rcases hiOp op h x y with e'' | ⟨h', z⟩
  · intro h; rw [show e' = e'' from h]; simp
  · exact fun h => h.elim
  · exact fun h => h.elim
  · simp

/-- `x op= y`, `x.and_not_assign(y)`, `x.rem_euclid_assign(y)`, `x.div_euclid_assign(y)` with operands that do not share: the new
value of `x` is that of the function on values, and every `BigInt` that does not share with `x` shows what it showed before. -/
theorem C96_assign (op : IntOp) (h : Heap) (x y : HInt) (hx : x.addr < h.next) (hy : y.addr < h.next) (hxy : y.addr ≠ x.addr)
    (v : BInt) (hv : op.fn (x.value h) (y.value h) = .ok v) :
    ∃ h' x', hiAssign op h x y = .ok (h', x') ∧ x'.value h' = v ∧ x'.addr = x.addr ∧
      ∀ w : HInt, w.addr < h.next → w.addr ≠ x.addr → w.value h' = w.value h := by
  have := hiAssign_ne op h x y hx hy hxy
  rw [hv] at this
  obtain ⟨h', x', e1, e2, e3, e4⟩ := upd_ok this
  exact ⟨h', x', e1, e3, e2, fun w hw hne => by simp only [HInt.value]; rw [e4 _ hw hne]⟩

/-- three cells: 7, 2 and -5 -/
def sampleIH : Heap := ⟨fun a => if a = 0 then [7#32] else if a = 1 then [2#32] else [5#32], 3⟩

/-- the hypotheses of `C96_functions` with `7` divided by itself (shared), and of `C96_assign` with `-5` and `7` -/
example : (⟨0, false⟩ : HInt).addr < sampleIH.next ∧ (⟨2, true⟩ : HInt).addr < sampleIH.next ∧
    IntOp.fn .divEuclid (bDeepClone (HInt.value sampleIH ⟨0, false⟩)) (HInt.value sampleIH ⟨0, false⟩) = .ok ⟨[1#32], false⟩ ∧
    IntOp.fn .remEuclid (HInt.value sampleIH ⟨2, true⟩) (HInt.value sampleIH ⟨0, false⟩) = .ok ⟨[2#32], false⟩ :=
  ⟨by decide, by decide, by decide +kernel, by decide +kernel⟩

/-! ## C97 programs -/

/-- the value of a variable that is bound -/
def bvGet (s : Nat → Option BInt) (x : Nat) : Res BInt :=
  match s x with
  | some v => .ok v
  | none => .error .panic

/-- binding a variable -/
def bvSet (s : Nat → Option BInt) (x : Nat) (v : BInt) : Nat → Option BInt := fun y => if y = x then some v else s y

/-- one statement, if every variable holds a value of its own -/
def BCmd.vstep (s : Nat → Option BInt) : BCmd → Res (Nat → Option BInt)
  | .fromI64 x n => do
    let v ← RMath.fromI64 n
    .ok (bvSet s x v)
  | .fromWords x v => .ok (bvSet s x ⟨trim v, false⟩)
  | .parse x t => do
    let v ← bParse t
    let v ← unwrapR v
    .ok (bvSet s x v)
  | .clone x y => do
    let v ← bvGet s y
    .ok (bvSet s x v)
  | .deepClone x y => do
    let v ← bvGet s y
    .ok (bvSet s x (bDeepClone v))
  | .neg x y => do
    let v ← bvGet s y
    .ok (bvSet s x (bNeg v))
  | .not x y => do
    let v ← bvGet s y
    .ok (bvSet s x (bNot v))
  | .abs x y => do
    let v ← bvGet s y
    .ok (bvSet s x (bAbs v))
  | .setNatural x => do
    let v ← bvGet s x
    .ok (bvSet s x (bSetNatural v))
  | .setNegative x => do
    let v ← bvGet s x
    .ok (bvSet s x (bSetNegative v))
  | .op o z x y => do
    let v ← bvGet s x
    let w ← bvGet s y
    let r ← o.fn (bDeepClone v) w
    .ok (bvSet s z r)
  | .assign o x y => do
    let v ← bvGet s x
    let w ← bvGet s y
    let r ← o.fn v w
    .ok (bvSet s x r)
  | .shift left z x n => do
    let v ← bvGet s x
    .ok (bvSet s z (shiftFn left (bDeepClone v) n))
  | .shiftAssign left x n => do
    let v ← bvGet s x
    .ok (bvSet s x (shiftFn left v n))

/-- a program, if every variable holds a value of its own -/
def bvRun : (Nat → Option BInt) → List BCmd → Res (Nat → Option BInt)
  | s, [] => .ok s
  | s, c :: cs =>
    match c.vstep s with
    | .ok s => bvRun s cs
    | .error e => .error e

/-- the variable `x` gets a buffer of its own -/
def ownBuf (R : Nat → Nat → Bool) (x : Nat) : Nat → Nat → Bool := fun a b => a != x && b != x && R a b

/-- which pairs of different variables may share a buffer after a statement, if before it was `R` -/
def BCmd.shares (R : Nat → Nat → Bool) : BCmd → Nat → Nat → Bool
  | .clone x y => if x = y then R else fun a b =>
      if a = x then b != x && (b == y || R y b) else if b = x then a == y || R a y else R a b
  | .fromI64 x _ | .fromWords x _ | .parse x _ | .deepClone x _ | .neg x _ | .not x _ | .abs x _ | .op _ x _ _
  | .shift _ x _ _ => ownBuf R x
  | .setNatural _ | .setNegative _ | .assign _ _ _ | .shiftAssign _ _ _ => R

/-- if the statement changes a variable in place, no other variable may share its buffer; and if the two operands are the same
variable, it is `+=`, `-=` or `*=` -/
def BCmd.owned (R : Nat → Nat → Bool) : BCmd → Prop
  | .assign o x y => (∀ z, R x z = false) ∧ (y = x → o = .nat .add ∨ o = .nat .sub ∨ o = .nat .mul)
  | .shiftAssign _ x _ => ∀ z, R x z = false
  | _ => True

/-- all statements of the program are such.  This depends on the text of the program only. -/
def Owned : (Nat → Nat → Bool) → List BCmd → Prop
  | _, [] => True
  | R, c :: cs => c.owned R ∧ Owned (c.shares R) cs

/-- the references are allocated, and only the pairs in `R` share -/
def BState.Ok (s : BState) (R : Nat → Nat → Bool) : Prop :=
  (∀ x v, s.env x = some v → v.addr < s.heap.next) ∧
  ∀ x y v w, s.env x = some v → s.env y = some w → x ≠ y → v.addr = w.addr → R x y = true

/-- the same outcome: the same error, or states in which every variable shows its value -/
def SameB (out : Res BState) (vout : Res (Nat → Option BInt)) : Prop :=
  match out, vout with
  | .ok s, .ok vs => ∀ x, s.value x = vs x
  | .error e, .error e' => e = e'
  | _, _ => False

/-- the same outcome, and the invariant holds -/
def SimB (R : Nat → Nat → Bool) (out : Res BState) (vout : Res (Nat → Option BInt)) : Prop :=
  match out, vout with
  | .ok s, .ok vs => s.Ok R ∧ s.value = vs
  | .error e, .error e' => e = e'
  | _, _ => False

theorem bvGet_value (s : BState) (x : Nat) :
    bvGet s.value x = match s.env x with | some v => .ok (v.value s.heap) | none => .error .panic := by
  simp only [bvGet, BState.value]
  cases s.env x <;> rfl

theorem simB_new {s : BState} {R : Nat → Nat → Bool} (hs : s.Ok R) (x : Nat) (r : Res BInt) (out : Res (Heap × HInt))
    (h : New s.heap r out) : SimB (ownBuf R x) (out.map (s.bind x)) (r.map (bvSet s.value x)) := by
  rcases r with e | v <;> rcases out with e' | ⟨h', z⟩
  · exact Eq.symm h
  · exact h.elim
  · exact h.elim
  · obtain ⟨e1, e2, e3, e4⟩ := h
    refine ⟨⟨fun y w hy => ?_, fun y1 y2 w1 w2 hy1 hy2 hne ha => ?_⟩, funext fun y => ?_⟩
    · simp only [BState.bind] at hy
      split at hy
      · cases hy; exact e4
      · exact Nat.lt_of_lt_of_le (hs.1 y w hy) e1.1
    · simp only [BState.bind] at hy1 hy2
      split at hy1 <;> split at hy2
      · omega
      · cases hy1; have := hs.1 _ _ hy2; omega
      · cases hy2; have := hs.1 _ _ hy1; omega
      · rename_i n1 n2
        simp [ownBuf, n1, n2, hs.2 _ _ _ _ hy1 hy2 hne ha]
    · simp only [BState.value, BState.bind, bvSet]
      split
      · simp [e2]
      · cases hy : s.env y with
        | none => rfl
        | some w => simp only [Option.map_some, e1.value (hs.1 y w hy)]

theorem simB_fresh {s : BState} {R : Nat → Nat → Bool} (hs : s.Ok R) (x : Nat) (v : BInt) :
    SimB (ownBuf R x) (.ok (s.bind x (hbNew s.heap v))) (.ok (bvSet s.value x v)) :=
  simB_new hs x (.ok v) (.ok (hbNew s.heap v)) (hbNew_new _ _)

theorem simB_upd {s : BState} {R : Nat → Nat → Bool} (hs : s.Ok R) (x : Nat) (v : HInt) (hx : s.env x = some v)
    (hR : ∀ z, R x z = false) (r : Res BInt) (out : Res (Heap × HInt)) (h : Upd s.heap v.addr r out) :
    SimB R (out.map (s.bind x)) (r.map (bvSet s.value x)) := by
  rcases r with e | r <;> rcases out with e' | ⟨h', z⟩
  · exact Eq.symm h
  · exact h.elim
  · exact h.elim
  · obtain ⟨e1, e2, e3, e4⟩ := h
    refine ⟨⟨fun y w hy => ?_, fun y1 y2 w1 w2 hy1 hy2 hne ha => ?_⟩, funext fun y => ?_⟩
    · simp only [BState.bind] at hy
      split at hy
      · cases hy; have := hs.1 _ _ hx; show z.addr < h'.next; omega
      · exact Nat.lt_of_lt_of_le (hs.1 y w hy) e3
    · simp only [BState.bind] at hy1 hy2
      split at hy1 <;> split at hy2
      · omega
      · rename_i n1 n2
        cases hy1; subst n1
        exact hs.2 _ _ _ _ hx hy2 hne (by rw [← ha, e1])
      · rename_i n1 n2
        cases hy2; subst n2
        exact hs.2 _ _ _ _ hy1 hx hne (by rw [ha, e1])
      · exact hs.2 _ _ _ _ hy1 hy2 hne ha
    · simp only [BState.value, BState.bind, bvSet]
      split
      · simp [e2]
      · rename_i hne
        cases hy : s.env y with
        | none => rfl
        | some w =>
          have hw : w.addr ≠ v.addr := by
            intro ha
            have := hs.2 x y v w hx hy (Ne.symm hne) ha.symm
            rw [hR] at this
            cases this
          simp only [Option.map_some, HInt.value, e4 _ (hs.1 y w hy) hw]

theorem simB_flag {s : BState} {R : Nat → Nat → Bool} (hs : s.Ok R) (x : Nat) (v : HInt) (hx : s.env x = some v) (n : Bool) :
    SimB R (.ok (s.bind x (s.heap, ⟨v.addr, n⟩))) (.ok (bvSet s.value x ⟨(v.value s.heap).nat, n⟩)) := by
  refine ⟨⟨fun y w hy => ?_, fun y1 y2 w1 w2 hy1 hy2 hne ha => ?_⟩, funext fun y => ?_⟩
  · simp only [BState.bind] at hy
    split at hy
    · cases hy; exact hs.1 x v hx
    · exact hs.1 y w hy
  · simp only [BState.bind] at hy1 hy2
    split at hy1 <;> split at hy2
    · omega
    · rename_i n1 n2; cases hy1; subst n1; exact hs.2 _ _ _ _ hx hy2 hne ha
    · rename_i n1 n2; cases hy2; subst n2; exact hs.2 _ _ _ _ hy1 hx hne ha
    · exact hs.2 _ _ _ _ hy1 hy2 hne ha
  · simp only [BState.value, BState.bind, bvSet]
    split <;> rfl

theorem bstep_sim {s : BState} {R : Nat → Nat → Bool} (hs : s.Ok R) (c : BCmd) (hc : c.owned R) :
    SimB (c.shares R) (c.step s) (c.vstep s.value) := by
  cases c with
  | fromI64 x n =>
    simp only [BCmd.step, BCmd.vstep, bind, Except.bind]
    cases RMath.fromI64 n with
    | error e => exact rfl
    | ok v => exact simB_fresh hs x v
  | fromWords x v => exact simB_fresh hs x _
  | parse x t =>
    simp only [BCmd.step, BCmd.vstep, bind, Except.bind]
    cases bParse t with
    | error e => exact rfl
    | ok v => cases v with
      | none => exact rfl
      | some v => exact simB_fresh hs x v
  | clone x y =>
    simp only [BCmd.step, BCmd.vstep, bind, Except.bind, bvGet_value, BState.get]
    cases hy : s.env y with
    | none => exact rfl
    | some v =>
      refine ⟨⟨fun z w hz => ?_, fun y1 y2 w1 w2 hy1 hy2 hne ha => ?_⟩, funext fun z => ?_⟩
      · simp only [BState.bind] at hz
        split at hz
        · cases hz; exact hs.1 y v hy
        · exact hs.1 z w hz
      · simp only [BCmd.shares]
        simp only [BState.bind] at hy1 hy2
        split at hy1 <;> split at hy2
        · omega
        · rename_i n1 n2
          cases hy1; subst n1
          split
          · rename_i e; subst e; exact hs.2 _ _ _ _ hy hy2 hne ha
          · by_cases e : y2 = y
            · subst e; simp [n2]
            · simp [n2, hs.2 _ _ _ _ hy hy2 (Ne.symm e) ha]
        · rename_i n1 n2
          cases hy2; subst n2
          split
          · rename_i e; subst e; exact hs.2 _ _ _ _ hy1 hy hne ha
          · by_cases e : y1 = y
            · subst e; simp [n1]
            · simp [n1, hs.2 _ _ _ _ hy1 hy e ha]
        · rename_i n1 n2
          split
          · exact hs.2 _ _ _ _ hy1 hy2 hne ha
          · simp [n1, n2, hs.2 _ _ _ _ hy1 hy2 hne ha]
      · simp only [BState.value, BState.bind, bvSet]
        split <;> rfl
  | deepClone x y =>
    simp only [BCmd.step, BCmd.vstep, bind, Except.bind, bvGet_value, BState.get]
    cases s.env y with
    | none => exact rfl
    | some v => exact simB_fresh hs x _
  | neg x y =>
    simp only [BCmd.step, BCmd.vstep, bind, Except.bind, bvGet_value, BState.get]
    cases s.env y with
    | none => exact rfl
    | some v => exact simB_fresh hs x _
  | not x y =>
    simp only [BCmd.step, BCmd.vstep, bind, Except.bind, bvGet_value, BState.get]
    cases s.env y with
    | none => exact rfl
    | some v => exact simB_fresh hs x _
  | abs x y =>
    simp only [BCmd.step, BCmd.vstep, bind, Except.bind, bvGet_value, BState.get]
    cases s.env y with
    | none => exact rfl
    | some v => exact simB_fresh hs x _
  | setNatural x =>
    simp only [BCmd.step, BCmd.vstep, bind, Except.bind, bvGet_value, BState.get]
    cases hx : s.env x with
    | none => exact rfl
    | some v =>
      have := simB_flag hs x v hx (bSetNatural (v.value s.heap)).neg
      simp only
      have e : (⟨(v.value s.heap).nat, (bSetNatural (v.value s.heap)).neg⟩ : BInt) = bSetNatural (v.value s.heap) := by
        unfold bSetNatural; split <;> rfl
      rwa [e] at this
  | setNegative x =>
    simp only [BCmd.step, BCmd.vstep, bind, Except.bind, bvGet_value, BState.get]
    cases hx : s.env x with
    | none => exact rfl
    | some v =>
      have := simB_flag hs x v hx (bSetNegative (v.value s.heap)).neg
      simp only
      have e : (⟨(v.value s.heap).nat, (bSetNegative (v.value s.heap)).neg⟩ : BInt) = bSetNegative (v.value s.heap) := by
        unfold bSetNegative; split <;> rfl
      rwa [e] at this
  | op o z x y =>
    simp only [BCmd.step, BCmd.vstep, bind, Except.bind, bvGet_value, BState.get]
    cases hx : s.env x with
    | none => exact rfl
    | some v =>
      cases hy : s.env y with
      | none => exact rfl
      | some w =>
        have := simB_new hs z _ _ (hiOp_new o s.heap v w (hs.1 y w hy))
        simp only
        revert this
        cases hiOp o s.heap v w <;> cases o.fn (bDeepClone (v.value s.heap)) (w.value s.heap) <;> exact fun h => h
  | assign o x y =>
    simp only [BCmd.step, BCmd.vstep, bind, Except.bind, bvGet_value, BState.get]
    cases hx : s.env x with
    | none => exact rfl
    | some v =>
      cases hy : s.env y with
      | none => exact rfl
      | some w =>
        have hu : Upd s.heap v.addr (o.fn (v.value s.heap) (w.value s.heap)) (hiAssign o s.heap v w) := by
          by_cases hyx : y = x
          · have hvw : w = v := by rw [hyx, hx] at hy; cases hy; rfl
            subst hvw
            rcases hc.2 hyx with rfl | rfl | rfl
            · exact hbAssign_arith (op := .add) (by decide) _ _ _
            · exact hbAssign_arith (op := .sub) (by decide) _ _ _
            · exact hbAssign_arith (op := .mul) (by decide) _ _ _
          · refine hiAssign_ne o s.heap v w (hs.1 x v hx) (hs.1 y w hy) fun ha => ?_
            have := hs.2 x y v w hx hy (Ne.symm hyx) ha.symm
            rw [hc.1] at this
            cases this
        have := simB_upd hs x v hx hc.1 _ _ hu
        simp only
        revert this
        cases hiAssign o s.heap v w <;> cases o.fn (v.value s.heap) (w.value s.heap) <;> exact fun h => h
  | shift left z x n =>
    simp only [BCmd.step, BCmd.vstep, bind, Except.bind, bvGet_value, BState.get]
    cases hx : s.env x with
    | none => exact rfl
    | some v => exact simB_new hs z _ _ (hbShift_new left s.heap v n)
  | shiftAssign left x n =>
    simp only [BCmd.step, BCmd.vstep, bind, Except.bind, bvGet_value, BState.get]
    cases hx : s.env x with
    | none => exact rfl
    | some v => exact simB_upd hs x v hx hc _ _ (hbShift_upd left s.heap v n)

/-- Programs in which every statement that changes a variable in place changes one that shares its buffer with no other variable
(`Owned`, which is decided by the text of the program) behave as if every variable held a value of its own: the same panics, and
the same values at the end.  Missing from the full property: programs that change a shared variable, see `C97_violated`. -/
theorem C97_programs_partial (s : BState) (R : Nat → Nat → Bool) (hs : s.Ok R) (cs : List BCmd) (hc : Owned R cs) :
    SameB (bRun s cs) (bvRun s.value cs) := by
  induction cs generalizing s R with
  | nil => exact fun x => rfl
  | cons c cs ih =>
    have := bstep_sim hs c hc.1
    simp only [bRun, bvRun]
    revert this
    rcases c.step s with e | s' <;> rcases c.vstep s.value with e' | vs
    · exact fun h => h
    · exact fun h => h.elim
    · exact fun h => h.elim
    · rintro ⟨h1, rfl⟩
      exact ih s' _ h1 hc.2

/-- the statement is no shallow clone, and it does not use a variable as both operands of an assigning operator -/
def BCmd.plain : BCmd → Prop
  | .clone _ _ => False
  | .assign _ x y => y ≠ x
  | _ => True

theorem owned_of_plain {R : Nat → Nat → Bool} (hR : ∀ a b, R a b = false) (cs : List BCmd) (hc : ∀ c ∈ cs, c.plain) :
    Owned R cs := by
  induction cs generalizing R with
  | nil => trivial
  | cons c cs ih =>
    have h1 := hc c (by simp)
    have h2 : ∀ c ∈ cs, c.plain := fun c h => hc c (by simp [h])
    have ho : ∀ x a b, ownBuf R x a b = false := fun x a b => by simp [ownBuf, hR]
    cases c
    case clone => exact h1.elim
    case assign o x y => exact ⟨⟨fun z => hR x z, fun h => absurd h h1⟩, ih hR h2⟩
    case shiftAssign left x n => exact ⟨fun z => hR x z, ih hR h2⟩
    case setNatural => exact ⟨trivial, ih hR h2⟩
    case setNegative => exact ⟨trivial, ih hR h2⟩
    all_goals exact ⟨trivial, ih (ho _) h2⟩

/-- no variable is bound -/
def emptyB : BState := ⟨fun _ => none, ⟨fun _ => [], 0⟩⟩

theorem emptyB_ok : emptyB.Ok (fun _ _ => false) := by
  constructor
  · intro x v h; cases h
  · intro x y v w h; cases h

/-- Programs without shallow clones behave as if every variable held a value of its own. -/
theorem C97_no_clones_partial (cs : List BCmd) (hc : ∀ c ∈ cs, c.plain) :
    SameB (bRun emptyB cs) (bvRun (fun _ => none) cs) :=
  C97_programs_partial emptyB _ emptyB_ok cs (owned_of_plain (fun _ _ => rfl) cs hc)

/-- A shallow clone changes with the original: after `let a = 3; let b = a.clone(); let c = 5; a -= c` the variable `b` shows 2. -/
theorem C97_violated : ∃ s vs, bRun emptyB [.fromI64 0 3#64, .clone 1 0, .fromI64 2 5#64, .assign (.nat .sub) 0 2] = .ok s ∧
    bvRun (fun _ => none) [.fromI64 0 3#64, .clone 1 0, .fromI64 2 5#64, .assign (.nat .sub) 0 2] = .ok vs ∧
    vs 1 = some ⟨[3#32], false⟩ ∧ s.value 1 = some ⟨[2#32], false⟩ ∧ s.value 0 = some ⟨[2#32], true⟩ :=
  ⟨_, _, rfl, rfl, by decide +kernel, by decide +kernel, by decide +kernel⟩

/-- a program with clones that meets the hypotheses: the clone is kept while the original is replaced, then changed in place -/
def sampleBP : List BCmd :=
  [.fromI64 0 (BitVec.ofInt 64 (-7)), .clone 1 0, .op (.nat .mul) 0 0 1, .fromI64 2 3#64, .assign .divEuclid 1 2, .assign .remEuclid 0 2,
   .assign (.nat .add) 1 1, .shiftAssign true 1 2, .setNatural 1]

example : emptyB.Ok (fun _ _ => false) ∧ Owned (fun _ _ => false) sampleBP ∧
    ∃ s, bRun emptyB sampleBP = .ok s ∧ s.value 0 = some ⟨[1#32], false⟩ ∧ s.value 1 = some ⟨[24#32], false⟩ := by
  refine ⟨emptyB_ok, ?_, _, rfl, by decide +kernel, by decide +kernel⟩
  simp [Owned, sampleBP, BCmd.owned, BCmd.shares, ownBuf]
  intro z _ h _
  exact h

end RMath
