import Verif.Lemmas.FloatHeap

/-!
# Properties C86–C89: clones of a `Float` share the mantissa

The objects are `HFloat`s: the fields of a `Float` and a reference to the buffer of the mantissa on a heap
(`Verif.Model.FloatHeap`).  `x.view h` is what the object shows.  `fOp`, `fOpAssign`, `fSetPrecision` etc. are the operations on
values, for which the properties C61–C71 and C75–C78 are proved.  Programs are lists of statements (`FCmd`) over variables;
`s.value x` is what the variable `x` shows.
-/

namespace RMath

/-- a heap with three mantissas: `0.5`, `0.9375`, and `0.5` again -/
def sampleFHp : Heap := ⟨fun a => if a = 1 then [0#32, 0xf0000000#32] else [0#32, 0x80000000#32], 3⟩
/-- 8, in buffer 0 -/
def sampleF8 : HFloat := ⟨.toNearestEven, .exact, .finite, false, 64, 4, 0⟩
/-- 15, in buffer 1 -/
def sampleF15 : HFloat := ⟨.toNearestEven, .exact, .finite, false, 64, 4, 1⟩

/-! ## C86 value operators -/

/-- `x op y`, whatever `x` and `y` share: no buffer that existed before changes, so no `Float` that existed before shows
anything else than before; the result is that of the operation on values, in a buffer of its own. -/
theorem C86_value_operators (op : FOp) (h : Heap) (x y : HFloat) (hx : x.addr < h.next) (hy : y.addr < h.next) (v : FloatV)
    (hv : fOp op.fn (x.view h) (y.view h) = .ok v) :
    ∃ h' z, hfOp op h x y = .ok (h', z) ∧ z.view h' = v ∧ h.next ≤ z.addr ∧ z.addr < h'.next ∧
      ∀ w : HFloat, w.addr < h.next → w.view h' = w.view h := by
  have := hfOp_spec op h x y hy
  rw [hv] at this
  rcases he : hfOp op h x y with e | ⟨h', z⟩ <;> rw [he] at this
  · exact this.elim
  · obtain ⟨n1, n2, n3, n4⟩ := this
    exact ⟨h', z, rfl, n1, n2, n3, fun w hw => by simp only [HFloat.view, n4 _ hw]⟩

/-- The operator panics exactly if the operation on values does. -/
theorem C86_panics_iff (op : FOp) (h : Heap) (x y : HFloat) (hx : x.addr < h.next) (hy : y.addr < h.next) (e : Err) :
    hfOp op h x y = .error e ↔ fOp op.fn (x.view h) (y.view h) = .error e := by
  have := hfOp_spec op h x y hy
  revert this
  rcases fOp op.fn (x.view h) (y.view h) with e' | v <;> rcases hfOp op h x y with e'' | ⟨h', z⟩
  · intro h; rw [show e' = e'' from h]; simp
  · exact fun h => h.elim
  · exact fun h => h.elim
  · simp

/-- 8 + 15 with the objects of the sample -/
example : ∃ h' z, hfOp .add sampleFHp sampleF8 sampleF15 = .ok (h', z) ∧ fval (z.view h') = 23 ∧
    sampleF8.view h' = sampleF8.view sampleFHp ∧ sampleF15.view h' = sampleF15.view sampleFHp := by
  obtain ⟨h', z, h1, h2, _, _, h5⟩ := C86_value_operators .add sampleFHp sampleF8 sampleF15 (by decide) (by decide)
    (⟨.toNearestEven, .exact, .finite, false, 64, 5, [0#32, 0xb8000000#32]⟩ : FloatV) (by decide +kernel)
  refine ⟨h', z, h1, ?_, h5 _ (by decide), h5 _ (by decide)⟩
  rw [h2]
  norm_num [fval, val]

/-! ## C87 assigning operators -/

/-- `x op= y` when the two have buffers of their own: `x` shows the result of the operation on values, and no `Float`
with another buffer than that of `x` changes. -/
theorem C87_unshared (op : FOp) (h : Heap) (x y : HFloat) (hx : x.addr < h.next) (hy : y.addr < h.next)
    (hxy : y.addr ≠ x.addr) (v : FloatV) (hv : fOpAssign op.fn (x.view h) (y.view h) = .ok v) :
    ∃ h' x', hfAssign op h x y = .ok (h', x') ∧ x'.view h' = v ∧
      ∀ w : HFloat, w.addr < h.next → w.addr ≠ x.addr → w.view h' = w.view h := by
  have := hfAssign_spec op h x y hx hy (fun _ e => absurd e hxy)
  rw [hv] at this
  obtain ⟨h', x', e1, e2, _, _, _, e6⟩ := fupd_ok this
  exact ⟨h', x', e1, e2, fun w hw hne => by simp only [HFloat.view, e6 _ hw hne]⟩

/-- `x op= x.clone()` for all four operators: `x` shows what the operation on values gives for two independent copies. -/
theorem C87_own_clone (op : FOp) (h : Heap) (x : HFloat) (hx : x.addr < h.next) (v : FloatV)
    (hv : fOpAssign op.fn (x.view h) (x.view h) = .ok v) :
    ∃ h' x', hfAssign op h x x = .ok (h', x') ∧ x'.view h' = v ∧
      ∀ w : HFloat, w.addr < h.next → w.addr ≠ x.addr → w.view h' = w.view h := by
  have := hfAssign_spec op h x x hx hx (fun _ _ hf => ⟨hf, le_refl _⟩)
  rw [hv] at this
  obtain ⟨h', x', e1, e2, _, _, _, e6⟩ := fupd_ok this
  exact ⟨h', x', e1, e2, fun w hw hne => by simp only [HFloat.view, e6 _ hw hne]⟩

/-- `x op= y` when the two share the buffer but are no longer equal (a setter was called on one of the clones): the result
is that of the operation on what they show, for `*=` and `/=` always, for `+=` and `-=` if `y` is not finite, or `x` is
finite and its exponent is not above that of `y`.  Missing: the other cases, see the theorems that follow. -/
theorem C87_shared_partial (op : FOp) (h : Heap) (x y : HFloat) (hx : x.addr < h.next) (hs : y.addr = x.addr)
    (hf : op = .add ∨ op = .sub → y.form = .finite → x.form = .finite ∧ x.exp ≤ y.exp) (v : FloatV)
    (hv : fOpAssign op.fn (x.view h) (y.view h) = .ok v) :
    ∃ h' x', hfAssign op h x y = .ok (h', x') ∧ x'.view h' = v ∧
      ∀ w : HFloat, w.addr < h.next → w.addr ≠ x.addr → w.view h' = w.view h := by
  have := hfAssign_spec op h x y hx (by omega) (fun ho _ => hf ho)
  rw [hv] at this
  obtain ⟨h', x', e1, e2, _, _, _, e6⟩ := fupd_ok this
  exact ⟨h', x', e1, e2, fun w hw hne => by simp only [HFloat.view, e6 _ hw hne]⟩

/-- the empty state -/
def emptyF : FState := ⟨fun _ => none, ⟨fun _ => [], 0⟩⟩

/-- The code violates C87: `let a = Float::from(15u64); let b = a.clone(); a.set_precision(3); a += b.clone()`.  Before the
addition `a` shows 16 and `b` shows 8 (see `C88_violated`), and `a` becomes 32: the shift that aligns `a` with `b` shifts the
mantissa of `b` too. -/
theorem C87_violated : ∃ s s', fRun emptyF [.fromU64 0 15#64, .clone 1 0, .setPrecision 0 3] = .ok s ∧
    (s.value 0).map fval = some 16 ∧ (s.value 1).map fval = some 8 ∧
    FCmd.step s (.assign .add 0 1) = .ok s' ∧ (s'.value 0).map fval = some 32 := by
  refine ⟨_, _, rfl, ?_, ?_, rfl, ?_⟩
  · show some (fval (⟨.toNearestEven, .above, .finite, false, 3, 5, [0x80000000#32]⟩ : FloatV)) = _; norm_num [fval, val]
  · show some (fval (⟨.toNearestEven, .exact, .finite, false, 64, 4, [0x80000000#32]⟩ : FloatV)) = _; norm_num [fval, val]
  · show some (fval (⟨.toNearestEven, .exact, .finite, false, 3, 6, [0x80000000#32]⟩ : FloatV)) = _; norm_num [fval, val]

/-- … and `let b = a.clone(); a.set_precision(0); a += b.clone()`: the sum of 0 and 15 is an object that claims to be finite
and has no mantissa, and `b` has lost its mantissa as well. -/
theorem C87_violated_zero : ∃ s s', fRun emptyF [.fromU64 0 15#64, .clone 1 0, .setPrecision 0 0] = .ok s ∧
    (s.value 0).map fval = some 0 ∧ (s.value 1).map fval = some 15 ∧
    FCmd.step s (.assign .add 0 1) = .ok s' ∧ (s'.value 0).map FloatV.form = some .finite ∧
    (s'.value 0).map FloatV.mant = some [] ∧ (s'.value 1).map FloatV.mant = some [] := by
  refine ⟨_, _, rfl, ?_, ?_, rfl, rfl, rfl, rfl⟩
  · show some (fval (⟨.toNearestEven, .below, .zero, false, 0, 4, [0#32, 0xf0000000#32]⟩ : FloatV)) = _; simp [fval]
  · show some (fval (⟨.toNearestEven, .exact, .finite, false, 64, 4, [0#32, 0xf0000000#32]⟩ : FloatV)) = _; norm_num [fval, val]

/-- 15 *= 8 with different buffers, and 15 += 15 with its own clone -/
example : (∃ h' x', hfAssign .mul sampleFHp sampleF15 sampleF8 = .ok (h', x') ∧ fval (x'.view h') = 120) ∧
    (∃ h' x', hfAssign .add sampleFHp sampleF15 sampleF15 = .ok (h', x') ∧ fval (x'.view h') = 30 ∧
      sampleF8.view h' = sampleF8.view sampleFHp) := by
  constructor
  · obtain ⟨h', z, h1, h2, _⟩ := C87_unshared .mul sampleFHp sampleF15 sampleF8 (by decide) (by decide) (by decide)
      (⟨.toNearestEven, .exact, .finite, false, 64, 7, [0#32, 0xf0000000#32]⟩ : FloatV) (by decide +kernel)
    refine ⟨h', z, h1, ?_⟩
    rw [h2]
    norm_num [fval, val]
  · obtain ⟨h', z, h1, h2, h3⟩ := C87_own_clone .add sampleFHp sampleF15 (by decide)
      (⟨.toNearestEven, .exact, .finite, false, 64, 5, [0#32, 0xf0000000#32]⟩ : FloatV) (by decide +kernel)
    refine ⟨h', z, h1, ?_, h3 _ (by decide) (by decide)⟩
    rw [h2]
    norm_num [fval, val]

/-- 15 and a clone of it whose exponent was set to 6 (60): 15 += 60 with one buffer -/
example : ∃ h' x', hfAssign .add sampleFHp sampleF15 { sampleF15 with exp := 6 } = .ok (h', x') ∧ fval (x'.view h') = 75 := by
  obtain ⟨h', z, h1, h2, _⟩ := C87_shared_partial .add sampleFHp sampleF15 { sampleF15 with exp := 6 } (by decide) rfl
    (fun _ _ => ⟨rfl, by decide⟩) (⟨.toNearestEven, .exact, .finite, false, 64, 7, [0#32, 0x96000000#32]⟩ : FloatV) (by decide +kernel)
  refine ⟨h', z, h1, ?_⟩
  rw [h2]
  norm_num [fval, val]

/-! ## C88 clones -/

/-- What a clone of the receiver shows after `x op= y`: either exactly what it showed before, or its own mode, accuracy,
kind, sign, precision and exponent together with the mantissa of the result. -/
theorem C88_clone_sees (op : FOp) (h : Heap) (x y w : HFloat) (hx : x.addr < h.next) (hy : y.addr < h.next)
    (hxy : y.addr ≠ x.addr) (hw : w.addr = x.addr) (v : FloatV) (hv : fOpAssign op.fn (x.view h) (y.view h) = .ok v) :
    ∃ h' x', hfAssign op h x y = .ok (h', x') ∧ x'.view h' = v ∧
      (w.view h' = w.view h ∨ w.view h' = { w.view h with mant := v.mant }) := by
  have := hfAssign_spec op h x y hx hy (fun _ e => absurd e hxy)
  rw [hv] at this
  obtain ⟨h', x', e1, e2, e3, _, _, _⟩ := fupd_ok this
  refine ⟨h', x', e1, e2, ?_⟩
  rcases e3 with e | ⟨_, e⟩
  · right
    rw [← e2]
    simp only [HFloat.view, hw, e]
  · left
    simp only [HFloat.view, hw, e]

/-- What a clone of the receiver shows after `x.set_precision(p)`: the new mantissa with its own exponent. -/
theorem C88_clone_sees_precision (h : Heap) (x w : HFloat) (hx : x.addr < h.next) (hw : w.addr = x.addr) (p : Nat)
    (v : FloatV) (hv : fSetPrecision (x.view h) p = .ok v) :
    ∃ h' x', hfSetPrecision h x p = .ok (h', x') ∧ x'.view h' = v ∧ w.view h' = { w.view h with mant := v.mant } := by
  refine ⟨h.write x.addr v.mant, HFloat.of v x.addr, ?_, ?_, ?_⟩
  · simp only [hfSetPrecision, hfSelf, hv, Except.map]; rfl
  · exact put_view h x v
  · simp [HFloat.view, hw]

/-- a clone `w` of the receiver 15, with another sign, and `x *= 8` -/
example : ∃ h' x', hfAssign .mul sampleFHp sampleF15 sampleF8 = .ok (h', x') ∧
    fval (HFloat.view h' { sampleF15 with neg := true }) = -15 := by
  obtain ⟨h', z, h1, h2, h3⟩ := C88_clone_sees .mul sampleFHp sampleF15 sampleF8 { sampleF15 with neg := true } (by decide)
    (by decide) (by decide) rfl
    (⟨.toNearestEven, .exact, .finite, false, 64, 7, [0#32, 0xf0000000#32]⟩ : FloatV) (by decide +kernel)
  refine ⟨h', z, h1, ?_⟩
  rcases h3 with h3 | h3 <;> rw [h3] <;> norm_num [fval, val, HFloat.view, sampleF15, sampleFHp]
example : ∃ h' x', hfSetPrecision sampleFHp sampleF15 3 = .ok (h', x') ∧
    fval (HFloat.view h' { sampleF15 with neg := true }) = -8 := by
  obtain ⟨h', z, h1, h2, h3⟩ := C88_clone_sees_precision sampleFHp sampleF15 { sampleF15 with neg := true } (by decide) rfl 3
    (⟨.toNearestEven, .above, .finite, false, 3, 5, [0x80000000#32]⟩ : FloatV) (by decide +kernel)
  refine ⟨h', z, h1, ?_⟩
  rw [h3]
  norm_num [fval, val, HFloat.view, sampleF15, sampleFHp]

/-- The code violates C88: after `let a = Float::from(15u64); let b = a.clone();` both show 15; `a.set_precision(3)` rounds
`a` to 16, and `b` shows 8. -/
theorem C88_violated : ∃ s s', fRun emptyF [.fromU64 0 15#64, .clone 1 0] = .ok s ∧
    (s.value 0).map fval = some 15 ∧ (s.value 1).map fval = some 15 ∧
    FCmd.step s (.setPrecision 0 3) = .ok s' ∧ (s'.value 0).map fval = some 16 ∧ (s'.value 1).map fval = some 8 := by
  refine ⟨_, _, rfl, ?_, ?_, rfl, ?_, ?_⟩
  · show some (fval (⟨.toNearestEven, .exact, .finite, false, 64, 4, [0#32, 0xf0000000#32]⟩ : FloatV)) = _; norm_num [fval, val]
  · show some (fval (⟨.toNearestEven, .exact, .finite, false, 64, 4, [0#32, 0xf0000000#32]⟩ : FloatV)) = _; norm_num [fval, val]
  · show some (fval (⟨.toNearestEven, .above, .finite, false, 3, 5, [0x80000000#32]⟩ : FloatV)) = _; norm_num [fval, val]
  · show some (fval (⟨.toNearestEven, .exact, .finite, false, 64, 4, [0x80000000#32]⟩ : FloatV)) = _; norm_num [fval, val]

/-! ### Programs without shallow clones -/

/-- what a statement does if every variable holds a value of its own -/
def FCmd.vstep (s : Nat → Option FloatV) : FCmd → Res (Nat → Option FloatV)
  | .fromU64 x u => do
    let v ← fFromU64 u
    .ok (set s x v)
  | .fromF64 x f => do
    let v ← fFromF64 f
    .ok (set s x v)
  | .clone x y => do
    let v ← get s y
    .ok (set s x v)
  | .deepClone x y => do
    let v ← get s y
    .ok (set s x (fDeepClone v))
  | .neg x y => do
    let v ← get s y
    .ok (set s x (fNeg v))
  | .abs x y => do
    let v ← get s y
    .ok (set s x (fAbs v))
  | .op o z x y => do
    let v ← get s x
    let w ← get s y
    let r ← fOp o.fn v w
    .ok (set s z r)
  | .assign o x y => do
    let v ← get s x
    let w ← get s y
    let r ← fOpAssign o.fn v w
    .ok (set s x r)
  | .setPrecision x p => do
    let v ← get s x
    let r ← fSetPrecision v p
    .ok (set s x r)
  | .setMode x m => do
    let v ← get s x
    .ok (set s x (fSetMode v m))
  | .setMantExp x y e => do
    let _ ← get s x
    let w ← get s y
    let r ← fSetMantExp w e
    .ok (set s x r)
where
  /-- the value of a variable -/
  get (s : Nat → Option FloatV) (x : Nat) : Res FloatV := match s x with | some v => .ok v | none => .error .panic
  /-- store a value in a variable -/
  set (s : Nat → Option FloatV) (x : Nat) (v : FloatV) : Nat → Option FloatV := fun y => if y = x then some v else s y

/-- a program on values -/
def vRun : (Nat → Option FloatV) → List FCmd → Res (Nat → Option FloatV)
  | s, [] => .ok s
  | s, c :: cs =>
    match c.vstep s with
    | .ok s => vRun s cs
    | .error e => .error e

/-- no two variables share a buffer; all buffers are allocated -/
def FState.Separate (s : FState) : Prop :=
  (∀ x v, s.env x = some v → v.addr < s.heap.next) ∧
  ∀ x y v w, s.env x = some v → s.env y = some w → x ≠ y → v.addr ≠ w.addr

/-- the statement does not make a second reference to a buffer, and does not hand the receiver to `set_mant_exp` -/
def FCmd.unshared : FCmd → Prop
  | .clone _ _ => False
  | .setMantExp x y _ => x ≠ y
  | _ => True

/-- the same outcome: the same error, or states in which every variable shows its value -/
def SameOutcome (out : Res FState) (vout : Res (Nat → Option FloatV)) : Prop :=
  match out, vout with
  | .ok s, .ok vs => ∀ x, s.value x = vs x
  | .error e, .error e' => e = e'
  | _, _ => False

/-- the same outcome, with separate variables -/
def SepOutcome (out : Res FState) (vout : Res (Nat → Option FloatV)) : Prop :=
  match out, vout with
  | .ok s, .ok vs => s.Separate ∧ ∀ x, s.value x = vs x
  | .error e, .error e' => e = e'
  | _, _ => False

theorem bind_new {s : FState} (hs : s.Separate) (x : Nat) (h' : Heap) (z : HFloat) (v : FloatV)
    (h1 : z.view h' = v) (h2 : s.heap.next ≤ z.addr) (h3 : z.addr < h'.next)
    (h4 : ∀ c, c < s.heap.next → h'.buf c = s.heap.buf c) :
    SepOutcome (.ok (s.bind x (h', z))) (.ok (FCmd.vstep.set s.value x v)) := by
  refine ⟨⟨fun y w hw => ?_, fun y y' w w' hw hw' hne => ?_⟩, fun y => ?_⟩
  · simp only [FState.bind] at hw ⊢
    split at hw
    · cases hw; exact h3
    · have := hs.1 y w hw; omega
  · simp only [FState.bind] at hw hw'
    split at hw <;> split at hw'
    · rename_i a b; exact absurd (a.trans b.symm) hne
    · cases hw; have := hs.1 y' w' hw'; omega
    · cases hw'; have := hs.1 y w hw; omega
    · exact hs.2 y y' w w' hw hw' hne
  · simp only [FState.bind, FState.value, FCmd.vstep.set]
    split
    · rw [← h1]; rfl
    · rcases he : s.env y with _ | w
      · rfl
      · have := hs.1 y w he
        simp only [Option.map, HFloat.view, h4 _ this]

theorem bind_upd {s : FState} (hs : s.Separate) (x : Nat) (u : HFloat) (hu : s.env x = some u) (r : Res FloatV)
    (out : Res (Heap × HFloat)) (hf : FUpd s.heap u r out) :
    SepOutcome (out.bind fun p => .ok (s.bind x p)) (r.bind fun v => .ok (FCmd.vstep.set s.value x v)) := by
  rcases r with e | v <;> rcases out with e' | ⟨h', z⟩
  · exact (show e = e' from hf).symm
  · exact hf.elim
  · exact hf.elim
  · obtain ⟨h1, h2, h3, h4, h5⟩ := hf
    refine ⟨⟨fun y w hw => ?_, fun y y' w w' hw hw' hne => ?_⟩, fun y => ?_⟩
    · simp only [FState.bind] at hw ⊢
      split at hw
      · cases hw; exact h3
      · have := hs.1 y w hw; omega
    · have key : ∀ y w, y ≠ x → s.env y = some w → z.addr ≠ w.addr := by
        intro y w hy hw
        have b := hs.1 y w hw
        have := hs.2 y x w u hw hu hy
        rcases h2 with h2 | h2
        · rw [h2]; exact this.symm
        · omega
      simp only [FState.bind] at hw hw'
      split at hw <;> split at hw'
      · rename_i a b; exact absurd (a.trans b.symm) hne
      · rename_i a b; cases hw; exact key y' w' b hw'
      · rename_i a b; cases hw'; exact (key y w a hw).symm
      · exact hs.2 y y' w w' hw hw' hne
    · simp only [FState.bind, FState.value, FCmd.vstep.set]
      split
      · rw [← h1]; rfl
      · rename_i hy
        rcases he : s.env y with _ | w
        · rfl
        · have := hs.1 y w he
          simp only [Option.map, HFloat.view, h5 _ this (hs.2 y x w u he hu hy)]

theorem get_value {s : FState} {x : Nat} :
    (∃ u, s.env x = some u ∧ s.get x = .ok u ∧ FCmd.vstep.get s.value x = .ok (u.view s.heap)) ∨
    (s.get x = .error .panic ∧ FCmd.vstep.get s.value x = .error .panic) := by
  unfold FState.get FCmd.vstep.get FState.value
  rcases s.env x with _ | u
  · right; simp
  · left; exact ⟨u, rfl, by simp, by simp⟩

theorem step_refines {s : FState} (hs : s.Separate) (c : FCmd) (hc : c.unshared) :
    SepOutcome (c.step s) (c.vstep s.value) := by
  cases c with
  | clone x y => exact hc.elim
  | fromU64 x u =>
    simp only [FCmd.step, FCmd.vstep, bind, Except.bind]
    rcases fFromU64 u with e | v
    · exact rfl
    · obtain ⟨h1, h2, h3, h4⟩ := fnew_new s.heap v
      exact bind_new hs x _ _ v h1 h2 h3 h4
  | fromF64 x f =>
    simp only [FCmd.step, FCmd.vstep, bind, Except.bind]
    rcases fFromF64 f with e | v
    · exact rfl
    · obtain ⟨h1, h2, h3, h4⟩ := fnew_new s.heap v
      exact bind_new hs x _ _ v h1 h2 h3 h4
  | deepClone x y =>
    simp only [FCmd.step, FCmd.vstep, bind]
    rcases get_value (s := s) (x := y) with ⟨u, _, e1, e2⟩ | ⟨e1, e2⟩ <;> rw [e1, e2]
    · obtain ⟨h1, h2, h3, h4⟩ := fnew_new s.heap (fDeepClone (u.view s.heap))
      exact bind_new hs x _ _ _ h1 h2 h3 h4
    · exact rfl
  | neg x y =>
    simp only [FCmd.step, FCmd.vstep, bind]
    rcases get_value (s := s) (x := y) with ⟨u, _, e1, e2⟩ | ⟨e1, e2⟩ <;> rw [e1, e2]
    · obtain ⟨h1, h2, h3, h4⟩ := fnew_new s.heap (fDeepClone (u.view s.heap))
      refine bind_new hs x (hfDeepClone s.heap u).1 _ (fNeg (u.view s.heap)) ?_ h2 h3 h4
      have : fNeg (u.view s.heap) = { fDeepClone (u.view s.heap) with neg := !(fDeepClone (u.view s.heap)).neg } := rfl
      rw [this, ← h1]
      rfl
    · exact rfl
  | abs x y =>
    simp only [FCmd.step, FCmd.vstep, bind]
    rcases get_value (s := s) (x := y) with ⟨u, _, e1, e2⟩ | ⟨e1, e2⟩ <;> rw [e1, e2]
    · obtain ⟨h1, h2, h3, h4⟩ := fnew_new s.heap (fDeepClone (u.view s.heap))
      refine bind_new hs x (hfDeepClone s.heap u).1 _ (fAbs (u.view s.heap)) ?_ h2 h3 h4
      have : fAbs (u.view s.heap) = { fDeepClone (u.view s.heap) with neg := false } := rfl
      rw [this, ← h1]
      rfl
    · exact rfl
  | op o z x y =>
    simp only [FCmd.step, FCmd.vstep, bind]
    rcases get_value (s := s) (x := x) with ⟨u, _, e1, e2⟩ | ⟨e1, e2⟩ <;> rw [e1, e2]
    · rcases get_value (s := s) (x := y) with ⟨w, ew, e3, e4⟩ | ⟨e3, e4⟩
      · simp only [Except.bind, e3, e4]
        have := hfOp_spec o s.heap u w (hs.1 y w ew)
        revert this
        rcases fOp o.fn (u.view s.heap) (w.view s.heap) with e | v <;> rcases hfOp o s.heap u w with e' | ⟨h', q⟩
        · intro h; exact (show e = e' from h).symm
        · exact fun h => h.elim
        · exact fun h => h.elim
        · rintro ⟨h1, h2, h3, h4⟩
          exact bind_new hs z _ _ v h1 h2 h3 h4
      · simp only [Except.bind, e3, e4]; exact rfl
    · exact rfl
  | assign o x y =>
    simp only [FCmd.step, FCmd.vstep, bind]
    rcases get_value (s := s) (x := x) with ⟨u, eu, e1, e2⟩ | ⟨e1, e2⟩ <;> rw [e1, e2]
    · rcases get_value (s := s) (x := y) with ⟨w, ew, e3, e4⟩ | ⟨e3, e4⟩
      · rw [e3, e4]
        refine bind_upd hs x u eu _ _ (hfAssign_spec o s.heap u w (hs.1 x u eu) (hs.1 y w ew) ?_)
        intro _ ha hf
        by_cases hxy : x = y
        · subst hxy
          rw [eu] at ew
          cases ew
          exact ⟨hf, le_refl _⟩
        · exact absurd ha.symm (hs.2 x y u w eu ew hxy)
      · rw [e3, e4]; exact rfl
    · exact rfl
  | setPrecision x p =>
    simp only [FCmd.step, FCmd.vstep, bind]
    rcases get_value (s := s) (x := x) with ⟨u, eu, e1, e2⟩ | ⟨e1, e2⟩ <;> rw [e1, e2]
    · exact bind_upd hs x u eu _ _ (hfSetPrecision_spec s.heap u p (hs.1 x u eu))
    · exact rfl
  | setMode x m =>
    simp only [FCmd.step, FCmd.vstep, bind]
    rcases get_value (s := s) (x := x) with ⟨u, eu, e1, e2⟩ | ⟨e1, e2⟩ <;> rw [e1, e2]
    · exact bind_upd hs x u eu _ _ (hfSetMode_spec s.heap u m (hs.1 x u eu))
    · exact rfl
  | setMantExp x y e =>
    simp only [FCmd.step, FCmd.vstep, bind]
    rcases get_value (s := s) (x := x) with ⟨u, eu, e1, e2⟩ | ⟨e1, e2⟩ <;> rw [e1, e2]
    · rcases get_value (s := s) (x := y) with ⟨w, ew, e3, e4⟩ | ⟨e3, e4⟩
      · rw [e3, e4]
        exact bind_upd hs x u eu _ _ (hfSetMantExp_spec s.heap u w e (hs.1 x u eu) (hs.2 y x w u ew eu (Ne.symm hc)))
      · rw [e3, e4]; exact rfl
    · exact rfl

theorem run_refines (cs : List FCmd) : ∀ {s : FState}, s.Separate → (∀ c ∈ cs, c.unshared) →
    SepOutcome (fRun s cs) (vRun s.value cs) := by
  induction cs with
  | nil => intro s hs _; exact ⟨hs, fun _ => rfl⟩
  | cons c cs ih =>
    intro s hs hc
    have := step_refines hs c (hc c (by simp))
    rw [fRun, vRun]
    revert this
    rcases c.step s with e | s' <;> rcases c.vstep s.value with e' | vs
    · exact fun h => h
    · exact fun h => h.elim
    · exact fun h => h.elim
    · rintro ⟨h1, h2⟩
      have : vs = s'.value := funext fun x => (h2 x).symm
      subst this
      exact ih h1 fun c hc' => hc c (List.mem_cons_of_mem _ hc')

/-- Programs in which no variable is bound to a clone (`deep_clone` instead), and that do not hand the receiver to
`set_mant_exp`, behave as if every variable held a value of its own: they panic exactly if the program on values panics, and
otherwise every variable shows the value.  `x op= x.clone()` is allowed.  Missing for the full property: programs with
`let b = a.clone()`, for which it is false, see `C88_violated`. -/
theorem C88_independent_partial (s : FState) (hs : s.Separate) (cs : List FCmd) (hc : ∀ c ∈ cs, c.unshared) :
    SameOutcome (fRun s cs) (vRun s.value cs) := by
  have := run_refines cs hs hc
  revert this
  rcases fRun s cs with e | s' <;> rcases vRun s.value cs with e' | vs
  · exact fun h => h
  · exact fun h => h.elim
  · exact fun h => h.elim
  · exact fun h => h.2

/-- a program of that kind: 15, a copy of it, rounding the original, subtracting, squaring the difference -/
def sampleFP : List FCmd := [.fromU64 0 15#64, .deepClone 1 0, .setPrecision 0 3, .assign .sub 0 1, .fromU64 2 7#64,
  .setMode 2 .toZero, .assign .div 2 1, .assign .add 0 0, .setMantExp 1 0 3, .neg 4 1, .op .mul 5 4 4]

example : emptyF.Separate ∧ (∀ c ∈ sampleFP, c.unshared) ∧ ∃ s', fRun emptyF sampleFP = .ok s' ∧
    (s'.value 0).map fval = some 2 ∧ (s'.value 1).map fval = some 16 ∧ (s'.value 5).map fval = some 256 := by
  refine ⟨⟨fun x v h => ?_, fun x y v w h => ?_⟩, by simp [sampleFP, FCmd.unshared], _, rfl, ?_, ?_, ?_⟩
  · exact absurd h (by simp [emptyF])
  · exact absurd h (by simp [emptyF])
  · show some (fval (⟨.toNearestEven, .exact, .finite, false, 3, 2, [0x80000000#32]⟩ : FloatV)) = _; norm_num [fval, val]
  · show some (fval (⟨.toNearestEven, .exact, .finite, false, 3, 5, [0x80000000#32]⟩ : FloatV)) = _; norm_num [fval, val]
  · show some (fval (⟨.toNearestEven, .exact, .finite, false, 3, 9, [0x80000000#32]⟩ : FloatV)) = _; norm_num [fval, val]

/-! ## C89 `set_mant_exp` -/

/-- If the receiver and the argument do not share a buffer, `z.set_mant_exp(m, e)` gives `z` the value of `m · 2^e`
(`C75`), and `m` keeps its value.  Missing: the receiver itself as the argument, see `C89_violated`. -/
theorem C89_unshared_partial (h : Heap) (z m : HFloat) (e : Int) (hz : z.addr < h.next) (hm : m.addr < h.next)
    (hne : m.addr ≠ z.addr) (v : FloatV) (hv : fSetMantExp (m.view h) e = .ok v) :
    ∃ h' z', hfSetMantExp h z m e = .ok (h', z') ∧ z'.view h' = v ∧ m.view h' = m.view h := by
  have := hfSetMantExp_spec h z m e hz hne
  rw [hv] at this
  obtain ⟨h', z', e1, e2, _, _, _, e6⟩ := fupd_ok this
  exact ⟨h', z', e1, e2, by simp only [HFloat.view, e6 _ hm hne]⟩

/-- The code violates C89: whenever receiver and argument share the buffer and are finite, and the exponent is in range,
the call leaves an object that claims to be finite and has no mantissa (the value it denotes is 0); the argument has lost its
mantissa too. -/
theorem C89_violated (h : Heap) (z m : HFloat) (e : Int) (hs : m.addr = z.addr) (hf : m.form = .finite)
    (h1 : minExp ≤ isizeSatAdd m.exp e) (h2 : isizeSatAdd m.exp e ≤ maxExp) :
    ∃ h' z', hfSetMantExp h z m e = .ok (h', z') ∧ z'.form = .finite ∧ (z'.view h').mant = [] ∧ fval (z'.view h') = 0 ∧
      (m.view h').mant = [] := by
  have hc : hCopy h z.addr m.addr = h.write z.addr [] := by
    simp [hCopy, hs]
  have hr : ∀ x : FloatV, x.mant = [] → fSetExpAndRound x (isizeSatAdd m.exp e) 0 =
      .ok { x with form := .finite, exp := isizeSatAdd m.exp e, acc := .exact } := by
    intro x hx
    unfold fSetExpAndRound
    rw [if_neg (by omega), if_neg (by omega)]
    unfold fRound
    simp [hx]
  refine ⟨h.write z.addr [], ⟨m.mode, .exact, .finite, m.neg, m.prec, isizeSatAdd m.exp e, z.addr⟩, ?_, rfl, ?_, ?_, ?_⟩
  · unfold hfSetMantExp
    simp only [hc, hf, if_true, hfSelf]
    rw [hr _ (by simp [HFloat.view])]
    simp [Except.map, HFloat.put, HFloat.view, HFloat.of]
  · simp [HFloat.view]
  · simp [HFloat.view, fval, val]
  · simp [HFloat.view, hs]

/-- the sample: `let a = Float::from(15u64); a.set_mant_exp(a.clone(), 3)` should be 120 and is 0 -/
example : ∃ s', fRun emptyF [.fromU64 0 15#64, .setMantExp 0 0 3] = .ok s' ∧ (s'.value 0).map FloatV.form = some .finite ∧
    (s'.value 0).map fval = some 0 := by
  refine ⟨_, rfl, rfl, ?_⟩
  show some (fval (⟨.toNearestEven, .exact, .finite, false, 64, 7, []⟩ : FloatV)) = _; norm_num [fval, val]
example : ∃ h' z', hfSetMantExp sampleFHp sampleF8 sampleF15 (-3) = .ok (h', z') ∧ fval (z'.view h') = 15 / 8 := by
  obtain ⟨h', z', h1, h2, _⟩ := C89_unshared_partial sampleFHp sampleF8 sampleF15 (-3) (by decide) (by decide) (by decide)
    (⟨.toNearestEven, .exact, .finite, false, 64, 1, [0#32, 0xf0000000#32]⟩ : FloatV) (by decide +kernel)
  refine ⟨h', z', h1, ?_⟩
  rw [h2]
  norm_num [fval, val]

end RMath
