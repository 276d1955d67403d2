import Verif.Props.BigInt
import Verif.Lemmas.Heap

/-!
# Properties C33–C35, C73: clones share their buffer

The objects are references to buffers of a heap (`Verif.Model.Heap`).  `h.buf a` is the content of the buffer `a`; the
allocated buffers are those with `a < h.next`.  Two `Nat`s are clones of each other when they refer to the same buffer.
In C35 programs are lists of statements over variables; `s.value x` is what the variable `x` shows in the state `s`.
-/

namespace RMath

/-- a sample heap with three buffers: `7·2^64 + 5`, `2^64 - 1`, and the first number again -/
def sampleH : Heap := ⟨fun a => if a = 1 then sampleB else sampleA, 3⟩

/-! ## C33 value operators -/

/-- `a op b` changes no buffer that existed before, so no operand and no clone of an operand, whatever they share; the
result is in a new buffer. -/
theorem C33_operands_unchanged (op : NatOp) (h h' : Heap) (a b r : Nat) (hb : b < h.next)
    (he : hOp op h a b = .ok (h', r)) : (∀ c, c < h.next → h'.buf c = h.buf c) ∧ h.next ≤ r ∧ r < h'.next := by
  rw [hOp_spec op h hb] at he
  cases hv : opNatR op.fn (h.buf a) (h.buf b) with
  | error e => rw [hv] at he; cases he
  | ok v =>
    rw [hv] at he; cases he
    exact ⟨fun c hc => Heap.alloc_buf_ne _ _ (by omega), Nat.le_refl _, Nat.lt_succ_self _⟩

/-- For numbers `a op b` returns, for all sharing patterns, and the new buffer holds the result, in canonical form. -/
theorem C33_result (op : NatOp) (h : Heap) (a b : Nat) (hb : b < h.next) (ca : Canon (h.buf a)) (cb : Canon (h.buf b))
    (hz : op = .div ∨ op = .rem → val (h.buf b) ≠ 0) :
    ∃ h' r, hOp op h a b = .ok (h', r) ∧ Canon (h'.buf r) ∧ val (h'.buf r) = op.spec (val (h.buf a)) (val (h.buf b)) := by
  rw [hOp_spec op h hb]
  obtain ⟨m, hm⟩ := canon_iff_enc.1 ca
  obtain ⟨n, hn⟩ := canon_iff_enc.1 cb
  rw [hn, val_enc] at hz
  rw [hm, hn, val_enc, val_enc]
  refine ⟨(h.alloc (enc (op.spec m n))).1, h.next, ?_, ?_⟩
  · simp only [opNatR, isNan_enc, Bool.or_self, Bool.false_eq_true, if_false, deepClone_enc]
    rw [fn_enc op m n hz]
    rfl
  · rw [Heap.alloc_buf]
    exact ⟨canon_enc _, val_enc _⟩

/-- the same for the operators of `BigInt` -/
theorem C33_bigint (op : NatOp) (h : Heap) (x y : HInt) (hy : y.addr < h.next) (h' : Heap) (r : HInt)
    (he : hbOp op h x y = .ok (h', r)) :
    (∀ c, c < h.next → h'.buf c = h.buf c) ∧ h.next ≤ r.addr ∧
    op.bfn (bDeepClone (x.value h)) (y.value h) = .ok (r.value h') := by
  have := hbOp_spec op h x y hy
  rw [he] at this
  revert this
  rcases op.bfn (bDeepClone (x.value h)) (y.value h) with e | v
  · exact fun h => h.elim
  · rintro ⟨h1, h2, _, h4⟩
    exact ⟨fun c hc => h4 c hc (by omega), by omega, by rw [h2]⟩

/-- an operator with a machine word or a shift on the right -/
theorem C33_word {α : Type} (f : Words → α → Words) (h : Heap) (a : Nat) (y : α) :
    (∀ c, c < h.next → (hOpPrim f h a y).1.buf c = h.buf c) ∧ (hOpPrim f h a y).2 = h.next ∧
    (hOpPrim f h a y).1.buf h.next = opPrim f (h.buf a) y := by
  rw [hOpPrim_eq]
  exact ⟨fun c hc => Heap.alloc_buf_ne _ _ (by omega), rfl, Heap.alloc_buf _ _⟩

example : ∃ h' r, hOp .mul sampleH 0 2 = .ok (h', r) ∧ (∀ c, c < 3 → h'.buf c = sampleH.buf c) ∧
    val (h'.buf r) = (7 * 2 ^ 64 + 5) * (7 * 2 ^ 64 + 5) := by
  obtain ⟨h', r, h1, _, h3⟩ := C33_result .mul sampleH 0 2 (by decide) sampleA_canon sampleA_canon (by simp)
  exact ⟨h', r, h1, (C33_operands_unchanged .mul sampleH h' 0 2 r (by decide) h1).1, h3.trans (by decide)⟩

/-! ## C34 assigning operators on a shared buffer -/

/-- `a op= b` for numbers in different buffers: only the buffer of `a` changes, and it gets the result. -/
theorem C34_unshared (op : NatOp) (h : Heap) (a b : Nat) (hab : b ≠ a) (ca : Canon (h.buf a)) (cb : Canon (h.buf b))
    (hz : op = .div ∨ op = .rem → val (h.buf b) ≠ 0) :
    ∃ h', hAssign op h a b = .ok h' ∧ Canon (h'.buf a) ∧ val (h'.buf a) = op.spec (val (h.buf a)) (val (h.buf b)) ∧
      ∀ c, c ≠ a → h'.buf c = h.buf c := by
  rw [hAssign_ne op h hab]
  obtain ⟨m, hm⟩ := canon_iff_enc.1 ca
  obtain ⟨n, hn⟩ := canon_iff_enc.1 cb
  rw [hn, val_enc] at hz
  refine ⟨h.write a (enc (op.spec m n)), ?_, ?_⟩
  · simp only [hm, hn, assignNatR, isNan_enc, Bool.or_self, Bool.false_eq_true, if_false]
    rw [fn_enc op m n hz]
    rfl
  · rw [Heap.write_buf, hm, hn, val_enc, val_enc, val_enc]
    exact ⟨canon_enc _, rfl, fun c hc => Heap.write_buf_ne _ _ hc⟩

/-- `a op= a.clone()` has the effect of `a op= c` with an unshared copy `c` of `a`, for every operator but `%`.
Missing for the full property: `%=`, see `C34_rem_panics` and `C34_rem_hangs`. -/
theorem C34_shared_partial (op : NatOp) (h : Heap) (a c : Nat) (hop : op ≠ .rem) (hca : c ≠ a) (hc : h.buf c = h.buf a)
    (ca : Canon (h.buf a)) : hAssign op h a a = hAssign op h a c := by
  obtain ⟨m, hm⟩ := canon_iff_enc.1 ca
  by_cases hd : op = .div
  · subst hd
    rw [hAssign_div h hca, hc, hm]
    unfold hAssign
    simp only [hm, isNan_enc, Bool.or_self, Bool.false_eq_true, if_false, assignNatR, NatOp.inner, hDivInner]
    by_cases h0 : m = 0
    · subst h0
      rw [divInner, ← enc_zero, eqv_enc]
      simp [Except.map]
    · rw [divInner_enc h0, ← enc_zero, eqv_enc, if_neg (by simpa using h0), if_pos trivial, Nat.div_self (by omega), enc_one]
      rfl
  · rw [hAssign_alias hd hop, hAssign_alias hd hop, hc]

/-- In numbers: doubling, zero, square, one, the number itself (`&`, `|`) and zero (`^`). -/
theorem C34_shared_value_partial (op : NatOp) (h : Heap) (a : Nat) (hop : op ≠ .rem) (ca : Canon (h.buf a))
    (hz : op = .div → val (h.buf a) ≠ 0) :
    ∃ h', hAssign op h a a = .ok h' ∧ Canon (h'.buf a) ∧
      val (h'.buf a) = op.selfSpec (val (h.buf a)) ∧ ∀ c, c ≠ a → h'.buf c = h.buf c := by
  obtain ⟨m, hm⟩ := canon_iff_enc.1 ca
  rw [hm, val_enc] at hz
  by_cases hd : op = .div
  · subst hd
    refine ⟨h.write a (enc 1), ?_, by rw [Heap.write_buf]; exact canon_enc 1, by rw [Heap.write_buf, val_enc]; rfl,
      fun c hc => Heap.write_buf_ne _ _ hc⟩
    unfold hAssign
    simp only [hm, isNan_enc, Bool.or_self, Bool.false_eq_true, if_false, NatOp.inner, hDivInner]
    rw [← enc_zero, eqv_enc, if_neg (by simpa using hz rfl), if_pos trivial, enc_one]
  · rw [hAssign_alias hd hop, hm]
    refine ⟨h.write a (enc (op.spec m m)), ?_, ?_⟩
    · simp only [assignNatR, isNan_enc, Bool.or_self, Bool.false_eq_true, if_false]
      rw [fn_enc op m m (by rintro (h | h) <;> contradiction)]
      rfl
    · rw [Heap.write_buf, val_enc, val_enc]
      refine ⟨canon_enc _, ?_, fun c hc => Heap.write_buf_ne _ _ hc⟩
      cases op <;> simp [NatOp.spec, NatOp.selfSpec] at hop hd ⊢
      · omega
      · ring

/-- NaN stays NaN. -/
theorem C34_nan (op : NatOp) (h : Heap) (a : Nat) (ha : h.buf a = NaN) :
    ∃ h', hAssign op h a a = .ok h' ∧ h'.buf a = NaN := by
  refine ⟨h.write a [], ?_, by rw [Heap.write_buf]⟩
  simp [hAssign, ha, isNan]

/-- The code violates C34: for every number from 2 on, `a %= a.clone()` panics (the loop compares with the divisor it is
overwriting), … -/
theorem C34_rem_panics (h : Heap) (a : Nat) (ca : Canon (h.buf a)) (ha : 2 ≤ val (h.buf a)) :
    hAssign .rem h a a = .error .panic := by
  obtain ⟨m, hm⟩ := canon_iff_enc.1 ca
  rw [hm, val_enc] at ha
  unfold hAssign
  simp only [hm, isNan_enc, Bool.or_self, Bool.false_eq_true, if_false, NatOp.inner]
  exact hRem_alias_panic hm ha _

/-- … and for 1 it never ends: the loop runs out of every number of rounds. -/
theorem C34_rem_hangs (h : Heap) (a : Nat) (ca : Canon (h.buf a)) (ha : val (h.buf a) = 1) (rounds : Nat) :
    hRemInner rounds h a a = .error .hang := by
  obtain ⟨m, hm⟩ := canon_iff_enc.1 ca
  rw [hm, val_enc] at ha
  subst ha
  exact hRem_alias_hang hm rounds

example : hAssign .sub sampleH 0 0 = hAssign .sub sampleH 0 2 :=
  C34_shared_partial .sub sampleH 0 2 (by decide) (by decide) rfl sampleA_canon
example : hAssign .rem sampleH 0 0 = .error .panic := C34_rem_panics sampleH 0 sampleA_canon (by decide)
example : ∃ h', hAssign .rem sampleH 0 2 = .ok h' ∧ val (h'.buf 0) = 0 := by
  obtain ⟨h', h1, _, h3, _⟩ := C34_unshared .rem sampleH 0 2 (by decide) sampleA_canon sampleA_canon (by decide)
  exact ⟨h', h1, h3.trans (by decide)⟩
example : hRemInner 1000 ⟨fun _ => [1#32], 1⟩ 0 0 = .error .hang :=
  C34_rem_hangs _ 0 ⟨by simp, by simp⟩ (by decide) 1000

/-! ## C35 clone and deep_clone -/

/-- After `let x = y.clone()`, whatever the program does, `x` and `y` show the same number, unless one of the two
variables is bound anew. -/
theorem C35_clone_shares (s s' : State) (x y : Nat) (cs : List Cmd)
    (hcs : ∀ c ∈ cs, c.defines ≠ some x ∧ c.defines ≠ some y) (he : run s (.clone x y :: cs) = .ok s') :
    s'.value x = s'.value y := by
  simp only [run, Cmd.step] at he
  have h1 := run_env cs he x fun c hc => (hcs c hc).1
  have h2 := run_env cs he y fun c hc => (hcs c hc).2
  unfold State.value
  rw [h1, h2]
  simp [State.bind]

/-- An assignment through the clone is seen through the original: after `let x = y.clone(); x op= z.clone()` the variable
`y` shows the result. -/
theorem C35_clone_visible (s : State) (op : NatOp) (x y z : Nat) (hxy : y ≠ x) (hzx : z ≠ x) (hz : s.env z ≠ s.env y)
    (cy : Canon (s.value y)) (cz : Canon (s.value z)) (h0 : op = .div ∨ op = .rem → val (s.value z) ≠ 0) :
    ∃ s', run s [.clone x y, .assign op x z] = .ok s' ∧
      val (s'.value y) = op.spec (val (s.value y)) (val (s.value z)) := by
  obtain ⟨h', e1, _, e3, _⟩ := C34_unshared op s.heap (s.env y) (s.env z) hz cy cz h0
  refine ⟨⟨fun v => if v = x then s.env y else s.env v, h'⟩, ?_, ?_⟩
  · simp only [run, Cmd.step, State.bind, if_pos, if_neg hzx, e1]
  · simp only [State.value, if_neg hxy]
    exact e3

/-- A program that assigns only to variables of a group, binds only variables of the group, and clones only variables of
the group (it may read all others) does not change what the variables outside of the group show, provided that the group
shares no buffer with the rest when the program starts. -/
theorem C35_frame (S : Nat → Prop) (s s' : State) (cs : List Cmd) (hw : s.WF) (hs : s.Separated S)
    (hcs : ∀ c ∈ cs, c.inside S) (he : run s cs = .ok s') (v : Nat) (hv : ¬S v) : s'.value v = s.value v := by
  obtain ⟨e1, e2⟩ := (run_ok cs hw hs hcs he).2.2 v hv
  unfold State.value
  rw [e1, e2]

/-- After `let x = y.deep_clone()` nothing that is done to `x` is seen through another variable, … -/
theorem C35_deep_clone_keeps_others (s s' : State) (x y v : Nat) (cs : List Cmd) (hw : s.WF)
    (hcs : ∀ c ∈ cs, c.inside (· = x)) (he : run s (.deepClone x y :: cs) = .ok s') (hv : v ≠ x) :
    s'.value v = s.value v := by
  rw [run] at he
  have hst : (Cmd.deepClone x y).step s =
      .ok (s.bind x (s.heap.alloc (deepClone (s.value y))).2 (s.heap.alloc (deepClone (s.value y))).1) := rfl
  rw [hst] at he
  have hk : StepOk s _ (fun w => w = x ∨ True) := stepB hw (fun u v _ h => absurd (Or.inr trivial) h) (Or.inr trivial)
    (deepClone (s.value y)) (x := x)
  have hsep : (s.bind x (s.heap.alloc (deepClone (s.value y))).2 (s.heap.alloc (deepClone (s.value y))).1).Separated (· = x) := by
    intro u w hu hw'
    have := hw w
    simp only [State.bind, Heap.alloc, if_pos hu, if_neg hw']
    omega
  have := C35_frame (· = x) _ s' cs hk.1 hsep hcs he v hv
  rw [this]
  have hb := hw v
  simp only [State.value, State.bind, if_neg hv]
  exact Heap.alloc_buf_ne _ _ (by omega)

/-- … and nothing that is done to the other variables is seen through `x`, as long as `x` itself is not assigned to, bound
anew, or cloned; it goes on showing the (trimmed) number that was copied. -/
theorem C35_deep_clone_isolates (s s' : State) (x y : Nat) (cs : List Cmd) (hw : s.WF)
    (hcs : ∀ c ∈ cs, c.inside (· ≠ x)) (he : run s (.deepClone x y :: cs) = .ok s') :
    s'.value x = deepClone (s.value y) ∧ (Canon (s.value y) → s'.value x = s.value y) := by
  rw [run] at he
  have hst : (Cmd.deepClone x y).step s =
      .ok (s.bind x (s.heap.alloc (deepClone (s.value y))).2 (s.heap.alloc (deepClone (s.value y))).1) := rfl
  rw [hst] at he
  have hk : StepOk s _ (fun w => w = x ∨ True) := stepB hw (fun u v _ h => absurd (Or.inr trivial) h) (Or.inr trivial)
    (deepClone (s.value y)) (x := x)
  have hsep : (s.bind x (s.heap.alloc (deepClone (s.value y))).2 (s.heap.alloc (deepClone (s.value y))).1).Separated (· ≠ x) := by
    intro u w hu hw'
    rw [not_not] at hw'
    have := hw u
    simp only [State.bind, Heap.alloc, if_pos hw', if_neg hu]
    omega
  have := C35_frame (· ≠ x) _ s' cs hk.1 hsep hcs he x (by simp)
  have h2 : s'.value x = deepClone (s.value y) := by
    rw [this]
    simp only [State.value, State.bind, if_pos]
    exact Heap.alloc_buf _ _
  refine ⟨h2, fun hc => ?_⟩
  rw [h2]
  exact trim_of_canon hc

/-- The invariant `WF` holds initially and is kept by all programs. -/
theorem C35_wf (s s' : State) (cs : List Cmd) (hw : s.WF) (he : run s cs = .ok s') : s'.WF :=
  (run_ok (S := fun _ => True) cs hw (fun _ _ _ h => absurd trivial h)
    (fun c _ => by cases c <;> simp [Cmd.inside]) he).1

/-- a sample state with three variables, all different -/
def sampleS : State := ⟨fun v => if v = 1 then 1 else if v = 2 then 2 else 0, sampleH⟩

theorem sampleS_wf : sampleS.WF := by
  intro v
  simp only [sampleS, sampleH]
  split
  · omega
  · split <;> omega

/-- the samples: `let 5 = 0.clone(); 5 -= 1` is seen through variable 0 … -/
example : ∃ s', run sampleS [.clone 5 0, .subWord 5 1#32] = .ok s' ∧ s'.value 0 = [4#32, 0#32, 7#32] ∧
    s'.value 5 = s'.value 0 := by
  refine ⟨_, rfl, by decide, by decide⟩
/-- … and with `deep_clone` it is not; and assigning to variable 0 is not seen through 5. -/
example : ∃ s', run sampleS [.deepClone 5 0, .subWord 5 1#32] = .ok s' ∧ s'.value 0 = sampleA ∧
    s'.value 5 = [4#32, 0#32, 7#32] := ⟨_, rfl, by decide, by decide⟩
example : (∀ c ∈ [Cmd.subWord 5 1#32, .assign .xor 5 1], c.inside (· = 5)) ∧
    ∀ c ∈ [Cmd.subWord 0 1#32, .assign .xor 0 5, .clone 3 0, .op .mul 4 5 5], c.inside (· ≠ 5) := by
  simp [Cmd.inside]

/-! ## C73 `BigInt`: the clones share the magnitude but not the sign -/

/-- `x op= y` for `+ - *`, shared or not: the object gets the result and no buffer but that of `x` changes. -/
theorem C73_arith (h : Heap) (x y : HInt) (hx : CanonI (x.value h)) (hy : CanonI (y.value h)) :
    (∃ h' x', hbAssign .add h x y = .ok (h', x') ∧ x'.addr = x.addr ∧ CanonI (x'.value h') ∧
      ival (x'.value h') = ival (x.value h) + ival (y.value h) ∧ ∀ c, c < h.next → c ≠ x.addr → h'.buf c = h.buf c) ∧
    (∃ h' x', hbAssign .sub h x y = .ok (h', x') ∧ x'.addr = x.addr ∧ CanonI (x'.value h') ∧
      ival (x'.value h') = ival (x.value h) - ival (y.value h) ∧ ∀ c, c < h.next → c ≠ x.addr → h'.buf c = h.buf c) ∧
    (∃ h' x', hbAssign .mul h x y = .ok (h', x') ∧ x'.addr = x.addr ∧ CanonI (x'.value h') ∧
      ival (x'.value h') = ival (x.value h) * ival (y.value h) ∧ ∀ c, c < h.next → c ≠ x.addr → h'.buf c = h.buf c) := by
  have h1 := hbAssign_arith (op := .add) (by simp) h x y
  have h2 := hbAssign_arith (op := .sub) (by simp) h x y
  have h3 := hbAssign_arith (op := .mul) (by simp) h x y
  obtain ⟨a, ha⟩ := canonI_iff_encI.1 hx
  obtain ⟨b, hb⟩ := canonI_iff_encI.1 hy
  rw [ha, hb] at h1 h2 h3 ⊢
  simp only [NatOp.bfn, bAddInner_encI, bSubInner_encI, bMulInner_encI] at h1 h2 h3
  refine ⟨?_, ?_, ?_⟩
  · obtain ⟨h', x', e0, e1, e2, e4⟩ := upd_ok h1
    exact ⟨h', x', e0, e1, by rw [e2]; exact canonI_encI _, by rw [e2]; simp, e4⟩
  · obtain ⟨h', x', e0, e1, e2, e4⟩ := upd_ok h2
    exact ⟨h', x', e0, e1, by rw [e2]; exact canonI_encI _, by rw [e2]; simp, e4⟩
  · obtain ⟨h', x', e0, e1, e2, e4⟩ := upd_ok h3
    exact ⟨h', x', e0, e1, by rw [e2]; exact canonI_encI _, by rw [e2]; simp, e4⟩

/-- What a clone `x` of the assigned object shows after `-=`: the new magnitude with the old sign.  If the difference has
the other sign, the clone shows the negated difference. -/
theorem C73_clone_half_updated (h : Heap) (x y : HInt) (hx : CanonI (x.value h)) (hy : CanonI (y.value h))
    (hs : if x.neg then 0 < ival (x.value h) - ival (y.value h) else ival (x.value h) - ival (y.value h) < 0) :
    ∃ h' x', hbAssign .sub h x y = .ok (h', x') ∧ ival (x'.value h') = ival (x.value h) - ival (y.value h) ∧
      ival (x.value h') = -(ival (x.value h) - ival (y.value h)) := by
  obtain ⟨h', x', e1, e2, e3, e4, _⟩ := (C73_arith h x y hx hy).2.1
  refine ⟨h', x', e1, e4, ?_⟩
  rw [← e4]
  rw [← e4] at hs
  have hv : (x.value h').nat = (x'.value h').nat := by simp only [HInt.value, e2]
  unfold ival at hs ⊢
  rw [hv]
  show (if x.neg = true then _ else _) = _
  by_cases hn : x.neg = true <;> by_cases hm : (x'.value h').neg = true <;> simp [hn, hm] at hs ⊢ <;> omega

/-- a number with two objects that share it -/
def threeH : Heap := ⟨fun a => if a = 1 then [5#32] else [3#32], 2⟩

/-- `let b = a.clone(); a -= 5` with `a = 3`: now `a = -2`, and `b`, which was 3, shows 2. -/
example : ∃ h' a', hbAssign .sub threeH ⟨0, false⟩ ⟨1, false⟩ = .ok (h', a') ∧ ival (a'.value h') = -2 ∧
    ival (HInt.value h' ⟨0, false⟩) = 2 := by
  obtain ⟨h', x', h1, h2, h3⟩ := C73_clone_half_updated threeH ⟨0, false⟩ ⟨1, false⟩
    ⟨⟨by decide, by decide⟩, by decide⟩ ⟨⟨by decide, by decide⟩, by decide⟩ (by decide)
  exact ⟨h', x', h1, h2.trans (by decide), h3.trans (by decide)⟩

theorem seen_shared (h : Heap) (x : HInt) (m : Nat) (hm : h.buf x.addr = enc (m + 1)) :
    ∃ v, natSubW (seenBy h x x) 1#32 = v ∧ Almost v ∧ val v = (m - 1) + (1 - m) := by
  refine ⟨_, rfl, ?_⟩
  have e : seenBy h x x = decW (enc (m + 1)) := by rw [seenBy, if_pos rfl, hm]
  obtain ⟨d1, d2, d3⟩ := decW_spec m
  have ht : deepClone (decW (enc (m + 1))) = enc m := by
    have := trim_eq_enc d3.1
    rw [d1] at this
    exact this
  have : natSubW (seenBy h x x) 1#32 = subInnerBasic (enc m) 1#32 := by
    rw [e]
    have hn : isNan (decW (enc (m + 1))) = false := by simp [isNan, d3.1]
    simp only [natSubW, opPrim, hn, ht, Bool.false_eq_true, if_false]
  rw [this]
  refine ⟨?_, by rw [subInnerBasic_val (canon_enc m), val_enc]; rfl⟩
  rcases Nat.eq_zero_or_pos m with h0 | h0
  · subst h0
    rw [enc_zero]
    exact ⟨by decide, by decide⟩
  · obtain ⟨k, rfl⟩ : ∃ k, m = k + 1 := ⟨m - 1, by omega⟩
    have := (decW_spec k).2.2
    have e2 : decW (enc (k + 1)) = subInnerBasic (enc (k + 1)) 1#32 := by simp [decW, assignPrim]
    rwa [e2] at this

/-- The bit operations of a negative number with a clone of itself, in closed form: the code reads `|x| - 1` from the left
operand after it has been decremented, but computes `(|x| - 1) - 1` for the right one. -/
theorem C73_bits_shared (h : Heap) (x : HInt) (m : Nat) (hx : x.addr < h.next) (hc : CanonI (x.value h))
    (hv : ival (x.value h) = -((m : Int) + 1)) :
    (∃ h' x', hbAssign .and h x x = .ok (h', x') ∧
      ival (x'.value h') = -(((m ||| ((m - 1) + (1 - m)) : Nat) : Int) + 1)) ∧
    (∃ h' x', hbAssign .or h x x = .ok (h', x') ∧
      ival (x'.value h') = -(((m &&& ((m - 1) + (1 - m)) : Nat) : Int) + 1)) ∧
    (∃ h' x', hbAssign .xor h x x = .ok (h', x') ∧ ival (x'.value h') = ((m ^^^ ((m - 1) + (1 - m)) : Nat) : Int)) := by
  obtain ⟨a, ha⟩ := canonI_iff_encI.1 hc
  rw [ha, ival_encI] at hv
  subst hv
  have hneg : x.neg = true := by
    have := congrArg BInt.neg ha
    simp only [HInt.value, encI] at this
    rw [this]; simp; omega
  have hb : h.buf x.addr = enc (m + 1) := by
    have := congrArg BInt.nat ha
    simp only [HInt.value, encI] at this
    rw [this]; congr 1
  obtain ⟨v, hv, va, vv⟩ := seen_shared h x m hb
  obtain ⟨d1, d2, d3⟩ := decW_spec m
  have h1 := hbAnd_neg h x x hx hx hneg hneg
  have h2 := hbOr_neg h x x hx hx hneg hneg
  have h3 := hbXor_neg h x x hx hx hneg hneg
  rw [hv, hb] at h1 h2 h3
  rw [assignNat_ne d3.1 va.1] at h1 h2 h3
  rw [incW_eq (or_almost d3 va), bitorInner_val, d1, vv] at h1
  rw [and_eq d3.1 va.1, d1, vv, incW_eq (almost_of_canon (canon_enc _)), val_enc] at h2
  rw [xor_eq d3.1, d1, vv] at h3
  refine ⟨?_, ?_, ?_⟩
  · obtain ⟨h', x', e0, e1, e2, e4⟩ := upd_ok h1
    refine ⟨h', x', e0, ?_⟩
    rw [e2]
    simp [ival, isNan_enc]
  · obtain ⟨h', x', e0, e1, e2, e4⟩ := upd_ok h2
    refine ⟨h', x', e0, ?_⟩
    rw [e2]
    simp [ival, isNan_enc]
  · obtain ⟨h', x', e0, e1, e2, e4⟩ := upd_ok h3
    refine ⟨h', x', e0, ?_⟩
    rw [e2]
    simp [ival]

/-- So `x &= x.clone()` is wrong for every odd negative `x`, `x |= x.clone()` for every `x ≤ -2`, and
`x ^= x.clone()` is never zero for a negative `x`. -/
theorem C73_bits_shared_wrong (h : Heap) (x : HInt) (hx : x.addr < h.next) (hc : CanonI (x.value h)) (hn : ival (x.value h) < 0) :
    (ival (x.value h) % 2 ≠ 0 → ∃ h' x', hbAssign .and h x x = .ok (h', x') ∧ ival (x'.value h') ≠ ival (x.value h)) ∧
    (ival (x.value h) ≤ -2 → ∃ h' x', hbAssign .or h x x = .ok (h', x') ∧ ival (x'.value h') ≠ ival (x.value h)) ∧
    (∃ h' x', hbAssign .xor h x x = .ok (h', x') ∧ ival (x'.value h') ≠ 0) := by
  obtain ⟨m, hm⟩ : ∃ m : Nat, ival (x.value h) = -((m : Int) + 1) := ⟨(-ival (x.value h) - 1).toNat, by omega⟩
  obtain ⟨⟨h1, x1, a1, b1⟩, ⟨h2, x2, a2, b2⟩, ⟨h3, x3, a3, b3⟩⟩ := C73_bits_shared h x m hx hc hm
  refine ⟨fun ho => ⟨h1, x1, a1, ?_⟩, fun ho => ⟨h2, x2, a2, ?_⟩, ⟨h3, x3, a3, ?_⟩⟩
  · rw [b1, hm]
    have ht : (m ||| ((m - 1) + (1 - m))).testBit 0 = true := by
      rw [Nat.testBit_or]
      have : ((m - 1) + (1 - m)) % 2 = 1 := by omega
      simp [Nat.testBit_zero, this]
    have hne : (m ||| ((m - 1) + (1 - m))) ≠ m := by
      intro e
      rw [e, Nat.testBit_zero] at ht
      simp at ht
      omega
    omega
  · rw [b2, hm]
    have : (m &&& ((m - 1) + (1 - m))) ≤ (m - 1) + (1 - m) := Nat.and_le_right
    omega
  · rw [b3]
    intro e
    have e' : m ^^^ ((m - 1) + (1 - m)) = 0 := by exact_mod_cast e
    have := Nat.xor_eq_zero_iff.1 e'
    omega

/-- `x & x`, `x | x` and `x ^ x` by the value operators are right (`C39`, `C33_bigint`), so the assigning operators on a
shared magnitude are right for non-negative numbers only: -/
theorem C73_bits_shared_partial (h : Heap) (x : HInt) (hc : CanonI (x.value h)) (hn : 0 ≤ ival (x.value h)) :
    (∃ h' x', hbAssign .and h x x = .ok (h', x') ∧ x'.value h' = x.value h) ∧
    (∃ h' x', hbAssign .or h x x = .ok (h', x') ∧ x'.value h' = x.value h) ∧
    (∃ h' x', hbAssign .xor h x x = .ok (h', x') ∧ x'.value h' = encI 0) := by
  obtain ⟨a, ha⟩ := canonI_iff_encI.1 hc
  rw [ha, ival_encI] at hn
  obtain ⟨n, rfl⟩ := Int.eq_ofNat_of_zero_le hn
  rw [encI_ofNat] at ha
  have hneg : x.neg = false := congrArg BInt.neg ha
  have hb : h.buf x.addr = enc n := congrArg BInt.nat ha
  rw [ha]
  refine ⟨⟨h.write x.addr (enc n), ⟨x.addr, false⟩, ?_, ?_⟩, ⟨h.write x.addr (enc n), ⟨x.addr, false⟩, ?_, ?_⟩,
    ⟨h.write x.addr (enc 0), ⟨x.addr, false⟩, ?_, ?_⟩⟩
  · simp [hbAssign, hbAnd, hneg, hAssign_and, hb, assignNat, bitandInner_enc]
  · simp [HInt.value]
  · simp [hbAssign, hbOr, hneg, hAssign_or, hb, assignNat, bitorInner_enc]
  · simp [HInt.value]
  · simp [hbAssign, hbXor, hneg, hAssign_xor, hb, assignNat, bitxorInner_enc]
  · simp [HInt.value, encI]

/-- `x /= x.clone()` is one, `x %= x.clone()` panics from 2 on, as for `Nat`. -/
theorem C73_div_rem_shared (h : Heap) (x : HInt) (hc : CanonI (x.value h)) (h0 : ival (x.value h) ≠ 0) :
    (∃ h' x', hbAssign .div h x x = .ok (h', x') ∧ ival (x'.value h') = 1) ∧
    (2 ≤ |ival (x.value h)| → hbAssign .rem h x x = .error .panic) := by
  have hv : |ival (x.value h)| = val (h.buf x.addr) := by
    unfold ival
    split <;> simp [HInt.value]
  have hcn : Canon (h.buf x.addr) := hc.1
  have hz : val (h.buf x.addr) ≠ 0 := by
    intro e
    rw [e] at hv
    exact h0 (abs_eq_zero.1 (by simpa using hv))
  have he : eqv (h.buf x.addr) [0#32] = false := by
    obtain ⟨m, hm⟩ := canon_iff_enc.1 hcn
    rw [hm, val_enc] at hz
    rw [hm, ← enc_zero, eqv_enc]
    simpa using hz
  constructor
  · obtain ⟨h', e1, _, e3, _⟩ := C34_shared_value_partial .div h x.addr (by decide) hcn (fun _ => hz)
    refine ⟨h', ⟨x.addr, false⟩, ?_, ?_⟩
    · simp only [hbAssign, hbDiv, he, Bool.false_eq_true, if_false, e1, if_true]
    · simp only [HInt.value, ival, e3]; rfl
  · intro h2
    rw [hv] at h2
    simp only [hbAssign, hbRem, he, Bool.false_eq_true, if_false, C34_rem_panics h x.addr hcn (by exact_mod_cast h2)]

/-- the sample: `x = -1; x &= x.clone()` gives -2 -/
example : ∃ h' x', hbAssign .and ⟨fun _ => [1#32], 1⟩ ⟨0, true⟩ ⟨0, true⟩ = .ok (h', x') ∧ ival (x'.value h') = -2 := by
  obtain ⟨h', x', h1, h2⟩ := (C73_bits_shared ⟨fun _ => [1#32], 1⟩ ⟨0, true⟩ 0 (by decide)
    ⟨⟨by simp [HInt.value], by simp [HInt.value]⟩, by decide⟩ (by decide)).1
  exact ⟨h', x', h1, h2.trans (by decide)⟩

end RMath
