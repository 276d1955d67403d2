import Verif.Props.IntHeap
import Verif.Props.BigInt
import Verif.Props.Import
import Verif.Lemmas.FloatOps

/-!
# Property C101: programs over `BigInt` variables compute integers

The program on the heap of word vectors (`bRun`) is compared with the program on integers (`iRun`): an assignment of integers to
variables, changed by the arithmetic of `Int` (`Int.tdiv` and `Int.tmod` truncate, `/` and `%` are the Euclidean ones, `Int.land`,
`Int.lor`, `Int.xor` and `Int.ldiff` work on the bits of the two's complement).
-/

namespace RMath

/-- the functions of two arguments, on integers; none for a division by zero -/
def IntOp.ispec : IntOp → Int → Int → Option Int
  | .nat .add, a, b => some (a + b)
  | .nat .sub, a, b => some (a - b)
  | .nat .mul, a, b => some (a * b)
  | .nat .div, a, b => if b = 0 then none else some (a.tdiv b)
  | .nat .rem, a, b => if b = 0 then none else some (a.tmod b)
  | .nat .and, a, b => some (Int.land a b)
  | .nat .or, a, b => some (Int.lor a b)
  | .nat .xor, a, b => some (Int.xor a b)
  | .andNot, a, b => some (Int.ldiff a b)
  | .remEuclid, a, b => if b = 0 then none else some (a % b)
  | .divEuclid, a, b => if b = 0 then none else some (a / b)

/-- a decimal numeral, with or without a minus sign -/
def intText : List Char → Option Int
  | '-' :: t => (numeral 10 t).map fun n => -(n : Int)
  | t => (numeral 10 t).map fun n => (n : Int)

/-- the digits do not begin with a zero, except for zero itself -/
def plainText : List Char → Prop
  | '-' :: t => t = ['0'] ∨ t.head? ≠ some '0'
  | t => t = ['0'] ∨ t.head? ≠ some '0'

/-- binding a variable -/
def iSet (s : Nat → Option Int) (x : Nat) (n : Int) : Nat → Option Int := fun y => if y = x then some n else s y

/-- one statement, on integers; none for a division by zero, a text that is no number, or a variable that is not bound -/
def BCmd.istep (s : Nat → Option Int) : BCmd → Option (Nat → Option Int)
  | .fromI64 x n => some (iSet s x n.toInt)
  | .fromWords x v => some (iSet s x (wordsNumber v))
  | .parse x t => (intText t).map (iSet s x)
  | .clone x y => (s y).map (iSet s x)
  | .deepClone x y => (s y).map (iSet s x)
  | .neg x y => (s y).map fun a => iSet s x (-a)
  | .not x y => (s y).map fun a => iSet s x (-a - 1)
  | .abs x y => (s y).map fun a => iSet s x |a|
  | .setNatural x => (s x).map fun a => iSet s x |a|
  | .setNegative x => (s x).map fun a => iSet s x (-|a|)
  | .op o z x y => (s x).bind fun a => (s y).bind fun b => (o.ispec a b).map (iSet s z)
  | .assign o x y => (s x).bind fun a => (s y).bind fun b => (o.ispec a b).map (iSet s x)
  | .shift left z x n => (s x).map fun a => iSet s z (if left then a * 2 ^ n else a / 2 ^ n)
  | .shiftAssign left x n => (s x).map fun a => iSet s x (if left then a * 2 ^ n else a / 2 ^ n)

/-- a program, on integers -/
def iRun : (Nat → Option Int) → List BCmd → Option (Nat → Option Int)
  | s, [] => some s
  | s, c :: cs => (c.istep s).bind fun s => iRun s cs

/-- what has to be avoided in a function of two arguments: results that the code gets wrong (`|` of mixed signs, `and_not` of two
negative numbers, Euclidean division of a negative multiple) or gives as a "minus zero" -/
def IntOp.isafe : IntOp → Int → Int → Prop
  | .nat .div, a, b => ¬((a < 0 ∧ 0 < b ∨ 0 < a ∧ b < 0) ∧ |a| < |b|)
  | .nat .rem, a, b => ¬(a < 0 ∧ b ∣ a)
  | .nat .or, a, b => a < 0 ↔ b < 0
  | .andNot, a, b => ¬(a < 0 ∧ b < 0)
  | .remEuclid, a, b => ¬(a < 0 ∧ b ∣ a)
  | .divEuclid, a, b => ¬(a < 0 ∧ b ∣ a) ∧ ¬(0 < a ∧ a < -b)
  | _, _, _ => True

/-- what has to be avoided in a shift: a left shift of zero by 32 or more; a right shift by 32 or more which leaves words of the
number, unless the count is not a multiple of 32 and the top word stays -/
def shiftSafe (left : Bool) (a : Int) (n : Nat) : Prop :=
  if left then a ≠ 0 ∨ n < 32
  else n < 32 ∨ (∃ k, 0 < k ∧ |a| < 2 ^ (32 * k) ∧ 32 * k ≤ n) ∨
    n % 32 ≠ 0 ∧ ∃ k, |a| < 2 ^ (32 * (k + 1)) ∧ 2 ^ (32 * k + n % 32) ≤ if a < 0 then -a - 1 else a

/-- what has to be avoided, in terms of the integers: besides the above, an empty vector of words, a text that is not a plain
decimal numeral, and `!` of `-2^(32k)` -/
def BCmd.isafe (s : Nat → Option Int) : BCmd → Prop
  | .fromWords _ v => v ≠ []
  | .parse _ t => intText t ≠ none ∧ plainText t
  | .not _ y => ∀ a, s y = some a → ¬∃ k, 0 < k ∧ a = -2 ^ (32 * k)
  | .op o _ x y => ∀ a b, s x = some a → s y = some b → o.isafe a b
  | .assign o x y => ∀ a b, s x = some a → s y = some b → o.isafe a b
  | .shift left _ x n => ∀ a, s x = some a → shiftSafe left a n
  | .shiftAssign left x n => ∀ a, s x = some a → shiftSafe left a n
  | _ => True

/-- all statements of a run are such -/
def ISafe : (Nat → Option Int) → List BCmd → Prop
  | _, [] => True
  | s, c :: cs => c.isafe s ∧ ∀ s', c.istep s = some s' → ISafe s' cs

/-- the variables show these integers, in canonical form -/
def ShowsI (vs : Nat → Option BInt) (t : Nat → Option Int) : Prop :=
  ∀ x, match t x with
    | some n => ∃ v, vs x = some v ∧ CanonI v ∧ ival v = n
    | none => vs x = none

theorem showsI_iff {vs : Nat → Option BInt} {t : Nat → Option Int} : ShowsI vs t ↔ vs = fun x => (t x).map encI := by
  constructor
  · intro h
    funext x
    have := h x
    revert this
    cases t x with
    | none => exact fun h => h
    | some n =>
      rintro ⟨v, h1, h2, rfl⟩
      obtain ⟨a, rfl⟩ := canonI_iff_encI.1 h2
      rw [h1, ival_encI]; rfl
  · rintro rfl x
    simp only
    cases t x with
    | none => rfl
    | some n => exact ⟨_, rfl, canonI_encI _, ival_encI _⟩

theorem bvSet_encI (t : Nat → Option Int) (x : Nat) (n : Int) :
    bvSet (fun x => (t x).map encI) x (encI n) = fun y => (iSet t x n y).map encI := by
  funext y
  simp only [bvSet, iSet]
  split <;> rfl

theorem eq_encI {x : BInt} {z : Int} (h : CanonI x) (hv : ival x = z) : x = encI z := by
  obtain ⟨a, rfl⟩ := canonI_iff_encI.1 h
  rw [ival_encI] at hv
  rw [hv]

theorem neg_encI (a : Int) : (encI a).neg = decide (a < 0) := rfl

theorem testBit_ext {a b : Int} (h : ∀ i, a.testBit i = b.testBit i) : a = b := by
  rcases a with m | m <;> rcases b with n | n
  · exact congrArg Int.ofNat (Nat.eq_of_testBit_eq h)
  · exfalso
    have := h (m + n)
    have h1 : m.testBit (m + n) = false := Nat.testBit_lt_two_pow (lt_of_le_of_lt (Nat.le_add_right m n) Nat.lt_two_pow_self)
    have h2 : n.testBit (m + n) = false := Nat.testBit_lt_two_pow (lt_of_le_of_lt (Nat.le_add_left n m) Nat.lt_two_pow_self)
    simp [Int.testBit, h1, h2] at this
  · exfalso
    have := h (m + n)
    have h1 : m.testBit (m + n) = false := Nat.testBit_lt_two_pow (lt_of_le_of_lt (Nat.le_add_right m n) Nat.lt_two_pow_self)
    have h2 : n.testBit (m + n) = false := Nat.testBit_lt_two_pow (lt_of_le_of_lt (Nat.le_add_left n m) Nat.lt_two_pow_self)
    simp [Int.testBit, h1, h2] at this
  · refine congrArg Int.negSucc (Nat.eq_of_testBit_eq fun i => ?_)
    have := h i
    simpa [Int.testBit] using this

/-- the functions of two arguments -/
theorem ifn_encI (o : IntOp) (a b : Int) (h : o.isafe a b) :
    o.fn (encI a) (encI b) = match o.ispec a b with
      | some c => .ok (encI c)
      | none => .error .panic := by
  have ca := canonI_encI a
  have cb := canonI_encI b
  cases o with
  | nat o =>
    cases o with
    | add => exact congrArg _ (bAddInner_encI a b)
    | sub => exact congrArg _ (bSubInner_encI a b)
    | mul => exact congrArg _ (bMulInner_encI a b)
    | div =>
      simp only [IntOp.fn, NatOp.bfn, IntOp.ispec]
      by_cases hb : b = 0
      · subst hb; exact bDivInner_zero _
      · rw [if_neg hb]
        obtain ⟨q, r, h1, -, h3, -, -, -, h7, -⟩ := C37_div_rem_partial _ _ ca cb (by rwa [ival_encI])
        rw [bDiv_eq] at h1
        simp only [ival_encI] at h3 h7
        rw [h1, eq_encI (h7 h) h3]
    | rem =>
      simp only [IntOp.fn, NatOp.bfn, IntOp.ispec]
      by_cases hb : b = 0
      · subst hb; exact bRemInner_zero _
      · rw [if_neg hb]
        obtain ⟨q, r, -, h2, -, h4, -, -, -, h8⟩ := C37_div_rem_partial _ _ ca cb (by rwa [ival_encI])
        rw [bRem_eq] at h2
        simp only [ival_encI] at h4 h8
        rw [h2, eq_encI (h8 h) h4]
    | and =>
      have := bAnd_encI a b
      rw [bAnd, bDeepClone_encI] at this
      exact congrArg _ this
    | or =>
      have := bOr_encI a b
      obtain ⟨h1, h2⟩ := C39_or_partial _ _ ca cb (by rw [neg_encI, neg_encI, decide_eq_decide]; exact h)
      rw [this] at h1 h2
      simp only [ival_encI] at h2
      have e : orMixed a b = Int.lor a b := testBit_ext fun i => by rw [h2, Int.testBit_lor]
      rw [bOr, bDeepClone_encI, e] at this
      exact congrArg _ this
    | xor =>
      have := bXor_encI a b
      rw [bXor, bDeepClone_encI] at this
      exact congrArg _ this
  | andNot =>
    have := bAndNot_encI a b
    obtain ⟨h1, h2⟩ := C39_and_not_partial _ _ ca cb (by rw [neg_encI, neg_encI]; simpa [IntOp.isafe] using h)
    rw [this] at h1 h2
    simp only [ival_encI] at h2
    have e : andNotCode a b = Int.ldiff a b := testBit_ext fun i => by rw [h2, Int.testBit_ldiff]
    rw [bAndNot, bDeepClone_encI, e] at this
    exact congrArg _ this
  | remEuclid =>
    simp only [IntOp.fn, IntOp.ispec]
    by_cases hb : b = 0
    · subst hb
      have := bRemEuclid_zero a
      rwa [bRemEuclid, bDeepClone_encI] at this
    · rw [if_neg hb]
      have := bRemEuclid_ok (a := a) hb (by
        by_cases h0 : a < 0
        · exact .inr fun hd => h ⟨h0, hd⟩
        · exact .inl (by omega))
      rwa [bRemEuclid, bDeepClone_encI] at this
  | divEuclid =>
    simp only [IntOp.fn, IntOp.ispec]
    by_cases hb : b = 0
    · subst hb
      rw [bDivEuclidInner, bRem_eq, bRemInner_zero]; rfl
    · rw [if_neg hb]
      obtain ⟨q, r, -, h2, -, h4, h5, h6, h7⟩ := C38_euclid_partial _ _ ca cb (by rwa [ival_encI])
        (by rw [ival_encI, ival_encI]; exact h.1)
      simp only [ival_encI] at h4 h5 h6 h7
      have e : ival q = a / b := by
        rw [h6, mul_comm b, Int.add_comm, Int.add_mul_ediv_right _ _ hb, Int.ediv_eq_zero_of_lt_abs h4 h5, zero_add]
      rw [bDivEuclid, bDeepClone_encI] at h2
      rw [h2, eq_encI (h7 h.2) e]

theorem not_encI {a : Int} (h : ¬∃ k, 0 < k ∧ a = -2 ^ (32 * k)) : bNot (encI a) = encI (-a - 1) := by
  obtain ⟨h1, h2⟩ := C39_not (encI a) (canonI_encI a)
  simp only [ival_encI] at h1 h2
  refine eq_encI (h2 h) (testBit_ext fun i => ?_)
  rw [h1]
  rcases a with m | m
  · rw [show -(Int.ofNat m) - 1 = Int.negSucc m by rw [Int.negSucc_eq]; simp; omega]; rfl
  · rw [show -(Int.negSucc m) - 1 = Int.ofNat m by rw [Int.negSucc_eq]; simp]; simp [Int.testBit]

theorem shift_encI (left : Bool) {a : Int} {n : Nat} (h : shiftSafe left a n) :
    shiftFn left (encI a) n = encI (if left then a * 2 ^ n else a / 2 ^ n) := by
  cases left with
  | true =>
    have := bShl_encI (a := a) (s := n) h
    rw [bShl, bDeepClone_encI] at this
    simpa [shiftFn] using this
  | false =>
    simp only [shiftSafe, Bool.false_eq_true, if_false] at h
    have := bShr_encI (a := a) (s := n) ?_
    · rw [bShr, bDeepClone_encI] at this
      simpa [shiftFn] using this
    · rcases h with h | ⟨k, h0, h1, h2⟩ | ⟨h0, k, h1, h2⟩
      · exact .inl h
      · refine .inr (.inl ?_)
        have h1' : a.natAbs < 2 ^ (32 * k) := by
          rw [Int.abs_eq_natAbs] at h1; exact_mod_cast h1
        have := enc_length_le (v := a.natAbs) (L := k) (by omega) h1'
        omega
      · refine .inr (.inr ⟨h0, ?_⟩)
        have h1' : a.natAbs < 2 ^ (32 * (k + 1)) := by
          rw [Int.abs_eq_natAbs] at h1; exact_mod_cast h1
        have h2' : 2 ^ (32 * k + n % 32) ≤ if a < 0 then a.natAbs - 1 else a.natAbs := by
          split at h2
          · rename_i hneg
            rw [if_pos hneg]
            have : (2 ^ (32 * k + n % 32) : Int) ≤ ((a.natAbs - 1 : Nat) : Int) := by omega
            exact_mod_cast this
          · rename_i hneg
            rw [if_neg hneg]
            have : (2 ^ (32 * k + n % 32) : Int) ≤ (a.natAbs : Int) := by omega
            exact_mod_cast this
        have h3 : 2 ^ (32 * k) ≤ a.natAbs :=
          le_trans (Nat.pow_le_pow_right (by norm_num) (by omega)) (le_trans h2' (by split <;> omega))
        rw [enc_length_bits h3 h1', Nat.add_sub_cancel]
        exact h2'

theorem natParse_decimal {t : List Char} {n : Nat} (h : numeral 10 t = some n) (h0 : t = ['0'] ∨ t.head? ≠ some '0') :
    natParse t = .ok (some (enc n)) := by
  rw [C25_parse_partial]
  refine .inl ⟨t, n, ⟨[], [], [], by simp, by simp, by simp, by simp⟩, .inl ⟨h, ?_⟩, canon_enc n, val_enc n⟩
  exact h0

theorem parse_text {t : List Char} {z : Int} (h : intText t = some z) (hp : plainText t) :
    bParse t = .ok (some (encI z)) := by
  rw [C48_parse]
  have key : ∀ t, intText t = some z → plainText t → (∀ t', t ≠ '-' :: t') → natParse t = .ok (some (enc z.natAbs)) ∧ 0 ≤ z := by
    intro t h hp hne
    have e1 : intText t = (numeral 10 t).map fun n => (n : Int) := by
      unfold intText
      split
      · exact absurd rfl (hne _)
      · rfl
    have e2 : plainText t ↔ t = ['0'] ∨ t.head? ≠ some '0' := by
      unfold plainText
      split
      · exact absurd rfl (hne _)
      · rfl
    rw [e1] at h
    cases hn : numeral 10 t with
    | none => rw [hn] at h; cases h
    | some n =>
      rw [hn] at h; cases h
      exact ⟨natParse_decimal hn (e2.1 hp), by simp⟩
  by_cases hm : ∃ t', t = '-' :: t'
  · obtain ⟨t', rfl⟩ := hm
    right
    simp only [intText, plainText] at h hp
    cases hn : numeral 10 t' with
    | none => rw [hn] at h; cases h
    | some n =>
      rw [hn] at h; cases h
      refine ⟨[], t', enc n, by simp, rfl, natParse_decimal hn hp, ?_⟩
      rw [← enc_zero, eqv_enc]
      simp only [encI, Int.natAbs_neg, Int.natAbs_natCast, BInt.mk.injEq, true_and]
      by_cases h0 : n = 0
      · simp [h0]
      · simp [h0]; omega
  · left
    obtain ⟨h1, h2⟩ := key t h hp (fun t' e => hm ⟨t', e⟩)
    refine ⟨_, h1, ?_⟩
    simp [encI, show ¬z < 0 by omega]

/-- one statement: the same outcome on the values and on the integers -/
theorem istep_sim (t : Nat → Option Int) (c : BCmd) (hc : c.isafe t) :
    c.vstep (fun x => (t x).map encI) = match c.istep t with
      | some t' => .ok fun x => (t' x).map encI
      | none => .error .panic := by
  have hget : ∀ x, bvGet (fun x => (t x).map encI) x = match t x with | some a => .ok (encI a) | none => .error .panic := by
    intro x
    simp only [bvGet]
    cases t x <;> rfl
  cases c with
  | fromI64 x n =>
    simp only [BCmd.vstep, BCmd.istep, bind, Except.bind, fromI64_eq, bvSet_encI]
  | fromWords x v =>
    obtain ⟨-, -, h1, h2⟩ := C95_from_words v hc
    have e : (⟨trim v, false⟩ : BInt) = encI (wordsNumber v) := eq_encI h1 h2
    simp only [BCmd.vstep, BCmd.istep, e, bvSet_encI]
  | parse x s =>
    cases hz : intText s with
    | none => exact absurd hz hc.1
    | some z =>
      simp only [BCmd.vstep, BCmd.istep, bind, Except.bind, parse_text hz hc.2, unwrapR, hz, Option.map_some, bvSet_encI]
  | clone x y =>
    simp only [BCmd.vstep, BCmd.istep, bind, Except.bind, hget]
    cases t y <;> simp [bvSet_encI]
  | deepClone x y =>
    simp only [BCmd.vstep, BCmd.istep, bind, Except.bind, hget]
    cases t y <;> simp [bvSet_encI]
  | neg x y =>
    simp only [BCmd.vstep, BCmd.istep, bind, Except.bind, hget]
    cases t y <;> simp [bvSet_encI]
  | not x y =>
    simp only [BCmd.vstep, BCmd.istep, bind, Except.bind, hget]
    cases hy : t y with
    | none => rfl
    | some a => simp only [Option.map_some, not_encI (hc a hy), bvSet_encI]
  | abs x y =>
    simp only [BCmd.vstep, BCmd.istep, bind, Except.bind, hget]
    cases t y <;> simp [bvSet_encI]
  | setNatural x =>
    simp only [BCmd.vstep, BCmd.istep, bind, Except.bind, hget]
    cases t x with
    | none => rfl
    | some a =>
      have e : bSetNatural (encI a) = encI |a| := by
        rw [bSetNatural, bIsNan_encI, if_neg (by simp), ← bAbs_encI, bAbs]
        simp [encI]
      simp only [Option.map_some, e, bvSet_encI]
  | setNegative x =>
    simp only [BCmd.vstep, BCmd.istep, bind, Except.bind, hget]
    cases t x with
    | none => rfl
    | some a =>
      have e : bSetNegative (encI a) = encI (-|a|) := by
        rw [bSetNegative, bIsNan_encI, ← enc_zero]
        simp only [encI, eqv_enc, Int.natAbs_neg, Int.natAbs_abs]
        by_cases h0 : a = 0
        · simp [h0]
        · have : -|a| < 0 := by have := abs_pos.2 h0; omega
          simp [h0, this]
      simp only [Option.map_some, e, bvSet_encI]
  | op o z x y =>
    simp only [BCmd.vstep, BCmd.istep, bind, Except.bind, hget]
    cases hx : t x with
    | none => rfl
    | some a =>
      cases hy : t y with
      | none => rfl
      | some b =>
        simp only [Option.bind_some, bDeepClone_encI, ifn_encI o a b (hc a b hx hy)]
        cases o.ispec a b with
        | none => rfl
        | some c => simp only [Option.map_some, bvSet_encI]
  | assign o x y =>
    simp only [BCmd.vstep, BCmd.istep, bind, Except.bind, hget]
    cases hx : t x with
    | none => rfl
    | some a =>
      cases hy : t y with
      | none => rfl
      | some b =>
        simp only [Option.bind_some, ifn_encI o a b (hc a b hx hy)]
        cases o.ispec a b with
        | none => rfl
        | some c => simp only [Option.map_some, bvSet_encI]
  | shift left z x n =>
    simp only [BCmd.vstep, BCmd.istep, bind, Except.bind, hget]
    cases hx : t x with
    | none => rfl
    | some a => simp only [Option.map_some, bDeepClone_encI, shift_encI left (hc a hx), bvSet_encI]
  | shiftAssign left x n =>
    simp only [BCmd.vstep, BCmd.istep, bind, Except.bind, hget]
    cases hx : t x with
    | none => rfl
    | some a => simp only [Option.map_some, shift_encI left (hc a hx), bvSet_encI]

theorem iRun_sim (cs : List BCmd) (t : Nat → Option Int) (hc : ISafe t cs) :
    bvRun (fun x => (t x).map encI) cs = match iRun t cs with
      | some t' => .ok fun x => (t' x).map encI
      | none => .error .panic := by
  induction cs generalizing t with
  | nil => rfl
  | cons c cs ih =>
    have h1 := istep_sim t c hc.1
    have h2 := hc.2
    simp only [iRun, bvRun]
    rw [h1]
    cases hs : c.istep t with
    | none => rfl
    | some t' => exact ih t' (h2 t' hs)

/-- A program over `BigInt` variables in which only variables with a buffer of their own are changed in place (`Owned`) and which
avoids the results that the code gets wrong (`ISafe`, in terms of the integers): it panics exactly if the program on integers
divides by zero or uses an unbound variable, and otherwise at its end every variable shows, in canonical form, its integer.
Missing from the full property: shared variables (`C97_violated`), and the unsafe statements (C37–C40). -/
theorem C101_programs_partial (cs : List BCmd) (s : BState) (R : Nat → Nat → Bool) (t : Nat → Option Int) (hs : s.Ok R)
    (ht : ShowsI s.value t) (ho : Owned R cs) (hc : ISafe t cs) :
    match iRun t cs with
    | some t' => ∃ s', bRun s cs = .ok s' ∧ ShowsI s'.value t'
    | none => bRun s cs = .error .panic := by
  have h1 := C97_programs_partial s R hs cs ho
  rw [showsI_iff.1 ht, iRun_sim cs t hc] at h1
  revert h1
  cases iRun t cs with
  | none =>
    cases bRun s cs with
    | error e => exact fun h => congrArg _ h
    | ok s' => exact fun h => h.elim
  | some t' =>
    cases bRun s cs with
    | error e => exact fun h => h.elim
    | ok s' => exact fun h => ⟨s', rfl, showsI_iff.2 (funext h)⟩

/-- Comparisons at the end of such a program are those of the integers. -/
theorem C101_comparisons_partial (cs : List BCmd) (s s' : BState) (R : Nat → Nat → Bool) (t t' : Nat → Option Int) (hs : s.Ok R)
    (ht : ShowsI s.value t) (ho : Owned R cs) (hc : ISafe t cs) (hn : iRun t cs = some t') (hr : bRun s cs = .ok s')
    (x y : Nat) (a b : Int) (hx : t' x = some a) (hy : t' y = some b) :
    ∃ v w, s'.value x = some v ∧ s'.value y = some w ∧ (bEq v w = true ↔ a = b) ∧ bCmp v w = some (compare a b) := by
  have := C101_programs_partial cs s R t hs ht ho hc
  rw [hn] at this
  obtain ⟨s'', e, hv⟩ := this
  rw [hr] at e
  cases e
  have h1 := hv x
  have h2 := hv y
  rw [hx] at h1
  rw [hy] at h2
  obtain ⟨v, e1, c1, rfl⟩ := h1
  obtain ⟨w, e2, c2, rfl⟩ := h2
  exact ⟨v, w, e1, e2, C41_eq v w c1 c2, C41_cmp v w c1 c2⟩

/-- a decision procedure for what has to be avoided in functions of two arguments -/
instance (o : IntOp) (a b : Int) : Decidable (o.isafe a b) := by
  unfold IntOp.isafe
  split <;> infer_instance

example : emptyB.Ok (fun _ _ => false) ∧ ShowsI emptyB.value (fun _ => none) ∧ Owned (fun _ _ => false) sampleBP ∧
    ISafe (fun _ => none) sampleBP ∧ (iRun (fun _ => none) sampleBP).map (fun t => (t 0, t 1)) = some (some 1, some 24) := by
  refine ⟨emptyB_ok, fun _ => rfl, ?_, ?_, by decide +kernel⟩
  · simp [Owned, sampleBP, BCmd.owned, BCmd.shares, ownBuf]
    intro z _ h _
    exact h
  · refine And.intro trivial fun s1 h => ?_
    cases h
    refine And.intro trivial fun s2 h => ?_
    cases (show some _ = some s2 from h)
    refine And.intro (fun a b h1 h2 => trivial) fun s3 h => ?_
    cases (show some _ = some s3 from h)
    refine And.intro trivial fun s4 h => ?_
    cases (show some _ = some s4 from h)
    refine And.intro (fun a b h1 h2 => ?_) fun s5 h => ?_
    · cases (show some _ = some a from h1); cases (show some _ = some b from h2); decide +kernel
    cases (show some _ = some s5 from h)
    refine And.intro (fun a b h1 h2 => ?_) fun s6 h => ?_
    · cases (show some _ = some a from h1); cases (show some _ = some b from h2); decide +kernel
    cases (show some _ = some s6 from h)
    refine And.intro (fun a b h1 h2 => trivial) fun s7 h => ?_
    cases (show some _ = some s7 from h)
    refine And.intro (fun a h1 => ?_) fun s8 h => ?_
    · exact .inr (by decide)
    cases (show some _ = some s8 from h)
    exact And.intro trivial fun s9 h => trivial

end RMath
