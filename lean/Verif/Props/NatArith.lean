import Verif.Lemmas.NatGen

/-!
# Properties C01–C14: the basic operators of `Nat`

`val` is the number denoted by a vector of words, `Canon` says that there is no superfluous
leading zero word (`Verif.Spec`).  `natAdd a b` is the model of `a + b`, and so on.
-/

namespace RMath

/-! ## helpers for the statements below -/

theorem opNat_enc (f : Words → Words → Words) (a b : Nat) : opNat f (enc a) (enc b) = f (enc a) (enc b) := by
  simp [opNat, isNan, enc_ne_nil]

theorem opNatR_enc (f : Words → Words → Res Words) (a b : Nat) :
    opNatR f (enc a) (enc b) = f (enc a) (enc b) := by
  simp [opNatR, isNan, enc_ne_nil]

theorem opPrim_enc {α : Type} (f : Words → α → Words) (a : Nat) (b : α) : opPrim f (enc a) b = f (enc a) b := by
  simp [opPrim, isNan, enc_ne_nil]

theorem opPrimR_enc {α : Type} (f : Words → α → Res Words) (a : Nat) (b : α) :
    opPrimR f (enc a) b = f (enc a) b := by
  simp [opPrimR, isNan, enc_ne_nil]

/-- the assigning form and the value form of an operator give the same content -/
theorem assign_eq_op {x : Words} (hx : Canon x) :
    (∀ f y, assignNat f x y = opNat f x y) ∧ (∀ f y, assignNatR f x y = opNatR f x y) ∧
    (∀ (α : Type) (f : Words → α → Words) y, assignPrim f x y = opPrim f x y) ∧
    (∀ (α : Type) (f : Words → α → Res Words) y, assignPrimR f x y = opPrimR f x y) := by
  have : deepClone x = x := trim_of_canon hx
  refine ⟨?_, ?_, ?_, ?_⟩ <;> intros <;>
    simp only [assignNat, opNat, assignNatR, opNatR, assignPrim, opPrim, assignPrimR, opPrimR, this]

/-- sample operands used to show that hypotheses can be met: a three-word and a two-word number -/
def sampleA : Words := [5#32, 0#32, 7#32]
/-- see `sampleA` -/
def sampleB : Words := [0xffffffff#32, 0xffffffff#32]

theorem sampleA_canon : Canon sampleA := ⟨by decide, by decide⟩
theorem sampleB_canon : Canon sampleB := ⟨by decide, by decide⟩

/-! ## C01 addition -/

/-- `a + b` denotes the sum, in canonical form. -/
theorem C01_add (a b : Words) (ha : Canon a) (hb : Canon b) :
    Canon (natAdd a b) ∧ val (natAdd a b) = val a + val b := by
  obtain ⟨a, rfl⟩ := canon_iff_enc.1 ha
  obtain ⟨b, rfl⟩ := canon_iff_enc.1 hb
  rw [natAdd, opNat_enc, addInner_enc]
  simp [canon_enc]

/-- `a += b` denotes the sum, in canonical form. -/
theorem C01_add_assign (a b : Words) (ha : Canon a) (hb : Canon b) :
    Canon (assignNat addInner a b) ∧ val (assignNat addInner a b) = val a + val b := by
  rw [(assign_eq_op ha).1]; exact C01_add a b ha hb

/-- The value is right even for vectors that are not canonical. -/
theorem C01_add_any (a b : Words) (ha : a ≠ NaN) (hb : b ≠ NaN) : val (natAdd a b) = val a + val b := by
  simp [natAdd, opNat, isNan, ha, hb, addInner_val, deepClone]

example : Canon sampleA ∧ Canon sampleB ∧ val (natAdd sampleA sampleB) = 8 * 2 ^ 64 + 4 :=
  ⟨sampleA_canon, sampleB_canon, by decide⟩

/-! ## C02 subtraction -/

/-- `a - b` denotes `|a - b|`, in canonical form. -/
theorem C02_sub (a b : Words) (ha : Canon a) (hb : Canon b) :
    Canon (natSub a b) ∧ (val (natSub a b) : Int) = |(val a : Int) - val b| := by
  obtain ⟨a, rfl⟩ := canon_iff_enc.1 ha
  obtain ⟨b, rfl⟩ := canon_iff_enc.1 hb
  rw [natSub, opNat_enc, subInner_enc]
  refine ⟨canon_enc _, ?_⟩
  simp only [val_enc]
  rcases Nat.le_total a b with h | h
  · rw [abs_of_nonpos (by omega)]; omega
  · rw [abs_of_nonneg (by omega)]; omega

/-- `a -= b` -/
theorem C02_sub_assign (a b : Words) (ha : Canon a) (hb : Canon b) :
    Canon (assignNat subInner a b) ∧ (val (assignNat subInner a b) : Int) = |(val a : Int) - val b| := by
  rw [(assign_eq_op ha).1]; exact C02_sub a b ha hb

/-- `a.sub_with_sign(b)`: absolute difference, and the flag says whether `a ≥ b`. -/
theorem C02_sub_with_sign (a b : Words) (ha : Canon a) (hb : Canon b) :
    Canon (subWithSign a b).1 ∧ (val (subWithSign a b).1 : Int) = |(val a : Int) - val b| ∧
    ((subWithSign a b).2 = true ↔ val b ≤ val a) := by
  obtain ⟨a, rfl⟩ := canon_iff_enc.1 ha
  obtain ⟨b, rfl⟩ := canon_iff_enc.1 hb
  have : subWithSign (enc a) (enc b) = subInnerWithSign (enc a) (enc b) := by
    simp [subWithSign, isNan, enc_ne_nil]
  rw [this, subInnerWithSign_enc]
  refine ⟨canon_enc _, ?_, by simp⟩
  simp only [val_enc]
  rcases Nat.le_total a b with h | h
  · rw [abs_of_nonpos (by omega)]; omega
  · rw [abs_of_nonneg (by omega)]; omega

example : Canon sampleB ∧ Canon sampleA ∧ (subWithSign sampleB sampleA).2 = false :=
  ⟨sampleB_canon, sampleA_canon, by decide⟩

/-! ## C03 multiplication -/

/-- `a * b` (vectorised back end) denotes the product, in canonical form. -/
theorem C03_mul (a b : Words) (ha : Canon a) (hb : Canon b) :
    Canon (natMul a b) ∧ val (natMul a b) = val a * val b := by
  obtain ⟨a, rfl⟩ := canon_iff_enc.1 ha
  obtain ⟨b, rfl⟩ := canon_iff_enc.1 hb
  rw [natMul, opNat_enc, mulInner_enc]
  simp [canon_enc]

/-- `a *= b` -/
theorem C03_mul_assign (a b : Words) (ha : Canon a) (hb : Canon b) :
    Canon (assignNat mulInner a b) ∧ val (assignNat mulInner a b) = val a * val b := by
  rw [(assign_eq_op ha).1]; exact C03_mul a b ha hb

/-- `a * b` (portable back end) -/
theorem C03_mul_generic (a b : Words) (ha : Canon a) (hb : Canon b) :
    Canon (opNat Gen.mulInner a b) ∧ val (opNat Gen.mulInner a b) = val a * val b := by
  obtain ⟨a, rfl⟩ := canon_iff_enc.1 ha
  obtain ⟨b, rfl⟩ := canon_iff_enc.1 hb
  rw [opNat_enc, Gen.mulInner_spec]
  simp [canon_enc]

example : Canon sampleA ∧ Canon sampleB ∧
    val (natMul sampleA sampleB) = (7 * 2 ^ 64 + 5) * (2 ^ 64 - 1) :=
  ⟨sampleA_canon, sampleB_canon, by decide⟩

/-! ## C04 division -/

/-- For a non-zero divisor `a / b` and `a % b` return (no panic, the loops end) the canonical
quotient and remainder. -/
theorem C04_div_rem (a b : Words) (ha : Canon a) (hb : Canon b) (h0 : val b ≠ 0) :
    ∃ q r, natDiv a b = .ok q ∧ natRem a b = .ok r ∧ Canon q ∧ Canon r ∧
      val a = val q * val b + val r ∧ val r < val b := by
  obtain ⟨a, rfl⟩ := canon_iff_enc.1 ha
  obtain ⟨b, rfl⟩ := canon_iff_enc.1 hb
  rw [val_enc] at h0
  refine ⟨enc (a / b), enc (a % b), ?_, ?_, canon_enc _, canon_enc _, ?_, ?_⟩
  · rw [natDiv, opNatR_enc, divInner_enc h0]
  · rw [natRem, opNatR_enc, remInner_enc h0]
  · simp only [val_enc]; rw [Nat.mul_comm]; exact (Nat.div_add_mod a b).symm
  · simpa using Nat.mod_lt a (Nat.pos_of_ne_zero h0)

/-- the assigning forms behave the same -/
theorem C04_div_rem_assign (a b : Words) (ha : Canon a) :
    assignNatR divInner a b = natDiv a b ∧ assignNatR remInner a b = natRem a b :=
  ⟨(assign_eq_op ha).2.1 _ _, (assign_eq_op ha).2.1 _ _⟩

/-- A zero divisor panics. -/
theorem C04_div_zero (a b : Words) (ha : Canon a) (hb : Canon b) (h0 : val b = 0) :
    natDiv a b = .error .panic ∧ natRem a b = .error .panic := by
  obtain ⟨a, rfl⟩ := canon_iff_enc.1 ha
  obtain ⟨b, rfl⟩ := canon_iff_enc.1 hb
  rw [val_enc] at h0
  subst h0
  exact ⟨by rw [natDiv, opNatR_enc, divInner_zero], by rw [natRem, opNatR_enc, remInner_zero]⟩

example : Canon sampleA ∧ Canon sampleB ∧ val sampleB ≠ 0 ∧ natDiv sampleA sampleB = .ok [7#32] :=
  ⟨sampleA_canon, sampleB_canon, by decide, by decide⟩

/-! ## C05 left shift -/

/-- `a << s` denotes `a * 2^s`, whatever `a` and `s`. -/
theorem C05_shl_val (a : Words) (s : Nat) (ha : a ≠ NaN) : val (natShl a s) = val a * 2 ^ s := by
  simp [natShl, opPrim, isNan, ha, shlInner_val, deepClone]

/-- The result is canonical, except when zero is shifted by 32 or more.
(Full statement: without the last hypothesis.  It is false, see `C05_shl_zero_not_canonical`.) -/
theorem C05_shl_canon_partial (a : Words) (s : Nat) (ha : Canon a) (h : val a ≠ 0 ∨ s < 32) :
    Canon (natShl a s) := by
  obtain ⟨a, rfl⟩ := canon_iff_enc.1 ha
  rw [natShl, opPrim_enc]
  rcases h with h | h
  · rw [shlInner_enc (by simpa using h)]; exact canon_enc _
  · rw [shlInner_enc_lt h]; exact canon_enc _

/-- The code breaks the canonical form: `0 << s` has `s / 32` superfluous zero words, so it is not
equal (`==`) to zero. -/
theorem C05_shl_zero_not_canonical (s : Nat) (h : 32 ≤ s) :
    ¬ Canon (natShl [0#32] s) ∧ eqv (natShl [0#32] s) [0#32] = false := by
  have e : natShl [0#32] s = List.replicate (s / 32) 0#32 ++ [0#32] := by
    have : shlInner [0#32] s = List.replicate (s / 32) 0#32 ++ [0#32] := by
      have h2 : 0 < s / 32 := by omega
      have h3 : (if s % 32 > 0 then (shlLoop (s % 32) 0#32 [0#32]).1 ++
          (if (shlLoop (s % 32) 0#32 [0#32]).2 ≠ 0#32 then [(shlLoop (s % 32) 0#32 [0#32]).2] else [])
          else [0#32]) = [0#32] := by
        split <;> simp [shlLoop]
      unfold shlInner
      simp only [h3, gt_iff_lt, h2, if_true]
    rw [natShl, ← enc_zero, opPrim_enc, enc_zero, this]
  rw [e]
  have hlen : 2 ≤ (List.replicate (s / 32) 0#32 ++ [0#32]).length := by simp; omega
  constructor
  · rintro ⟨_, h | h⟩
    · omega
    · simp at h
  · rw [Bool.eq_false_iff]
    intro h
    rw [eqv_iff (by simp)] at h
    rw [h] at hlen
    simp at hlen

example : Canon sampleA ∧ val sampleA ≠ 0 ∧ natShl sampleA 70 = [0#32, 0#32, 320#32, 0#32, 448#32] :=
  ⟨sampleA_canon, by decide, by decide⟩

/-! ## C06 right shift -/

/-- `a >> s` denotes `⌊a / 2^s⌋` in canonical form in these three cases: `s < 32`; all words are
shifted out; `s` is not a multiple of 32 and the top word of `a` does not vanish when shifted by
`s mod 32`.
(Full statement: for every `s`.  It is false, see below.) -/
theorem C06_shr_partial (a : Words) (s : Nat) (ha : Canon a)
    (h : s < 32 ∨ 32 * a.length ≤ s ∨
      (s % 32 ≠ 0 ∧ (a.getLast ha.ne_nil).toNat / 2 ^ (s % 32) ≠ 0)) :
    Canon (natShr a s) ∧ val (natShr a s) = val a / 2 ^ s := by
  have e : natShr a s = shrInner a s := by
    obtain ⟨a, rfl⟩ := canon_iff_enc.1 ha
    exact opPrim_enc _ _ _
  rw [e]
  by_cases hall : a.length ≤ s / 32
  · rw [shrInner_all hall]
    refine ⟨canon_enc _, ?_⟩
    rw [val_enc, Nat.div_eq_of_lt]
    exact lt_of_lt_of_le (val_lt a) (Nat.pow_le_pow_right (by norm_num) (by omega))
  rcases h with h | h | ⟨h0, h1⟩
  · have := shrInner_small ha.ne_nil h
    exact ⟨this.2 ha, this.1⟩
  · omega
  · have := shrInner_carry (v := a) (s := s) (by omega) (by omega) (by
      intro hz
      apply h1
      have := congrArg BitVec.toNat hz
      simpa [Nat.shiftRight_eq_div_pow] using this)
    exact ⟨this.2, this.1⟩

/-- What the code really does for a non-zero multiple of 32: it keeps the *low* words. -/
theorem C06_shr_words (a : Words) (k : Nat) (ha : Canon a) (hk : k < a.length) :
    val (natShr a (32 * k)) = val a % 2 ^ (32 * (a.length - k)) := by
  have e : natShr a (32 * k) = shrInner a (32 * k) := by
    obtain ⟨a, rfl⟩ := canon_iff_enc.1 ha
    exact opPrim_enc _ _ _
  rw [e, shrInner_words hk]
  have h := val_take_add_drop a (a.length - k) (by omega)
  have hl : val (a.take (a.length - k)) < 2 ^ (32 * (a.length - k)) := by
    have := val_lt (a.take (a.length - k))
    rwa [List.length_take, Nat.min_eq_left (by omega)] at this
  rw [h, Nat.add_mul_mod_self_left, Nat.mod_eq_of_lt hl]

/-- **C06, exactly.** The number that `a >> s` denotes, for every `a` and `s`. -/
theorem C06_described (a : Words) (s : Nat) (ha : Canon a) : val (natShr a s) = shrWords a.length (val a) s := by
  have e : natShr a s = shrInner a s := by
    obtain ⟨a, rfl⟩ := canon_iff_enc.1 ha
    exact opPrim_enc _ _ _
  rw [e, val_shrInner ha.ne_nil]

/-- the four cases: `2^65 + …` shifted by 7, by 64, by 33 (wrong) and by 33 after doubling -/
example : (7 < 32 ∨ 32 * [1#32, 2#32, 1#32].length ≤ 7) ∧ (64 % 32 = 0 ∧ natShr [1#32, 2#32, 1#32] 64 = [1#32]) ∧
    val [1#32, 2#32, 1#32] < 2 ^ (32 * ([1#32, 2#32, 1#32].length - 1) + 33 % 32) ∧
    ¬ val [1#32, 2#32, 2#32] < 2 ^ (32 * ([1#32, 2#32, 2#32].length - 1) + 33 % 32) ∧
    shrWords 3 (val [1#32, 2#32, 1#32]) 33 = 2 ^ 33 + 2 ^ 31 + 1 :=
  ⟨by decide, by decide, by decide, by decide, by decide⟩

/-- The property is false for the code: `(2^32 + 7) >> 32` gives 7 instead of 1, and
`(2^65 + …) >> 33` leaves a stale top word. -/
theorem C06_shr_wrong :
    (Canon [7#32, 1#32] ∧ val [7#32, 1#32] / 2 ^ 32 = 1 ∧ val (natShr [7#32, 1#32] 32) = 7) ∧
    (Canon [1#32, 2#32, 1#32] ∧ val [1#32, 2#32, 1#32] / 2 ^ 33 = 2 ^ 31 + 1 ∧
      val (natShr [1#32, 2#32, 1#32] 33) = 2 ^ 33 + 2 ^ 31 + 1) :=
  ⟨⟨⟨by decide, by decide⟩, by decide, by decide⟩, ⟨by decide, by decide⟩, by decide, by decide⟩

example : Canon sampleA ∧ (sampleA.getLast sampleA_canon.ne_nil).toNat / 2 ^ (34 % 32) ≠ 0 ∧
    natShr sampleA 34 = [0xc0000000#32, 1#32] := ⟨sampleA_canon, by decide, by decide⟩

/-! ## C07, C08, C09 bit operations -/

theorem C07_and (a b : Words) (ha : Canon a) (hb : Canon b) :
    Canon (natAnd a b) ∧
      ∀ i, (val (natAnd a b)).testBit i = ((val a).testBit i && (val b).testBit i) := by
  obtain ⟨a, rfl⟩ := canon_iff_enc.1 ha
  obtain ⟨b, rfl⟩ := canon_iff_enc.1 hb
  rw [natAnd, opNat_enc, bitandInner_enc]
  simp [canon_enc]

theorem C07_or (a b : Words) (ha : Canon a) (hb : Canon b) :
    Canon (natOr a b) ∧
      ∀ i, (val (natOr a b)).testBit i = ((val a).testBit i || (val b).testBit i) := by
  obtain ⟨a, rfl⟩ := canon_iff_enc.1 ha
  obtain ⟨b, rfl⟩ := canon_iff_enc.1 hb
  rw [natOr, opNat_enc, bitorInner_enc]
  simp [canon_enc]

theorem C07_xor (a b : Words) (ha : Canon a) (hb : Canon b) :
    Canon (natXor a b) ∧
      ∀ i, (val (natXor a b)).testBit i = ((val a).testBit i ^^ (val b).testBit i) := by
  obtain ⟨a, rfl⟩ := canon_iff_enc.1 ha
  obtain ⟨b, rfl⟩ := canon_iff_enc.1 hb
  rw [natXor, opNat_enc, bitxorInner_enc]
  simp [canon_enc]

/-- the assigning forms `&=`, `|=`, `^=` give the same content -/
theorem C07_assign (a b : Words) (ha : Canon a) :
    assignNat bitandInner a b = natAnd a b ∧ assignNat bitorInner a b = natOr a b ∧
    assignNat bitxorInner a b = natXor a b :=
  ⟨(assign_eq_op ha).1 _ _, (assign_eq_op ha).1 _ _, (assign_eq_op ha).1 _ _⟩

example : Canon sampleA ∧ Canon sampleB ∧ natXor sampleB sampleB = [0#32] ∧
    natAnd sampleA sampleB = [5#32] := ⟨sampleA_canon, sampleB_canon, by decide, by decide⟩

theorem C08_and_not (a b : Words) (ha : Canon a) (hb : Canon b) :
    Canon (andNot a b) ∧
      ∀ i, (val (andNot a b)).testBit i = ((val a).testBit i && !(val b).testBit i) := by
  obtain ⟨a, rfl⟩ := canon_iff_enc.1 ha
  obtain ⟨b, rfl⟩ := canon_iff_enc.1 hb
  rw [andNot, deepClone_enc]
  exact ⟨andNotAssign_canon (enc_ne_nil _), andNotAssign_testBit _ _⟩

example : Canon sampleA ∧ Canon sampleB ∧ andNot sampleA sampleB = [0#32, 0#32, 7#32] :=
  ⟨sampleA_canon, sampleB_canon, by decide⟩

/-- `!a` denotes `2^L - 1 - a`, where `L` is the length of the binary expansion of `a` (1 for 0). -/
theorem C09_not (a : Words) (ha : Canon a) :
    Canon (natNot a) ∧
      val (natNot a) = 2 ^ (if val a = 0 then 1 else (val a).log2 + 1) - 1 - val a := by
  obtain ⟨a, rfl⟩ := canon_iff_enc.1 ha
  rw [natNot_enc]
  simp only [val_enc, canon_enc, true_and, bitLen]

example : Canon sampleA ∧ natNot sampleA = [0xfffffffa#32, 0xffffffff#32] ∧ natNot [0#32] = [1#32] :=
  ⟨sampleA_canon, by decide, by decide⟩

/-! ## C10 comparison -/

/-- `partial_cmp` is the order of the numbers. -/
theorem C10_partial_cmp (a b : Words) (ha : Canon a) (hb : Canon b) :
    partialCmp a b = some (compare (val a) (val b)) := by
  obtain ⟨a, rfl⟩ := canon_iff_enc.1 ha
  obtain ⟨b, rfl⟩ := canon_iff_enc.1 hb
  rw [partialCmp_enc]; simp

/-- `==` is equality of the numbers. -/
theorem C10_eq (a b : Words) (ha : Canon a) (hb : Canon b) :
    eqv a b = true ↔ val a = val b := by
  obtain ⟨a, rfl⟩ := canon_iff_enc.1 ha
  obtain ⟨b, rfl⟩ := canon_iff_enc.1 hb
  rw [eqv_enc]; simp

/-- exactly one of `<`, `==`, `>` holds, and `<` and `>=` are complementary -/
theorem C10_total (a b : Words) (ha : Canon a) (hb : Canon b) :
    (ltOp a b = true ↔ val a < val b) ∧ (geOp a b = true ↔ val b ≤ val a) ∧
    (ltOp a b = true ∨ eqv a b = true ∨ ltOp b a = true) := by
  obtain ⟨a, rfl⟩ := canon_iff_enc.1 ha
  obtain ⟨b, rfl⟩ := canon_iff_enc.1 hb
  rw [ltOp_enc, geOp_enc, eqv_enc, ltOp_enc]
  simp
  omega

example : Canon sampleA ∧ Canon sampleB ∧ partialCmp sampleA sampleB = some .gt :=
  ⟨sampleA_canon, sampleB_canon, by decide⟩

/-! ## C11 NaN -/

/-- Every binary operator gives NaN when one operand is NaN; NaN is neither equal to nor ordered
against anything. -/
theorem C11_nan (a : Words) :
    (natAdd NaN a = NaN ∧ natAdd a NaN = NaN) ∧ (natSub NaN a = NaN ∧ natSub a NaN = NaN) ∧
    (natMul NaN a = NaN ∧ natMul a NaN = NaN) ∧
    (natDiv NaN a = .ok NaN ∧ natDiv a NaN = .ok NaN) ∧ (natRem NaN a = .ok NaN ∧ natRem a NaN = .ok NaN) ∧
    (natAnd NaN a = NaN ∧ natAnd a NaN = NaN) ∧ (natOr NaN a = NaN ∧ natOr a NaN = NaN) ∧
    (natXor NaN a = NaN ∧ natXor a NaN = NaN) ∧ natNot NaN = NaN ∧
    (∀ s, natShl NaN s = NaN ∧ natShr NaN s = NaN) ∧
    (∀ u, natAddW NaN u = NaN ∧ natSubW NaN u = NaN ∧ natMulW NaN u = NaN ∧
      natDivW NaN u = .ok NaN ∧ natRemW NaN u = .ok NaN) ∧
    (eqv NaN a = false ∧ partialCmp NaN a = none ∧ partialCmp a NaN = none) ∧
    (a ≠ NaN → eqv a NaN = false) := by
  simp [natAdd, natSub, natMul, natDiv, natRem, natAnd, natOr, natXor, natNot, natShl, natShr, natAddW,
    natSubW, natMulW, natDivW, natRemW, opNat, opNatR, opPrim, opPrimR, isNan, eqv, partialCmp]

/-- The named method `and_not` does not follow the rule: a NaN argument is ignored.  It is a method
and not an operator, so C11 as stated is not violated; recorded as a finding. -/
theorem C11_and_not_ignores_nan (a : Words) (ha : Canon a) : andNot a NaN = a := by
  have : deepClone a = a := trim_of_canon ha
  unfold andNot andNotAssign
  rw [this]
  cases a with
  | nil => rfl
  | cons w ws => exact trim_of_canon ha

/-! ## C12 machine words on the right -/

/-- `a + u` equals `a + Nat::from(u)`; the same for `/` and `%` (including the panic for `u = 0`). -/
theorem C12_add_div_rem (a : Words) (u : W) (ha : Canon a) :
    natAddW a u = natAdd a [u] ∧ natDivW a u = natDiv a [u] ∧ natRemW a u = natRem a [u] := by
  obtain ⟨a, rfl⟩ := canon_iff_enc.1 ha
  rw [natAddW, natDivW, natRemW, natAdd, natDiv, natRem, opPrim_enc, opPrimR_enc, opPrimR_enc,
    singleton_eq_enc, opNat_enc, opNatR_enc, opNatR_enc]
  refine ⟨by rw [addInnerBasic_enc, addInner_enc], ?_, ?_⟩
  · by_cases hu : u = 0#32
    · subst hu
      rw [show (0#32).toNat = 0 from rfl, divInner_zero]; simp [divInnerBasic]
    · have : u.toNat ≠ 0 := by simpa [← BitVec.toNat_inj] using hu
      rw [divInnerBasic_enc a hu, divInner_enc this]
  · by_cases hu : u = 0#32
    · subst hu
      rw [show (0#32).toNat = 0 from rfl, remInner_zero]; simp [remInnerBasic]
    · have : u.toNat ≠ 0 := by simpa [← BitVec.toNat_inj] using hu
      rw [remInnerBasic_enc a hu, remInner_enc this]

/-- `a - u` and `a * u` denote the right numbers.
(Full statement: they are equal (`==`) to `a - Nat::from(u)` and `a * Nat::from(u)`.  It is false, see
`C12_not_equal`.) -/
theorem C12_sub_mul_val_partial (a : Words) (u : W) (ha : Canon a) :
    val (natSubW a u) = val (natSub a [u]) ∧ val (natMulW a u) = val (natMul a [u]) := by
  obtain ⟨a, rfl⟩ := canon_iff_enc.1 ha
  rw [natSubW, natMulW, natSub, natMul, opPrim_enc, opPrim_enc, singleton_eq_enc, opNat_enc, opNat_enc,
    subInner_enc, mulInner_enc, subInnerBasic_val (canon_enc a), mulInnerBasic_val]
  simp

/-- `3 * 2u32` is not `==` to 6, and `2^32 - 1u32` is not `==` to `2^32 - 1`. -/
theorem C12_not_equal :
    (Canon [3#32] ∧ eqv (natMulW [3#32] 2#32) (natMul [3#32] [2#32]) = false) ∧
    (Canon [0#32, 1#32] ∧ eqv (natSubW [0#32, 1#32] 1#32) (natSub [0#32, 1#32] [1#32]) = false) :=
  ⟨⟨⟨by decide, by decide⟩, by decide⟩, ⟨by decide, by decide⟩, by decide⟩

/-- `a * u` is never canonical when the product fits in as many words as `a`. -/
theorem C12_mul_not_canonical (a : Words) (u : W) (ha : Canon a)
    (h : val a * u.toNat < 2 ^ (32 * a.length)) : ¬ Canon (natMulW a u) := by
  have e : natMulW a u = mulInnerBasic a u := by
    obtain ⟨a, rfl⟩ := canon_iff_enc.1 ha
    exact opPrim_enc _ _ _
  rw [e]
  intro hc
  have hv := mulInnerBasic_val a u
  have hl : (mulInnerBasic a u).length ≥ a.length + 1 := by
    unfold mulInnerBasic; simp only; split <;> simp [mulBasicLoop_length]
  have hp := ha.length_pos
  have := hc.le_val (by omega)
  have h3 : 2 ^ (32 * a.length) ≤ 2 ^ (32 * ((mulInnerBasic a u).length - 1)) :=
    Nat.pow_le_pow_right (by norm_num) (by omega)
  omega

example : Canon sampleB ∧ natDivW sampleB 10#32 = .ok [0x99999999#32, 0x19999999#32] ∧
    val sampleA * (2#32).toNat < 2 ^ (32 * sampleA.length) := ⟨sampleB_canon, by decide, by decide⟩

/-! ## C13 canonical form along sequences of operations -/

/-- Expressions built from numbers with the operators of `Nat` that keep canonical form. -/
inductive NExpr where
  | lit (ws : Words)
  | add (x y : NExpr) | sub (x y : NExpr) | mul (x y : NExpr) | div (x y : NExpr) | rem (x y : NExpr)
  | and (x y : NExpr) | or (x y : NExpr) | xor (x y : NExpr) | not (x : NExpr) | andNot (x y : NExpr)
  | shl (x : NExpr) (s : Nat) | shr (x : NExpr) (s : Nat)
  | addW (x : NExpr) (u : W) | divW (x : NExpr) (u : W) | remW (x : NExpr) (u : W)

/-- Evaluation with the operators of the library. -/
def NExpr.eval : NExpr → Res Words
  | lit ws => .ok ws
  | add x y => do return natAdd (← x.eval) (← y.eval)
  | sub x y => do return natSub (← x.eval) (← y.eval)
  | mul x y => do return natMul (← x.eval) (← y.eval)
  | div x y => do natDiv (← x.eval) (← y.eval)
  | rem x y => do natRem (← x.eval) (← y.eval)
  | and x y => do return natAnd (← x.eval) (← y.eval)
  | or x y => do return natOr (← x.eval) (← y.eval)
  | xor x y => do return natXor (← x.eval) (← y.eval)
  | not x => do return natNot (← x.eval)
  | andNot x y => do return RMath.andNot (← x.eval) (← y.eval)
  | shl x s => do return natShl (← x.eval) s
  | shr x s => do return natShr (← x.eval) s
  | addW x u => do return natAddW (← x.eval) u
  | divW x u => do natDivW (← x.eval) u
  | remW x u => do natRemW (← x.eval) u

/-- Evaluation over the natural numbers; `none` is division by zero. -/
def NExpr.denote : NExpr → Option Nat
  | lit ws => some (val ws)
  | add x y => do return (← x.denote) + (← y.denote)
  | sub x y => do let a ← x.denote; let b ← y.denote; return (a - b) + (b - a)
  | mul x y => do return (← x.denote) * (← y.denote)
  | div x y => do let a ← x.denote; let b ← y.denote; if b = 0 then none else return a / b
  | rem x y => do let a ← x.denote; let b ← y.denote; if b = 0 then none else return a % b
  | and x y => do return (← x.denote) &&& (← y.denote)
  | or x y => do return (← x.denote) ||| (← y.denote)
  | xor x y => do return (← x.denote) ^^^ (← y.denote)
  | not x => do let a ← x.denote; return 2 ^ (if a = 0 then 1 else a.log2 + 1) - 1 - a
  | andNot x y => do return Nat.ldiff (← x.denote) (← y.denote)
  | shl x s => do return (← x.denote) * 2 ^ s
  | shr x s => do return (← x.denote) / 2 ^ s
  | addW x u => do return (← x.denote) + u.toNat
  | divW x u => do let a ← x.denote; if u.toNat = 0 then none else return a / u.toNat
  | remW x u => do let a ← x.denote; if u.toNat = 0 then none else return a % u.toNat

/-- Literals are canonical and shifts are by less than a word. -/
def NExpr.Ok : NExpr → Prop
  | lit ws => Canon ws
  | add x y | sub x y | mul x y | div x y | rem x y | and x y | or x y | xor x y | andNot x y => x.Ok ∧ y.Ok
  | not x | addW x _ | divW x _ | remW x _ => x.Ok
  | shl x s | shr x s => x.Ok ∧ s < 32

theorem NExpr.eval_eq (e : NExpr) (h : e.Ok) :
    e.eval = match e.denote with | some n => .ok (enc n) | none => .error .panic := by
  have hb : ∀ (x y : NExpr) (f : Words → Words → Res Words) (g : Nat → Nat → Option Nat),
      (x.eval = match x.denote with | some n => .ok (enc n) | none => .error .panic) →
      (y.eval = match y.denote with | some n => .ok (enc n) | none => .error .panic) →
      (∀ a b, f (enc a) (enc b) = match g a b with | some n => .ok (enc n) | none => .error .panic) →
      (do f (← x.eval) (← y.eval)) = match (do g (← x.denote) (← y.denote) : Option Nat) with
        | some n => .ok (enc n) | none => .error .panic := by
    intro x y f g hx hy hf
    rw [hx, hy]
    cases x.denote with
    | none => rfl
    | some a =>
      cases y.denote with
      | none => rfl
      | some b => exact hf a b
  have hu : ∀ (x : NExpr) (f : Words → Res Words) (g : Nat → Option Nat),
      (x.eval = match x.denote with | some n => .ok (enc n) | none => .error .panic) →
      (∀ a, f (enc a) = match g a with | some n => .ok (enc n) | none => .error .panic) →
      (do f (← x.eval)) = match (do g (← x.denote) : Option Nat) with
        | some n => .ok (enc n) | none => .error .panic := by
    intro x f g hx hf
    rw [hx]
    cases x.denote with
    | none => rfl
    | some a => exact hf a
  induction e with
  | lit ws => simp only [NExpr.eval, NExpr.denote]; rw [← canon_eq_enc h]
  | add x y ihx ihy =>
    exact hb x y (fun a b => .ok (natAdd a b)) (fun a b => some (a + b)) (ihx h.1) (ihy h.2)
      (fun a b => by simp only [natAdd, opNat_enc, addInner_enc])
  | sub x y ihx ihy =>
    exact hb x y (fun a b => .ok (natSub a b)) (fun a b => some ((a - b) + (b - a))) (ihx h.1) (ihy h.2)
      (fun a b => by simp only [natSub, opNat_enc, subInner_enc])
  | mul x y ihx ihy =>
    exact hb x y (fun a b => .ok (natMul a b)) (fun a b => some (a * b)) (ihx h.1) (ihy h.2)
      (fun a b => by simp only [natMul, opNat_enc, mulInner_enc])
  | div x y ihx ihy =>
    exact hb x y natDiv (fun a b => if b = 0 then none else some (a / b)) (ihx h.1) (ihy h.2)
      (fun a b => by
        by_cases h0 : b = 0
        · subst h0; simp only [natDiv, opNatR_enc, divInner_zero, if_true]
        · simp only [natDiv, opNatR_enc, divInner_enc h0, h0, if_false])
  | rem x y ihx ihy =>
    exact hb x y natRem (fun a b => if b = 0 then none else some (a % b)) (ihx h.1) (ihy h.2)
      (fun a b => by
        by_cases h0 : b = 0
        · subst h0; simp only [natRem, opNatR_enc, remInner_zero, if_true]
        · simp only [natRem, opNatR_enc, remInner_enc h0, h0, if_false])
  | and x y ihx ihy =>
    exact hb x y (fun a b => .ok (natAnd a b)) (fun a b => some (a &&& b)) (ihx h.1) (ihy h.2)
      (fun a b => by simp only [natAnd, opNat_enc, bitandInner_enc])
  | or x y ihx ihy =>
    exact hb x y (fun a b => .ok (natOr a b)) (fun a b => some (a ||| b)) (ihx h.1) (ihy h.2)
      (fun a b => by simp only [natOr, opNat_enc, bitorInner_enc])
  | xor x y ihx ihy =>
    exact hb x y (fun a b => .ok (natXor a b)) (fun a b => some (a ^^^ b)) (ihx h.1) (ihy h.2)
      (fun a b => by simp only [natXor, opNat_enc, bitxorInner_enc])
  | andNot x y ihx ihy =>
    exact hb x y (fun a b => .ok (RMath.andNot a b)) (fun a b => some (Nat.ldiff a b)) (ihx h.1) (ihy h.2)
      (fun a b => by simp only [RMath.andNot, deepClone_enc, andNotAssign_enc])
  | not x ihx =>
    exact hu x (fun a => .ok (natNot a)) (fun a => some (2 ^ (if a = 0 then 1 else a.log2 + 1) - 1 - a)) (ihx h)
      (fun a => by simp only [natNot_enc, bitLen])
  | shl x s ihx =>
    exact hu x (fun a => .ok (natShl a s)) (fun a => some (a * 2 ^ s)) (ihx h.1)
      (fun a => by simp only [natShl, opPrim_enc, shlInner_enc_lt h.2])
  | shr x s ihx =>
    exact hu x (fun a => .ok (natShr a s)) (fun a => some (a / 2 ^ s)) (ihx h.1)
      (fun a => by simp only [natShr, opPrim_enc, shrInner_enc_lt h.2])
  | addW x u ihx =>
    exact hu x (fun a => .ok (natAddW a u)) (fun a => some (a + u.toNat)) (ihx h)
      (fun a => by simp only [natAddW, opPrim_enc, addInnerBasic_enc])
  | divW x u ihx =>
    exact hu x (fun a => natDivW a u) (fun a => if u.toNat = 0 then none else some (a / u.toNat)) (ihx h)
      (fun a => by
        by_cases hu : u = 0#32
        · subst hu; simp [natDivW, opPrimR_enc, divInnerBasic]
        · have : u.toNat ≠ 0 := by simpa [← BitVec.toNat_inj] using hu
          simp only [natDivW, opPrimR_enc, divInnerBasic_enc a hu, this, if_false])
  | remW x u ihx =>
    exact hu x (fun a => natRemW a u) (fun a => if u.toNat = 0 then none else some (a % u.toNat)) (ihx h)
      (fun a => by
        by_cases hu : u = 0#32
        · subst hu; simp [natRemW, opPrimR_enc, remInnerBasic]
        · have : u.toNat ≠ 0 := by simpa [← BitVec.toNat_inj] using hu
          simp only [natRemW, opPrimR_enc, remInnerBasic_enc a hu, this, if_false])

/-- Along any sequence of operations (any expression) the results stay canonical and denote the
mathematical value; the only failure is the panic for a division by zero.
(Full statement: with `* u32`, `- u32` and arbitrary shift counts among the operators.  These break the
canonical form, see `C12_not_equal`, `C05_shl_zero_not_canonical`, `C06_shr_wrong`.) -/
theorem C13_closure_partial (e : NExpr) (h : e.Ok) :
    (∀ n, e.denote = some n → ∃ r, e.eval = .ok r ∧ Canon r ∧ val r = n) ∧
    (e.denote = none → e.eval = .error .panic) := by
  rw [e.eval_eq h]
  constructor
  · intro n hn; rw [hn]; exact ⟨_, rfl, canon_enc n, val_enc n⟩
  · intro hn; rw [hn]

/-- Consequently `==` on results of any two computations is equality of numbers. -/
theorem C13_eq_partial (e f : NExpr) (he : e.Ok) (hf : f.Ok) (m n : Nat)
    (hm : e.denote = some m) (hn : f.denote = some n) :
    ∃ r s, e.eval = .ok r ∧ f.eval = .ok s ∧ (eqv r s = true ↔ m = n) := by
  obtain ⟨r, hr, hrc, hrv⟩ := (C13_closure_partial e he).1 m hm
  obtain ⟨s, hs, hsc, hsv⟩ := (C13_closure_partial f hf).1 n hn
  exact ⟨r, s, hr, hs, by rw [C10_eq r s hrc hsc, hrv, hsv]⟩

example : (NExpr.rem (.sub (.lit sampleA) (.mul (.lit sampleB) (.lit sampleB))) (.shr (.lit sampleA) 3)).Ok :=
  ⟨⟨sampleA_canon, sampleB_canon, sampleB_canon⟩, sampleA_canon, by decide⟩

/-! ## C14 the two back ends -/

/-- The x86 and the portable back end return identical vectors. -/
theorem C14_backends_agree (a b : Words) (ha : Canon a) (hb : Canon b) :
    opNat Gen.addInner a b = natAdd a b ∧ opNat Gen.subInner a b = natSub a b ∧
    opNat Gen.mulInner a b = natMul a b ∧ Gen.subInnerWithSign a b = subInnerWithSign a b := by
  obtain ⟨a, rfl⟩ := canon_iff_enc.1 ha
  obtain ⟨b, rfl⟩ := canon_iff_enc.1 hb
  rw [natAdd, natSub, natMul]
  simp only [opNat_enc]
  refine ⟨Gen.addInner_eq (enc_ne_nil _) (enc_ne_nil _), Gen.subInner_eq _ _, ?_, Gen.subInnerWithSign_eq _ _⟩
  rw [Gen.mulInner_spec, mulInner_enc]; simp

/-- With a machine word on the right `+` agrees, and `-` agrees in value: the portable version trims
the result and the x86 version does not. -/
theorem C14_backends_agree_word (a : Words) (u : W) (ha : Canon a) :
    opPrim Gen.addInnerBasic a u = natAddW a u ∧
    opPrim Gen.subInnerBasic a u = trim (natSubW a u) ∧
    val (opPrim Gen.subInnerBasic a u) = val (natSubW a u) := by
  obtain ⟨a, rfl⟩ := canon_iff_enc.1 ha
  rw [natAddW, natSubW]
  simp only [opPrim_enc, Gen.addInnerBasic_eq, Gen.subInnerBasic_eq, val_trim, and_self]

/-- The vectors differ for `2^32 - 1u32`. -/
theorem C14_sub_word_differs :
    Canon [0#32, 1#32] ∧ opPrim Gen.subInnerBasic [0#32, 1#32] 1#32 ≠ natSubW [0#32, 1#32] 1#32 :=
  ⟨⟨by decide, by decide⟩, by decide⟩

example : Canon sampleA ∧ Canon sampleB ∧ opNat Gen.addInner sampleA sampleB = [4#32, 0#32, 8#32] :=
  ⟨sampleA_canon, sampleB_canon, by decide⟩

end RMath
