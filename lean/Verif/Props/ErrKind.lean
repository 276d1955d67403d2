import Verif.Model.ErrKind
import Verif.Props.Rat

/-!
# Property C116: the kind of a parse error names the fault

`Surrounds`, `IsLiteral` and `IsBarePrefix` are the vocabulary of C25.
-/

namespace RMath

/-- a numeral begins here: a digit other than 0, a zero and the letter of a base, or a zero and nothing else -/
def StartsNumber (body : List Char) : Prop :=
  (∃ d ds, body = d :: ds ∧ digitOf d < 10 ∧ d ≠ '0') ∨ (∃ p ds, body = '0' :: p :: ds ∧ p ∈ ['o', 'b', 'B', 'x', 'X']) ∨ body = ['0']

/-! ## Proof -/

theorem bind_toOption {α β κ : Type} (x : Res α) {f : α → Res (Option β)} {g : α → Res (Except κ β)}
    (h : ∀ a, f a = (g a).map Except.toOption) : x >>= f = (x >>= g).map Except.toOption := by
  cases x with
  | error e => rfl
  | ok a => exact h a

/-- the parsers with and without kinds -/
theorem natParseE_toOption (s : List Char) : natParse s = (natParseE s).map Except.toOption := by
  have hk : ∀ (o : Option Words), (withKind ParseErrKind.illegalCharEncounter o).toOption = o := by intro o; cases o <;> rfl
  have hm : ∀ (r : Res (Option Words)), r = (r.map (withKind ParseErrKind.illegalCharEncounter)).map Except.toOption := by
    intro r
    cases r with
    | error e => rfl
    | ok o => exact congrArg Except.ok (hk o).symm
  unfold natParse natParseE
  dsimp only
  cases checkBase 0 (strTrim s) with
  | none => rfl
  | some p =>
    obtain ⟨i, b⟩ := p
    dsimp only
    split_ifs
    · exact hm _
    · exact hm _
    · exact congrArg Except.ok (hk _).symm
    · exact hm _
    · rfl

theorem bParseE_toOption (s : List Char) : bParse s = (bParseE s).map Except.toOption := by
  unfold bParse bParseE
  dsimp only
  cases strTrim s with
  | nil => rfl
  | cons c cs =>
    dsimp only
    rw [natParseE_toOption]
    rcases natParseE (if c = '-' then cs else c :: cs) with e | (k | n) <;> rfl

theorem rParseE_toOption (std : List Char → Option D) (s : List Char) : rParse std s = (rParseE std s).map Except.toOption := by
  unfold rParse rParseE
  dsimp only
  split_ifs
  · rfl
  · cases std (strTrim s) with
    | none => rfl
    | some f =>
      dsimp only
      split_ifs
      · rfl
      · cases rFromF64 f <;> rfl
  · refine bind_toOption _ fun ab => ?_
    rcases ab with ⟨(_ | a), (_ | b)⟩
    · rfl
    · rfl
    · rfl
    · dsimp only
      split_ifs <;> rfl

theorem fParseExpE_toOption (s : List Char) (sp : Option (List Char × List Char)) :
    fParseExp s sp = (fParseExpE s sp).map Except.toOption := by
  unfold fParseExp fParseExpE
  cases sp with
  | none => rfl
  | some p =>
    obtain ⟨l, es⟩ := p
    dsimp only
    split_ifs
    · rfl
    · simp only [bind, Except.bind]
      rcases bParse es with e | (_ | e)
      · rfl
      · rfl
      · dsimp only
        split_ifs <;> rfl

theorem fParseE_toOption (s : List Char) : fParse s = (fParseE s).map Except.toOption := by
  unfold fParse fParseE
  dsimp only
  by_cases h1 : strTrim s = []
  · rw [if_pos h1, if_pos h1]; rfl
  rw [if_neg h1, if_neg h1]
  by_cases h2 : 'e' ∈ strTrim s ∧ 'E' ∈ strTrim s
  · rw [if_pos h2, if_pos h2]; rfl
  rw [if_neg h2, if_neg h2]
  generalize (if 'e' ∈ strTrim s then splitAtChar 'e' (strTrim s) else splitAtChar 'E' (strTrim s)) = sp
  by_cases h3 : '.' ∉ strTrim s ∧ sp = none
  · rw [if_pos h3, if_pos h3]
    refine bind_toOption _ fun n => ?_
    cases n with
    | none => rfl
    | some n => exact bind_toOption _ fun z => rfl
  rw [if_neg h3, if_neg h3, fParseExpE_toOption]
  rcases fParseExpE (strTrim s) sp with e | (k | ⟨t, exp⟩)
  · rfl
  · rfl
  refine bind_toOption (κ := FloatErrKind) (bParse _) fun n => bind_toOption _ fun d => ?_
  cases n with
  | none => rfl
  | some n =>
    cases d with
    | none => rfl
    | some d =>
      refine bind_toOption _ fun r => ?_
      cases r with
      | none => rfl
      | some r => exact bind_toOption _ fun z => rfl

theorem checkBase_none_iff (t : List Char) : checkBase 0 t = none ↔ ¬ StartsNumber (t.dropWhile isSign) := by
  obtain ⟨k, -, h2⟩ := checkBase_skip t 0
  rw [h2]
  have hhead := fun c cs => dropWhile_head (p := isSign) t (c := c) (cs := cs)
  generalize t.dropWhile isSign = b at *
  match b with
  | [] => simp [checkBase, StartsNumber]
  | [c] =>
    have hs := hhead c [] rfl
    rw [checkBase_one _ (by simpa [isSign] using hs)]
    by_cases hc : digitOf c < 10
    · rw [if_pos hc]
      simp only [reduceCtorEq, false_iff, not_not]
      by_cases h0 : c = '0'
      · exact .inr (.inr (by rw [h0]))
      · exact .inl ⟨c, [], rfl, hc, h0⟩
    · rw [if_neg hc]
      simp only [true_iff]
      rintro (⟨d, ds, h, h', -⟩ | ⟨p, ds, h, -⟩ | h)
      · cases h; exact hc h'
      · cases h
      · cases h; exact hc (by decide)
  | c :: x :: xs =>
    have hs := hhead c (x :: xs) rfl
    rw [checkBase_two _ _ _ (by simpa [isSign] using hs)]
    by_cases hc : digitOf c < 10
    · rw [if_pos hc]
      by_cases h0 : c = '0'
      · subst h0
        rw [if_pos rfl]
        split_ifs with a1 a2 a3
        · simp only [false_iff, not_not]
          exact .inr (.inl ⟨x, xs, rfl, by simp [a1]⟩)
        · simp only [false_iff, not_not]
          exact .inr (.inl ⟨x, xs, rfl, by rcases a2 with h | h <;> simp [h]⟩)
        · simp only [false_iff, not_not]
          exact .inr (.inl ⟨x, xs, rfl, by rcases a3 with h | h <;> simp [h]⟩)
        · simp only [true_iff]
          rintro (⟨d, ds, h, -, h'⟩ | ⟨p, ds, h, hp⟩ | h)
          · cases h; exact h' rfl
          · cases h
            simp only [List.mem_cons, List.not_mem_nil, or_false] at hp
            rcases hp with h | h | h | h | h <;> simp [h] at a1 a2 a3
          · cases h
      · rw [if_neg h0]
        simp only [reduceCtorEq, false_iff, not_not]
        exact .inl ⟨c, _, rfl, hc, h0⟩
    · rw [if_neg hc]
      simp only [true_iff]
      rintro (⟨d, ds, h, h', -⟩ | ⟨p, ds, h, -⟩ | h)
      · cases h; exact hc h'
      · cases h; exact hc (by decide)
      · cases h

theorem starts_head {b : List Char} (h : StartsNumber b) : ∃ c cs, b = c :: cs ∧ digitOf c < 16 := by
  rcases h with ⟨d, ds, h, h', -⟩ | ⟨p, ds, h, -⟩ | h
  · exact ⟨d, ds, h, by omega⟩
  · exact ⟨_, _, h, by decide⟩
  · exact ⟨_, _, h, by decide⟩

theorem starts_rtrim {b : List Char} (h : StartsNumber b) : StartsNumber (rtrim b) := by
  rcases h with ⟨d, ds, rfl, h, h'⟩ | ⟨p, ds, rfl, h⟩ | rfl
  · rw [rtrim_cons (not_white (by omega))]
    exact .inl ⟨d, _, rfl, h, h'⟩
  · have hp : isWhite p = false := by
      simp only [List.mem_cons, List.not_mem_nil, or_false] at h
      rcases h with rfl | rfl | rfl | rfl | rfl <;> decide
    rw [rtrim_cons (by decide), rtrim_cons hp]
    exact .inr (.inl ⟨p, _, rfl, h⟩)
  · exact .inr (.inr (by decide))

theorem rtrim_split (b : List Char) : ∃ w, b = rtrim b ++ w ∧ ∀ c ∈ w, isWhite c = true := by
  refine ⟨(b.reverse.takeWhile isWhite).reverse, ?_, fun c hc => mem_takeWhile (List.mem_reverse.1 hc)⟩
  have := (List.takeWhile_append_dropWhile (p := isWhite) (l := b.reverse))
  have h2 := congrArg List.reverse this
  rw [List.reverse_append, List.reverse_reverse] at h2
  exact h2.symm

theorem rtrim_last {b : List Char} (h : rtrim b ≠ []) : ∃ l, (rtrim b).getLast? = some l ∧ isWhite l = false := by
  unfold rtrim at *
  rw [List.getLast?_reverse]
  cases hd : b.reverse.dropWhile isWhite with
  | nil => rw [hd] at h; simp at h
  | cons c cs => exact ⟨c, rfl, dropWhile_head _ hd⟩

theorem starts_iff (s : List Char) : (∃ body, Surrounds s body ∧ StartsNumber body) ↔ StartsNumber ((strTrim s).dropWhile isSign) := by
  constructor
  · rintro ⟨b, ⟨ws, pre, ws', rfl, h1, h2, h3⟩, hb⟩
    obtain ⟨w, hw1, hw2⟩ := rtrim_split b
    have hr := starts_rtrim hb
    obtain ⟨c, cs, hc, hc'⟩ := starts_head hr
    obtain ⟨l, hl, hl'⟩ := rtrim_last (b := b) (by rw [hc]; simp)
    have e : ws ++ pre ++ b ++ ws' = ws ++ pre ++ rtrim b ++ (w ++ ws') := by
      conv_lhs => rw [hw1]
      simp
    rw [e, skip_trim (fun c hc => (isWhite_iff c).2 (h1 c hc)) ?_ (fun d hd => (isSign_iff d).2 (h3 d hd)) hc hc' hl hl']
    · exact hr
    · intro d hd
      rcases List.mem_append.1 hd with h | h
      · exact hw2 d h
      · exact (isWhite_iff d).2 (h2 d h)
  · intro h
    obtain ⟨ws, pre, ws', hsp, h1, h2, h3⟩ := trim_split s
    exact ⟨_, ⟨ws, pre, ws', hsp, fun c hc => (isWhite_iff c).1 (h1 c hc), fun c hc => (isWhite_iff c).1 (h3 c hc),
      fun c hc => (isSign_iff c).1 (h2 c hc)⟩, h⟩

theorem natParseE_kind (s : List Char) (k : ParseErrKind) (h : natParseE s = .ok (.error k)) :
    k = if checkBase 0 (strTrim s) = none then .beginWithIllegalChar else .illegalCharEncounter := by
  have hm : ∀ (r : Res (Option Words)), r.map (withKind ParseErrKind.illegalCharEncounter) = .ok (.error k) →
      k = .illegalCharEncounter := by
    intro r hr
    rcases r with e | (_ | a)
    · cases hr
    · cases hr; rfl
    · cases hr
  unfold natParseE at h
  dsimp only at h
  cases hb : checkBase 0 (strTrim s) with
  | none => rw [hb] at h; cases h; rfl
  | some p =>
    rw [hb] at h
    obtain ⟨i, b⟩ := p
    rw [if_neg (by simp)]
    dsimp only at h
    split_ifs at h
    · exact hm _ h
    · exact hm _ h
    · exact hm (.ok _) h
    · exact hm _ h

/-! ## C116 -/

/-- the text is accepted by `Nat::from_str` (C25) -/
def NatText (s : List Char) : Prop := ∃ body, Surrounds s body ∧ ((∃ v, IsLiteral body v) ∨ IsBarePrefix body)

/-- **C116** for `Nat`: an error is `BeginWithIllegalChar` exactly if no numeral begins after white space and signs, and
`IllegalCharEncounter` exactly if one begins but goes wrong later. -/
theorem C116_nat (s : List Char) :
    (natParseE s = .ok (.error .beginWithIllegalChar) ↔ ¬ ∃ body, Surrounds s body ∧ StartsNumber body) ∧
    (natParseE s = .ok (.error .illegalCharEncounter) ↔ (∃ body, Surrounds s body ∧ StartsNumber body) ∧ ¬ NatText s) ∧
    (∀ k, natParseE s = .ok (.error k) → k ≠ .invalidParameters) ∧
    natParse s = (natParseE s).map Except.toOption := by
  have hpar : (∃ r, natParseE s = .ok (.ok r)) ↔ NatText s := by
    have h := natParseE_toOption s
    constructor
    · rintro ⟨r, hr⟩
      rw [hr] at h
      rcases (C25_parse_partial s r).1 h with ⟨b, v, h1, h2, -⟩ | ⟨b, h1, h2, -⟩
      · exact ⟨b, h1, .inl ⟨v, h2⟩⟩
      · exact ⟨b, h1, .inr h2⟩
    · have : ∀ r, natParse s = .ok (some r) → ∃ r, natParseE s = .ok (.ok r) := by
        intro r hr
        rw [hr] at h
        rcases hE : natParseE s with e | (k | a)
        · rw [hE] at h; cases h
        · rw [hE] at h; cases h
        · exact ⟨a, rfl⟩
      rintro ⟨b, h1, ⟨v, h2⟩ | h2⟩
      · exact this _ ((C25_parse_partial s (enc v)).2 (.inl ⟨b, v, h1, h2, canon_enc v, val_enc v⟩))
      · exact this _ ((C25_parse_partial s NaN).2 (.inr ⟨b, h1, h2, rfl⟩))
  have hcb := checkBase_none_iff (strTrim s)
  rw [← starts_iff] at hcb
  obtain ⟨o, ho⟩ := C25_parse_never_panics s
  have hok : ∃ o, natParseE s = .ok o := by
    rcases hE : natParseE s with e | o
    · have h := natParseE_toOption s
      rw [ho, hE] at h; cases h
    · exact ⟨o, rfl⟩
  refine ⟨⟨fun h => ?_, fun h => ?_⟩, ⟨fun h => ⟨?_, ?_⟩, fun h => ?_⟩, fun k h => ?_, natParseE_toOption s⟩
  · have := natParseE_kind s _ h
    by_cases hn : checkBase 0 (strTrim s) = none
    · exact hcb.1 hn
    · rw [if_neg hn] at this; cases this
  · unfold natParseE
    simp only [hcb.2 h]
  · by_contra hc
    have := natParseE_kind s _ h
    rw [if_pos (hcb.2 hc)] at this
    cases this
  · intro hc
    obtain ⟨r, hr⟩ := hpar.2 hc
    rw [h] at hr; cases hr
  · obtain ⟨o, ho⟩ := hok
    rcases o with k | r
    · have := natParseE_kind s _ ho
      rw [if_neg (fun hn => hcb.1 hn h.1)] at this
      rw [ho, this]
    · exact absurd (hpar.1 ⟨r, ho⟩) h.2
  · rw [natParseE_kind s _ h]
    split_ifs <;> decide

example : natParseE "12x4".toList = .ok (.error .illegalCharEncounter) ∧ natParseE " +0b12".toList = .ok (.error .illegalCharEncounter) ∧
    natParseE "012".toList = .ok (.error .beginWithIllegalChar) ∧ natParseE "++".toList = .ok (.error .beginWithIllegalChar) := by
  decide +kernel

theorem natParseE_congr {s t : List Char} (h : strTrim s = strTrim t) : natParseE s = natParseE t := by
  unfold natParseE
  rw [h]

/-- the text after white space and a minus sign -/
def AfterMinus (s t : List Char) : Prop := ∃ ws, (∀ c ∈ ws, WhiteSpace c) ∧ s = ws ++ '-' :: t

theorem strTrim_minus (s : List Char) : (∀ t, AfterMinus s t → strTrim s = '-' :: rtrim t) ∧
    ∀ cs, strTrim s = '-' :: cs → ∃ t, AfterMinus s t ∧ cs = rtrim t := by
  have hminus : isWhite '-' = false := by decide
  constructor
  · rintro t ⟨ws, h1, rfl⟩
    rw [strTrim_eq, List.dropWhile_append_of_pos (fun c hc => (isWhite_iff c).2 (h1 c hc)), List.dropWhile_cons, if_neg (by simp [hminus]),
      rtrim_cons hminus]
  · intro cs hcs
    rw [strTrim_eq] at hcs
    have h1 : s = s.takeWhile isWhite ++ s.dropWhile isWhite := (List.takeWhile_append_dropWhile ..).symm
    cases hd : s.dropWhile isWhite with
    | nil => rw [hd] at hcs; simp [rtrim] at hcs
    | cons c t =>
      have hc : isWhite c = false := dropWhile_head _ hd
      rw [hd, rtrim_cons hc] at hcs
      simp only [List.cons.injEq] at hcs
      refine ⟨t, ⟨s.takeWhile isWhite, fun c hc => (isWhite_iff c).1 (mem_takeWhile hc), ?_⟩, hcs.2.symm⟩
      rw [← hcs.1, ← hd]; exact h1

/-- **C116** for `BigInt`: behind a minus sign, or without one, the errors are those of `Nat`. -/
theorem C116_bigint (s : List Char) (k : ParseErrKind) :
    (bParseE s = .ok (.error k) ↔ (∃ t, AfterMinus s t ∧ natParseE t = .ok (.error k)) ∨
      ((¬ ∃ t, AfterMinus s t) ∧ natParseE s = .ok (.error k))) ∧
    bParse s = (bParseE s).map Except.toOption := by
  refine ⟨?_, bParseE_toOption s⟩
  obtain ⟨hm1, hm2⟩ := strTrim_minus s
  cases hs : strTrim s with
  | nil =>
    have hno : ¬ ∃ t, AfterMinus s t := by
      rintro ⟨t, ht⟩
      rw [hm1 t ht] at hs; cases hs
    have hn : natParseE s = .ok (.error .beginWithIllegalChar) := by unfold natParseE; rw [hs]; rfl
    have hb : bParseE s = .ok (.error .beginWithIllegalChar) := by unfold bParseE; simp only [hs]
    rw [hn, hb]
    simp only [Except.ok.injEq, Except.error.injEq]
    exact ⟨fun h => .inr ⟨hno, h⟩, fun h => h.elim (fun ⟨t, ht, _⟩ => absurd ⟨t, ht⟩ hno) And.right⟩
  | cons c cs =>
    have hb : bParseE s = .ok (.error k) ↔ natParseE (if c = '-' then cs else c :: cs) = .ok (.error k) := by
      unfold bParseE
      simp only [hs]
      rcases natParseE (if c = '-' then cs else c :: cs) with e | (k' | a) <;> simp
    rw [hb]
    by_cases hc : c = '-'
    · subst hc
      rw [if_pos rfl]
      obtain ⟨t, ht, rfl⟩ := hm2 cs hs
      rw [natParseE_congr (dropWhile_rtrim t)]
      constructor
      · intro h; exact .inl ⟨t, ht, h⟩
      · rintro (⟨t', ht', h⟩ | ⟨h, -⟩)
        · have e := hm1 t' ht'
          rw [hs] at e
          have e' : rtrim t = rtrim t' := List.tail_eq_of_cons_eq e
          rw [← natParseE_congr (dropWhile_rtrim t), e', natParseE_congr (dropWhile_rtrim t')]
          exact h
        · exact absurd ⟨t, ht⟩ h
    · have hno : ¬ ∃ t, AfterMinus s t := by
        rintro ⟨t, ht⟩
        rw [hm1 t ht] at hs
        exact hc (List.head_eq_of_cons_eq hs).symm
      rw [if_neg hc, ← hs, natParseE_congr (strTrim_idem s)]
      constructor
      · intro h; exact .inr ⟨hno, h⟩
      · rintro (⟨t, ht, -⟩ | ⟨-, h⟩)
        · exact absurd ⟨t, ht⟩ hno
        · exact h

theorem natParse_canon {s : List Char} {a : Words} (h : natParse s = .ok (some a)) : Canon a ∨ a = NaN := by
  rcases (C25_parse_partial s a).1 h with ⟨-, -, -, -, h, -⟩ | ⟨-, -, -, h⟩
  · exact .inl h
  · exact .inr h

theorem bParse_canon {s : List Char} {x : BInt} (h : bParse s = .ok (some x)) (hn : x.nat ≠ NaN) : CanonI x := by
  rcases (C48_parse s x).1 h with ⟨a, h1, rfl⟩ | ⟨ws, t, a, -, -, h1, rfl⟩
  all_goals
    rcases natParse_canon h1 with hc | rfl
    swap
    · exact absurd rfl hn
    obtain ⟨n, rfl⟩ := canon_iff_enc.1 hc
    rw [canonI_iff_encI]
  · exact ⟨n, by rw [encI_raw]; simp⟩
  · refine ⟨-n, ?_⟩
    rw [encI_raw, ← enc_zero, eqv_enc]
    by_cases h0 : n = 0 <;> simp [h0]
    omega

theorem bParse_zero {s : List Char} {x : BInt} (h : bParse s = .ok (some x)) (hn : x.nat ≠ NaN) : eqv x.nat [0#32] = true ↔ ival x = 0 := by
  obtain ⟨a, rfl⟩ := canonI_iff_encI.1 (bParse_canon h hn)
  rw [ival_encI, encI_raw, ← enc_zero, eqv_enc]
  simp

/-- **C116** for `Rat`: white space around the text does not matter, and an error is `DenominatorIsZero` exactly if the text is two integers
with a slash between them of which the second is 0.  All other errors are `ParseStringWrong`. -/
theorem C116_rat (std : List Char → Option D) (s : List Char) :
    (strTrim s = s → (rParseE std s = .ok (.error .denominatorIsZero) ↔ '.' ∉ s ∧ ∃ l t a b, s = l ++ '/' :: t ∧ '/' ∉ l ∧
      bParse l = .ok (some a) ∧ bParse t = .ok (some b) ∧ a.nat ≠ NaN ∧ b.nat ≠ NaN ∧ ival b = 0)) ∧
    (∀ k, rParseE std s = .ok (.error k) → k = .denominatorIsZero ∨ k = .parseStringWrong) ∧
    rParseE std s = rParseE std (strTrim s) ∧ rParse std s = (rParseE std s).map Except.toOption := by
  have hnan : ∀ x : BInt, bIsNan x = true ↔ x.nat = NaN := by
    intro x
    unfold bIsNan isNan NaN
    exact List.isEmpty_iff
  refine ⟨fun ht => ?_, fun k => ?_, ?_, rParseE_toOption std s⟩
  · unfold rParseE
    simp only [ht]
    by_cases hs : s = []
    · subst hs
      simp
    rw [if_neg hs]
    by_cases hd : '.' ∈ s
    · rw [if_pos hd]
      refine ⟨fun h => ?_, fun h => absurd hd h.1⟩
      cases hf : std s with
      | none => rw [hf] at h; cases h
      | some f =>
        rw [hf] at h
        dsimp only at h
        split_ifs at h
        · cases h
        · cases hr : rFromF64 f with
          | error e => rw [hr] at h; cases h
          | ok z => rw [hr] at h; cases h
    · rw [if_neg hd]
      cases hsp : splitAtChar '/' s with
      | none =>
        have hno := splitAtChar_none.1 hsp
        obtain ⟨o, ho⟩ := C48_parse_never_panics s
        simp only [bind, Except.bind, ho]
        refine ⟨fun h => ?_, fun ⟨_, l, t, a, b, h, _⟩ => absurd (h ▸ by simp) hno⟩
        cases o with
        | none => cases h
        | some a =>
          dsimp only at h
          rw [if_neg (show ¬ (eqv [1#32] [0#32] = true) by decide)] at h
          split_ifs at h
          · cases h
          · cases h
      | some p =>
        obtain ⟨l, t⟩ := p
        obtain ⟨h1, h2⟩ := splitAtChar_some hsp
        obtain ⟨o1, ho1⟩ := C48_parse_never_panics l
        obtain ⟨o2, ho2⟩ := C48_parse_never_panics t
        simp only [bind, Except.bind, ho1, ho2]
        constructor
        · intro h
          cases o1 with
          | none => cases h
          | some a =>
            cases o2 with
            | none => cases h
            | some b =>
              dsimp only at h
              split_ifs at h with g1 g2
              · cases h
              · simp only [Bool.or_eq_true, hnan, not_or] at g1
                exact ⟨hd, l, t, a, b, h1, h2, ho1, ho2, g1.1, g1.2, (bParse_zero ho2 g1.2).1 g2⟩
              · cases h
        · rintro ⟨-, l', t', a, b, h3, h4, h5, h6, h7, h8, h9⟩
          have := splitAtChar_append t' h4
          rw [← h3, hsp] at this
          simp only [Option.some.injEq, Prod.mk.injEq] at this
          obtain ⟨rfl, rfl⟩ := this
          rw [ho1] at h5
          rw [ho2] at h6
          cases h5
          cases h6
          dsimp only
          rw [if_neg (by simp only [Bool.or_eq_true, hnan, not_or]; exact ⟨h7, h8⟩), if_pos ((bParse_zero ho2 h8).2 h9)]
  · cases k
    · simp
    · intro h
      exfalso
      unfold rParseE at h
      dsimp only at h
      split_ifs at h
      · cases h
      · cases hf : std (strTrim s) with
        | none => rw [hf] at h; cases h
        | some f =>
          rw [hf] at h
          dsimp only at h
          split_ifs at h
          · cases h
          · cases hr : rFromF64 f with
            | error e => rw [hr] at h; cases h
            | ok z => rw [hr] at h; cases h
      · cases hsp : splitAtChar '/' (strTrim s) with
        | none =>
          obtain ⟨o, ho⟩ := C48_parse_never_panics (strTrim s)
          rw [hsp] at h
          simp only [bind, Except.bind, ho] at h
          cases o with
          | none => cases h
          | some a =>
            dsimp only at h
            split_ifs at h <;> cases h
        | some p =>
          obtain ⟨l, t⟩ := p
          obtain ⟨o1, ho1⟩ := C48_parse_never_panics l
          obtain ⟨o2, ho2⟩ := C48_parse_never_panics t
          rw [hsp] at h
          simp only [bind, Except.bind, ho1, ho2] at h
          cases o1 with
          | none => cases h
          | some a =>
            cases o2 with
            | none => cases h
            | some b =>
              dsimp only at h
              split_ifs at h <;> cases h
    · simp
  · unfold rParseE
    simp only [strTrim_idem]

/-- the error of the exponent -/
theorem fParseExpE_kind (s l es : List Char) (e : BInt) (h : bParse es = .ok (some e)) :
    (fParseExpE s (some (l, es)) = .ok (.error .exponentUnderflow) ↔ e.nat ≠ NaN ∧ ival e < -2 ^ 31) ∧
    (fParseExpE s (some (l, es)) = .ok (.error .exponentOverflow) ↔ e.nat ≠ NaN ∧ 2 ^ 31 - 1 < ival e) ∧
    fParseExpE s (some (l, es)) ≠ .ok (.error .parseStringWrong) := by
  have hes : es ≠ [] := by
    rintro rfl
    have : bParse [] = .ok none := by decide
    rw [this] at h; cases h
  unfold fParseExpE
  simp only [if_neg hes, h, bind, Except.bind]
  by_cases hn : e.nat = NaN
  · rw [C41_nan e _ (.inl hn), C41_nan e _ (.inl hn)]
    simp [hn]
  · have hc := bParse_canon h hn
    have e1 : ival ⟨[0x80000000#32], true⟩ = -2 ^ 31 := by decide
    have e2 : ival ⟨[0x7fffffff#32], false⟩ = 2 ^ 31 - 1 := by decide
    have c1 : CanonI ⟨[0x80000000#32], true⟩ := ⟨⟨by decide, by decide⟩, by decide⟩
    have c2 : CanonI ⟨[0x7fffffff#32], false⟩ := ⟨⟨by decide, by decide⟩, by decide⟩
    rw [C41_cmp e _ hc c1, C41_cmp e _ hc c2, e1, e2]
    simp only [Option.some.injEq, compare_lt_iff_lt, compare_gt_iff_gt]
    split_ifs with g1 g2
    · simp [hn]; omega
    · simp [hn]; omega
    all_goals simp [hn]; omega

/-- **C116** for `Float`: white space around the text does not matter.  An error is `ExponentUnderflow` exactly if behind the only kind
of exponent letter there is an integer below `-2^31`, and `ExponentOverflow` exactly if it is above `2^31 - 1`; all the others are
`ParseStringWrong`. -/
theorem C116_float (s : List Char) (ht : strTrim s = s) :
    (fParseE s = .ok (.error .exponentUnderflow) ↔ ¬ ('e' ∈ s ∧ 'E' ∈ s) ∧ ∃ c l es e, (c = 'e' ∨ c = 'E') ∧ s = l ++ c :: es ∧
      c ∉ l ∧ bParse es = .ok (some e) ∧ e.nat ≠ NaN ∧ ival e < -2 ^ 31) ∧
    (fParseE s = .ok (.error .exponentOverflow) ↔ ¬ ('e' ∈ s ∧ 'E' ∈ s) ∧ ∃ c l es e, (c = 'e' ∨ c = 'E') ∧ s = l ++ c :: es ∧
      c ∉ l ∧ bParse es = .ok (some e) ∧ e.nat ≠ NaN ∧ 2 ^ 31 - 1 < ival e) := by
  by_cases hs : s = []
  · subst hs
    have : fParseE [] = .ok (.error .parseStringWrong) := by decide
    rw [this]; simp
  by_cases hee : 'e' ∈ s ∧ 'E' ∈ s
  · have : fParseE s = .ok (.error .parseStringWrong) := by
      unfold fParseE
      simp only [ht, if_neg hs, if_pos hee]
    rw [this]; simp [hee]
  -- what the rest of the function returns is an error of `fParseExpE`, or `ParseStringWrong`
  have hsplit : ∀ c l es, (c = 'e' ∨ c = 'E') → s = l ++ c :: es → c ∉ l →
      (if 'e' ∈ s then splitAtChar 'e' s else splitAtChar 'E' s) = some (l, es) := by
    rintro c l es (rfl | rfl) h1 h2
    · rw [if_pos (by rw [h1]; simp), h1, splitAtChar_append es h2]
    · rw [if_neg (fun h => hee ⟨h, by rw [h1]; simp⟩), h1, splitAtChar_append es h2]
  have hback : ∀ l es, (if 'e' ∈ s then splitAtChar 'e' s else splitAtChar 'E' s) = some (l, es) →
      ∃ c, (c = 'e' ∨ c = 'E') ∧ s = l ++ c :: es ∧ c ∉ l := by
    intro l es h
    split_ifs at h
    · exact ⟨'e', .inl rfl, splitAtChar_some h⟩
    · exact ⟨'E', .inr rfl, splitAtChar_some h⟩
  have hkey : ∀ k, k ≠ .parseStringWrong → (fParseE s = .ok (.error k) ↔ ∃ l es e,
      (if 'e' ∈ s then splitAtChar 'e' s else splitAtChar 'E' s) = some (l, es) ∧ bParse es = .ok (some e) ∧
      fParseExpE s (some (l, es)) = .ok (.error k)) := by
    intro k hk
    unfold fParseE
    simp only [ht, if_neg hs, if_neg hee]
    generalize hsp : (if 'e' ∈ s then splitAtChar 'e' s else splitAtChar 'E' s) = sp
    have hrest : ∀ n d : Res (Option BInt), (do
        let n ← n
        let d ← d
        match n, d with
        | some n, some d => do
          let r ← rFromFracBig n d
          match r with
          | none => .ok (.error .parseStringWrong)
          | some r => do
            let z ← fFromRat r
            .ok (.ok z)
        | _, _ => .ok (.error .parseStringWrong) : Res (Except FloatErrKind FloatV)) ≠ .ok (.error k) := by
      intro n d h
      rcases n with e | (_ | n) <;> rcases d with e' | (_ | d) <;> simp only [bind, Except.bind] at h
      all_goals first
        | cases h; done
        | (simp only [Except.ok.injEq, Except.error.injEq] at h; exact hk h.symm)
        | skip
      rcases hr : rFromFracBig n d with e | (_ | r) <;> rw [hr] at h
      · cases h
      · simp only [Except.ok.injEq, Except.error.injEq] at h; exact hk h.symm
      · dsimp only at h
        rcases hz : fFromRat r with e | z <;> rw [hz] at h <;> cases h
    by_cases hno : '.' ∉ s ∧ sp = none
    · rw [if_pos hno, hno.2]
      simp only [reduceCtorEq, false_and, exists_false, iff_false]
      intro h
      rcases hb : bParse s with e | (_ | n) <;> rw [hb] at h <;> simp only [bind, Except.bind] at h
      · cases h
      · simp only [Except.ok.injEq, Except.error.injEq] at h; exact hk h.symm
      · rcases hz : fFromBigInt n with e | z <;> rw [hz] at h <;> cases h
    rw [if_neg hno]
    constructor
    · intro h
      cases sp with
      | none =>
        exfalso
        revert h
        exact hrest _ _
      | some p =>
        obtain ⟨l, es⟩ := p
        obtain ⟨o, ho⟩ := C48_parse_never_panics es
        cases hE : fParseExpE s (some (l, es)) with
        | error e => rw [hE] at h; cases h
        | ok r =>
          rw [hE] at h
          cases r with
          | ok te =>
            exfalso
            revert h
            exact hrest _ _
          | error k' =>
            simp only [bind, Except.bind, Except.ok.injEq, Except.error.injEq] at h
            subst h
            cases o with
            | some e => exact ⟨l, es, e, rfl, ho, hE⟩
            | none =>
              exfalso
              unfold fParseExpE at hE
              by_cases hes : es = []
              · simp [hes] at hE
              · simp only [if_neg hes, ho, bind, Except.bind, Except.ok.injEq, Except.error.injEq] at hE
                exact hk hE.symm
    · rintro ⟨l, es, e, rfl, -, hE⟩
      rw [hE]
      rfl
  constructor
  · rw [hkey _ (by decide)]
    constructor
    · rintro ⟨l, es, e, h1, h2, h3⟩
      obtain ⟨c, h4, h5, h6⟩ := hback l es h1
      exact ⟨hee, c, l, es, e, h4, h5, h6, h2, (fParseExpE_kind s l es e h2).1.1 h3⟩
    · rintro ⟨-, c, l, es, e, h4, h5, h6, h2, h3⟩
      exact ⟨l, es, e, hsplit c l es h4 h5 h6, h2, (fParseExpE_kind s l es e h2).1.2 h3⟩
  · rw [hkey _ (by decide)]
    constructor
    · rintro ⟨l, es, e, h1, h2, h3⟩
      obtain ⟨c, h4, h5, h6⟩ := hback l es h1
      exact ⟨hee, c, l, es, e, h4, h5, h6, h2, (fParseExpE_kind s l es e h2).2.1.1 h3⟩
    · rintro ⟨-, c, l, es, e, h4, h5, h6, h2, h3⟩
      exact ⟨l, es, e, hsplit c l es h4 h5 h6, h2, (fParseExpE_kind s l es e h2).2.1.2 h3⟩

/-- **C116**, the rest for `Float`: white space around the text, and what is accepted -/
theorem C116_float_trim (s : List Char) : fParseE s = fParseE (strTrim s) ∧ fParse s = (fParseE s).map Except.toOption := by
  refine ⟨?_, fParseE_toOption s⟩
  unfold fParseE
  simp only [strTrim_idem]

example : bParseE " - 12x".toList = .ok (.error .illegalCharEncounter) ∧ bParseE "--1".toList = .ok (.error .beginWithIllegalChar) := by
  decide +kernel

example : rParseE (fun _ => none) "-3/-0".toList = .ok (.error .denominatorIsZero) ∧
    rParseE (fun _ => none) "3/".toList = .ok (.error .parseStringWrong) := by
  decide +kernel

example : fParseE "1.5e-2147483649".toList = .ok (.error .exponentUnderflow) ∧
    fParseE "1E2147483648".toList = .ok (.error .exponentOverflow) ∧ fParseE "x1E2147483648".toList = .ok (.error .exponentOverflow) ∧
    fParseE "1e1E1".toList = .ok (.error .parseStringWrong) := by
  decide +kernel

end RMath
