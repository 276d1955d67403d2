import Verif.Lemmas.NatText
import Verif.Props.NatFun

/-!
C25, C26: parsing and printing of `Nat`.

`Spec.numeral base s` is the usual reading of a digit string: `none` unless `s` is non-empty and every
character is a digit below `base`.
-/

namespace RMath

/-! ## C25 parsing -/

/-- `body` is a numeral that the parser is documented to accept, without blanks or signs: decimal without a
superfluous leading zero, or `0b`/`0B`, `0o`, `0x`/`0X` followed by digits. -/
def IsLiteral (body : List Char) (v : Nat) : Prop :=
  (numeral 10 body = some v ∧ (body = ['0'] ∨ body.head? ≠ some '0')) ∨
  ∃ ds, ((body = '0' :: 'b' :: ds ∨ body = '0' :: 'B' :: ds) ∧ numeral 2 ds = some v) ∨
    (body = '0' :: 'o' :: ds ∧ numeral 8 ds = some v) ∨
    ((body = '0' :: 'x' :: ds ∨ body = '0' :: 'X' :: ds) ∧ numeral 16 ds = some v)

/-- a base prefix with no digit after it -/
def IsBarePrefix (body : List Char) : Prop :=
  body ∈ [['0', 'b'], ['0', 'B'], ['0', 'o'], ['0', 'x'], ['0', 'X']]

/-- the characters of the Unicode property White_Space, as the standard library lists them for `char::is_whitespace` -/
def WhiteSpace (c : Char) : Prop :=
  c ∈ ['\t', '\n', '\u000B', '\u000C', '\r', ' ', '\u0085', '\u00A0', '\u1680', '\u2000', '\u2001', '\u2002', '\u2003', '\u2004',
    '\u2005', '\u2006', '\u2007', '\u2008', '\u2009', '\u200A', '\u2028', '\u2029', '\u202F', '\u205F', '\u3000']

instance (c : Char) : Decidable (WhiteSpace c) := inferInstanceAs (Decidable (c ∈ _))

theorem isWhite_iff (c : Char) : isWhite c = true ↔ WhiteSpace c := by
  unfold isWhite WhiteSpace
  simp only [List.mem_cons, List.not_mem_nil, or_false, Char.ext_iff, UInt32.ext_iff, Bool.or_eq_true, Bool.and_eq_true, decide_eq_true_eq,
    beq_iff_eq, Char.toNat]
  simp only [Char.reduceVal, UInt32.reduceToNat]
  omega

/-- `s` is `body` with white space around it and `+` or space characters before it -/
def Surrounds (s body : List Char) : Prop :=
  ∃ ws pre ws', s = ws ++ pre ++ body ++ ws' ∧ (∀ c ∈ ws, WhiteSpace c) ∧ (∀ c ∈ ws', WhiteSpace c) ∧
    ∀ c ∈ pre, c = '+' ∨ c = ' '

theorem isSign_iff (c : Char) : isSign c = true ↔ (c = '+' ∨ c = ' ') := by simp [isSign]

theorem parseBody_literal {b : List Char} {v : Nat} (h : IsLiteral b v) : parseBody b = some (enc v) := by
  rcases h with ⟨h1, h2⟩ | ⟨ds, h | h | h⟩
  · obtain ⟨hne, hd⟩ := numeral_some h1
    match b with
    | [] => exact absurd rfl hne
    | [c] => rw [parseBody, if_pos (hd c (by simp)), h1]; rfl
    | c :: x :: xs =>
      have hc : c ≠ '0' := by rcases h2 with h2 | h2 <;> simpa using h2
      rw [parseBody, if_pos (hd c (by simp)), if_neg hc, h1]; rfl
  · obtain ⟨hne, -⟩ := numeral_some h.2
    rcases h with ⟨rfl | rfl, h⟩ <;>
    · rw [parseBody, if_pos (by decide), if_pos rfl, if_neg (by decide), if_pos (by decide), if_neg hne, h]; rfl
  · obtain ⟨hne, -⟩ := numeral_some h.2
    obtain ⟨rfl, h⟩ := h
    rw [parseBody, if_pos (by decide), if_pos rfl, if_pos rfl, if_neg hne, h]; rfl
  · obtain ⟨hne, -⟩ := numeral_some h.2
    rcases h with ⟨rfl | rfl, h⟩ <;>
    · rw [parseBody, if_pos (by decide), if_pos rfl, if_neg (by decide), if_neg (by decide), if_pos (by decide),
        if_neg hne, h]; rfl

theorem parseBody_bare {b : List Char} (h : IsBarePrefix b) : parseBody b = some NaN := by
  simp only [IsBarePrefix, List.mem_cons, List.not_mem_nil, or_false] at h
  rcases h with rfl | rfl | rfl | rfl | rfl <;> decide

theorem map_enc_some {o : Option Nat} {r : Words} (h : o.map enc = some r) : ∃ v, o = some v ∧ r = enc v := by
  cases o with
  | none => simp at h
  | some v => exact ⟨v, rfl, by simpa using h.symm⟩

theorem parseBody_some {b : List Char} {r : Words} (h : parseBody b = some r) :
    (∃ v, IsLiteral b v ∧ r = enc v) ∨ (IsBarePrefix b ∧ r = NaN) := by
  match b with
  | [] => simp [parseBody] at h
  | [c] =>
    rw [parseBody] at h
    split_ifs at h with hc
    obtain ⟨v, h1, h2⟩ := map_enc_some h
    refine Or.inl ⟨v, Or.inl ⟨h1, ?_⟩, h2⟩
    by_cases h0 : c = '0'
    · subst h0; exact Or.inl rfl
    · right; simpa using h0
  | c :: x :: xs =>
    rw [parseBody] at h
    split_ifs at h with hc h0 ho hn hb hn hx hn
    · right; subst h0 ho hn; exact ⟨by simp [IsBarePrefix], by simpa using h.symm⟩
    · obtain ⟨v, h1, h2⟩ := map_enc_some h
      exact Or.inl ⟨v, Or.inr ⟨xs, Or.inr (Or.inl ⟨by rw [h0, ho], h1⟩)⟩, h2⟩
    · right; subst h0 hn
      refine ⟨?_, by simpa using h.symm⟩
      rcases hb with rfl | rfl <;> simp [IsBarePrefix]
    · obtain ⟨v, h1, h2⟩ := map_enc_some h
      refine Or.inl ⟨v, Or.inr ⟨xs, Or.inl ⟨?_, h1⟩⟩, h2⟩
      rcases hb with rfl | rfl <;> simp [h0]
    · right; subst h0 hn
      refine ⟨?_, by simpa using h.symm⟩
      rcases hx with rfl | rfl <;> simp [IsBarePrefix]
    · obtain ⟨v, h1, h2⟩ := map_enc_some h
      refine Or.inl ⟨v, Or.inr ⟨xs, Or.inr (Or.inr ⟨?_, h1⟩)⟩, h2⟩
      rcases hx with rfl | rfl <;> simp [h0]
    · obtain ⟨v, h1, h2⟩ := map_enc_some h
      refine Or.inl ⟨v, Or.inl ⟨h1, Or.inr (by simpa using h0)⟩, h2⟩

theorem literal_ends {b : List Char} {v : Nat} (h : IsLiteral b v) :
    (∃ c cs, b = c :: cs ∧ digitOf c < 16) ∧ ∃ l, b.getLast? = some l ∧ isWhite l = false := by
  rcases h with ⟨h1, -⟩ | ⟨ds, h | h | h⟩
  · obtain ⟨hne, hd⟩ := numeral_some h1
    obtain ⟨l, hl, hl2⟩ := numeral_last h1
    refine ⟨?_, l, hl, not_white (by omega)⟩
    obtain ⟨c, cs, rfl⟩ := List.exists_cons_of_ne_nil hne
    exact ⟨c, cs, rfl, by have := hd c (by simp); omega⟩
  · obtain ⟨l, hl, hl2⟩ := numeral_last h.2
    rcases h with ⟨rfl | rfl, h⟩ <;>
    · refine ⟨⟨_, _, rfl, by decide⟩, l, ?_, not_white (by omega)⟩
      rw [List.getLast?_cons, List.getLast?_cons, hl]; rfl
  · obtain ⟨l, hl, hl2⟩ := numeral_last h.2
    obtain ⟨rfl, h⟩ := h
    refine ⟨⟨_, _, rfl, by decide⟩, l, ?_, not_white (by omega)⟩
    rw [List.getLast?_cons, List.getLast?_cons, hl]; rfl
  · obtain ⟨l, hl, hl2⟩ := numeral_last h.2
    rcases h with ⟨rfl | rfl, h⟩ <;>
    · refine ⟨⟨_, _, rfl, by decide⟩, l, ?_, not_white (by omega)⟩
      rw [List.getLast?_cons, List.getLast?_cons, hl]; rfl

theorem bare_ends {b : List Char} (h : IsBarePrefix b) :
    (∃ c cs, b = c :: cs ∧ digitOf c < 16) ∧ ∃ l, b.getLast? = some l ∧ isWhite l = false := by
  simp only [IsBarePrefix, List.mem_cons, List.not_mem_nil, or_false] at h
  rcases h with rfl | rfl | rfl | rfl | rfl <;>
    exact ⟨⟨_, _, rfl, by decide⟩, _, rfl, by decide⟩

theorem parse_surrounds {s b : List Char} (hs : Surrounds s b)
    (he : (∃ c cs, b = c :: cs ∧ digitOf c < 16) ∧ ∃ l, b.getLast? = some l ∧ isWhite l = false) :
    natParse s = .ok (parseBody b) := by
  obtain ⟨ws, pre, ws', rfl, h1, h2, h3⟩ := hs
  obtain ⟨⟨c, cs, hb, hc⟩, l, hl, hlw⟩ := he
  rw [natParse_eq, skip_trim (fun c hc => (isWhite_iff c).2 (h1 c hc)) (fun c hc => (isWhite_iff c).2 (h2 c hc)) (fun d hd => (isSign_iff d).2 (h3 d hd)) hb hc hl hlw]

/-- Parsing never panics, whatever the string. -/
theorem C25_parse_never_panics (s : List Char) : ∃ o, natParse s = .ok o := ⟨_, natParse_eq s⟩

/-- Parsing succeeds with a number exactly on the accepted numerals, and then yields the canonical `Nat` of
the numeral's value; every other string is an error, or NaN when it is a bare base prefix.

Partial: the English property promises an error for a missing digit string (`C25_bare_prefix_is_nan` shows
NaN instead) and the value of every decimal numeral (`C25_leading_zero_rejected` shows that a leading zero is
refused). -/
theorem C25_parse_partial (s : List Char) (r : Words) :
    natParse s = .ok (some r) ↔
      (∃ body v, Surrounds s body ∧ IsLiteral body v ∧ Canon r ∧ val r = v) ∨
      (∃ body, Surrounds s body ∧ IsBarePrefix body ∧ r = NaN) := by
  constructor
  · intro h
    obtain ⟨ws, pre, ws', hsp, h1, h2, h3⟩ := trim_split s
    have hsur : Surrounds s ((strTrim s).dropWhile isSign) :=
      ⟨ws, pre, ws', hsp, fun c hc => (isWhite_iff c).1 (h1 c hc), fun c hc => (isWhite_iff c).1 (h3 c hc), fun c hc => (isSign_iff c).1 (h2 c hc)⟩
    rw [natParse_eq] at h
    injection h with h
    rcases parseBody_some h with ⟨v, hv, rfl⟩ | ⟨hb, rfl⟩
    · exact Or.inl ⟨_, v, hsur, hv, canon_enc v, val_enc v⟩
    · exact Or.inr ⟨_, hsur, hb, rfl⟩
  · rintro (⟨b, v, hs, hl, hc, rfl⟩ | ⟨b, hs, hb, rfl⟩)
    · rw [parse_surrounds hs (literal_ends hl), parseBody_literal hl, ← canon_eq_enc hc]
    · rw [parse_surrounds hs (bare_ends hb), parseBody_bare hb]

/-- A string without a single digit character is an error: in particular the empty string. -/
theorem C25_no_digit_is_error (s : List Char) (h : ∀ c ∈ s, ¬(digitOf c < 10)) : natParse s = .ok none := by
  obtain ⟨o, ho⟩ := C25_parse_never_panics s
  cases o with
  | none => exact ho
  | some r =>
    exfalso
    have key : ∀ body, Surrounds s body → (∃ c cs, body = c :: cs ∧ digitOf c < 10) → False := by
      rintro body ⟨ws, pre, ws', rfl, -, -, -⟩ ⟨c, cs, rfl, hc⟩
      exact h c (by simp) hc
    rcases (C25_parse_partial s r).1 ho with ⟨b, v, hs, hl, -, -⟩ | ⟨b, hs, hb, -⟩
    · apply key b hs
      rcases hl with ⟨h1, -⟩ | ⟨ds, h1 | h1 | h1⟩
      · obtain ⟨hne, hd⟩ := numeral_some h1
        obtain ⟨c, cs, rfl⟩ := List.exists_cons_of_ne_nil hne
        exact ⟨c, cs, rfl, hd c (by simp)⟩
      · rcases h1 with ⟨rfl | rfl, -⟩ <;> exact ⟨_, _, rfl, by decide⟩
      · rcases h1 with ⟨rfl, -⟩; exact ⟨_, _, rfl, by decide⟩
      · rcases h1 with ⟨rfl | rfl, -⟩ <;> exact ⟨_, _, rfl, by decide⟩
    · apply key b hs
      simp only [IsBarePrefix, List.mem_cons, List.not_mem_nil, or_false] at hb
      rcases hb with rfl | rfl | rfl | rfl | rfl <;> exact ⟨_, _, rfl, by decide⟩

/-- `"0x"` is accepted and is NaN, not an error -/
theorem C25_bare_prefix_is_nan : natParse "0x".toList = .ok (some NaN) := by decide

/-- `"007"` is a decimal numeral of value 7, but it is refused -/
theorem C25_leading_zero_rejected : numeral 10 "007".toList = some 7 ∧ natParse "007".toList = .ok none := by decide

-- accepted numerals: decimal with blanks and a sign, and one of each base
example : Surrounds " +42 ".toList "42".toList ∧ IsLiteral "42".toList 42 :=
  ⟨⟨[' '], ['+'], [' '], by decide, by decide, by decide, by decide⟩, Or.inl ⟨by decide, Or.inr (by decide)⟩⟩
example : natParse " +42 ".toList = .ok (some [42#32]) := by decide
example : IsLiteral "0x1FFFFFFFF".toList (2 ^ 33 - 1) :=
  Or.inr ⟨"1FFFFFFFF".toList, Or.inr (Or.inr ⟨Or.inl (by decide), by decide⟩)⟩
example : IsLiteral "0o17".toList 15 := Or.inr ⟨"17".toList, Or.inr (Or.inl ⟨by decide, by decide⟩)⟩
example : ∀ c ∈ "abc".toList, ¬(digitOf c < 10) := by decide

/-! ## C26 printing -/

/-- `{}` prints the decimal numeral of the value, without leading zeros, and it parses back to the number. -/
theorem C26_display {a : Words} (ha : Canon a) : ∃ s, natDisplay a = .ok s ∧ numeral 10 s = some (val a) ∧
    (s = ['0'] ∨ s.head? ≠ some '0') ∧ natParse s = .ok (some a) := by
  obtain ⟨n, rfl⟩ := canon_iff_enc.1 ha
  obtain ⟨s, h1, h2, h3⟩ := natDisplay_numeral n
  rw [val_enc]
  refine ⟨s, h1, h2, h3, ?_⟩
  refine (C25_parse_partial s _).2 (Or.inl ⟨s, n, ⟨[], [], [], by simp, by simp, by simp, by simp⟩, Or.inl ⟨h2, h3⟩,
    canon_enc n, val_enc n⟩)

/-- what is printed for base `base` with prefix `pre`: the prefix and a numeral of the right value -/
theorem C26_prefixed {a : Words} (ha : Canon a) {pre s body : List Char} {base : Nat}
    (hs : s = pre ++ body) (hn : numeral base body = some (val a))
    (hp : (pre = ['0', 'b'] ∧ base = 2) ∨ (pre = ['0', 'o'] ∧ base = 8) ∨ (pre = ['0', 'x'] ∧ base = 16) ∨
      (pre = ['0', 'X'] ∧ base = 16)) : natParse s = .ok (some a) := by
  refine (C25_parse_partial s _).2 (Or.inl ⟨s, val a, ⟨[], [], [], by simp, by simp, by simp, by simp⟩, Or.inr ⟨body, ?_⟩,
    ha, rfl⟩)
  subst hs
  rcases hp with ⟨rfl, rfl⟩ | ⟨rfl, rfl⟩ | ⟨rfl, rfl⟩ | ⟨rfl, rfl⟩
  · exact Or.inl ⟨Or.inl rfl, hn⟩
  · exact Or.inr (Or.inl ⟨rfl, hn⟩)
  · exact Or.inr (Or.inr ⟨Or.inl rfl, hn⟩)
  · exact Or.inr (Or.inr ⟨Or.inr rfl, hn⟩)

/-- `{:b}` and `{:#b}` print the binary numeral of the value, the second with `0b`, and it parses back. -/
theorem C26_binary {a : Words} (ha : Canon a) : ∃ body, numeral 2 body = some (val a) ∧
    natBinary false a = body ∧ natBinary true a = '0' :: 'b' :: body ∧
    natParse (natBinary true a) = .ok (some a) := by
  obtain ⟨b1, h1, h2⟩ := natFmt_body false (base := 2) (width := 32) (by norm_num) (by norm_num) (by norm_num) ['0', 'b'] true ha.1
  refine ⟨b1, h2, ?_, h1, C26_prefixed ha h1 h2 (Or.inl ⟨rfl, rfl⟩)⟩
  have e : natBinary true a = ['0', 'b'] ++ natBinary false a := by
    have hn : isNan a = false := by simp [isNan, ha.1]
    obtain ⟨y, w, rfl⟩ := exists_concat ha.1
    simp [natBinary, natFmt, hn]
  rw [show natBinary true a = ['0', 'b'] ++ b1 from h1] at e
  exact (List.append_cancel_left e).symm

/-- `{:x}` and `{:#x}` print the hexadecimal numeral of the value, and the second parses back. -/
theorem C26_lower_hex {a : Words} (ha : Canon a) : ∃ body, numeral 16 body = some (val a) ∧
    natLowerHex false a = body ∧ natLowerHex true a = '0' :: 'x' :: body ∧
    natParse (natLowerHex true a) = .ok (some a) := by
  obtain ⟨b1, h1, h2⟩ := natFmt_body false (base := 16) (width := 8) (by norm_num) (by norm_num) (by norm_num) ['0', 'x'] true ha.1
  refine ⟨b1, h2, ?_, h1, C26_prefixed ha h1 h2 (Or.inr (Or.inr (Or.inl ⟨rfl, rfl⟩)))⟩
  have e : natLowerHex true a = ['0', 'x'] ++ natLowerHex false a := by
    have hn : isNan a = false := by simp [isNan, ha.1]
    obtain ⟨y, w, rfl⟩ := exists_concat ha.1
    simp [natLowerHex, natFmt, hn]
  rw [show natLowerHex true a = ['0', 'x'] ++ b1 from h1] at e
  exact (List.append_cancel_left e).symm

/-- `{:X}` and `{:#X}`; the prefix is `0x` in both hexadecimal formats -/
theorem C26_upper_hex {a : Words} (ha : Canon a) : ∃ body, numeral 16 body = some (val a) ∧
    natUpperHex false a = body ∧ natUpperHex true a = '0' :: 'x' :: body ∧
    natParse (natUpperHex true a) = .ok (some a) := by
  obtain ⟨b1, h1, h2⟩ := natFmt_body true (base := 16) (width := 8) (by norm_num) (by norm_num) (by norm_num) ['0', 'x'] true ha.1
  refine ⟨b1, h2, ?_, h1, C26_prefixed ha h1 h2 (Or.inr (Or.inr (Or.inl ⟨rfl, rfl⟩)))⟩
  have e : natUpperHex true a = ['0', 'x'] ++ natUpperHex false a := by
    have hn : isNan a = false := by simp [isNan, ha.1]
    obtain ⟨y, w, rfl⟩ := exists_concat ha.1
    simp [natUpperHex, natFmt, hn]
  rw [show natUpperHex true a = ['0', 'x'] ++ b1 from h1] at e
  exact (List.append_cancel_left e).symm

/-- `{:o}` and `{:#o}` -/
theorem C26_octal {a : Words} (ha : Canon a) : ∃ body, numeral 8 body = some (val a) ∧
    natOctal false a = body ∧ natOctal true a = '0' :: 'o' :: body ∧
    natParse (natOctal true a) = .ok (some a) := by
  obtain ⟨b1, h1, h2⟩ := natOctal_body true ha.1
  refine ⟨b1, h2, ?_, h1, C26_prefixed ha h1 h2 (Or.inr (Or.inl ⟨rfl, rfl⟩))⟩
  have e : natOctal true a = ['0', 'o'] ++ natOctal false a := by
    have hn : isNan a = false := by simp [isNan, ha.1]
    simp [natOctal, hn]
  rw [show natOctal true a = ['0', 'o'] ++ b1 from h1] at e
  exact (List.append_cancel_left e).symm

/-- the text of NaN, in every format -/
theorem C26_nan : natDisplay NaN = .ok "NaN".toList ∧ ∀ alt, natBinary alt NaN = "NaN".toList ∧
    natOctal alt NaN = "NaN".toList ∧ natLowerHex alt NaN = "NaN".toList ∧ natUpperHex alt NaN = "NaN".toList :=
  ⟨rfl, fun _ => ⟨rfl, rfl, rfl, rfl⟩⟩

-- a two-word number
example : Canon [0xffffffff#32, 1#32] := ⟨by simp, by simp⟩
example : natOctal true [0xffffffff#32, 1#32] = "0o77777777777".toList := by decide
example : natUpperHex false [0xabcdef01#32, 0x1f#32] = "1FABCDEF01".toList := by decide

end RMath
