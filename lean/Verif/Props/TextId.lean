import Verif.Model.Text
import Verif.Props.Rat

/-!
# C107: the text identifies the number
-/

namespace RMath

/-- the base of a format -/
def styleBase : TextStyle → Nat
  | .display => 10
  | .binary => 2
  | .octal => 8
  | .lowerHex | .upperHex | .debug => 16

/-- the prefix printed with `#` -/
def stylePre : TextStyle → List Char
  | .display => []
  | .binary => ['0', 'b']
  | .octal => ['0', 'o']
  | .lowerHex | .upperHex | .debug => ['0', 'x']

theorem styleBase_le (st : TextStyle) : styleBase st ≤ 16 := by cases st <;> decide

/-- What is printed for a `Nat`: with `#`, the prefix of the base, then a numeral of that base. -/
theorem C107_nat_text (st : TextStyle) (alt : Bool) (x : Words) (hx : Canon x) :
    ∃ body, natText st alt x = .ok ((if alt then stylePre st else []) ++ body) ∧
      numeral (styleBase st) body = some (val x) := by
  cases st
  · obtain ⟨s, h1, h2, -⟩ := C26_display hx
    exact ⟨s, by simpa [natText, stylePre] using h1, h2⟩
  · obtain ⟨s, h1, h2, h3, -⟩ := C26_binary hx
    exact ⟨s, by cases alt <;> simp [natText, stylePre, h2, h3], h1⟩
  · obtain ⟨s, h1, h2, h3, -⟩ := C26_octal hx
    exact ⟨s, by cases alt <;> simp [natText, stylePre, h2, h3], h1⟩
  · obtain ⟨s, h1, h2, h3, -⟩ := C26_lower_hex hx
    exact ⟨s, by cases alt <;> simp [natText, stylePre, h2, h3], h1⟩
  · obtain ⟨s, h1, h2, h3, -⟩ := C26_upper_hex hx
    exact ⟨s, by cases alt <;> simp [natText, stylePre, h2, h3], h1⟩
  · obtain ⟨s, h1, h2, h3, -⟩ := C26_lower_hex hx
    have e : ∀ b, natDebug b x = natLowerHex b x := fun _ => rfl
    exact ⟨s, by cases alt <;> simp [natText, stylePre, e, h2, h3], h1⟩

/-- What is printed for a `BigInt`: a minus sign for a negative number, the prefix, the numeral of the absolute value.
`{:b}` prints the prefix whether or not it is asked for. -/
theorem C107_bigint_text (st : TextStyle) (alt : Bool) (x : BInt) (hx : CanonI x) :
    ∃ body, bText st alt x = .ok ((if ival x < 0 then ['-'] else []) ++
        ((if alt ∨ st = .binary then stylePre st else []) ++ body)) ∧
      numeral (styleBase st) body = some (ival x).natAbs := by
  obtain ⟨a, rfl⟩ := canonI_iff_encI.1 hx
  have hf : ∀ s, bFmt (encI a) s = (if ival (encI a) < 0 then ['-'] else []) ++ s := by
    intro s
    simp only [bFmt, bIsNegative_encI, ival_encI, decide_eq_true_eq]
    split <;> simp
  have hv : val (encI a).nat = (ival (encI a)).natAbs := by rw [ival_encI, encI_raw, val_enc]
  have hb : bText st alt (encI a) = (do let s ← natText st (alt || decide (st = .binary)) (encI a).nat; .ok (bFmt (encI a) s)) := by
    cases st <;> simp [bText, natText, bDisplay, bBinary, bOctal, bLowerHex, bUpperHex, bDebug, bind, Except.bind]
  obtain ⟨body, h1, h2⟩ := C107_nat_text st (alt || decide (st = .binary)) (encI a).nat hx.1
  refine ⟨body, ?_, by rw [h2, hv]⟩
  rw [hb, h1]
  simp only [bind, Except.bind, hf, Bool.or_eq_true, decide_eq_true_eq]

/-- What is printed for a `Rat`: the two integers with a slash between them. -/
theorem C107_rat_text (st : TextStyle) (alt : Bool) (x : RatV) (ha : CanonI x.a) (hb : CanonI x.b) :
    ∃ l t, rText st alt x = .ok (l ++ '/' :: t) ∧ bText st (alt && decide (st ≠ .debug)) x.a = .ok l ∧
      bText st (alt && decide (st ≠ .debug)) x.b = .ok t := by
  obtain ⟨l, h1, -⟩ := C107_bigint_text st (alt && decide (st ≠ .debug)) x.a ha
  obtain ⟨t, h2, -⟩ := C107_bigint_text st (alt && decide (st ≠ .debug)) x.b hb
  refine ⟨_, _, ?_, h1, h2⟩
  have hn : rIsNan x = false := by
    have e1 : x.a.nat ≠ [] := ha.1.1
    have e2 : x.b.nat ≠ [] := hb.1.1
    simp [rIsNan, bIsNan, isNan, e1, e2]
  have e : rText st alt x = rFmt (bText st (alt && decide (st ≠ .debug))) x := by
    cases st <;> simp [rText, rDisplay, rBinary, rOctal, rLowerHex, rUpperHex, rDebug, bText, rFmt]
  rw [e, rFmt, hn]
  simp only [Bool.false_eq_true, if_false, h1, h2, bind, Except.bind]

/-- **C107, `Nat`.**  In each format two numbers are printed alike exactly if they are equal. -/
theorem C107_nat (st : TextStyle) (alt : Bool) (x y : Words) (hx : Canon x) (hy : Canon y) :
    natText st alt x = natText st alt y ↔ val x = val y := by
  constructor
  · intro h
    obtain ⟨s, h1, h2⟩ := C107_nat_text st alt x hx
    obtain ⟨t, h3, h4⟩ := C107_nat_text st alt y hy
    rw [h1, h3] at h
    have := List.append_cancel_left (Except.ok.inj h)
    rw [this, h4] at h2
    exact (Option.some.inj h2).symm
  · intro h
    rw [canon_eq_enc hx, canon_eq_enc hy, h]

theorem minus_not_numeral {base : Nat} (hb : base ≤ 16) {s : List Char} {v : Nat} (h : numeral base s = some v) :
    '-' ∉ s := by
  intro hm
  unfold numeral at h
  split at h
  · rename_i hs
    have := hs.2 _ hm
    rw [show digitOf '-' = 16 by decide] at this
    omega
  · cases h

/-- **C107, `BigInt`.** -/
theorem C107_bigint (st : TextStyle) (alt : Bool) (x y : BInt) (hx : CanonI x) (hy : CanonI y) :
    bText st alt x = bText st alt y ↔ ival x = ival y := by
  constructor
  · intro h
    obtain ⟨s, h1, h2⟩ := C107_bigint_text st alt x hx
    obtain ⟨t, h3, h4⟩ := C107_bigint_text st alt y hy
    rw [h1, h3] at h
    have h := Except.ok.inj h
    have hm : ∀ (u : List Char) (v : Nat), numeral (styleBase st) u = some v →
        '-' ∉ (if alt ∨ st = .binary then stylePre st else []) ++ u := by
      intro u v hu hm
      rcases List.mem_append.1 hm with hm | hm
      · split at hm
        · revert hm; cases st <;> simp [stylePre]
        · cases hm
      · exact minus_not_numeral (styleBase_le st) hu hm
    have hs := hm _ _ h2
    have ht := hm _ _ h4
    have fin : (if alt ∨ st = .binary then stylePre st else []) ++ s =
        (if alt ∨ st = .binary then stylePre st else []) ++ t → (ival x).natAbs = (ival y).natAbs := by
      intro e
      have := List.append_cancel_left e
      rw [this, h4] at h2
      exact (Option.some.inj h2).symm
    by_cases cx : ival x < 0 <;> by_cases cy : ival y < 0
    · rw [if_pos cx, if_pos cy] at h
      have := fin (List.append_cancel_left h)
      omega
    · rw [if_pos cx, if_neg cy, List.nil_append] at h
      rw [← h] at ht
      exact absurd (by simp) ht
    · rw [if_neg cx, if_pos cy, List.nil_append] at h
      rw [h] at hs
      exact absurd (by simp) hs
    · rw [if_neg cx, if_neg cy, List.nil_append, List.nil_append] at h
      have := fin h
      omega
  · intro h
    rw [canonI_eq_encI hx, canonI_eq_encI hy, h]

theorem slash_not_bText {st : TextStyle} {alt : Bool} {x : BInt} (hx : CanonI x) {s : List Char}
    (h : bText st alt x = .ok s) : '/' ∉ s := by
  obtain ⟨u, h1, h2⟩ := C107_bigint_text st alt x hx
  rw [h1] at h
  rw [← Except.ok.inj h]
  intro hm
  rcases List.mem_append.1 hm with hm | hm
  · split at hm <;> simp at hm
  · rcases List.mem_append.1 hm with hm | hm
    · split at hm
      · revert hm; cases st <;> simp [stylePre]
      · cases hm
    · exact (plain_numeral (styleBase_le st) h2 _ hm).1 rfl

theorem lowest_unique {x y : RatV} (hx : LowestTerms x) (hy : LowestTerms y) (h : qval x = qval y) : x = y := by
  obtain ⟨a1, b1, p1, g1⟩ := hx
  obtain ⟨a2, b2, p2, g2⟩ := hy
  have q := Rat.div_int_inj p1 p2 g1 g2 h
  obtain ⟨xa, xb⟩ := x
  obtain ⟨ya, yb⟩ := y
  simp only at a1 b1 a2 b2 q
  rw [canonI_eq_encI a1, canonI_eq_encI b1, canonI_eq_encI a2, canonI_eq_encI b2, q.1, q.2]

/-- The text of a `Rat` determines numerator and denominator, in lowest terms or not. -/
theorem C107_rat_injective (st : TextStyle) (alt : Bool) (x y : RatV) (hx : CanonI x.a ∧ CanonI x.b)
    (hy : CanonI y.a ∧ CanonI y.b) :
    rText st alt x = rText st alt y ↔ ival x.a = ival y.a ∧ ival x.b = ival y.b := by
  constructor
  · intro h
    obtain ⟨l, t, h1, h2, h3⟩ := C107_rat_text st alt x hx.1 hx.2
    obtain ⟨m, u, h4, h5, h6⟩ := C107_rat_text st alt y hy.1 hy.2
    rw [h1, h4] at h
    replace h := Except.ok.inj h
    have n1 := slash_not_bText hx.1 h2
    have n2 := slash_not_bText hy.1 h5
    have key : l = m ∧ t = u := by
      clear h1 h2 h3 h4 h5 h6
      induction l generalizing m with
      | nil =>
        cases m with
        | nil => simpa using h
        | cons c m => simp only [List.nil_append, List.cons_append, List.cons.injEq] at h; simp [← h.1] at n2
      | cons d l ih =>
        cases m with
        | nil => simp only [List.nil_append, List.cons_append, List.cons.injEq] at h; simp [h.1] at n1
        | cons c m =>
          simp only [List.cons_append, List.cons.injEq] at h
          simp only [List.mem_cons, not_or] at n1 n2
          obtain ⟨rfl, rfl⟩ := ih m h.2 n1.2 n2.2
          exact ⟨by rw [h.1], rfl⟩
    obtain ⟨rfl, rfl⟩ := key
    have e1 := (C107_bigint st _ x.a y.a hx.1 hy.1).1 (h2.trans h5.symm)
    have e2 := (C107_bigint st _ x.b y.b hx.2 hy.2).1 (h3.trans h6.symm)
    exact ⟨e1, e2⟩
  · rintro ⟨h1, h2⟩
    have : x = y := by
      obtain ⟨xa, xb⟩ := x
      obtain ⟨ya, yb⟩ := y
      simp only at hx hy h1 h2
      rw [canonI_eq_encI hx.1, canonI_eq_encI hx.2, canonI_eq_encI hy.1, canonI_eq_encI hy.2, h1, h2]
    rw [this]

/-- **C107, `Rat`** in lowest terms.  Missing: a zero with another denominator than 1, see `C107_rat_violated`. -/
theorem C107_rat_partial (st : TextStyle) (alt : Bool) (x y : RatV) (hx : LowestTerms x) (hy : LowestTerms y) :
    rText st alt x = rText st alt y ↔ qval x = qval y := by
  refine ⟨fun h => ?_, fun h => by rw [lowest_unique hx hy h]⟩
  obtain ⟨e1, e2⟩ := (C107_rat_injective st alt x y ⟨hx.1, hx.2.1⟩ ⟨hy.1, hy.2.1⟩).1 h
  rw [qval, qval, e1, e2]

/-- What is missing: `0/25`, the result of subtracting `2/5` from itself, equals `0/1` but is not printed like it. -/
theorem C107_rat_violated : ∃ z, rSub ⟨⟨[2#32], false⟩, ⟨[5#32], false⟩⟩ ⟨⟨[2#32], false⟩, ⟨[5#32], false⟩⟩ = .ok z ∧
    rEq z ⟨⟨[0#32], false⟩, ⟨[1#32], false⟩⟩ = true ∧ rText .display false z = .ok "0/25".toList ∧
    rText .display false ⟨⟨[0#32], false⟩, ⟨[1#32], false⟩⟩ = .ok "0/1".toList :=
  ⟨_, rfl, by decide, by decide, by decide⟩

theorem n_not_numeral {base : Nat} (hb : base ≤ 16) {s : List Char} {v : Nat} (h : numeral base s = some v) :
    'N' ∉ s := by
  intro hm
  unfold numeral at h
  split at h
  · rename_i hs
    have := hs.2 _ hm
    rw [show digitOf 'N' = 16 by decide] at this
    omega
  · cases h

/-- No number is printed as `NaN`, and the value NaN is, in every format. -/
theorem C107_nan (st : TextStyle) (alt : Bool) :
    (∀ x, Canon x ∨ isNan x = true → (natText st alt x = .ok "NaN".toList ↔ isNan x = true)) ∧
    (∀ x, CanonI x ∨ bIsNan x = true → (bText st alt x = .ok "NaN".toList ↔ bIsNan x = true)) ∧
    (∀ x, LowestTerms x ∨ rIsNan x = true → (rText st alt x = .ok "NaN".toList ↔ rIsNan x = true)) := by
  have hpre : 'N' ∉ stylePre st := by cases st <;> simp [stylePre]
  have hN : 'N' ∈ "NaN".toList := by decide
  refine ⟨?_, ?_, ?_⟩
  · rintro x (hx | hx)
    · have hn : isNan x = false := by simp [isNan, hx.1]
      refine ⟨fun h => ?_, fun h => by rw [hn] at h; cases h⟩
      obtain ⟨s, h1, h2⟩ := C107_nat_text st alt x hx
      rw [← Except.ok.inj (h1.symm.trans h)] at hN
      rcases List.mem_append.1 hN with hm | hm
      · split at hm
        · exact absurd hm hpre
        · cases hm
      · exact absurd hm (n_not_numeral (styleBase_le st) h2)
    · refine ⟨fun _ => hx, fun _ => ?_⟩
      cases st <;> simp [natText, natDisplay, natBinary, natOctal, natLowerHex, natUpperHex, natDebug, natFmt, hx]
  · rintro x (hx | hx)
    · have hn : bIsNan x = false := by simp [bIsNan, isNan, hx.1.1]
      refine ⟨fun h => ?_, fun h => by rw [hn] at h; cases h⟩
      obtain ⟨s, h1, h2⟩ := C107_bigint_text st alt x hx
      rw [← Except.ok.inj (h1.symm.trans h)] at hN
      rcases List.mem_append.1 hN with hm | hm
      · split at hm <;> simp at hm
      · rcases List.mem_append.1 hm with hm | hm
        · split at hm
          · exact absurd hm hpre
          · cases hm
        · exact absurd hm (n_not_numeral (styleBase_le st) h2)
    · refine ⟨fun _ => hx, fun _ => ?_⟩
      have hx' : isNan x.nat = true := hx
      cases st <;> simp [bText, bDisplay, bBinary, bOctal, bLowerHex, bUpperHex, bDebug, bFmt, bIsNegative, hx, hx',
        natDisplay, natBinary, natOctal, natLowerHex, natUpperHex, natDebug, natFmt, bind, Except.bind]
  · rintro x (hx | hx)
    · have hn : rIsNan x = false := by
        simp [rIsNan, bIsNan, isNan, hx.1.1.1, hx.2.1.1.1]
      refine ⟨fun h => ?_, fun h => by rw [hn] at h; cases h⟩
      obtain ⟨l, t, h1, -, -⟩ := C107_rat_text st alt x hx.1 hx.2.1
      have e := Except.ok.inj (h1.symm.trans h)
      have : '/' ∈ "NaN".toList := by rw [← e]; simp
      exact absurd this (by decide)
    · refine ⟨fun _ => hx, fun _ => ?_⟩
      cases st <;> simp [rText, rDisplay, rBinary, rOctal, rLowerHex, rUpperHex, rDebug, rFmt, hx]

/-- The byte strings identify the number, too. -/
theorem C107_bytes (x y : Words) (hx : Canon x) (hy : Canon y) :
    (toLeBytes x = toLeBytes y ↔ val x = val y) ∧ (toBeBytes x = toBeBytes y ↔ val x = val y) := by
  have c : val x = val y → x = y := canon_ext hx hy
  obtain ⟨a1, a2⟩ := C22_bytes_round_trip x (Or.inl hx)
  obtain ⟨b1, b2⟩ := C22_bytes_round_trip y (Or.inl hy)
  refine ⟨⟨fun h => ?_, fun h => by rw [c h]⟩, ⟨fun h => ?_, fun h => by rw [c h]⟩⟩
  · rw [← a1, ← b1, h]
  · rw [← a2, ← b2, h]

-- formats, with and without `#`
example : natText .debug true [0x2a#32, 1#32] = .ok "0x10000002a".toList := by decide
example : bText .debug true ⟨[0x2a#32], true⟩ = .ok "-0x2a".toList := by decide
example : bText .binary false ⟨[5#32], true⟩ = .ok "-0b101".toList := by decide
example : rText .debug true ⟨⟨[0x2a#32], true⟩, ⟨[0x11#32], false⟩⟩ = .ok "-2a/11".toList := by decide
example : rText .upperHex true ⟨⟨[0x2a#32], true⟩, ⟨[0x11#32], false⟩⟩ = .ok "-0x2A/0x11".toList := by decide
-- the hypotheses
example : LowestTerms ⟨⟨[0x2a#32], true⟩, ⟨[0x11#32], false⟩⟩ :=
  ⟨⟨by unfold Canon; decide, by decide⟩, ⟨by unfold Canon; decide, by decide⟩, by decide, by decide⟩

end RMath
