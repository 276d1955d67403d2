import Verif.Props.TextId

/-!
# C110: numbers are printed the way the standard library prints integers

The specification is `stdText`, written with Lean's own `Nat.toDigits`: the digits of a number in a base, most significant
first, in lower case, without superfluous zeros.
-/

namespace RMath

/-- The digits of `n` in the given format, without a prefix: `{:X}` prints capitals. -/
def stdDigits : TextStyle → Nat → List Char
  | .display, n => Nat.toDigits 10 n
  | .binary, n => Nat.toDigits 2 n
  | .octal, n => Nat.toDigits 8 n
  | .lowerHex, n | .debug, n => Nat.toDigits 16 n
  | .upperHex, n => (Nat.toDigits 16 n).map Char.toUpper

/-- The text of `n` in the given format; `#` asks for the prefix of the base. -/
def stdText (st : TextStyle) (alt : Bool) (n : Nat) : List Char := (if alt then stylePre st else []) ++ stdDigits st n

/-! ## Digits determine the text -/

theorem zero_of_digitOf {c : Char} (h : digitOf c = 0) : c = '0' := by
  unfold digitOf at h
  split at h
  · rename_i h1
    apply Char.ext
    apply UInt32.toNat.inj
    have h3 : '0' ≤ c := h1.1
    have : 48 ≤ c.toNat := h3
    change c.toNat = 48
    change c.toNat - 48 = 0 at h
    omega
  · split at h
    · omega
    · split at h <;> omega

/-- A decimal digit is the character of its value. -/
theorem digitChar_digitOf {c : Char} (h : digitOf c < 10) : Nat.digitChar (digitOf c) = c := by
  unfold digitOf at h ⊢
  split at h
  · rename_i h1
    rw [if_pos h1]
    have h3 : 48 ≤ c.toNat := h1.1
    have h4 : c.toNat ≤ 57 := h1.2
    have hc : c = Char.ofNat c.toNat := by simp
    change Nat.digitChar (c.toNat - 48) = c
    generalize c.toNat = n at *
    subst hc
    interval_cases n <;> rfl
  · split at h
    · omega
    · split at h <;> omega

/-- Without superfluous zeros the digits are those of `Nat.toDigits`. -/
theorem toDigits_of_numeral {base : Nat} (hb : 2 ≤ base) {s : List Char} {v : Nat} (h : numeral base s = some v)
    (hz : s = ['0'] ∨ s.head? ≠ some '0') : s.map (fun c => Nat.digitChar (digitOf c)) = Nat.toDigits base v := by
  unfold numeral at h
  split at h
  case isFalse => cases h
  rename_i hs
  obtain rfl := Option.some.inj h
  obtain ⟨hne, hd⟩ := hs
  clear h
  induction s using List.reverseRecOn with
  | nil => exact absurd rfl hne
  | append_singleton s c ih =>
    have hc : digitOf c < base := hd c (by simp)
    rw [List.foldl_append, List.foldl_cons, List.foldl_nil, List.map_append]
    by_cases hs : s = []
    · subst hs
      simp only [List.foldl_nil, Nat.mul_zero, Nat.zero_add, List.map_nil, List.map_cons, List.nil_append]
      rw [Nat.toDigits_of_lt_base hc]
    · have hz' : s.head? ≠ some '0' := by
        rcases hz with h | h
        · exfalso
          have := congrArg List.length h
          simp at this
          exact hs this
        · rwa [List.head?_append_of_ne_nil _ hs] at h
      have hpos : 1 ≤ s.foldl (fun n c => base * n + digitOf c) 0 := by
        obtain ⟨e, s', rfl⟩ := List.exists_cons_of_ne_nil hs
        have he : digitOf e ≠ 0 := fun h => hz' (by rw [zero_of_digitOf h]; rfl)
        rw [List.foldl_cons]
        have key : ∀ (l : List Char) (n : Nat), 1 ≤ n → 1 ≤ l.foldl (fun n c => base * n + digitOf c) n := by
          intro l
          induction l with
          | nil => exact fun n h => h
          | cons a l ih => exact fun n h => ih _ (le_trans (by omega : 1 ≤ 2 * 1) (le_trans (Nat.mul_le_mul hb h) (Nat.le_add_right _ _)))
        exact key _ _ (by omega)
      have ih := ih (Or.inr hz') hs fun c hc => hd c (List.mem_append_left _ hc)
      generalize s.foldl (fun n c => base * n + digitOf c) 0 = n at *
      have hle : base ≤ base * n + digitOf c := by have := Nat.mul_le_mul_left base hpos; omega
      rw [Nat.toDigits_of_base_le (by omega) hle, ih, Nat.mul_add_div (by omega), Nat.div_eq_of_lt hc, Nat.add_zero,
        Nat.mul_add_mod, Nat.mod_eq_of_lt hc]
      rfl

/-- The characters printed by `{:b}`, `{:x}` and `{:X}`. -/
theorem natFmt_chars (u : Bool) {base width : Nat} (hb : 2 ≤ base) (hb16 : base ≤ 16) (hw : base ^ width = 2 ^ 32)
    {x : Words} (hx : Canon x) :
    (natFmt u base width [] false x = ['0'] ∨ (natFmt u base width [] false x).head? ≠ some '0') ∧
      ∀ c ∈ natFmt u base width [] false x, c = fmtChar u (digitOf c) := by
  have hpad : ∀ w : W, ∀ c ∈ fmtPad u base width w, c = fmtChar u (digitOf c) := by
    intro w c hc
    unfold fmtPad at hc
    obtain ⟨i, _, rfl⟩ := List.mem_map.1 hc
    rw [fmtChar_digit _ _ (lt_of_lt_of_le (Nat.mod_lt _ (by omega)) hb16)]
  have h0 : '0' = fmtChar u (digitOf '0') := by cases u <;> rfl
  unfold natFmt
  have hnan : isNan x = false := by simp [isNan, hx.1]
  rw [hnan, if_neg (by simp)]
  obtain ⟨y, w, rfl⟩ := exists_concat hx.1
  rw [List.reverse_append]
  simp only [List.reverse_cons, List.reverse_nil, List.nil_append, List.cons_append, List.map_cons,
    List.flatten_cons, Bool.false_eq_true, if_false]
  have hfd := (mem_dropWhile_zero (fmtPad u base width w) (P := fun c => c = fmtChar u (digitOf c)) h0).2 (hpad w)
  have hfr := rv_dropWhile_zero base (fmtPad u base width w)
  rw [fmtPad_rv u (by omega) hb16 hw] at hfr
  have hhd : ((fmtPad u base width w).dropWhile (· == '0')).head? ≠ some '0' := by
    intro h
    have := List.head?_dropWhile_not (fun c : Char => c == '0') (fmtPad u base width w)
    rw [h] at this
    simp at this
  generalize (fmtPad u base width w).dropWhile (· == '0') = f at *
  by_cases hf : f = [] ∧ (y ++ [w]).length = 1
  · have hy : y = [] := by
      have := hf.2
      rw [List.length_append] at this
      simpa using this
    subst hy
    rw [if_pos hf]
    refine ⟨Or.inl (by simp), ?_⟩
    intro c hc
    simp at hc
    subst hc
    exact h0
  · rw [if_neg hf]
    have hfne : f ≠ [] := by
      rintro rfl
      apply hf
      refine ⟨rfl, ?_⟩
      have hw0 : w.toNat = 0 := by rw [← hfr]; rfl
      by_contra hl
      obtain ⟨_, hc⟩ := hx
      rw [List.getLast_append_singleton] at hc
      rcases hc with hc | hc
      · exact hl hc
      · exact hc (BitVec.eq_of_toNat_eq hw0)
    refine ⟨Or.inr ?_, ?_⟩
    · rwa [List.head?_append_of_ne_nil _ hfne]
    · intro c hc
      rcases List.mem_append.1 hc with hc | hc
      · exact hfd c hc
      · obtain ⟨l, hl, hcl⟩ := List.mem_flatten.1 hc
        obtain ⟨w', _, rfl⟩ := List.mem_map.1 hl
        exact hpad w' c hcl

theorem natOctal_head {x : Words} (hx : x ≠ []) : natOctal false x = ['0'] ∨ (natOctal false x).head? ≠ some '0' := by
  unfold natOctal
  have hnan : isNan x = false := by simp [isNan, hx]
  rw [hnan, if_neg (by simp)]
  simp only [Bool.false_eq_true, if_false, List.nil_append]
  generalize (if (octPush 0 0#32 x).2 > 0#32 then (octPush 0 0#32 x).1 ++ [Char.ofNat ((octPush 0 0#32 x).2.toNat + 48)]
        else (octPush 0 0#32 x).1).reverse = l
  have hl := List.head?_dropWhile_not (fun c : Char => c == '0') l
  split
  · exact Or.inl rfl
  · right
    intro h
    rw [h] at hl
    simp at hl

theorem map_digitChar {base : Nat} (hb : base ≤ 10) {s : List Char} {v : Nat} (h : numeral base s = some v) :
    s.map (fun c => Nat.digitChar (digitOf c)) = s := by
  conv_rhs => rw [← List.map_id s]
  exact List.map_congr_left fun c hc => digitChar_digitOf (lt_of_lt_of_le ((numeral_some h).2 c hc) hb)

theorem stdDigits_nat (st : TextStyle) (x : Words) (hx : Canon x) : natText st false x = .ok (stdDigits st (val x)) := by
  have hlow : natLowerHex false x = Nat.toDigits 16 (val x) := by
    obtain ⟨s, h1, h2, -, -⟩ := C26_lower_hex hx
    obtain ⟨h3, h4⟩ := natFmt_chars false (base := 16) (width := 8) (by norm_num) (by norm_num) (by norm_num) hx
    have e : natFmt false 16 8 [] false x = s := h2
    rw [e] at h3 h4
    rw [h2, ← toDigits_of_numeral (by norm_num) h1 h3]
    conv_lhs => rw [← List.map_id s]
    exact List.map_congr_left fun c hc => h4 c hc
  cases st
  · obtain ⟨s, h1, h2, h3, -⟩ := C26_display hx
    simp only [natText, stdDigits]
    rw [h1, ← toDigits_of_numeral (by norm_num) h2 h3, map_digitChar (by norm_num) h2]
  · obtain ⟨s, h1, h2, -, -⟩ := C26_binary hx
    obtain ⟨h3, -⟩ := natFmt_chars false (base := 2) (width := 32) (by norm_num) (by norm_num) (by norm_num) hx
    have e : natFmt false 2 32 [] false x = s := h2
    rw [e] at h3
    simp only [natText, stdDigits]
    rw [h2, ← toDigits_of_numeral (by norm_num) h1 h3, map_digitChar (by norm_num) h1]
  · obtain ⟨s, h1, h2, -, -⟩ := C26_octal hx
    have h3 := natOctal_head hx.1
    rw [h2] at h3
    simp only [natText, stdDigits]
    rw [h2, ← toDigits_of_numeral (by norm_num) h1 h3, map_digitChar (by norm_num) h1]
  · simp only [natText, stdDigits]
    rw [hlow]
  · obtain ⟨s, h1, h2, -, -⟩ := C26_upper_hex hx
    obtain ⟨h3, h4⟩ := natFmt_chars true (base := 16) (width := 8) (by norm_num) (by norm_num) (by norm_num) hx
    have e : natFmt true 16 8 [] false x = s := h2
    rw [e] at h3 h4
    simp only [natText, stdDigits]
    rw [h2, ← toDigits_of_numeral (by norm_num) h1 h3, List.map_map]
    conv_lhs => rw [← List.map_id s]
    congr 1
    exact List.map_congr_left fun c hc => h4 c hc
  · simp only [natText, stdDigits]
    rw [← hlow]; rfl

/-- **C110, `Nat`.**  Every number is printed with the digits of its value, in every format. -/
theorem C110_nat (st : TextStyle) (alt : Bool) (x : Words) (hx : Canon x) :
    natText st alt x = .ok (stdText st alt (val x)) := by
  have h := stdDigits_nat st x hx
  unfold stdText
  cases alt
  · simpa using h
  · have hlow : natLowerHex true x = ['0', 'x'] ++ natLowerHex false x := by
      obtain ⟨s, -, h2, h3, -⟩ := C26_lower_hex hx
      rw [h2, h3]; rfl
    cases st
    · simpa [stylePre, natText] using h
    · obtain ⟨s, -, h2, h3, -⟩ := C26_binary hx
      simp only [natText, h2, Except.ok.injEq] at h
      simp only [natText, h3, stylePre, if_true, h]; rfl
    · obtain ⟨s, -, h2, h3, -⟩ := C26_octal hx
      simp only [natText, h2, Except.ok.injEq] at h
      simp only [natText, h3, stylePre, if_true, h]; rfl
    · simp only [natText, Except.ok.injEq] at h
      simp only [natText, hlow, stylePre, if_true, h]
    · obtain ⟨s, -, h2, h3, -⟩ := C26_upper_hex hx
      simp only [natText, h2, Except.ok.injEq] at h
      simp only [natText, h3, stylePre, if_true, h]; rfl
    · have e : ∀ b, natDebug b x = natLowerHex b x := fun _ => rfl
      simp only [natText, e, Except.ok.injEq] at h
      simp only [natText, e, hlow, stylePre, if_true, h]

/-- **C110, `BigInt`.**  A minus sign for a negative number, and the text of the absolute value; `{:b}` prints the prefix
whether or not it is asked for. -/
theorem C110_bigint_partial (st : TextStyle) (alt : Bool) (x : BInt) (hx : CanonI x) :
    bText st alt x = .ok ((if ival x < 0 then ['-'] else []) ++ stdText st (alt || decide (st = .binary)) (ival x).natAbs) := by
  obtain ⟨a, rfl⟩ := canonI_iff_encI.1 hx
  have hf : ∀ s, bFmt (encI a) s = (if ival (encI a) < 0 then ['-'] else []) ++ s := by
    intro s
    simp only [bFmt, bIsNegative_encI, ival_encI, decide_eq_true_eq]
    split <;> simp
  have hv : val (encI a).nat = (ival (encI a)).natAbs := by rw [ival_encI, encI_raw, val_enc]
  have hb : bText st alt (encI a) = (do let s ← natText st (alt || decide (st = .binary)) (encI a).nat; .ok (bFmt (encI a) s)) := by
    cases st <;> simp [bText, natText, bDisplay, bBinary, bOctal, bLowerHex, bUpperHex, bDebug, bind, Except.bind]
  rw [hb, C110_nat st _ _ hx.1]
  simp only [bind, Except.bind, hf, hv]

/-- **C110, `Rat`.**  The text of the numerator, a slash, and the text of the denominator, which is not negative; `{:#?}` is
printed like `{:?}`. -/
theorem C110_rat_partial (st : TextStyle) (alt : Bool) (x : RatV) (ha : CanonI x.a) (hb : CanonI x.b) (hn : x.b.neg = false) :
    rText st alt x = .ok ((if ival x.a < 0 then ['-'] else []) ++
      stdText st ((alt && decide (st ≠ .debug)) || decide (st = .binary)) (ival x.a).natAbs ++ '/' ::
      stdText st ((alt && decide (st ≠ .debug)) || decide (st = .binary)) (ival x.b).natAbs) := by
  obtain ⟨l, t, h1, h2, h3⟩ := C107_rat_text st alt x ha hb
  rw [C110_bigint_partial _ _ _ ha] at h2
  rw [C110_bigint_partial _ _ _ hb] at h3
  have hpos : ¬ ival x.b < 0 := by unfold ival; rw [hn]; simp
  rw [if_neg hpos] at h3
  rw [h1, ← Except.ok.inj h2, ← Except.ok.inj h3]
  simp

/-- **C110 fails** for `{:b}` of a `BigInt`: 5 is printed as `0b101`. -/
theorem C110_violated : bText .binary false ⟨[5#32], false⟩ = .ok "0b101".toList ∧ stdText .binary false 5 = "101".toList := by
  decide

/-- the hypotheses of `C110_nat`, `C110_bigint_partial`, `C110_rat_partial` -/
example : Canon [0xabcdef01#32, 0x1f#32] ∧ stdText .upperHex true (val [0xabcdef01#32, 0x1f#32]) = "0x1FABCDEF01".toList ∧
    natText .upperHex true [0xabcdef01#32, 0x1f#32] = .ok "0x1FABCDEF01".toList :=
  ⟨⟨by simp, by simp⟩, by decide, by decide⟩
example : CanonI ⟨[0xff#32], true⟩ ∧ bText .lowerHex false ⟨[0xff#32], true⟩ = .ok "-ff".toList ∧
    rText .lowerHex false ⟨⟨[0xff#32], true⟩, ⟨[16#32], false⟩⟩ = .ok "-ff/10".toList :=
  ⟨⟨⟨by simp, by simp⟩, by simp [val]⟩, by decide, by decide⟩

end RMath
