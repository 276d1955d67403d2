import Verif.Props.FloatParse
import Verif.Props.RatFloat
import Verif.Props.FloatMore

/-!
# C109: decimal text with a point read as a `Rat`

rat.rs:680 promises that `"323290.0392038920"` is read.  The code hands such a text to `f64::from_str` of the standard
library and converts the double.  The standard library is not part of the repository: every theorem here holds for an
arbitrary function `std` in its place, and the ones about values assume what the documentation of `f64::from_str` says of
it, `StdReads`.
-/

namespace RMath

/-- What the documentation of the standard library says of `f64::from_str`: a decimal number with a point is read as the
double nearest to it, ties to even, with its sign. -/
def StdReads (std : List Char → Option (BitVec 64)) : Prop :=
  ∀ t : DecText, t.Ok → t.frac ≠ none →
    ∃ c f, b64.Nearest |t.value| c ∧ std t.text = some f ∧ f.toNat = (if t.neg then 2 ^ 63 else 0) + c

theorem text_mem {t : DecText} (ht : t.Ok) {c : Char} (h : c ∈ t.text) :
    c = '-' ∨ c = '.' ∨ c = 'e' ∨ c = 'E' ∨ digitOf c < 10 := by
  obtain ⟨h1, h2, h3, h4⟩ := ht
  rw [DecText.text] at h
  rcases t with ⟨neg, int, frac, exp⟩
  rcases frac with _ | f <;> rcases exp with _ | ⟨x, n, ds⟩ <;>
    simp only [List.append_nil, List.mem_append, List.mem_cons] at h
  · rcases h with h | h
    · exact .inl (mem_signText h)
    · exact .inr (.inr (.inr (.inr (h2 c h))))
  · obtain ⟨k1, -, k3⟩ := h4 x n ds rfl
    rcases h with (h | h) | (h | h) | h
    · exact .inl (mem_signText h)
    · exact .inr (.inr (.inr (.inr (h2 c h))))
    · subst h; tauto
    · exact .inl (mem_signText h)
    · exact .inr (.inr (.inr (.inr (k3 c h))))
  · rcases h with (h | h) | h | h
    · exact .inl (mem_signText h)
    · exact .inr (.inr (.inr (.inr (h2 c h))))
    · exact .inr (.inl h)
    · exact .inr (.inr (.inr (.inr (h3 f rfl c h))))
  · obtain ⟨k1, -, k3⟩ := h4 x n ds rfl
    rcases h with ((h | h) | h | h) | (h | h) | h
    · exact .inl (mem_signText h)
    · exact .inr (.inr (.inr (.inr (h2 c h))))
    · exact .inr (.inl h)
    · exact .inr (.inr (.inr (.inr (h3 f rfl c h))))
    · subst h; tauto
    · exact .inl (mem_signText h)
    · exact .inr (.inr (.inr (.inr (k3 c h))))

theorem text_trim {t : DecText} (ht : t.Ok) : strTrim t.text = t.text := by
  refine strTrim_plain fun c hc => ?_
  rcases text_mem ht hc with rfl | rfl | rfl | rfl | h
  · decide
  · decide
  · decide
  · decide
  · exact not_white (by omega)

theorem text_point {t : DecText} (hf : t.frac ≠ none) : '.' ∈ t.text := by
  obtain ⟨f, hf⟩ := Option.ne_none_iff_exists'.1 hf
  rw [DecText.text, hf]
  simp

theorem isNanBits (f : D) : (((f >>> 52) &&& 2047#64) = 2047#64 ∧ f <<< 12 ≠ 0#64) ↔
    (f.toNat / 2 ^ 52 % 2 ^ 11 = 2047 ∧ f.toNat % 2 ^ 52 ≠ 0) := by
  have h1 : (f >>> 52) &&& 2047#64 = 2047#64 ↔ f.toNat / 2 ^ 52 % 2 ^ 11 = 2047 := by
    rw [← BitVec.toNat_inj, BitVec.toNat_and, BitVec.toNat_ushiftRight, Nat.shiftRight_eq_div_pow]
    rw [show (2047#64).toNat = 2 ^ 11 - 1 by decide, Nat.and_two_pow_sub_one_eq_mod]
    norm_num
  have h2 : f <<< 12 = 0#64 ↔ f.toNat % 2 ^ 52 = 0 := by
    rw [← BitVec.toNat_inj, BitVec.toNat_shiftLeft, Nat.shiftLeft_eq, show (0#64).toNat = 0 by decide,
      show 2 ^ 64 = 2 ^ 52 * 2 ^ 12 by norm_num, Nat.mul_mod_mul_right]
    omega
  rw [h1, ne_eq, h2]

/-- **C109**.  Text with a point is handed to the standard library, whatever it does: its refusals and its NaN are
refused, every other answer is converted as `From<f64>` does. -/
theorem C109_delegates (std : List Char → Option (BitVec 64)) (s : List Char) (ht : strTrim s = s) (hd : '.' ∈ s) :
    rParse std s = match std s with
      | none => .ok none
      | some f => if f.toNat / 2 ^ 52 % 2 ^ 11 = 2047 ∧ f.toNat % 2 ^ 52 ≠ 0 then .ok none else (rFromF64 f).map some := by
  have h0 : s ≠ [] := by rintro rfl; simp at hd
  unfold rParse
  simp only [ht, if_neg h0, if_pos hd]
  rcases std s with _ | f
  · rfl
  · simp only [isNanBits]
    split
    · rfl
    · rcases rFromF64 f with e | z <;> rfl

theorem b64_lt {q : ℚ} {c : Nat} (h : b64.Nearest q c) : c ≤ 2047 * 2 ^ 52 := by
  rw [← b64_inf]
  rcases h with h | h
  · exact h.1.le
  · exact h.1.le

/-- the double with a given sign and code -/
theorem bits_spec {f : BitVec 64} {neg : Bool} {c : Nat} (hf : f.toNat = (if neg then 2 ^ 63 else 0) + c)
    (hc : c ≤ 2047 * 2 ^ 52) :
    f.toNat / 2 ^ 52 % 2 ^ 11 = c / 2 ^ 52 ∧ f.toNat % 2 ^ 52 = c % 2 ^ 52 ∧ f64val f = signQ neg * b64.value c := by
  have h1 : f.toNat / 2 ^ 52 % 2 ^ 11 = c / 2 ^ 52 := by rw [hf]; split <;> omega
  have h2 : f.toNat % 2 ^ 52 = c % 2 ^ 52 := by rw [hf]; split <;> omega
  refine ⟨h1, h2, ?_⟩
  have hm : mag64 f = c := by unfold mag64; rw [hf]; split <;> omega
  have hb : f.msb = neg := by
    rw [BitVec.msb_eq_decide, hf]
    cases neg
    · simp only [Bool.false_eq_true, if_false, decide_eq_false_iff_not]; omega
    · simp only [if_true, decide_eq_true_eq]; omega
  rw [f64val_msb, hm, hb]
  rfl

/-- what `rParse` does with a decimal text -/
theorem rParse_point {std : List Char → Option (BitVec 64)} (hs : StdReads std) {t : DecText} (ht : t.Ok) (hf : t.frac ≠ none) :
    ∃ c f, b64.Nearest |t.value| c ∧ rParse std t.text = (rFromF64 f).map some ∧ (f64Finite f ↔ c < b64.inf) ∧
      f64val f = signQ t.neg * b64.value c := by
  obtain ⟨c, f, h1, h2, h3⟩ := hs t ht hf
  have hc := b64_lt h1
  obtain ⟨e1, e2, e3⟩ := bits_spec h3 hc
  refine ⟨c, f, h1, ?_, ?_, e3⟩
  · rw [C109_delegates std _ (text_trim ht) (text_point hf), h2]
    simp only [e1, e2]
    rw [if_neg]
    rintro ⟨k1, k2⟩
    omega
  · unfold f64Finite
    rw [e1, b64_inf]
    omega

theorem signQ_abs_value (t : DecText) : t.value = signQ t.neg * |t.value| := by
  have : |t.value| = ((numeral 10 t.digits).getD 0 : Nat) * 10 ^ t.scale := by
    rw [DecText.value, abs_mul, abs_mul, abs_of_pos (a := (10 : ℚ) ^ t.scale) (by positivity), Nat.abs_cast]
    cases t.neg <;> simp [signQ]
  rw [this, DecText.value, mul_assoc]

theorem signQ_mul_abs (neg : Bool) {q : ℚ} (h : 0 ≤ q) : |signQ neg * q| = q := by
  cases neg <;> simp [signQ, abs_of_nonneg h]

theorem signQ_mul_inj (neg : Bool) {a b : ℚ} : signQ neg * a = signQ neg * b ↔ a = b := by
  cases neg <;> simp [signQ]

/-- the code of the double `2^53 - 1` -/
theorem b64_value_max : b64.value (1075 * 2 ^ 52 + (2 ^ 52 - 1)) = 2 ^ 53 - 1 := by
  unfold Fmt.value
  simp only [b64_mb, b64_bias]
  norm_num

/-- `From<f64>` divides where it should multiply: from `2^53` on the result is below `2^52`. -/
theorem rFromF64_large {x : BitVec 64} (hf : f64Finite x) (h : 2 ^ 53 ≤ |f64val x|) :
    ∃ r, rFromF64 x = .ok r ∧ RatOk r ∧ |qval r| < 2 ^ 52 := by
  have hs : f64Shift x < 0 := by
    by_contra hs
    exact absurd ((f64_small_iff x hf).2 (by omega)) (not_lt.2 h)
  obtain ⟨m', s', e1, e2, -⟩ := rFromF64_eq x hf
  obtain ⟨f1, rfl⟩ := e2 (by omega)
  obtain ⟨r, g1, g2, g3, g4, g5, g6⟩ := rNorm_spec (s := f64Neg x) (n := m'.toNat) (t := false)
    (d := 2 ^ (f64Shift x).natAbs) (by positivity)
  refine ⟨r, by rw [e1, g1], g2, ?_⟩
  have hm : f64Mant x < 2 ^ 53 := by unfold f64Mant; split <;> omega
  have hm' : (m'.toNat : ℚ) < 2 ^ 53 := by rw [f1]; exact_mod_cast hm
  have ha : |((sg (f64Neg x) m'.toNat : ℤ) : ℚ)| = m'.toNat := by
    rw [sg_signQ]; exact signQ_mul_abs _ (by positivity)
  have hp : (2 : ℚ) ≤ ((2 ^ (f64Shift x).natAbs : Nat) : ℚ) := by
    have : 2 ^ 1 ≤ 2 ^ (f64Shift x).natAbs := Nat.pow_le_pow_right (by norm_num) (by omega)
    exact_mod_cast this
  rw [g4, abs_div, ha, Nat.abs_cast, div_lt_iff₀ (by linarith)]
  nlinarith

theorem nearest_big {q : ℚ} {c : Nat} (h : b64.Nearest q c) (hc : 2 ^ 53 ≤ b64.value c) : 2 ^ 53 - 1 < q := by
  by_contra hq
  rw [not_lt] at hq
  rcases h with ⟨h1, h2, h3⟩ | ⟨h1, h2⟩
  · have := (h3 (1075 * 2 ^ 52 + (2 ^ 52 - 1)) (by rw [b64_inf]; norm_num)).1
    rw [b64_value_max, abs_of_nonneg (by linarith), abs_of_nonneg (by linarith)] at this
    linarith
  · rw [b64_bias, b64_mb] at h2
    have e : (2 : ℚ) ^ (((1023 : Nat) : ℤ) + 1) - 2 ^ (((1023 : Nat) : ℤ) - ((52 : Nat) : ℤ) - 1) = 2 ^ 970 * (2 ^ 54 - 1) := by
      rw [show (((1023 : Nat) : ℤ) + 1) = ((1024 : Nat) : ℤ) by norm_num, show (((1023 : Nat) : ℤ) - ((52 : Nat) : ℤ) - 1) = ((970 : Nat) : ℤ) by norm_num,
        zpow_natCast, zpow_natCast, show 1024 = 970 + 54 by norm_num, pow_add]
      generalize (2 : ℚ) ^ 970 = P
      ring
    rw [e] at h2
    have hP : (1 : ℚ) ≤ 2 ^ 970 := one_le_pow₀ (by norm_num)
    clear e
    generalize (2 : ℚ) ^ 970 = P at h2 hP
    norm_num at h2 hq
    linarith

/-- **C109** (partial).  A decimal number with a point below `2^53 - 1` is read as the double nearest to it, in lowest
terms. -/
theorem C109_nearest_partial {std : List Char → Option (BitVec 64)} (hs : StdReads std) {t : DecText} (ht : t.Ok)
    (hf : t.frac ≠ none) (hb : |t.value| ≤ 2 ^ 53 - 1) :
    ∃ r c, rParse std t.text = .ok (some r) ∧ LowestTerms r ∧ b64.Nearest |t.value| c ∧ qval r = signQ t.neg * b64.value c := by
  obtain ⟨c, f, h1, h2, h3, h4⟩ := rParse_point hs ht hf
  have hv : b64.value c < 2 ^ 53 := by
    by_contra hv
    have := nearest_big h1 (not_lt.1 hv)
    linarith
  have hc : c < b64.inf := by
    rcases h1 with h1 | h1
    · exact h1.1
    · rw [h1.1, b64.value_inf, b64_bias, show (((1023 : Nat) : ℤ) + 1) = ((1024 : Nat) : ℤ) by norm_num, zpow_natCast] at hv
      exact absurd hv (not_lt.2 (pow_le_pow_right₀ (by norm_num) (by norm_num)))
  obtain ⟨r, r1, r2, r3, r4⟩ := C54_from_f64_partial f (h3.2 hc) (by rw [h4, signQ_mul_abs _ (b64.value_nonneg c)]; exact hv)
  exact ⟨r, c, by rw [h2, r1]; rfl, r2, h1, by rw [r4, h4]⟩

/-- **C109** (exact extent).  The number read is the number written if and only if it is below `2^53` and is a double: all
other decimal numbers with a point are misread. -/
theorem C109_exact_iff {std : List Char → Option (BitVec 64)} (hs : StdReads std) {t : DecText} (ht : t.Ok) (hf : t.frac ≠ none) :
    (∃ r, rParse std t.text = .ok (some r) ∧ RatOk r ∧ qval r = t.value) ↔
      |t.value| < 2 ^ 53 ∧ ∃ c, c < b64.inf ∧ b64.value c = |t.value| := by
  obtain ⟨c, f, h1, h2, h3, h4⟩ := rParse_point hs ht hf
  have habs : |f64val f| = b64.value c := by rw [h4, signQ_mul_abs _ (b64.value_nonneg c)]
  constructor
  · rintro ⟨r, r1, r2, r3⟩
    by_cases hfin : f64Finite f
    · have hc := h3.1 hfin
      by_cases hv : b64.value c < 2 ^ 53
      · obtain ⟨r', k1, -, k3, k4⟩ := C54_from_f64_partial f hfin (by rw [habs]; exact hv)
        rw [h2, k1] at r1
        cases r1
        rw [r3, h4, signQ_abs_value, signQ_mul_inj] at k4
        exact ⟨by rw [k4]; exact hv, c, hc, k4.symm⟩
      · exfalso
        rw [not_lt] at hv
        obtain ⟨r', k1, k2, k3⟩ := rFromF64_large hfin (by rw [habs]; exact hv)
        rw [h2, k1] at r1
        cases r1
        rw [r3] at k3
        have := nearest_big h1 hv
        norm_num at this k3
        linarith
    · exfalso
      rw [h2, C54_not_finite f hfin] at r1
      cases r1
      obtain ⟨⟨k, -⟩, -⟩ := r2
      exact k rfl
  · rintro ⟨b1, c', b2, b3⟩
    have hcc : c' = c := Fmt.Nearest.unique (b3 ▸ b64.nearest_self c' b2) h1
    subst hcc
    obtain ⟨r, k1, -, k3, k4⟩ := C54_from_f64_partial f (h3.2 b2) (by rw [habs, b3]; exact b1)
    exact ⟨r, by rw [h2, k1]; rfl, k3, by rw [k4, h4, b3, ← signQ_abs_value]⟩

/-- `0.1` -/
def sampleT01 : DecText := ⟨false, ['0'], some ['1'], none⟩
/-- `-12.375` -/
def sampleT12375 : DecText := ⟨true, ['1', '2'], some ['3', '7', '5'], none⟩
/-- `9007199254740992.0`, which is `2^53` -/
def sampleT253 : DecText := ⟨false, "9007199254740992".toList, some ['0'], none⟩

theorem sampleT01_ok : sampleT01.Ok := ⟨by decide, by decide, by rintro f ⟨⟩; decide, by rintro c n ds ⟨⟩⟩
theorem sampleT12375_ok : sampleT12375.Ok := ⟨by decide, by decide, by rintro f ⟨⟩; decide, by rintro c n ds ⟨⟩⟩
theorem sampleT253_ok : sampleT253.Ok := ⟨by decide, by decide, by rintro f ⟨⟩; decide, by rintro c n ds ⟨⟩⟩

theorem sampleT01_value : sampleT01.value = 1 / 10 := by
  rw [DecText.value, show numeral 10 sampleT01.digits = some 1 by decide, show sampleT01.scale = -1 by decide]
  norm_num [signQ, sampleT01]
theorem sampleT12375_value : sampleT12375.value = -99 / 8 := by
  rw [DecText.value, show numeral 10 sampleT12375.digits = some 12375 by decide, show sampleT12375.scale = -3 by decide]
  norm_num [signQ, sampleT12375]
theorem sampleT253_value : sampleT253.value = 2 ^ 53 := by
  rw [DecText.value, show numeral 10 sampleT253.digits = some 90071992547409920 by decide, show sampleT253.scale = -1 by decide]
  norm_num [signQ, sampleT253]

/-- **C109** fails: `0.1` is read as a number other than one tenth, and `9007199254740992.0` as another integer. -/
theorem C109_violated {std : List Char → Option (BitVec 64)} (hs : StdReads std) :
    (∃ r, rParse std "0.1".toList = .ok (some r) ∧ qval r = 3602879701896397 / 36028797018963968) ∧
    ¬ ∃ r, rParse std "9007199254740992.0".toList = .ok (some r) ∧ RatOk r ∧ qval r = 9007199254740992 := by
  constructor
  · obtain ⟨r, c, r1, r2, r3, r4⟩ := C109_nearest_partial hs sampleT01_ok (by decide) (by rw [sampleT01_value]; norm_num [abs_of_pos])
    refine ⟨r, r1, ?_⟩
    rw [sampleT01_value, abs_of_pos (by norm_num)] at r3
    have hc := rneBits_unique b64 (n := 1) (d := 10) (by norm_num) r3 (by norm_num)
    rw [show rneBits b64 1 10 = 0x3fb999999999999a by decide +kernel] at hc
    rw [r4, ← hc, Fmt.value]
    simp only [b64_mb, b64_bias]
    norm_num [signQ, sampleT01]
  · have h := C109_exact_iff hs sampleT253_ok (by decide)
    rw [sampleT253_value] at h
    intro hr
    have := (h.1 (by
      obtain ⟨r, r1, r2, r3⟩ := hr
      exact ⟨r, r1, r2, by rw [r3]; norm_num⟩)).1
    rw [abs_of_pos (by positivity)] at this
    exact lt_irrefl _ this

/-! The hypothesis `StdReads` is consistent: a text determines the number it denotes. -/

theorem digits_split : ∀ {a b r s : List Char}, (∀ c ∈ a, digitOf c < 10) → (∀ c ∈ b, digitOf c < 10) →
    (∀ c ∈ r.head?, ¬ digitOf c < 10) → (∀ c ∈ s.head?, ¬ digitOf c < 10) → a ++ r = b ++ s → a = b ∧ r = s
  | [], [], _, _, _, _, _, _, h => ⟨rfl, h⟩
  | [], y :: b, r, s, _, hb, hr, _, h => by
    simp only [List.nil_append] at h
    subst h
    exact absurd (hb y (by simp)) (hr y (by simp))
  | x :: a, [], r, s, ha, _, _, hs, h => by
    simp only [List.nil_append] at h
    subst h
    exact absurd (ha x (by simp)) (hs x (by simp))
  | x :: a, y :: b, r, s, ha, hb, hr, hs, h => by
    simp only [List.cons_append, List.cons.injEq] at h
    obtain ⟨e1, e2⟩ := digits_split (fun c hc => ha c (by simp [hc])) (fun c hc => hb c (by simp [hc])) hr hs h.2
    exact ⟨by rw [h.1, e1], e2⟩

theorem sign_split {m n : Bool} {a b : List Char} (ha : a.head? ≠ some '-') (hb : b.head? ≠ some '-')
    (h : signText m ++ a = signText n ++ b) : m = n ∧ a = b := by
  cases m <;> cases n <;> simp only [signText, if_true, Bool.false_eq_true, if_false, List.nil_append, List.cons_append,
    List.cons.injEq, true_and] at h
  · exact ⟨rfl, h⟩
  · subst h; simp at ha
  · subst h; simp at hb
  · exact ⟨rfl, h⟩

theorem head_digit {a r : List Char} (h0 : a ≠ []) (h : ∀ c ∈ a, digitOf c < 10) : (a ++ r).head? ≠ some '-' := by
  rcases a with _ | ⟨x, a⟩
  · exact absurd rfl h0
  · have := h x (by simp)
    simp only [List.cons_append, List.head?_cons, ne_eq, Option.some.injEq]
    exact digit_ne_minus this

/-- the exponent as it is written -/
def expText (e : Option (Char × Bool × List Char)) : List Char :=
  match e with | none => [] | some (c, n, ds) => c :: signText n ++ ds

theorem expText_head {e : Option (Char × Bool × List Char)}
    (h : ∀ c n ds, e = some (c, n, ds) → (c = 'e' ∨ c = 'E') ∧ ds ≠ [] ∧ ∀ c ∈ ds, digitOf c < 10) :
    ∀ c ∈ (expText e).head?, ¬ digitOf c < 10 := by
  rcases e with _ | ⟨c, n, ds⟩
  · simp [expText]
  · intro d hd
    simp only [expText, List.cons_append, List.head?_cons, Option.mem_def, Option.some.injEq] at hd
    subst hd
    rcases (h c n ds rfl).1 with rfl | rfl <;> decide

theorem expText_inj {e e' : Option (Char × Bool × List Char)}
    (h : ∀ c n ds, e = some (c, n, ds) → (c = 'e' ∨ c = 'E') ∧ ds ≠ [] ∧ ∀ c ∈ ds, digitOf c < 10)
    (h' : ∀ c n ds, e' = some (c, n, ds) → (c = 'e' ∨ c = 'E') ∧ ds ≠ [] ∧ ∀ c ∈ ds, digitOf c < 10)
    (he : expText e = expText e') : e = e' := by
  rcases e with _ | ⟨c, n, ds⟩ <;> rcases e' with _ | ⟨c', n', ds'⟩
  · rfl
  · simp [expText] at he
  · simp [expText] at he
  · simp only [expText, List.cons_append, List.cons.injEq] at he
    obtain ⟨-, k1, k2⟩ := h c n ds rfl
    obtain ⟨-, k1', k2'⟩ := h' c' n' ds' rfl
    have a1 := head_digit (r := []) k1 k2
    have a2 := head_digit (r := []) k1' k2'
    rw [List.append_nil] at a1 a2
    obtain ⟨rfl, rfl⟩ := sign_split a1 a2 he.2
    rw [he.1]

/-- A text is the text of one decimal number only. -/
theorem decText_inj {t u : DecText} (ht : t.Ok) (hu : u.Ok) (hf : t.frac ≠ none) (hg : u.frac ≠ none) (h : t.text = u.text) :
    t = u := by
  rcases t with ⟨neg, int, frac, exp⟩
  rcases u with ⟨neg', int', frac', exp'⟩
  obtain ⟨f, rfl⟩ := Option.ne_none_iff_exists'.1 hf
  obtain ⟨f', rfl⟩ := Option.ne_none_iff_exists'.1 hg
  obtain ⟨t1, t2, t3, t4⟩ := ht
  obtain ⟨u1, u2, u3, u4⟩ := hu
  simp only [] at t1 t2 t3 t4 u1 u2 u3 u4
  have e1 : ∀ (n : Bool) (i g : List Char) (e : Option (Char × Bool × List Char)),
      (DecText.mk n i (some g) e).text = signText n ++ (i ++ '.' :: (g ++ expText e)) := by
    intro n i g e
    rw [DecText.text]
    rcases e with _ | ⟨c, m, ds⟩ <;> simp [expText]
  rw [e1, e1] at h
  obtain ⟨e0, k1⟩ := sign_split (head_digit t1 t2) (head_digit u1 u2) h
  have hp : ∀ r : List Char, ∀ c ∈ ('.' :: r).head?, ¬ digitOf c < 10 := by
    intro r
    simp only [List.head?_cons, Option.mem_def, Option.some.injEq, forall_eq']
    decide
  obtain ⟨e1, k2⟩ := digits_split t2 u2 (hp _) (hp _) k1
  obtain ⟨e2, k3⟩ := digits_split (t3 f rfl) (u3 f' rfl) (expText_head t4) (expText_head u4) (List.cons.inj k2).2
  rw [e0, e1, e2, expText_inj t4 u4 k3]

/-- Functions as documented exist: the assumption of the theorems is not contradictory. -/
theorem stdReads_exists : ∃ std, StdReads std := by
  classical
  refine ⟨fun s => if h : ∃ t : DecText, (t.Ok ∧ t.frac ≠ none) ∧ t.text = s then
    some (mk64 h.choose.neg (rneBits b64 (|h.choose.value|).num.toNat (|h.choose.value|).den)) else none, ?_⟩
  intro t ht hf
  have hex : ∃ u : DecText, (u.Ok ∧ u.frac ≠ none) ∧ u.text = t.text := ⟨t, ⟨ht, hf⟩, rfl⟩
  have hu : hex.choose = t := decText_inj hex.choose_spec.1.1 ht hex.choose_spec.1.2 hf hex.choose_spec.2
  have hn : b64.Nearest |t.value| (rneBits b64 (|t.value|).num.toNat (|t.value|).den) := by
    have := rneBits_nearest b64 (|t.value|).num.toNat (|t.value|).den (|t.value|).den_nz
    have e : (((|t.value|).num.toNat : Nat) : ℚ) = (((|t.value|).num : ℤ) : ℚ) := by
      rw [← Int.cast_natCast, Int.toNat_of_nonneg (Rat.num_nonneg.2 (abs_nonneg _))]
    rwa [e, Rat.num_div_den] at this
  refine ⟨_, _, hn, dif_pos hex, ?_⟩
  rw [hu, mk64_toNat]
  exact lt_of_le_of_lt (b64_lt hn) (by norm_num)

example : sampleT12375.text = "-12.375".toList ∧ sampleT12375.Ok ∧ sampleT12375.frac ≠ none ∧
    |sampleT12375.value| ≤ 2 ^ 53 - 1 ∧ |sampleT12375.value| < 2 ^ 53 ∧ 0x4028c00000000000 < b64.inf ∧
    b64.value 0x4028c00000000000 = |sampleT12375.value| := by
  refine ⟨by decide, sampleT12375_ok, by decide, ?_, ?_, by rw [b64_inf]; norm_num, ?_⟩
  · rw [sampleT12375_value]; norm_num [abs_of_neg]
  · rw [sampleT12375_value]; norm_num [abs_of_neg]
  · rw [sampleT12375_value, Fmt.value]
    simp only [b64_mb, b64_bias]
    norm_num [abs_of_neg]
example : strTrim "1.5".toList = "1.5".toList ∧ '.' ∈ "1.5".toList := by decide

end RMath
