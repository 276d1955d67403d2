import Verif.Lemmas.FloatParse
import Verif.Props.FloatText

/-!
# Properties C84, C85: reading floating point numbers from text

A decimal number is a `DecText`: sign, digits, optionally a point with further digits, optionally an exponent.  Its
characters are `t.text`, the number it denotes is `t.value`.
-/

namespace RMath

open DecText

/-! ## C84: parsing -/

theorem val_natAbs (x : BInt) : val x.nat = (ival x).natAbs := by
  unfold ival; split <;> simp

theorem ival_eq_zero_val (x : BInt) : ival x = 0 ↔ val x.nat = 0 := by
  rw [val_natAbs]; simp

theorem fParse_int {t : DecText} (ht : t.Ok) (hf : t.frac = none) (hx : t.exp = none) [Decidable (NoLeadingZero t.int)] :
    fParse t.text = if NoLeadingZero t.int then
      (do let z ← fFromBigInt (encI (sg t.neg ((numeral 10 t.int).getD 0))); .ok (some z)) else .ok none := by
  have htext : t.text = signText t.neg ++ t.int := by rw [DecText.text, hf, hx]; simp
  have hmem : ∀ c ∈ t.text, c = '-' ∨ digitOf c < 10 := by
    intro c hc
    rw [htext] at hc
    rcases List.mem_append.1 hc with hc | hc
    · exact Or.inl (mem_signText hc)
    · exact Or.inr (ht.2.1 c hc)
  have hno : ∀ a, a = 'e' ∨ a = 'E' ∨ a = '.' → a ∉ t.text := by
    intro a ha h
    rcases hmem a h with h | h <;> rcases ha with rfl | rfl | rfl <;> exact absurd h (by decide)
  have htrim : strTrim t.text = t.text := strTrim_plain (by
    intro c hc
    rcases hmem c hc with rfl | h
    · decide
    · exact not_white (lt_trans h (by norm_num)))
  rw [fParse, htrim]
  simp only
  rw [if_neg (by rw [htext]; simp [ht.1]), if_neg (fun h => hno _ (Or.inl rfl) h.1), if_pos, htext, bParse_digits ht.1 ht.2.1]
  · by_cases h : NoLeadingZero t.int
    · simp only [if_pos h, bind, Except.bind]
    · simp only [if_neg h, bind, Except.bind]
  · refine ⟨hno _ (Or.inr (Or.inr rfl)), ?_⟩
    rw [if_neg (hno _ (Or.inl rfl))]
    exact splitAtChar_none.2 (hno _ (Or.inr (Or.inl rfl)))

open Classical in
/-- **C84** (partial).  A decimal integer without superfluous zeros is read exactly. -/
theorem C84_integer_text_partial (t : DecText) (ht : t.Ok) (hf : t.frac = none) (hx : t.exp = none)
    (hz : NoLeadingZero t.int) (hb : |t.value| < 2 ^ maxExp) : ∃ z, fParse t.text = .ok (some z) ∧ Exactly t.value z := by
  have hv : t.value = signQ t.neg * ((numeral 10 t.int).getD 0 : Nat) := by
    rw [DecText.value, DecText.digits, DecText.scale, DecText.written, hf, hx]; simp
  rw [fParse_int ht hf hx, if_pos hz]
  obtain ⟨z, z1, z2⟩ := C62_from_bigint (x := encI (sg t.neg ((numeral 10 t.int).getD 0))) (canon_enc _) (by
    rw [encI, val_enc, natAbs_sg]
    rwa [hv, signQ_abs, Nat.abs_cast] at hb)
  refine ⟨z, by rw [z1]; rfl, ?_⟩
  rw [ival_encI, sg_signQ] at z2
  rw [hv]; exact z2

/-- **C84** (partial).  A decimal number with a point or an exponent whose value is an integer is read exactly, provided
that the last digit is behind the point (`t.scale < 0`) and there are no superfluous zeros. -/
theorem C84_integral_partial (t : DecText) (ht : t.Ok) (hd : t.frac ≠ none ∨ t.exp ≠ none) (hs : t.scale < 0)
    (hz : NoLeadingZero t.digits) (he : t.ExpFine) (hi : ∃ i : ℤ, t.value = i) (hb : |t.value| < 2 ^ maxExp) :
    ∃ z, fParse t.text = .ok (some z) ∧ Exactly t.value z := by
  have h := fParse_spec ht hd
  rw [if_pos ⟨hs, hz, he⟩] at h
  obtain ⟨r, h1, h2, h3, h4, h5, h6⟩ := h
  obtain ⟨b, b1, b2⟩ := C74_is_integer_partial r h2 h4
  rw [h3] at b2
  obtain rfl := b2.2 hi
  have ha : (val r.a.nat : ℚ) < 2 ^ maxExp := by
    refine lt_of_le_of_lt ?_ hb
    rw [← h3]
    rcases h4 with h4 | h4
    · obtain ⟨-, -, hpos, hg⟩ := h4
      obtain ⟨i, hi⟩ := hi
      rw [← h3, qval] at hi
      have hb0 : (ival r.b : ℚ) ≠ 0 := by exact_mod_cast hpos.ne'
      rw [div_eq_iff hb0] at hi
      have hi' : ival r.a = i * ival r.b := by exact_mod_cast hi
      have hb1 : ival r.b = 1 := by
        rw [hi', Int.gcd_mul_left_left] at hg
        omega
      rw [qval, hb1, val_natAbs]
      simp
    · have ha0 : ival r.a = 0 := by
        rw [qval, div_eq_zero_iff] at h4
        rcases h4 with h4 | h4
        · exact_mod_cast h4
        · exact absurd ((ival_eq_zero_val r.b).1 (by exact_mod_cast h4)) h2.2.2.1
      rw [val_natAbs, ha0]
      simp
  obtain ⟨z, z1, z2⟩ := C80_from_integer_rat h2 b1 ha
  rw [h1, z1, h3.symm]
  exact ⟨z, rfl, z2⟩

/-- **C84 fails** for every number that is accepted and is not an integer: what is read is not the number rounded to any
precision in any mode. -/
theorem C84_violated (t : DecText) (ht : t.Ok) (hd : t.frac ≠ none ∨ t.exp ≠ none) (hi : ¬ ∃ i : ℤ, t.value = i)
    (hn : (((numeral 10 t.digits).getD 0 : Nat) : ℚ) < 2 ^ maxExp) (hb : (10 : ℚ) ^ (-t.scale) < 2 ^ maxExp)
    {z : FloatV} (h : fParse t.text = .ok (some z)) {mode : RoundingMode} {p : Nat} (hp : 1 ≤ p) :
    ¬ FloatResult mode p t.value z := by
  have hspec := fParse_spec ht hd
  split at hspec
  case isFalse => rw [hspec] at h; cases h
  rename_i hc
  obtain ⟨r, h1, h2, h3, h4, h5, h6⟩ := hspec
  obtain ⟨b, b1, b2⟩ := C74_is_integer_partial r h2 h4
  rw [h3] at b2
  have hb2 : b = false := by
    cases b
    · rfl
    · exact absurd (b2.1 rfl) hi
  subst hb2
  have hz : fFromRat r = .ok z := by
    rw [h1] at h
    cases hr : fFromRat r with
    | error e => rw [hr] at h; cases h
    | ok w => rw [hr] at h; cases h; rfl
  have hm : (10 : ℚ) ^ (-t.scale) = ((10 ^ (-t.scale).toNat : Nat) : ℚ) := by
    have := hc.1
    rw [show -t.scale = (((-t.scale).toNat : Nat) : ℤ) by omega]
    rw [zpow_natCast, Int.toNat_natCast]
    push_cast
    rfl
  have hN : (numeral 10 t.digits).getD 0 ≠ 0 := by
    intro h0
    apply hi
    exact ⟨0, by rw [DecText.value, h0]; simp⟩
  have habs : |t.value| = ((numeral 10 t.digits).getD 0 : Nat) * 10 ^ t.scale := by
    rw [DecText.value, mul_assoc, signQ_abs, abs_mul, Nat.abs_cast, abs_of_pos (zpow_pos (by norm_num) _)]
  generalize (numeral 10 t.digits).getD 0 = N at *
  have hpow : (10 : ℚ) ^ t.scale * 10 ^ (-t.scale) = 1 := by
    rw [← zpow_add₀ (by norm_num)]; simp
  have hpos : (0 : ℚ) < 10 ^ t.scale := zpow_pos (by norm_num) _
  have hrng1 : 2 ^ (minExp - 1) ≤ |t.value| := by
    rw [habs]
    have h1N : (1 : ℚ) ≤ N := by exact_mod_cast Nat.pos_of_ne_zero hN
    refine le_trans ?_ (le_mul_of_one_le_left hpos.le h1N)
    have h2p : (2 : ℚ) ^ (minExp - 1) ≤ 2 ^ (-maxExp) := zpow_le_zpow_right₀ (by norm_num) (by decide)
    refine le_trans h2p ?_
    have : (2 : ℚ) ^ (-maxExp) * 2 ^ maxExp = 1 := by rw [← zpow_add₀ (by norm_num)]; simp
    have hmp : (0 : ℚ) < 2 ^ maxExp := zpow_pos (by norm_num) _
    have e1 : (2 : ℚ) ^ (-maxExp) = (2 ^ maxExp)⁻¹ := by rw [zpow_neg]
    have e2 : (10 : ℚ) ^ t.scale = (10 ^ (-t.scale))⁻¹ := by rw [zpow_neg, inv_inv]
    rw [e1, e2]
    exact inv_anti₀ (zpow_pos (by norm_num) _) hb.le
  have hrng2 : |t.value| < 2 ^ (maxExp - 1) := by
    rw [habs]
    have h10 : (10 : ℚ) ^ t.scale ≤ 10 ^ (-1 : ℤ) := zpow_le_zpow_right₀ (by norm_num) (by have := hc.1; omega)
    rw [zpow_sub_one₀ (by norm_num)]
    have hN0 : (0 : ℚ) ≤ N := by positivity
    have : (N : ℚ) * 10 ^ t.scale ≤ N * (1 / 10) := mul_le_mul_of_nonneg_left (by simpa using h10) hN0
    have hmp : (0 : ℚ) < 2 ^ maxExp := zpow_pos (by norm_num) _
    linarith
  rw [← h3] at hrng1 hrng2 ⊢
  refine C80_violated h2 b1 (lt_of_le_of_lt (by exact_mod_cast h5) hn) (lt_of_le_of_lt ?_ hb) hrng1 hrng2 hz hp
  rw [hm]; exact_mod_cast h6

/-- **C84 fails**: a decimal number with a point or an exponent is rejected if its last digit is not behind the point, or if
it has a superfluous zero in front – as in `0.5` –, or its exponent has. -/
theorem C84_violated_rejects (t : DecText) (ht : t.Ok) (hd : t.frac ≠ none ∨ t.exp ≠ none)
    (h : 0 ≤ t.scale ∨ ¬ NoLeadingZero t.digits ∨ ¬ t.ExpFine) : fParse t.text = .ok none := by
  have hs := fParse_spec ht hd
  rw [if_neg] at hs
  · exact hs
  · rintro ⟨h1, h2, h3⟩
    rcases h with h | h | h
    · omega
    · exact h h2
    · exact h h3

/-- A decimal integer with a superfluous zero in front is rejected. -/
theorem C84_rejects_zeros (t : DecText) (ht : t.Ok) (hf : t.frac = none) (hx : t.exp = none)
    (hz : ¬ NoLeadingZero t.int) : fParse t.text = .ok none := by
  rw [fParse_int ht hf hx, if_neg hz]

/-- `1.5` -/
def sampleT15 : DecText := ⟨false, ['1'], some ['5'], none⟩
/-- `-12.00` -/
def sampleT12 : DecText := ⟨true, ['1', '2'], some ['0', '0'], none⟩
/-- `2500e-2` -/
def sampleT25 : DecText := ⟨false, ['2', '5', '0', '0'], none, some ('e', true, ['2'])⟩
/-- `-120` -/
def sampleT120 : DecText := ⟨true, ['1', '2', '0'], none, none⟩
/-- `0.5` -/
def sampleT05 : DecText := ⟨false, ['0'], some ['5'], none⟩
/-- `1.5e1` -/
def sampleT15e1 : DecText := ⟨false, ['1'], some ['5'], some ('e', false, ['1'])⟩

/-- **C84 fails** on `1.5`: the hypotheses of `C84_violated` hold of it, and what is read is 2⁻⁹⁶; `0.5` and `1.5e1` are
rejected. -/
theorem C84_violated_witness :
    (sampleT15.text = "1.5".toList ∧ sampleT15.Ok ∧ sampleT15.value = 3 / 2 ∧
      ∃ z, fParse sampleT15.text = .ok (some z) ∧ fval z = 2 ^ (-96 : ℤ)) ∧
    (sampleT05.text = "0.5".toList ∧ sampleT05.Ok ∧ sampleT05.value = 1 / 2 ∧ fParse sampleT05.text = .ok none) ∧
    (sampleT15e1.text = "1.5e1".toList ∧ sampleT15e1.Ok ∧ sampleT15e1.value = 15 ∧ fParse sampleT15e1.text = .ok none) := by
  refine ⟨⟨by decide, ?_, ?_, ⟨.toNearestEven, .exact, .finite, false, 64, -95, [0x80000000#32]⟩, by decide +kernel, ?_⟩,
    ⟨by decide, ?_, ?_, by decide +kernel⟩, by decide, ?_, ?_, by decide +kernel⟩
  · exact ⟨by decide, by decide, by rintro f ⟨⟩; decide, by rintro c n ds ⟨⟩⟩
  · rw [DecText.value, show numeral 10 sampleT15.digits = some 15 by decide, show sampleT15.scale = -1 by decide]
    norm_num [signQ, sampleT15]
  · norm_num [fval, val]
  · exact ⟨by decide, by decide, by rintro f ⟨⟩; decide, by rintro c n ds ⟨⟩⟩
  · rw [DecText.value, show numeral 10 sampleT05.digits = some 5 by decide, show sampleT05.scale = -1 by decide]
    norm_num [signQ, sampleT05]
  · exact ⟨by decide, by decide, by rintro f ⟨⟩; decide, by rintro c n ds ⟨⟩; decide⟩
  · rw [DecText.value, show numeral 10 sampleT15e1.digits = some 15 by decide, show sampleT15e1.scale = 0 by decide]
    norm_num [signQ, sampleT15e1]

/-- the hypotheses of `C84_integral_partial` -/
example : sampleT12.Ok ∧ sampleT12.text = "-12.00".toList ∧ sampleT12.scale < 0 ∧ NoLeadingZero sampleT12.digits ∧
    sampleT12.ExpFine ∧ sampleT12.value = (-12 : ℤ) := by
  refine ⟨⟨by decide, by decide, by rintro f ⟨⟩; decide, by rintro c n ds ⟨⟩⟩, by decide, by decide, Or.inr (by decide),
    by rintro c n ds ⟨⟩, ?_⟩
  rw [DecText.value, show numeral 10 sampleT12.digits = some 1200 by decide, show sampleT12.scale = -2 by decide]
  norm_num [signQ, sampleT12]

/-- the hypotheses of `C84_integral_partial`, with an exponent -/
example : sampleT25.Ok ∧ sampleT25.text = "2500e-2".toList ∧ sampleT25.scale < 0 ∧ NoLeadingZero sampleT25.digits ∧
    sampleT25.ExpFine ∧ sampleT25.value = (25 : ℤ) := by
  refine ⟨⟨by decide, by decide, by rintro f ⟨⟩, by rintro c n ds ⟨⟩; decide⟩, by decide, by decide, Or.inr (by decide),
    ?_, ?_⟩
  · rintro c n ds ⟨⟩
    exact ⟨Or.inr (by decide), by decide, by decide⟩
  · rw [DecText.value, show numeral 10 sampleT25.digits = some 2500 by decide, show sampleT25.scale = -2 by decide]
    norm_num [signQ, sampleT25]

/-- the hypotheses of `C84_integer_text_partial` -/
example : sampleT120.Ok ∧ sampleT120.text = "-120".toList ∧ NoLeadingZero sampleT120.int ∧ sampleT120.value = -120 := by
  refine ⟨⟨by decide, by decide, by rintro f ⟨⟩, by rintro c n ds ⟨⟩⟩, by decide, Or.inr (by decide), ?_⟩
  rw [DecText.value, show numeral 10 sampleT120.digits = some 120 by decide, show sampleT120.scale = 0 by decide]
  norm_num [signQ, sampleT120]

/-- the hypotheses of `C84_violated` -/
example : (¬ ∃ i : ℤ, sampleT15.value = i) ∧ (((numeral 10 sampleT15.digits).getD 0 : Nat) : ℚ) < 2 ^ maxExp ∧
    (10 : ℚ) ^ (-sampleT15.scale) < 2 ^ maxExp := by
  refine ⟨?_, ?_, ?_⟩
  · rintro ⟨i, hi⟩
    rw [C84_violated_witness.1.2.2.1, div_eq_iff (by norm_num)] at hi
    have : (3 : ℤ) = i * 2 := by exact_mod_cast hi
    omega
  · rw [show numeral 10 sampleT15.digits = some 15 by decide]
    exact lt_maxExp (n := 4) (by norm_num) (by decide)
  · rw [show sampleT15.scale = -1 by decide]
    exact lt_maxExp (n := 4) (by norm_num) (by decide)

/-! ## C85: what is printed can be read again -/

/-- 3/2, with two bits of precision -/
def sample3_2 : FloatV := ⟨.toNearestEven, .exact, .finite, false, 2, 1, [0xc0000000#32]⟩

theorem foldl_lt {s : List Char} (h : ∀ c ∈ s, digitOf c < 10) (n : Nat) :
    s.foldl (fun n c => 10 * n + digitOf c) n < (n + 1) * 10 ^ s.length := by
  induction s generalizing n with
  | nil => simp
  | cons c s ih =>
    rw [List.foldl_cons, List.length_cons]
    refine lt_of_lt_of_le (ih (fun a ha => h a (List.mem_cons_of_mem _ ha)) _) ?_
    have := h c List.mem_cons_self
    rw [pow_succ', ← mul_assoc]
    exact Nat.mul_le_mul_right _ (by omega)

/-- **C85** (partial).  An integer with at most `prec + 1` digits, none of them an inner zero, is printed as a text that is
read as exactly that integer.  Guards as for `C83_display_int_partial`. -/
theorem C85_round_trip_int_partial (checks : Bool) (x : FloatV) (hx : FloatOk x) (hf : x.form = .finite)
    (N : Nat) (hq : |fval x| = N) (hg : 32 * x.mant.length ≤ bitLen N ∨ ¬ 32 ∣ bitLen N) (hz : PlainZeros N)
    (hN : N < 10 ^ (1 + x.prec)) :
    ∃ t z, fDisplay checks x = .ok t ∧ fParse t = .ok (some z) ∧ Exactly (fval x) z := by
  obtain ⟨t, t1, neg, int, frac, m, e1, e2, e3, e4, e5, e6⟩ := C83_display_int_partial checks x hx hf N hq hg hz hN
  have hp : x.prec ≠ 0 := by have := (hx hf).2.2.1; omega
  obtain ⟨-, hnd⟩ := numeral_some e5
  have hzero : (0 : ℤ) - (frac.length : ℤ) = -(x.prec : ℤ) := by rw [e4]; ring
  let d : DecText := ⟨neg, int, some frac, none⟩
  have hd : d.Ok := ⟨e2, fun c hc => hnd c (List.mem_append_left _ hc), by rintro f ⟨⟩; exact fun c hc => hnd c (List.mem_append_right _ hc),
    by rintro c n ds ⟨⟩⟩
  have hds : d.scale = -(x.prec : ℤ) := hzero
  have hdv : d.value = fval x := by
    rw [DecText.value, hds, show d.digits = int ++ frac from rfl, e5, e6, zpow_neg, zpow_natCast]
    rfl
  obtain ⟨mm, L, hfin⟩ := hx.fin hf
  have hN1 : (1 : ℚ) ≤ N := by
    have : N ≠ 0 := by
      rintro rfl
      apply hfin.ne_zero
      simpa using hq
    exact_mod_cast Nat.pos_of_ne_zero this
  have hint : ∃ i : ℤ, d.value = i := by
    rw [hdv]
    rcases abs_choice (fval x) with hh | hh
    · exact ⟨N, by rw [← hh, hq]; simp⟩
    · exact ⟨-N, by push_cast; rw [← hq, hh]; ring⟩
  have hnz : NoLeadingZero d.digits := by
    right
    intro h0
    have hi0 : int = ['0'] := by
      apply e3
      cases int with
      | nil => exact absurd rfl e2
      | cons a l => exact h0
    have hm : m < 10 ^ x.prec := by
      have h1 := e5
      rw [numeral, if_pos (numeral_some e5), hi0] at h1
      simp only [List.singleton_append, List.foldl_cons, Option.some.injEq] at h1
      have h2 := foldl_lt (s := frac) (fun c hc => hnd c (List.mem_append_right _ hc)) (10 * 0 + digitOf '0')
      rw [h1, e4, show 10 * 0 + digitOf '0' + 1 = 1 by decide, one_mul] at h2
      exact h2
    have hlt : |fval x| < 1 := by
      rw [e6, mul_div_assoc, signQ_abs, abs_of_nonneg (by positivity), div_lt_one (by positivity)]
      exact_mod_cast hm
    rw [hq] at hlt
    linarith
  obtain ⟨z, z1, z2⟩ := C84_integral_partial d hd (Or.inl (by simp [d])) (by rw [hds]; omega) hnz (by rintro c n ds ⟨⟩) hint
    (by
      rw [hdv, hfin.abs]
      exact lt_of_lt_of_le (hfin.norm.bounds x.exp).2 (zpow_le_zpow_right₀ (by norm_num) hfin.emax))
  refine ⟨t, z, t1, ?_, hdv ▸ z2⟩
  rw [e1, if_neg hp]
  have : d.text = signText neg ++ int ++ '.' :: frac := by simp [DecText.text, d]
  rw [← this]; exact z1

/-- **C85 fails**: -3/8 is printed as `-0.38`, which cannot be read; 3/2 is printed as `1.50`, which is read as 2⁻⁹⁶. -/
theorem C85_violated : FloatOk sample3_8 ∧ fDisplay true sample3_8 = .ok "-0.38".toList ∧ fParse "-0.38".toList = .ok none ∧
    FloatOk sample3_2 ∧ fval sample3_2 = 3 / 2 ∧ fDisplay true sample3_2 = .ok "1.50".toList ∧
    ∃ z, fParse "1.50".toList = .ok (some z) ∧ fval z = 2 ^ (-96 : ℤ) := by
  refine ⟨fun _ => by decide, by decide +kernel, by decide +kernel, fun _ => by decide, ?_, by decide +kernel,
    ⟨.toNearestEven, .exact, .finite, false, 64, -95, [0x80000000#32]⟩, by decide +kernel, ?_⟩
  · norm_num [fval, sample3_2, val]
  · norm_num [fval, val]

/-- the hypotheses of `C85_round_trip_int_partial` -/
example : FloatOk sample12300 ∧ |fval sample12300| = (12300 : Nat) ∧ PlainZeros 12300 ∧ ¬ 32 ∣ bitLen 12300 ∧
    12300 < 10 ^ (1 + sample12300.prec) ∧ (∃ z, fParse "-12300.00000000000000".toList = .ok (some z) ∧ fval z = -12300) := by
  refine ⟨fun _ => by decide, by norm_num [fval, sample12300, val], ⟨123, 2, rfl, by simp⟩, by decide, by decide,
    ⟨.toNearestEven, .exact, .finite, true, 64, 14, [0xc0300000#32]⟩, by decide +kernel, ?_⟩
  norm_num [fval, val]

end RMath
