import Verif.Lemmas.DecText

/-!
# Properties C82–C85: text of floating point numbers
-/

namespace RMath

/-- The decimal conversion of a finite number is exact under the guards; the text follows from it. -/
theorem fmtInner_finite {x : FloatV} (hx : FloatOk x) (hf : x.form = .finite) {N k : Nat} (hq : |fval x| = N / 2 ^ k)
    (hk : k = 0 ∨ N % 2 = 1) (hg : 32 * x.mant.length ≤ bitLen N ∨ ¬ 32 ∣ bitLen N) (hz : PlainZeros N) :
    ∃ d, DecOk d ∧ fval x = signQ x.neg * decVal d ∧ ∀ prec fmt, fmtInner x prec fmt = (do
      let t ← fmt (decRound d (1 + prec))
      .ok (signText x.neg ++ t)) := by
  obtain ⟨m, L, h⟩ := hx.fin hf
  have hval : fval x = signQ x.neg * ((m : ℚ) * 2 ^ (x.exp - 32 * L)) := by rw [h.val, sgn_eq_signQ]
  rw [h.abs] at hq
  rw [h.len] at hg
  obtain ⟨d, d1, d2, d3⟩ := decNew_spec h.norm hq hk hg hz
  refine ⟨d, d2, by rw [hval, hq, d3], ?_⟩
  intro prec fmt
  rw [fmtInner, h.mant, ← enc_zero, eqv_enc, bitsLen_enc, h.norm.bitLen]
  rw [if_neg (by rw [hf]; decide), if_neg (by rw [hf]; decide)]
  simp only
  rw [if_neg (by rw [hf]; decide), if_neg (by simpa using h.norm.ne_zero)]
  push_cast
  rw [d1]
  rfl

/-! ## C82: scientific notation -/

/-- **C82** (partial).  `{:e}` and `{:E}` print the number, rounded to the digits asked for, ties to even – provided that the
decimal numeral of its numerator has no inner zeros (`PlainZeros`), and that the bits of the numerator are not a whole
number of words below the mantissa's.  The guards are those of the defects shown in `C82_violated`.
`N / 2^k` is the number in lowest terms. -/
theorem C82_exp_partial (e : Char) (precision : Option Nat) (x : FloatV) (hx : FloatOk x) (hf : x.form = .finite)
    (N k : Nat) (hq : |fval x| = N / 2 ^ k) (hk : k = 0 ∨ N % 2 = 1)
    (hg : 32 * x.mant.length ≤ bitLen N ∨ ¬ 32 ∣ bitLen N) (hz : PlainZeros N) :
    ∃ t r, fFmtExp e precision x = .ok t ∧ ExpText e (precision.getD 7) t r ∧
      NearestDigits (1 + precision.getD 7) (fval x) r := by
  obtain ⟨d, d1, d2, d3⟩ := fmtInner_finite hx hf hq hk hg hz
  rw [fFmtExp]
  simp only [d3]
  generalize precision.getD 7 = p
  rw [decRound_idem d1 (by omega)]
  obtain ⟨-, -, -, h3, h4, -⟩ := decRound_spec d1 (1 + p)
  obtain ⟨t, t1, t2⟩ := fmtForExp_spec (h3 (by omega)).pre (prec := p) (by omega) e
  rw [t1]
  exact ⟨_, _, rfl, t2 x.neg, by rw [d2]; exact nearestDigits_dec d1 _ _⟩

/-- The numbers that are not finite, and zero. -/
theorem C82_special (e : Char) (precision : Option Nat) (x : FloatV) :
    (x.form = .nan → fFmtExp e precision x = .ok "NaN".toList) ∧
    (x.form = .zero → fFmtExp e precision x = .ok "0".toList) ∧
    (x.form = .inf → fFmtExp e precision x = .ok (if x.neg then "-Inf".toList else "+Inf".toList)) := by
  refine ⟨?_, ?_, ?_⟩ <;> intro h <;> simp only [fFmtExp, fmtInner, h] <;> try rfl
  cases x.neg <;> rfl

/-- 101, with 53 bits of precision -/
def sample101 : FloatV := ⟨.toNearestEven, .exact, .finite, false, 53, 7, [0#32, 0xca000000#32]⟩
/-- 3000000001, with 53 bits of precision -/
def sample3e9 : FloatV := ⟨.toNearestEven, .exact, .finite, false, 53, 32, [0#32, 0xb2d05e01#32]⟩
/-- -12.375, with 53 bits of precision -/
def sample12 : FloatV := ⟨.toNearestEven, .exact, .finite, true, 53, 4, [0#32, 0xc6000000#32]⟩

theorem sample101_val : FloatOk sample101 ∧ fval sample101 = 101 := by
  constructor
  · intro _; decide
  · norm_num [fval, sample101, val]

theorem sample3e9_val : FloatOk sample3e9 ∧ fval sample3e9 = 3000000001 := by
  constructor
  · intro _; decide
  · norm_num [fval, sample3e9, val]

theorem sample12_val : FloatOk sample12 ∧ fval sample12 = -(99 / 8) := by
  constructor
  · intro _; decide
  · norm_num [fval, sample12, val]

/-- The full claim of C82 fails: 101 is printed as 100, and 3000000001 panics. -/
theorem C82_violated :
    fFmtExp 'e' none sample101 = .ok "1.0000000e02".toList ∧ fFmtExp 'e' none sample3e9 = .error .panic := by
  decide +kernel

example : |fval sample12| = (99 : Nat) / 2 ^ 3 ∧ 99 % 2 = 1 ∧ ¬ 32 ∣ bitLen 99 ∧ PlainZeros 99 ∧
    fFmtExp 'e' none sample12 = .ok "-1.2375000e01".toList ∧ fFmtExp 'E' (some 3) sample12 = .ok "-1.238E01".toList := by
  refine ⟨by rw [sample12_val.2]; norm_num, by decide, by decide, ⟨99, 0, rfl, by simp⟩, ?_⟩
  decide +kernel

/-! ## C83: positional notation -/

/-- what follows the first rounding -/
theorem fDisplay_tail {c : Dec} {p : Nat} (hp : 0 < p) (checks : Bool) (c1 : DecOk c) (neg : Bool) :
    ∃ r, NearestPlaces p (signQ neg * decVal c) r ∧
      if checks = true ∧ 0 < |r| ∧ |r| < 1 / 10 then
        ((do let t ← fmtForDisplay checks (if c.exp + p ≥ 0 then decRound c (c.exp + p).toNat else c) p
             .ok (signText neg ++ t) : Res (List Char)) = .error .panic)
      else ∃ t, ((do let t ← fmtForDisplay checks (if c.exp + p ≥ 0 then decRound c (c.exp + p).toNat else c) p
                     .ok (signText neg ++ t) : Res (List Char)) = .ok t) ∧ PointText p t r := by
  by_cases hn : c.exp + p ≥ 0
  · rw [if_pos hn]
    obtain ⟨n, hn'⟩ : ∃ n : Nat, (n : ℤ) = c.exp + p := ⟨(c.exp + p).toNat, by omega⟩
    rw [← hn', Int.toNat_natCast]
    obtain ⟨e1, e2⟩ := nearestPlaces_dec c1 hn' neg
    obtain ⟨-, -, -, -, -, -, e3⟩ := decRound_spec c1 n
    refine ⟨_, e1, ?_⟩
    generalize decRound c n = w at *
    rw [signQ_abs]
    by_cases hc : checks = true ∧ 0 < |decVal w| ∧ |decVal w| < 1 / 10
    · rw [if_pos hc]
      obtain ⟨hc1, hc2, hc3⟩ := hc
      have hw : DecOk w := by
        rcases e3 with e3 | e3
        · exact e3
        · rw [e3] at hc2; simp [decVal, digVal] at hc2
      have hexp : w.exp < 0 := by
        rw [abs_of_pos hw.pos] at hc3
        have := lt_of_le_of_lt hw.bounds.1 hc3
        rw [show (1 / 10 : ℚ) = 10 ^ (-1 : ℤ) by norm_num, zpow_lt_zpow_iff_right₀ (by norm_num)] at this
        omega
      have := List.length_pos_iff.2 hw.ne
      rw [hc1, fmtForDisplay_panic hexp (by omega)]
      rfl
    · rw [if_neg hc]
      have hcc : checks = true → 0 ≤ w.exp := by
        intro h1
        rcases e3 with e3 | e3
        · by_contra h2
          apply hc
          rw [abs_of_pos e3.pos]
          refine ⟨h1, e3.pos, lt_of_lt_of_le e3.bounds.2 ?_⟩
          rw [show (1 / 10 : ℚ) = 10 ^ (-1 : ℤ) by norm_num]
          exact zpow_le_zpow_right₀ (by norm_num) (by omega)
        · rw [e3]
      obtain ⟨t, t1, t2⟩ := fmtForDisplay_spec hp checks hcc e2 (e3.imp DecOk.pre id)
      rw [t1]
      exact ⟨_, rfl, t2 neg⟩
  · rw [if_neg hn]
    obtain ⟨t, t1, t2⟩ := fmtForDisplay_small hp checks (d := c) (p := p) (by omega)
    refine ⟨0, nearestPlaces_zero c1 (by omega) neg, ?_⟩
    rw [if_neg (by simp), t1]
    exact ⟨_, rfl, t2 neg⟩

/-- **C83** (partial).  `{}` prints the number rounded to as many places as the precision has bits – but after it has been
rounded to as many significant digits, plus one.  Guards as for `C82_exp_partial`.  In a build with overflow checks, a
result that is neither zero nor at least a tenth panics instead. -/
theorem C83_display_partial (checks : Bool) (x : FloatV) (hx : FloatOk x) (hf : x.form = .finite)
    (N k : Nat) (hq : |fval x| = N / 2 ^ k) (hk : k = 0 ∨ N % 2 = 1)
    (hg : 32 * x.mant.length ≤ bitLen N ∨ ¬ 32 ∣ bitLen N) (hz : PlainZeros N) :
    ∃ r₁ r, NearestDigits (1 + x.prec) (fval x) r₁ ∧ NearestPlaces x.prec r₁ r ∧
      if checks = true ∧ 0 < |r| ∧ |r| < 1 / 10 then fDisplay checks x = .error .panic
      else ∃ t, fDisplay checks x = .ok t ∧ PointText x.prec t r := by
  obtain ⟨d, d1, d2, d3⟩ := fmtInner_finite hx hf hq hk hg hz
  have hp : 0 < x.prec := (hx hf).2.2.1
  rw [fDisplay]
  simp only [d3]
  obtain ⟨-, -, -, h3, -⟩ := decRound_spec d1 (1 + x.prec)
  have c1 := h3 (by omega)
  have c2 := nearestDigits_dec d1 (1 + x.prec) x.neg
  rw [← d2] at c2
  generalize decRound d (1 + x.prec) = c at *
  obtain ⟨r, h⟩ := fDisplay_tail hp checks c1 x.neg
  exact ⟨_, r, c2, h⟩

/-- With at most `prec + 1` significant digits the number printed is the correctly rounded one. -/
theorem C83_display_digits_partial (checks : Bool) (x : FloatV) (hx : FloatOk x) (hf : x.form = .finite)
    (N k : Nat) (hq : |fval x| = N / 2 ^ k) (hk : k = 0 ∨ N % 2 = 1)
    (hg : 32 * x.mant.length ≤ bitLen N ∨ ¬ 32 ∣ bitLen N) (hz : PlainZeros N)
    (c : Nat) (j : ℤ) (hc : |fval x| = c * 10 ^ j) (hc' : c < 10 ^ (1 + x.prec)) :
    ∃ r, NearestPlaces x.prec (fval x) r ∧
      if checks = true ∧ 0 < |r| ∧ |r| < 1 / 10 then fDisplay checks x = .error .panic
      else ∃ t, fDisplay checks x = .ok t ∧ PointText x.prec t r := by
  obtain ⟨r₁, r, h1, h2, h3⟩ := C83_display_partial checks x hx hf N k hq hk hg hz
  rw [h1.eq hc hc'] at h2
  exact ⟨r, h2, h3⟩

/-- An integer with at most `prec + 1` digits, none of them an inner zero, is printed exactly, in every build. -/
theorem C83_display_int_partial (checks : Bool) (x : FloatV) (hx : FloatOk x) (hf : x.form = .finite)
    (N : Nat) (hq : |fval x| = N) (hg : 32 * x.mant.length ≤ bitLen N ∨ ¬ 32 ∣ bitLen N) (hz : PlainZeros N)
    (hN : N < 10 ^ (1 + x.prec)) :
    ∃ t, fDisplay checks x = .ok t ∧ PointText x.prec t (fval x) := by
  obtain ⟨r, h1, h2⟩ := C83_display_digits_partial checks x hx hf N 0 (by rw [hq]; simp) (Or.inl rfl) hg hz N 0
    (by rw [hq]; simp) hN
  have hne : N ≠ 0 := by
    rintro rfl
    obtain ⟨m, L, h⟩ := hx.fin hf
    apply h.ne_zero
    simpa using hq
  have hr : r = fval x := by
    have hp : (10 : ℚ) ^ x.prec ≠ 0 := by positivity
    obtain ⟨z, hz⟩ : ∃ z : ℤ, fval x = z := by
      rcases abs_choice (fval x) with hh | hh
      · exact ⟨N, by rw [← hh, hq]; simp⟩
      · exact ⟨-N, by push_cast; rw [← hq, hh]; ring⟩
    exact h1.eq (z := z * 10 ^ x.prec) (by rw [hz]; push_cast; field_simp)
  rw [hr, hq] at h2
  rw [if_neg] at h2
  · exact h2
  · rintro ⟨-, -, h3⟩
    have : (1 : ℚ) ≤ N := by exact_mod_cast Nat.pos_of_ne_zero hne
    linarith

/-- The numbers that are not finite, and zero. -/
theorem C83_special (checks : Bool) (x : FloatV) :
    (x.form = .nan → fDisplay checks x = .ok "NaN".toList) ∧
    (x.form = .zero → fDisplay checks x = .ok "0".toList) ∧
    (x.form = .inf → fDisplay checks x = .ok (if x.neg then "-Inf".toList else "+Inf".toList)) := by
  refine ⟨?_, ?_, ?_⟩ <;> intro h <;> simp only [fDisplay, fmtInner, h] <;> try rfl
  cases x.neg <;> rfl

/-- 101, with 7 bits of precision -/
def sample101p : FloatV := ⟨.toNearestEven, .exact, .finite, false, 7, 7, [0xca000000#32]⟩
/-- 128, with one bit of precision -/
def sample128p : FloatV := ⟨.toNearestEven, .exact, .finite, false, 1, 8, [0x80000000#32]⟩
/-- 1/64, with three bits of precision -/
def sample64th : FloatV := ⟨.toNearestEven, .exact, .finite, false, 3, -5, [0x80000000#32]⟩
/-- 3/8, with one bit less precision than digits -/
def sample3_8 : FloatV := ⟨.toNearestEven, .exact, .finite, true, 2, -1, [0xc0000000#32]⟩

/-- The full claim of C83 fails: 101 is printed as 100; 128, with one bit of precision, as 130; 1/64 = 0.015625 with three
bits of precision panics in a build with overflow checks. -/
theorem C83_violated :
    (FloatOk sample101p ∧ fval sample101p = 101 ∧ fDisplay false sample101p = .ok "100.0000000".toList) ∧
    (FloatOk sample128p ∧ fval sample128p = 128 ∧ fDisplay false sample128p = .ok "130.0".toList) ∧
    (FloatOk sample64th ∧ fval sample64th = 1 / 64 ∧ fDisplay true sample64th = .error .panic ∧
      fDisplay false sample64th = .ok "0.016".toList) := by
  refine ⟨⟨?_, ?_, by decide +kernel⟩, ⟨?_, ?_, by decide +kernel⟩, ?_, ?_, by decide +kernel, by decide +kernel⟩
  · intro _; decide
  · norm_num [fval, sample101p, val]
  · intro _; decide
  · norm_num [fval, sample128p, val]
  · intro _; decide
  · norm_num [fval, sample64th, val]

example : FloatOk sample3_8 ∧ |fval sample3_8| = (3 : Nat) / 2 ^ 3 ∧ PlainZeros 3 ∧ ¬ 32 ∣ bitLen 3 ∧
    |fval sample3_8| = (375 : Nat) * 10 ^ (-3 : ℤ) ∧ 375 < 10 ^ (1 + sample3_8.prec) ∧
    fDisplay true sample3_8 = .ok "-0.38".toList := by
  refine ⟨fun _ => by decide, ?_, ⟨3, 0, rfl, by simp⟩, by decide, ?_, by decide, by decide +kernel⟩
  · norm_num [fval, sample3_8, val]
  · norm_num [fval, sample3_8, val]

/-- -12300, with 14 bits of precision -/
def sample12300 : FloatV := ⟨.toNearestEven, .exact, .finite, true, 14, 14, [0xc0300000#32]⟩

example : FloatOk sample12300 ∧ |fval sample12300| = (12300 : Nat) ∧ PlainZeros 12300 ∧ ¬ 32 ∣ bitLen 12300 ∧
    12300 < 10 ^ (1 + sample12300.prec) ∧ fDisplay true sample12300 = .ok "-12300.00000000000000".toList := by
  refine ⟨fun _ => by decide, by norm_num [fval, sample12300, val], ⟨123, 2, rfl, by simp⟩, by decide, by decide,
    by decide +kernel⟩

end RMath
