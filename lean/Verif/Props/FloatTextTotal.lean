import Verif.Lemmas.DecTotal
import Verif.Props.FloatText

/-!
# Properties C82 and C83, for every finite number

The conversion of a finite number to text, with its defects, described exactly.  `N / 2^k` is the magnitude in lowest
terms.  The code prints `blanked (lowWords L N) / 2^k` in its place, `L` being the number of words of the mantissa.
-/

namespace RMath

/-- The decimal conversion of a finite number. -/
theorem fmtInner_total {x : FloatV} (hx : FloatOk x) (hf : x.form = .finite) {N k : Nat} (hq : |fval x| = N / 2 ^ k)
    (hk : k = 0 ∨ N % 2 = 1) :
    ∃ d, DecOf d (lowWords x.mant.length N) k ∧ ∀ prec fmt, fmtInner x prec fmt = (do
      let t ← fmt (decRound d (1 + prec))
      .ok (signText x.neg ++ t)) := by
  obtain ⟨m, L, h⟩ := hx.fin hf
  rw [h.abs] at hq
  rw [h.len]
  obtain ⟨-, d, d1, d2⟩ := decNew_total h.norm hq hk
  refine ⟨d, d2, ?_⟩
  intro prec fmt
  rw [fmtInner, h.mant, ← enc_zero, eqv_enc, bitsLen_enc, h.norm.bitLen]
  rw [if_neg (by rw [hf]; decide), if_neg (by rw [hf]; decide)]
  simp only
  rw [if_neg (by rw [hf]; decide), if_neg (by simpa using h.norm.ne_zero)]
  push_cast
  rw [d1]
  rfl

/-- **C82**, what the code does with every finite number: `{:e}` and `{:E}` panic if nothing is left of the numerator, and
otherwise print the number that is left, rounded to the digits asked for. -/
theorem C82_described (e : Char) (precision : Option Nat) (x : FloatV) (hx : FloatOk x) (hf : x.form = .finite)
    (N k : Nat) (hq : |fval x| = N / 2 ^ k) (hk : k = 0 ∨ N % 2 = 1) :
    if lowWords x.mant.length N = 0 then fFmtExp e precision x = .error .panic
    else ∃ t r, fFmtExp e precision x = .ok t ∧ ExpText e (precision.getD 7) t r ∧
      DigitsFor (lowWords x.mant.length N) k (1 + precision.getD 7)
        (signQ x.neg * (blanked (lowWords x.mant.length N) / 2 ^ k)) r := by
  obtain ⟨d, d1, d3⟩ := fmtInner_total hx hf hq hk
  generalize lowWords x.mant.length N = E at *
  rw [fFmtExp]
  simp only [d3]
  generalize precision.getD 7 = p
  by_cases hE : E = 0
  · rw [DecOf, if_pos hE] at d1
    rw [if_pos hE, d1]
    rw [decRound_long (d := ⟨[], 1⟩) (Nat.zero_le _), decRound_long (d := ⟨[], 1⟩) (Nat.zero_le _)]
    rfl
  · rw [if_neg hE]
    obtain ⟨h1, h2, h3, -⟩ := decOf_round d1 hE (n := 1 + p) (by omega) x.neg
    rw [decRound_long (d := decRound d (1 + p)) h2]
    obtain ⟨t, t1, t2⟩ := fmtForExp_spec h1 (prec := p) (by omega) e
    rw [t1]
    exact ⟨_, _, rfl, t2 x.neg, h3⟩

/-- No digit is lost just when the numeral has no inner zeros, the guard of `C82_exp_partial`. -/
theorem C82_blanked_iff (N : Nat) (h0 : N ≠ 0) : blanked N = N ↔ PlainZeros N := by
  have key : ∀ c j, c ≠ 0 → zeroDigits (c * 10 ^ j) = j + zeroDigits c := by
    intro c j hc
    rw [zeroDigits, mul_comm, Nat.digits_base_pow_mul (by norm_num) (Nat.pos_of_ne_zero hc), List.count_append, List.count_replicate_self,
      zeroDigits]
  constructor
  · intro h
    rw [blanked] at h
    have hc : N / 10 ^ zeroDigits N ≠ 0 := by intro hc; rw [hc] at h; omega
    refine ⟨N / 10 ^ zeroDigits N, zeroDigits N, h.symm, ?_⟩
    have := key (N / 10 ^ zeroDigits N) (zeroDigits N) hc
    rw [h] at this
    have h2 : zeroDigits (N / 10 ^ zeroDigits N) = 0 := by omega
    intro d hd hd0
    exact List.count_eq_zero.1 h2 (hd0 ▸ hd)
  · rintro ⟨c, j, rfl, hc⟩
    have hc0 : c ≠ 0 := by rintro rfl; simp at h0
    have h2 : zeroDigits c = 0 := List.count_eq_zero.2 fun h => hc 0 h rfl
    rw [blanked, key c j hc0, h2, Nat.add_zero, Nat.mul_div_cancel _ (by positivity)]

/-- The number is never larger than it should be. -/
theorem C82_blanked_le (N : Nat) : blanked N ≤ N := Nat.div_mul_le_self _ _

/-- 12050, with 53 bits of precision -/
def sample12050 : FloatV := ⟨.toNearestEven, .exact, .finite, false, 53, 14, [0#32, 0xbc480000#32]⟩
/-- 2500500, with 53 bits of precision -/
def sample2500500 : FloatV := ⟨.toNearestEven, .exact, .finite, false, 53, 22, [0#32, 0x989e5000#32]⟩
/-- `-(2^95 + 2^32 + 1)`, with 128 bits of precision -/
def sample3words : FloatV := ⟨.toNearestEven, .exact, .finite, true, 128, 96, [0#32, 1#32, 1#32, 0x80000000#32]⟩

example : FloatOk sample12050 ∧ |fval sample12050| = (12050 : Nat) / 2 ^ 0 ∧ lowWords 2 12050 = 12050 ∧ blanked 12050 = 12000 ∧
    fFmtExp 'e' none sample12050 = .ok "1.2000000e04".toList := by
  refine ⟨fun _ => by decide, by norm_num [fval, sample12050, val], by decide +kernel, by norm_num [blanked, zeroDigits], by decide +kernel⟩

example : FloatOk sample2500500 ∧ |fval sample2500500| = (2500500 : Nat) / 2 ^ 0 ∧ blanked 2500500 = 2500000 ∧
    10 ∣ 2500500 / 10 ^ zeroDigits 2500500 ∧ fFmtExp 'e' (some 0) sample2500500 = .ok "3e06".toList := by
  refine ⟨fun _ => by decide, by norm_num [fval, sample2500500, val], by norm_num [blanked, zeroDigits],
    by norm_num [zeroDigits], by decide +kernel⟩

/-- A number of 29 digits is printed as one of 20. -/
theorem C82_low_words : FloatOk sample3words ∧ fval sample3words = -(2 ^ 95 + 2 ^ 32 + 1) ∧
    lowWords sample3words.mant.length (2 ^ 95 + 2 ^ 32 + 1) = 18446744078004518912 ∧
    fFmtExp 'e' none sample3words = .ok "-1.8446744e19".toList := by
  refine ⟨fun _ => by decide, by norm_num [fval, sample3words, val], by decide +kernel, by decide +kernel⟩

/-! ## C83 -/

/-- **C83**, what the code does with every finite number: `{}` prints zero if nothing is left of the numerator, and
otherwise the number that is left, rounded first to as many significant digits as the precision has bits, plus one, then to
as many places.  In a build with overflow checks, a result that is neither zero nor at least a tenth panics instead. -/
theorem C83_described (checks : Bool) (x : FloatV) (hx : FloatOk x) (hf : x.form = .finite)
    (N k : Nat) (hq : |fval x| = N / 2 ^ k) (hk : k = 0 ∨ N % 2 = 1) :
    if lowWords x.mant.length N = 0 then ∃ t, fDisplay checks x = .ok t ∧ PointText x.prec t 0
    else ∃ r₁ r, DigitsFor (lowWords x.mant.length N) k (1 + x.prec)
        (signQ x.neg * (blanked (lowWords x.mant.length N) / 2 ^ k)) r₁ ∧ NearestPlaces x.prec r₁ r ∧
      if checks = true ∧ 0 < |r| ∧ |r| < 1 / 10 then fDisplay checks x = .error .panic
      else ∃ t, fDisplay checks x = .ok t ∧ PointText x.prec t r := by
  obtain ⟨d, d1, d3⟩ := fmtInner_total hx hf hq hk
  have hp : 0 < x.prec := (hx hf).2.2.1
  generalize lowWords x.mant.length N = E at *
  rw [fDisplay]
  simp only [d3]
  by_cases hE : E = 0
  · rw [DecOf, if_pos hE] at d1
    rw [if_pos hE, d1]
    rw [decRound_long (d := ⟨[], 1⟩) (Nat.zero_le _), if_pos (by simp only; omega), decRound_long (d := ⟨[], 1⟩) (Nat.zero_le _)]
    exact fmtForDisplay_blank hp checks x.neg
  · rw [if_neg hE]
    obtain ⟨h1, h2, h3, h4⟩ := decOf_round d1 hE (n := 1 + x.prec) (by omega) x.neg
    generalize decRound d (1 + x.prec) = c at *
    rcases h4 with c1 | h4
    · exact ⟨_, fDisplay_tail hp checks c1 x.neg |>.imp fun r hr => ⟨h3, hr⟩⟩
    · have hl := List.length_pos_iff.2 h1.ne
      rw [if_pos (by omega), decRound_long (d := c) (by omega)]
      have hN : NearestPlaces x.prec (signQ x.neg * decVal c) (signQ x.neg * decVal c) := by
        obtain ⟨i, hi⟩ : ∃ i : Nat, c.exp - c.mant.length = i := ⟨(c.exp - c.mant.length).toNat, by omega⟩
        refine ⟨(if x.neg then -((digVal c.mant * 10 ^ i * 10 ^ x.prec : Nat) : ℤ) else (digVal c.mant * 10 ^ i * 10 ^ x.prec : Nat)), ?_, ?_⟩
        · rw [signQ_cast, decVal, hi, zpow_natCast]
          push_cast
          have : (10 : ℚ) ^ x.prec ≠ 0 := by positivity
          field_simp
        · rw [RoundsTo, signQ_cast, decVal, hi, zpow_natCast]
          push_cast
          have : signQ x.neg * (↑(digVal c.mant) * 10 ^ i) * 10 ^ x.prec - signQ x.neg * (↑(digVal c.mant) * 10 ^ i * 10 ^ x.prec) = 0 := by ring
          rw [this]
          norm_num
      refine ⟨_, _, h3, hN, ?_⟩
      have hge : (1 : ℚ) ≤ decVal c := le_trans (one_le_zpow₀ (by norm_num) (by omega)) h1.bounds.1
      rw [signQ_abs, abs_of_pos h1.pos, if_neg (by rintro ⟨-, -, h⟩; linarith)]
      obtain ⟨t, t1, t2⟩ := fmtForDisplay_spec hp checks (d := c) (fun _ => by omega) (by omega) (Or.inl h1)
      rw [t1]
      exact ⟨_, rfl, t2 x.neg⟩

example : lowWords sample3e9.mant.length 3000000001 = 0 ∧ |fval sample3e9| = (3000000001 : Nat) / 2 ^ 0 ∧
    fDisplay true sample3e9 = .ok ("0.".toList ++ List.replicate 53 '0') := by
  refine ⟨by decide +kernel, by rw [sample3e9_val.2]; norm_num, by decide +kernel⟩

example : fDisplay true sample12050 = .ok ("12000.".toList ++ List.replicate 53 '0') := by decide +kernel

end RMath
