import Verif.Lemmas.FloatRound
import Verif.Lemmas.FloatSem

/-! # `round` and `set_exp_and_round` meet the specification -/

namespace RMath

theorem fval_enc {x : FloatV} {m L : Nat} (hf : x.form = .finite) (hm : x.mant = enc m) (hL : (enc m).length = L) :
    fval x = sgn x.neg * ((m : ℚ) * 2 ^ (x.exp - 32 * L)) := by
  unfold fval
  rw [if_pos hf, hm, val_enc, hL, zpow_sub₀ (by norm_num)]
  unfold sgn
  congr 1
  rw [show ((2 : ℚ) ^ ((32 : ℤ) * (L : ℤ))) = 2 ^ (32 * L) by
    rw [← zpow_natCast]; push_cast; rfl]
  ring

theorem sgn_abs (neg : Bool) (y : ℚ) (hy : 0 ≤ y) : |sgn neg * y| = y := by
  cases neg <;> simp [sgn, abs_of_nonneg hy]

theorem sgn_mul_lt {neg : Bool} {y : ℚ} (hy : 0 < y) : decide (sgn neg * y < 0) = neg := by
  cases neg <;> simp [sgn] <;> linarith

theorem sgn_mul_ne {neg : Bool} {y : ℚ} (hy : 0 < y) : sgn neg * y ≠ 0 := by
  cases neg <;> simp [sgn] <;> linarith

/-- The magnitude of a normalised mantissa with its exponent. -/
theorem Norm.bounds {m L : Nat} (h : Norm m L) (e : ℤ) :
    (2 : ℚ) ^ (e - 1) ≤ (m : ℚ) * 2 ^ (e - 32 * L) ∧ (m : ℚ) * 2 ^ (e - 32 * L) < 2 ^ e := by
  have hp := h.pos
  have h1 : ((2 ^ (32 * L - 1) : Nat) : ℚ) ≤ m := by exact_mod_cast h.lo
  have h2 : (m : ℚ) < ((2 ^ (32 * L) : Nat) : ℚ) := by exact_mod_cast h.hi
  rw [Nat.cast_pow, ← zpow_natCast] at h1 h2
  have hu := two_zpow_pos (e - 32 * L)
  constructor
  · have : (2 : ℚ) ^ (e - 1) = ((2 : Nat) : ℚ) ^ ((32 * L - 1 : Nat) : ℤ) * 2 ^ (e - 32 * L) := by
      rw [show ((2 : Nat) : ℚ) = 2 by norm_num, ← zpow_add₀ (by norm_num)]; congr 1; omega
    rw [this]; exact mul_le_mul_of_nonneg_right h1 hu.le
  · have : (2 : ℚ) ^ e = ((2 : Nat) : ℚ) ^ ((32 * L : Nat) : ℤ) * 2 ^ (e - 32 * L) := by
      rw [show ((2 : Nat) : ℚ) = 2 by norm_num, ← zpow_add₀ (by norm_num)]; congr 1; push_cast; ring
    rw [this]; exact mul_lt_mul_of_pos_right h2 hu

theorem floatOk_enc {x : FloatV} {m L : Nat} (hm : x.mant = enc m) (hN : Norm m L) (hp : 1 ≤ x.prec)
    (hl : 32 * (L - 1) < x.prec) (hd : 2 ^ (32 * L - x.prec) ∣ m) (h1 : minExp ≤ x.exp) (h2 : x.exp ≤ maxExp) :
    FloatOk x := by
  intro _
  rw [hm, hN.length, val_enc]
  exact ⟨enc_ne_nil m, hN.lo, hp, hl, hd, h1, h2⟩

/-- A finite object in order is a normalised mantissa with an exponent. -/
theorem FloatOk.finite {x : FloatV} (h : FloatOk x) (hf : x.form = .finite) :
    ∃ m L, x.mant = enc m ∧ Norm m L ∧ 1 ≤ x.prec ∧ 32 * (L - 1) < x.prec ∧ 2 ^ (32 * L - x.prec) ∣ m ∧
      minExp ≤ x.exp ∧ x.exp ≤ maxExp ∧ fval x = sgn x.neg * ((m : ℚ) * 2 ^ (x.exp - 32 * L)) := by
  obtain ⟨h0, h1, h2, h3, h4, h5, h6⟩ := h hf
  obtain ⟨he, hN⟩ := Norm.of_words h0 h1
  exact ⟨_, _, he, hN, h2, h3, h4, h5, h6, fval_enc hf he (by rw [← he])⟩

theorem rounded_of_exact (mode : RoundingMode) {p : Nat} {m L : Nat} (hN : Norm m L) (hd : 2 ^ (32 * L - p) ∣ m)
    (neg : Bool) (e : ℤ) :
    Rounded mode p (sgn neg * ((m : ℚ) * 2 ^ (e - 32 * L))) (sgn neg * ((m : ℚ) * 2 ^ (e - 32 * L))) := by
  right
  obtain ⟨h1, h2⟩ := hN.bounds e
  have hpos : (0 : ℚ) < (m : ℚ) * 2 ^ (e - 32 * L) := lt_of_lt_of_le (two_zpow_pos _) h1
  -- the significand
  obtain ⟨c, hc⟩ : ∃ c : Nat, (m : ℚ) * 2 ^ ((p : ℤ) - 32 * L) = c := by
    by_cases hle : 32 * L ≤ p
    · refine ⟨m * 2 ^ (p - 32 * L), ?_⟩
      push_cast
      congr 1
      rw [← zpow_natCast]; congr 1; omega
    · obtain ⟨c, hc⟩ := hd
      refine ⟨c, ?_⟩
      rw [hc]
      push_cast
      rw [mul_comm ((2 : ℚ) ^ (32 * L - p)), mul_assoc, ← zpow_natCast, ← zpow_add₀ (by norm_num)]
      have : ((32 * L - p : Nat) : ℤ) + ((p : ℤ) - 32 * L) = 0 := by omega
      rw [this]; simp
  have hval : (m : ℚ) * 2 ^ (e - 32 * L) = c * 2 ^ (e - p) := by
    rw [← hc, mul_assoc, ← zpow_add₀ (by norm_num)]; congr 2; ring
  refine ⟨e, sgnZ neg * (c : ℤ), ?_, ?_, ?_, ?_⟩
  · rw [sgn_abs _ _ hpos.le]; exact h1
  · rw [sgn_abs _ _ hpos.le]; exact h2
  · rw [hval]; push_cast; rw [sgn_cast]; ring
  · have : sgn neg * ((m : ℚ) * 2 ^ (e - 32 * L)) / 2 ^ (e - p) = ((sgnZ neg * (c : ℤ) : ℤ) : ℚ) := by
      rw [hval, ← mul_assoc, mul_div_assoc, div_self (two_zpow_pos _).ne']
      push_cast; rw [sgn_cast]; ring
    rw [this]
    exact RoundsTo.of_int mode _

/-- The result of `round` when the mantissa has the exact value. -/
theorem fRound_result {x : FloatV} {m L : Nat} (hf : x.form = .finite) (hm : x.mant = enc m) (hN : Norm m L)
    (hp : 1 ≤ x.prec) (h1 : minExp ≤ x.exp) (h2 : x.exp ≤ maxExp) :
    ∃ z, fRound x 0 = .ok z ∧ FloatResult x.mode x.prec (sgn x.neg * ((m : ℚ) * 2 ^ (x.exp - 32 * L))) z := by
  obtain ⟨hb1, hb2⟩ := hN.bounds x.exp
  have hpos : (0 : ℚ) < (m : ℚ) * 2 ^ (x.exp - 32 * L) := lt_of_lt_of_le (two_zpow_pos _) hb1
  have hmin : (2 : ℚ) ^ (minExp - 1) ≤ |sgn x.neg * ((m : ℚ) * 2 ^ (x.exp - 32 * L))| := by
    rw [sgn_abs _ _ hpos.le]
    exact le_trans (zpow_le_iff.2 (by omega)) hb1
  by_cases hlt : x.prec < 32 * L
  · have hspec := fRound_spec (sbit := 0) hf hm hN hp hlt (by omega)
    simp only [Nat.zero_ne_one, or_false] at hspec
    obtain ⟨w, hw⟩ := hspec
    refine ⟨_, hw, ?_⟩
    clear hw
    obtain ⟨B, hB⟩ : ∃ B, B = 32 * L - x.prec := ⟨_, rfl⟩
    rw [← hB]
    obtain ⟨rb, hrb⟩ : ∃ rb, rb = m.testBit (B - 1) := ⟨_, rfl⟩
    obtain ⟨st, hst⟩ : ∃ st, st = decide (m % 2 ^ (B - 1) ≠ 0) := ⟨_, rfl⟩
    rw [← hrb, ← hst]
    obtain ⟨k, hk⟩ : ∃ k, k = m / 2 ^ B := ⟨_, rfl⟩
    rw [← hk]
    obtain ⟨inc, hinc⟩ : ∃ inc, inc = ((rb || st) && roundInc x.mode x.neg rb st (decide (k % 2 = 1))) := ⟨_, rfl⟩
    rw [← hinc]
    obtain ⟨n, hn⟩ : ∃ n, n = (x.prec + 31) / 32 := ⟨_, rfl⟩
    rw [← hn]
    have hB1 : 1 ≤ B := by omega
    have hkhi : k < 2 ^ x.prec := by
      rw [hk]
      apply (Nat.div_lt_iff_lt_mul (by positivity)).2
      rw [← Nat.pow_add, show x.prec + B = 32 * L by omega]; exact hN.hi
    have hklo : 2 ^ (x.prec - 1) ≤ k := by
      rw [hk]
      apply (Nat.le_div_iff_mul_le (by positivity)).2
      rw [← Nat.pow_add, show x.prec - 1 + B = 32 * L - 1 by omega]; exact hN.lo
    have hk1 : 1 ≤ k := le_trans Nat.one_le_two_pow hklo
    -- the fraction
    obtain ⟨f, hf0⟩ : ∃ f : ℚ, f = ((m % 2 ^ B : Nat) : ℚ) / 2 ^ B := ⟨_, rfl⟩
    have hmk : (m : ℚ) = (k + f) * 2 ^ B := by
      have := Nat.div_add_mod m (2 ^ B)
      rw [← hk] at this
      rw [hf0]
      have h3 : (m : ℚ) = ((2 ^ B * k + m % 2 ^ B : Nat) : ℚ) := by rw [this]
      rw [h3]
      generalize m % 2 ^ B = r
      push_cast
      field_simp
    have hbits : BitsOf f rb st := by
      have hpow : 2 ^ B = 2 * 2 ^ (B - 1) := by rw [← Nat.pow_succ']; congr 1; omega
      have hmod : m % 2 ^ B = m % 2 ^ (B - 1) + 2 ^ (B - 1) * (m / 2 ^ (B - 1) % 2) := by
        rw [hpow, Nat.mul_comm, Nat.mod_mul]
      have hr := Nat.mod_lt m (by positivity : 0 < 2 ^ (B - 1))
      have hrb' : rb = decide (m / 2 ^ (B - 1) % 2 = 1) := by rw [hrb, Nat.testBit_eq_decide_div_mod_eq]
      have hP : (0 : ℚ) < 2 ^ (B - 1) := by positivity
      have hpowq : (2 : ℚ) ^ B = 2 * 2 ^ (B - 1) := by rw [← pow_succ']; congr 1; omega
      rw [hpowq, hmod] at hf0
      have hr' : ((m % 2 ^ (B - 1) : Nat) : ℚ) < 2 ^ (B - 1) := by exact_mod_cast hr
      unfold BitsOf
      rcases Nat.mod_two_eq_zero_or_one (m / 2 ^ (B - 1)) with ho | ho
      · rw [ho, Nat.mul_zero, Nat.add_zero] at hf0
        have : rb = false := by rw [hrb', ho]; rfl
        by_cases hz : m % 2 ^ (B - 1) = 0
        · left; exact ⟨this, by rw [hst, hz]; rfl, by rw [hf0, hz]; simp⟩
        · right; left
          have hpz : (0 : ℚ) < ((m % 2 ^ (B - 1) : Nat) : ℚ) := by exact_mod_cast Nat.pos_of_ne_zero hz
          refine ⟨this, by rw [hst]; simpa using hz, ?_, ?_⟩
          · rw [hf0]; positivity
          · rw [hf0, div_lt_iff₀ (by positivity)]; linarith
      · rw [ho, Nat.mul_one] at hf0
        have : rb = true := by rw [hrb', ho]; rfl
        right; right
        by_cases hz : m % 2 ^ (B - 1) = 0
        · left
          refine ⟨this, by rw [hst, hz]; rfl, ?_⟩
          rw [hf0, hz]; push_cast; field_simp; ring
        · right
          have hpz : (0 : ℚ) < ((m % 2 ^ (B - 1) : Nat) : ℚ) := by exact_mod_cast Nat.pos_of_ne_zero hz
          generalize m % 2 ^ (B - 1) = r at *
          refine ⟨this, by rw [hst]; simpa using hz, ?_, ?_⟩
          · rw [hf0, lt_div_iff₀ (by positivity)]; push_cast; linarith
          · rw [hf0, div_lt_one (by positivity)]; push_cast; linarith
    have hu := two_zpow_pos (x.exp - x.prec)
    have hqv : (m : ℚ) * 2 ^ (x.exp - 32 * L) = ((k : ℚ) + f) * 2 ^ (x.exp - x.prec) := by
      rw [hmk, mul_assoc, ← zpow_natCast, ← zpow_add₀ (by norm_num)]
      congr 2; omega
    have hround : Rounded x.mode x.prec (sgn x.neg * ((m : ℚ) * 2 ^ (x.exp - 32 * L)))
        (sgn x.neg * (((k + inc.toNat : Nat) : ℚ) * 2 ^ (x.exp - x.prec))) := by
      right
      refine ⟨x.exp, sgnZ x.neg * ((k + inc.toNat : Nat) : ℤ), ?_, ?_, ?_, ?_⟩
      · rw [sgn_abs _ _ hpos.le]; exact hb1
      · rw [sgn_abs _ _ hpos.le]; exact hb2
      · rw [Int.cast_mul, sgn_cast, Int.cast_natCast]; ring
      · rw [hqv, ← mul_assoc, mul_div_assoc, div_self hu.ne', mul_one, hinc]
        exact roundsTo_core x.mode x.neg hk1 hbits
    have hacc := acc_core x.neg inc (k := k) hbits hu (by rw [hinc]; simp; intro h _; exact h)
    rw [← hqv] at hacc
    have hsign : decide (sgn x.neg * ((m : ℚ) * 2 ^ (x.exp - 32 * L)) < 0) = x.neg := sgn_mul_lt hpos
    by_cases hcarry : inc = true ∧ k + 1 = 2 ^ x.prec
    · rw [if_pos hcarry]
      have hkinc : ((k + inc.toNat : Nat) : ℚ) * 2 ^ (x.exp - x.prec) = 2 ^ x.exp := by
        rw [hcarry.1, Bool.toNat_true, hcarry.2]
        push_cast
        rw [← zpow_natCast, ← zpow_add₀ (by norm_num)]; congr 1; omega
      rw [hkinc] at hround hacc
      by_cases hmax : maxExp ≤ x.exp
      · rw [if_pos hmax]
        refine ⟨rfl, rfl, fun h => by simp at h, fun _ => hsign.symm, ?_⟩
        simp only
        refine ⟨⟨_, hround, ?_⟩, ?_⟩
        · rw [sgn_abs _ _ (two_zpow_pos _).le]; exact zpow_le_iff.2 hmax
        · rw [hacc]
          unfold accOf
          cases hneg : x.neg
          · simp only [sgn, Bool.false_eq_true, if_false, one_mul]
            rw [if_neg (by linarith), if_neg (by linarith), if_neg (by linarith)]
          · simp only [sgn, if_true, neg_mul, one_mul]
            rw [if_pos (by linarith), if_pos (by linarith)]
      · rw [if_neg hmax]
        have hN' : Norm (2 ^ (32 * n - 1)) n := ⟨by omega, le_rfl, Nat.pow_lt_pow_right (by norm_num) (by omega)⟩
        have hfv : ∀ a, fval { x with acc := a, exp := x.exp + 1, mant := enc (2 ^ (32 * n - 1)) } = sgn x.neg * 2 ^ x.exp := by
          intro a
          refine (fval_enc (x := { x with acc := a, exp := x.exp + 1, mant := enc (2 ^ (32 * n - 1)) }) hf rfl hN'.length).trans ?_
          simp only
          congr 1
          push_cast
          rw [← zpow_natCast, ← zpow_add₀ (by norm_num)]; congr 1; omega
        refine ⟨rfl, rfl, floatOk_enc rfl hN' hp ?_ ?_ ?_ ?_, fun _ => hsign.symm, ?_⟩
        · simp only; omega
        · exact pow_dvd_pow 2 (by simp only; omega)
        · simp only; omega
        · simp only; omega
        · simp only [hf] at hfv ⊢
          rw [hfv]
          exact ⟨hmin, hround, hacc⟩
    · rw [if_neg hcarry]
      have hlt' : k + inc.toNat < 2 ^ x.prec := by
        cases hi : inc
        · simp; exact hkhi
        · rw [hi] at hcarry; simp at hcarry ⊢; omega
      have hN' : Norm ((k + inc.toNat) * 2 ^ (n * 32 - x.prec)) n := by
        refine ⟨by omega, ?_, ?_⟩
        · rw [show 32 * n - 1 = (x.prec - 1) + (n * 32 - x.prec) by omega, Nat.pow_add]
          exact Nat.mul_le_mul_right _ (by omega)
        · rw [show 32 * n = x.prec + (n * 32 - x.prec) by omega, Nat.pow_add]
          exact Nat.mul_lt_mul_of_pos_right hlt' (by positivity)
      have hfv : ∀ a, fval { x with acc := a, mant := enc ((k + inc.toNat) * 2 ^ (n * 32 - x.prec)) }
          = sgn x.neg * (((k + inc.toNat : Nat) : ℚ) * 2 ^ (x.exp - x.prec)) := by
        intro a
        refine (fval_enc (x := { x with acc := a, mant := enc ((k + inc.toNat) * 2 ^ (n * 32 - x.prec)) }) hf rfl
          hN'.length).trans ?_
        simp only
        congr 1
        rw [Nat.cast_mul, mul_assoc]
        congr 1
        push_cast
        rw [← zpow_natCast, ← zpow_add₀ (by norm_num)]; congr 1; omega
      refine ⟨rfl, rfl, floatOk_enc rfl hN' hp ?_ ?_ h1 h2, fun _ => hsign.symm, ?_⟩
      · simp only; omega
      · rw [show n * 32 - x.prec = 32 * n - x.prec by omega]; exact Dvd.intro_left _ rfl
      · simp only [hf] at hfv ⊢
        rw [hfv]
        exact ⟨hmin, hround, hacc⟩
  · have hd : 2 ^ (32 * L - x.prec) ∣ m := by rw [show 32 * L - x.prec = 0 by omega]; simp
    refine ⟨{ x with acc := .exact }, ?_, rfl, rfl, floatOk_enc hm hN hp (by simp only; omega) hd h1 h2,
      fun _ => (sgn_mul_lt hpos).symm, ?_⟩
    · unfold fRound
      simp only [hf, hm, hN.length, ne_eq, not_true_eq_false, if_false]
      rw [if_pos (by omega)]
    · simp only [hf]
      have hfv : fval { x with acc := .exact } = sgn x.neg * ((m : ℚ) * 2 ^ (x.exp - 32 * L)) :=
        fval_enc (x := { x with acc := .exact }) hf hm hN.length
      simp only [hf] at hfv
      rw [hfv]
      refine ⟨hmin, rounded_of_exact x.mode hN hd x.neg x.exp, ?_⟩
      simp [accOf]

/-- Every number can be rounded, and rounding does not take it below the power of two below it. -/
theorem rounded_exists (mode : RoundingMode) {p : Nat} (hp : 1 ≤ p) (neg : Bool) {a : ℚ} {e : ℤ} (h1 : 2 ^ (e - 1) ≤ a)
    (h2 : a < 2 ^ e) : ∃ r, Rounded mode p (sgn neg * a) r ∧ 2 ^ (e - 1) ≤ |r| ∧ |r| ≤ 2 ^ e := by
  have hpos : 0 < a := lt_of_lt_of_le (two_zpow_pos _) h1
  have hu := two_zpow_pos (e - p)
  obtain ⟨y, hy⟩ : ∃ y, y = a / 2 ^ (e - p) := ⟨_, rfl⟩
  have ha : a = y * 2 ^ (e - p) := by rw [hy]; field_simp
  have hlo : (2 : ℚ) ^ (p - 1) ≤ y := by
    rw [hy, le_div_iff₀ hu, ← zpow_natCast, ← zpow_add₀ (by norm_num)]
    rwa [show ((p - 1 : Nat) : ℤ) + (e - p) = e - 1 by omega]
  have hhi : y < (2 : ℚ) ^ p := by
    rw [hy, div_lt_iff₀ hu, ← zpow_natCast, ← zpow_add₀ (by norm_num)]
    rwa [show (p : ℤ) + (e - p) = e by omega]
  have hy0 : 0 ≤ y := le_trans (by positivity) hlo
  obtain ⟨k, hk⟩ : ∃ k, k = ⌊y⌋₊ := ⟨_, rfl⟩
  have hk1 : (k : ℚ) ≤ y := by rw [hk]; exact Nat.floor_le hy0
  have hk2 : y < k + 1 := by rw [hk]; exact Nat.lt_floor_add_one y
  have hklo : 2 ^ (p - 1) ≤ k := by
    rw [hk]; apply Nat.le_floor; push_cast; exact hlo
  have hkhi : k < 2 ^ p := by
    have : (k : ℚ) < ((2 ^ p : Nat) : ℚ) := by push_cast; linarith
    exact_mod_cast this
  obtain ⟨f, hf⟩ : ∃ f, f = y - k := ⟨_, rfl⟩
  have hyf : y = k + f := by rw [hf]; ring
  have hbits : BitsOf f (decide (1 / 2 ≤ f)) (decide (f ≠ 0 ∧ f ≠ 1 / 2)) := by
    have h3 : 0 ≤ f := by linarith
    have h4 : f < 1 := by linarith
    unfold BitsOf
    rcases lt_trichotomy f (1 / 2) with h | h | h
    · by_cases h0 : f = 0
      · left; refine ⟨?_, ?_, h0⟩ <;> simp [h0]
      · right; left
        refine ⟨by simp only [decide_eq_false_iff_not]; linarith, by simp [h0]; intro h5; norm_num [h5] at h,
          lt_of_le_of_ne h3 (Ne.symm h0), h⟩
    · right; right; left; refine ⟨?_, ?_, h⟩ <;> simp [h]
    · right; right; right
      refine ⟨by simp only [decide_eq_true_eq]; linarith, ?_, h, h4⟩
      simp only [decide_eq_true_eq]
      exact ⟨by linarith, by linarith⟩
  obtain ⟨inc, hinc⟩ : ∃ inc, inc = ((decide (1 / 2 ≤ f) || decide (f ≠ 0 ∧ f ≠ 1 / 2)) &&
    roundInc mode neg (decide (1 / 2 ≤ f)) (decide (f ≠ 0 ∧ f ≠ 1 / 2)) (decide (k % 2 = 1))) := ⟨_, rfl⟩
  have hcore := roundsTo_core mode neg (le_trans Nat.one_le_two_pow hklo) hbits
  rw [← hinc, ← hyf] at hcore
  have hki : (0 : ℚ) ≤ ((k + inc.toNat : Nat) : ℚ) := by positivity
  have habs : |sgn neg * (((k + inc.toNat : Nat) : ℚ) * 2 ^ (e - p))| = ((k + inc.toNat : Nat) : ℚ) * 2 ^ (e - p) :=
    sgn_abs _ _ (mul_nonneg hki hu.le)
  refine ⟨sgn neg * (((k + inc.toNat : Nat) : ℚ) * 2 ^ (e - p)), Or.inr ⟨e,
    sgnZ neg * ((k + inc.toNat : Nat) : ℤ), ?_, ?_, ?_, ?_⟩, ?_, ?_⟩
  · rw [sgn_abs _ _ hpos.le]; exact h1
  · rw [sgn_abs _ _ hpos.le]; exact h2
  · rw [Int.cast_mul, sgn_cast, Int.cast_natCast]; ring
  · rw [mul_div_assoc, ← hy]; exact hcore
  · rw [habs]
    have : (2 : ℚ) ^ (e - 1) = ((2 ^ (p - 1) : Nat) : ℚ) * 2 ^ (e - p) := by
      push_cast; rw [← zpow_natCast, ← zpow_add₀ (by norm_num)]; congr 1; omega
    rw [this]
    exact mul_le_mul_of_nonneg_right (by exact_mod_cast (by omega)) hu.le
  · rw [habs]
    have : (2 : ℚ) ^ e = ((2 ^ p : Nat) : ℚ) * 2 ^ (e - p) := by
      push_cast; rw [← zpow_natCast, ← zpow_add₀ (by norm_num)]; congr 1; omega
    rw [this]
    refine mul_le_mul_of_nonneg_right ?_ hu.le
    have hb : inc.toNat ≤ 1 := by cases inc <;> simp
    exact_mod_cast (by omega)

theorem fSetExpAndRound_result {x : FloatV} {m L : Nat} (hm : x.mant = enc m) (hN : Norm m L) (hp : 1 ≤ x.prec) (e : ℤ) :
    ∃ z, fSetExpAndRound x e 0 = .ok z ∧ FloatResult x.mode x.prec (sgn x.neg * ((m : ℚ) * 2 ^ (e - 32 * L))) z := by
  obtain ⟨hb1, hb2⟩ := hN.bounds e
  have hpos : (0 : ℚ) < (m : ℚ) * 2 ^ (e - 32 * L) := lt_of_lt_of_le (two_zpow_pos _) hb1
  have hsign : decide (sgn x.neg * ((m : ℚ) * 2 ^ (e - 32 * L)) < 0) = x.neg := sgn_mul_lt hpos
  unfold fSetExpAndRound
  by_cases h1 : e < minExp
  · rw [if_pos h1]
    refine ⟨_, rfl, rfl, rfl, fun h => by simp at h, fun _ => hsign.symm, ?_⟩
    simp only
    constructor
    · rw [sgn_abs _ _ hpos.le]
      exact lt_of_lt_of_le hb2 (zpow_le_iff.2 (by omega))
    · unfold accOf
      cases hneg : x.neg
      · simp only [sgn, Bool.false_eq_true, if_false, one_mul, makeAccuracy]
        rw [if_pos hpos]
      · simp only [sgn, if_true, neg_mul, one_mul, makeAccuracy]
        rw [if_neg (by linarith), if_neg (by linarith)]
  · rw [if_neg h1]
    by_cases h2 : e > maxExp
    · rw [if_pos h2]
      refine ⟨_, rfl, rfl, rfl, fun h => by simp at h, fun _ => hsign.symm, ?_⟩
      simp only
      constructor
      · obtain ⟨r, hr, hr1, _⟩ := rounded_exists x.mode hp x.neg hb1 hb2
        exact ⟨r, hr, le_trans (zpow_le_iff.2 (by omega)) hr1⟩
      · cases hneg : x.neg
        · simp only [sgn, Bool.false_eq_true, if_false, one_mul, makeAccuracy, Bool.not_false, if_true]
          rw [if_neg (by linarith)]
        · simp only [sgn, if_true, neg_mul, one_mul, makeAccuracy, Bool.not_true, Bool.false_eq_true, if_false]
          rw [if_pos (by linarith)]
    · rw [if_neg h2]
      exact fRound_result (x := { x with form := .finite, exp := e }) rfl hm hN hp (not_lt.1 h1) (not_lt.1 h2)

end RMath
