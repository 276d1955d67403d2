import Verif.Lemmas.Ieee
import Mathlib.Tactic.IntervalCases

/-!
# `ldexp` and `frexp`
-/

namespace RMath

theorem b64_inf : b64.inf = 2047 * 2 ^ 52 := by unfold Fmt.inf b64; norm_num
theorem b64_mb : b64.mb = 52 := rfl
theorem b64_bias : b64.bias = 1023 := by unfold Fmt.bias b64; norm_num
theorem b32_inf : b32.inf = 255 * 2 ^ 23 := by unfold Fmt.inf b32; norm_num
theorem b32_mb : b32.mb = 23 := rfl
theorem b32_bias : b32.bias = 127 := by unfold Fmt.bias b32; norm_num

theorem Fmt.Nearest.le_inf {F : Fmt} {q : ℚ} {c : Nat} (h : F.Nearest q c) : c ≤ F.inf := by
  rcases h with h | h <;> omega

/-- Every number with a short mantissa in the range of the format is a number of the format. -/
theorem Fmt.exists_code (F : Fmt) (j : Nat) (s : Int) (hj0 : 0 < j) (hj : j < 2 ^ (F.mb + 1))
    (hs : 1 - (F.bias : Int) - F.mb ≤ s) (hlt : (j : ℚ) * 2 ^ s < 2 ^ ((F.bias : Int) + 1)) :
    ∃ c, c < F.inf ∧ F.value c = j * 2 ^ s := by
  have e : ((j * 2 ^ s.toNat : Nat) : ℚ) / ((2 ^ (-s).toNat : Nat) : ℚ) = j * 2 ^ s := by
    rw [zpow_toNat]; push_cast; ring
  have sc := scaled_exists F (j * 2 ^ s.toNat) (2 ^ (-s).toNat) (by positivity) (by positivity)
  rw [e] at sc
  generalize (max (floorLog (j * 2 ^ s.toNat) (2 ^ (-s).toNat)) (1 - (F.bias : Int)) - (1 - (F.bias : Int))).toNat = i at sc
  generalize ((_ : Nat) : ℚ) / ((_ : Nat) : ℚ) = x at sc
  have hts : (i : Int) + 1 - F.bias - F.mb ≤ s := by
    rcases Nat.eq_zero_or_pos i with g | g
    · omega
    · have lo := sc.lo.resolve_left (by omega)
      have h1 : (2 : ℚ) ^ ((F.mb : Int) + ((i : Int) + 1 - F.bias - F.mb)) ≤ j * 2 ^ s := by
        rw [sc.eq, zadd, zpow_natCast]
        exact mul_le_mul_of_nonneg_right lo (le_of_lt (two_zpow_pos _))
      have h2 : (j : ℚ) * 2 ^ s < 2 ^ ((F.mb : Int) + 1 + s) := by
        rw [zadd, show ((F.mb : Int) + 1) = ((F.mb + 1 : Nat) : Int) by push_cast; ring, zpow_natCast]
        exact mul_lt_mul_of_pos_right (by exact_mod_cast hj) (two_zpow_pos _)
      have := zpow_lt_iff.1 (lt_of_le_of_lt h1 h2)
      omega
  obtain ⟨m, hm⟩ := Int.eq_ofNat_of_zero_le (by omega : 0 ≤ s - ((i : Int) + 1 - F.bias - F.mb))
  have hx : x = ((j * 2 ^ m : Nat) : ℚ) := by
    have h1 := sc.eq
    rw [show s = m + ((i : Int) + 1 - F.bias - F.mb) by omega, zadd, ← mul_assoc] at h1
    have := mul_right_cancel₀ (ne_of_gt (two_zpow_pos _)) h1
    rw [← this, zpow_natCast]; push_cast; ring
  rw [hx] at sc
  have hv := sc.value (RneInt.of_nat _)
  rw [← sc.eq] at hv
  refine ⟨_, ?_, hv⟩
  rw [← F.value_lt, hv, F.value_inf]
  exact hlt

/-- At most half the smallest positive number rounds to zero. -/
theorem Fmt.nearest_tiny (F : Fmt) {q : ℚ} (h0 : 0 ≤ q) (h : q ≤ 2 ^ (-(F.bias : Int) - F.mb)) : F.Nearest q 0 := by
  have hp : 0 < 2 ^ F.mb := by positivity
  have hb := F.bias_pos
  have hm := F.hmb
  left
  refine ⟨by rw [F.inf_eq]; positivity, ?_, fun c _ => ⟨?_, fun _ _ => rfl⟩⟩
  · have h1 : (2 : ℚ) ^ ((F.bias : ℤ) + 1) = 2 * 2 ^ (F.bias : ℤ) := zsucc _
    have h2 : (2 : ℚ) ^ ((F.bias : ℤ) - F.mb - 1) < 2 ^ (F.bias : ℤ) := by rw [zpow_lt_iff]; omega
    have h3 : (2 : ℚ) ^ (-(F.bias : ℤ) - F.mb) < 2 ^ (F.bias : ℤ) := by rw [zpow_lt_iff]; omega
    linarith
  · rw [F.value_zero]
    rcases Nat.eq_zero_or_pos c with rfl | hc
    · rw [F.value_zero]
    · have h1 := F.value_mk 0 1 (by rw [pow_succ]; omega) (Or.inl rfl)
      have h2 : F.value 1 ≤ F.value c := F.value_le.2 hc
      rw [Nat.zero_mul, Nat.zero_add] at h1
      rw [h1, show (((0 : Nat) : Int) + 1 - F.bias - F.mb) = (-(F.bias : Int) - F.mb) + 1 by push_cast; ring, zsucc] at h2
      rw [abs_of_nonpos (by linarith), abs_of_nonneg (by push_cast at h2; linarith)]
      push_cast at h2
      linarith

/-! ### Packing and unpacking -/

theorem mag64_mk64 (s : Bool) (c : Nat) (h : c < 2 ^ 63) : mag64 (mk64 s c) = c := by
  unfold mag64 mk64
  rw [BitVec.toNat_ofNat]
  cases s <;> simp <;> omega

theorem msb_mk64 (s : Bool) (c : Nat) (h : c < 2 ^ 63) : (mk64 s c).msb = s := by
  unfold mk64
  rw [BitVec.msb_eq_decide, BitVec.toNat_ofNat]
  cases s <;> simp <;> omega

theorem mk64_mag64 (x : D) : mk64 x.msb (mag64 x) = x := by
  apply BitVec.eq_of_toNat_eq
  unfold mag64 mk64
  rw [BitVec.toNat_ofNat, BitVec.msb_eq_decide]
  have := x.isLt
  simp only [decide_eq_true_eq]
  split <;> omega

theorem mk64_toNat (s : Bool) (c : Nat) (h : c < 2 ^ 63) : (mk64 s c).toNat = (if s then 2 ^ 63 else 0) + c := by
  unfold mk64
  rw [BitVec.toNat_ofNat]
  cases s <;> simp <;> omega

theorem f64_field (x : D) : ((x >>> 52) &&& 2047#64).toNat = mag64 x / 2 ^ 52 := by
  rw [BitVec.toNat_and, BitVec.toNat_ushiftRight, Nat.shiftRight_eq_div_pow]
  have h1 : (2047#64).toNat = 2 ^ 11 - 1 := by decide
  rw [h1, Nat.and_two_pow_sub_one_eq_mod]
  unfold mag64
  have := x.isLt
  omega

theorem f64_put (x : D) (E : Nat) (hE : E < 2 ^ 11) :
    x &&& ~~~(2047#64 <<< 52) ||| (BitVec.ofNat 64 E <<< 52) = mk64 x.msb (2 ^ 52 * E + mag64 x % 2 ^ 52) := by
  apply BitVec.eq_of_toNat_eq
  rw [mk64_toNat _ _ (by omega)]
  have hx := x.isLt
  have e1 : (if x.msb = true then 2 ^ 63 else 0) + (2 ^ 52 * E + mag64 x % 2 ^ 52) =
      2 ^ 63 * (x.toNat / 2 ^ 63) + (2 ^ 52 * E + x.toNat % 2 ^ 52) := by
    rw [BitVec.msb_eq_decide]
    unfold mag64
    simp only [decide_eq_true_eq]
    split <;> omega
  rw [e1]
  apply Nat.eq_of_testBit_eq
  intro j
  have l1 : 2 ^ 52 * E + x.toNat % 2 ^ 52 < 2 ^ 63 := by omega
  rw [Nat.testBit_two_pow_mul_add _ l1, Nat.testBit_two_pow_mul_add _ (Nat.mod_lt _ (by norm_num)),
    Nat.testBit_div_two_pow, Nat.testBit_mod_two_pow]
  have h2047 : ∀ k, (2047#64).getLsbD k = decide (k < 11) := by
    intro k
    rw [BitVec.getLsbD_ofNat, show (2047 : Nat) = 2 ^ 11 - 1 by norm_num, Nat.testBit_two_pow_sub_one]
    by_cases h : k < 11 <;> simp [h]
    omega
  have hEb : ∀ k, 11 ≤ k → E.testBit k = false := by
    intro k hk
    exact Nat.testBit_lt_two_pow (lt_of_lt_of_le hE (Nat.pow_le_pow_right (by norm_num) hk))
  simp only [BitVec.testBit_toNat, BitVec.getLsbD_or, BitVec.getLsbD_and, BitVec.getLsbD_not, BitVec.getLsbD_shiftLeft,
    h2047, BitVec.getLsbD_ofNat]
  by_cases h1 : j < 52
  · have h2 : j < 63 := by omega
    have h3 : j < 64 := by omega
    simp [h1, h2, h3]
  · by_cases h2 : j < 63
    · have h3 : j < 64 := by omega
      have h4 : j - 52 < 11 := by omega
      have h5 : j - 52 < 64 := by omega
      simp [h1, h2, h3, h4, h5]
    · have h4 : ¬ j - 52 < 11 := by omega
      rw [hEb (j - 52) (by omega)]
      have h5 : j - 63 + 63 = j := by omega
      by_cases h3 : j < 64
      · simp [h1, h2, h3, h4, h5]
      · simp [h1, h2, h3, h5]
        exact BitVec.getLsbD_of_ge x j (by omega)

/-! ### Multiplication -/

theorem nearest64_lt {q : ℚ} {c : Nat} (h : b64.Nearest q c) : c < 2 ^ 63 := by
  have := h.le_inf
  rw [b64_inf] at this
  omega

theorem fmtDen_ne (F : Fmt) : fmtDen F ≠ 0 := by unfold fmtDen; positivity

theorem hwMul_spec (x y : D) :
    ∃ c, hwMul x y = mk64 (x.msb != y.msb) c ∧ b64.Nearest (b64.value (mag64 x) * b64.value (mag64 y)) c := by
  refine ⟨_, rfl, ?_⟩
  have h := rneBits_nearest b64 (fmtNum b64 (mag64 x) * fmtNum b64 (mag64 y)) (fmtDen b64 * fmtDen b64)
    (Nat.mul_ne_zero (fmtDen_ne _) (fmtDen_ne _))
  rw [b64.value_eq, b64.value_eq, div_mul_div_comm]
  exact_mod_cast h

/-- The value of a normal double. -/
theorem value64_normal (E M : Nat) (hE : 0 < E) (hM : M < 2 ^ 52) :
    b64.value (2 ^ 52 * E + M) = (2 ^ 52 + M : Nat) * 2 ^ ((E : Int) - 1075) := by
  obtain ⟨i, rfl⟩ := Nat.exists_eq_add_of_lt hE
  have := b64.value_mk i (2 ^ 52 + M) (by rw [b64_mb]; norm_num; omega) (Or.inr (by rw [b64_mb]; omega))
  rw [b64_mb, b64_bias] at this
  rw [show 2 ^ 52 * (0 + i + 1) + M = i * 2 ^ 52 + (2 ^ 52 + M) by ring, this]
  congr 2
  push_cast; ring

theorem value64_denormal (M : Nat) (hM : M < 2 ^ 52) : b64.value M = M * 2 ^ (-1074 : Int) := by
  have := b64.value_mk 0 M (by rw [b64_mb]; norm_num; omega) (Or.inl rfl)
  rw [b64_mb, b64_bias] at this
  simpa using this

theorem value64_normal' (c : Nat) (h : 2 ^ 52 ≤ c) :
    b64.value c = (2 ^ 52 + c % 2 ^ 52 : Nat) * 2 ^ (((c / 2 ^ 52 : Nat) : Int) - 1075) := by
  conv_lhs => rw [← Nat.div_add_mod c (2 ^ 52)]
  exact value64_normal _ _ (by omega) (by omega)

/-- `normalize` scales a denormal number exactly. -/
theorem f64Normalize_spec (x : D) (h0 : mag64 x ≠ 0) (hf : mag64 x < b64.inf) :
    (f64Normalize x).1.msb = x.msb ∧ 2 ^ 52 ≤ mag64 (f64Normalize x).1 ∧ mag64 (f64Normalize x).1 < b64.inf ∧
    b64.value (mag64 (f64Normalize x).1) * 2 ^ (f64Normalize x).2 = b64.value (mag64 x) := by
  unfold f64Normalize
  split
  · rename_i h
    obtain ⟨c, e, hc⟩ := hwMul_spec x (BitVec.ofNat 64 ((1023 + 52) * 2 ^ 52))
    have em : mag64 (BitVec.ofNat 64 ((1023 + 52) * 2 ^ 52)) = 2 ^ 52 * 1075 + 0 := by decide
    have es : (BitVec.ofNat 64 ((1023 + 52) * 2 ^ 52)).msb = false := by decide
    rw [em, value64_normal _ _ (by norm_num) (by norm_num), value64_denormal _ h] at hc
    have eq : (mag64 x : ℚ) * 2 ^ (-1074 : Int) * (((2 ^ 52 + 0 : Nat) : ℚ) * 2 ^ (((1075 : Nat) : Int) - 1075)) =
        mag64 x * 2 ^ (-1022 : Int) := by
      rw [show (-1022 : Int) = -1074 + 52 by norm_num, zadd]; norm_num; ring
    rw [eq] at hc
    have hm1 : (1 : ℚ) ≤ mag64 x := by exact_mod_cast Nat.pos_of_ne_zero h0
    have hm2 : (mag64 x : ℚ) < 2 ^ 52 := by exact_mod_cast h
    obtain ⟨c', hc', hv⟩ := b64.exists_code (mag64 x) (-1022) (Nat.pos_of_ne_zero h0) (by rw [b64_mb]; omega)
      (by rw [b64_mb, b64_bias]; norm_num)
      (by
        rw [b64_bias]
        have h1 : (2 : ℚ) ^ (((1023 : Nat) : Int) + 1) = 2 ^ (52 : Int) * 2 ^ (972 : Int) := by rw [← zadd]; norm_num
        have h2 : (2 : ℚ) ^ (-1022 : Int) < 2 ^ (972 : Int) := zpow_lt_iff.2 (by norm_num)
        rw [h1]
        exact mul_lt_mul'' (by exact_mod_cast hm2) h2 (by positivity) (by positivity))
    have hcc : c = c' := hc.unique (hv ▸ b64.nearest_self c' hc')
    subst hcc
    have hlt := nearest64_lt hc
    dsimp only
    rw [e, es, mag64_mk64 _ _ hlt, msb_mk64 _ _ hlt, hv]
    refine ⟨by simp, ?_, hc', ?_⟩
    · rw [← b64.value_le, hv]
      have := value64_normal 1 0 (by norm_num) (by norm_num)
      rw [show 2 ^ 52 * 1 + 0 = 2 ^ 52 by norm_num] at this
      rw [this]
      have e2 : (2 : ℚ) ^ (-1022 : Int) = 2 ^ 52 * 2 ^ (((1 : Nat) : Int) - 1075) := by
        rw [← zpow_natCast, ← zadd]; norm_num
      rw [e2]
      push_cast
      have := two_zpow_pos (((1 : Nat) : Int) - 1075)
      push_cast at this
      nlinarith
    · rw [value64_denormal _ h, mul_assoc, ← zadd]; norm_num
  · rename_i h
    exact ⟨rfl, Nat.le_of_not_lt h, hf, by simp⟩

/-- **`ldexp`**: the number `frac · 2^exp`, rounded to nearest, ties to even, with the sign of `frac`. -/
theorem ldexp_spec (x : D) (e : Int) (h0 : mag64 x ≠ 0) (hf : mag64 x < b64.inf) :
    ∃ c, ldexp x e = mk64 x.msb c ∧ b64.Nearest (b64.value (mag64 x) * 2 ^ e) c := by
  obtain ⟨n1, n2, n3, n4⟩ := f64Normalize_spec x h0 hf
  unfold ldexp
  have z : f64IsZero x = false := by unfold f64IsZero; simpa using h0
  have nf : f64NotFinite x = false := by unfold f64NotFinite; simpa using hf
  rw [z, nf]
  simp only [Bool.false_eq_true, if_false]
  rw [f64_field]
  rw [← n4]
  generalize (f64Normalize x).1 = y at *
  generalize (f64Normalize x).2 = r at *
  rw [← n1]
  have hv := value64_normal' (mag64 y) n2
  rw [b64_inf] at n3
  have hE1 : 0 < mag64 y / 2 ^ 52 := by omega
  have hE2 : mag64 y / 2 ^ 52 < 2047 := by omega
  have hM : mag64 y % 2 ^ 52 < 2 ^ 52 := Nat.mod_lt _ (by norm_num)
  generalize hcE : mag64 y / 2 ^ 52 = E at *
  have hM' : (2 : ℚ) ^ 52 ≤ (2 ^ 52 + mag64 y % 2 ^ 52 : Nat) := by push_cast; linarith [(Nat.cast_nonneg (mag64 y % 2 ^ 52) : (0 : ℚ) ≤ _)]
  have hM'' : ((2 ^ 52 + mag64 y % 2 ^ 52 : Nat) : ℚ) < 2 ^ 53 := by exact_mod_cast (by omega : 2 ^ 52 + mag64 y % 2 ^ 52 < 2 ^ 53)
  have htot : b64.value (mag64 y) * 2 ^ r * 2 ^ e =
      (2 ^ 52 + mag64 y % 2 ^ 52 : Nat) * 2 ^ ((e + r + ((E : Int) - 1023)) - 52) := by
    rw [hv, mul_assoc, mul_assoc, ← zadd, ← zadd]; congr 2; ring
  rw [htot]
  generalize hx : e + r + ((E : Int) - 1023) = X at *
  split
  · rename_i h
    refine ⟨0, rfl, b64.nearest_tiny (by positivity) ?_⟩
    rw [b64_bias, b64_mb]
    have h1 : (2 : ℚ) ^ (53 : Int) * 2 ^ (X - 52) ≤ 2 ^ (-(1023 : Nat) - (52 : Nat) : Int) := by
      rw [← zadd, zpow_le_iff]; push_cast; omega
    refine le_trans ?_ h1
    exact mul_le_mul_of_nonneg_right (le_of_lt (by exact_mod_cast hM'')) (le_of_lt (two_zpow_pos _))
  · split
    · rename_i h1 h2
      refine ⟨b64.inf, rfl, Or.inr ⟨rfl, ?_⟩⟩
      rw [b64_bias, b64_mb]
      have g1 : (2 : ℚ) ^ (((1023 : Nat) : Int) + 1) ≤ 2 ^ (52 : Int) * 2 ^ (X - 52) := by
        rw [← zadd, zpow_le_iff]; push_cast; omega
      have g2 : (2 : ℚ) ^ (52 : Int) * 2 ^ (X - 52) ≤ (2 ^ 52 + mag64 y % 2 ^ 52 : Nat) * 2 ^ (X - 52) :=
        mul_le_mul_of_nonneg_right (by exact_mod_cast hM') (le_of_lt (two_zpow_pos _))
      have g3 := two_zpow_pos (((1023 : Nat) : Int) - ((52 : Nat) : Int) - 1)
      linarith
    · rename_i h1 h2
      obtain ⟨E', hE'⟩ := Int.eq_ofNat_of_zero_le (by split <;> omega : 0 ≤ (if X < -1022 then X + 53 else X) + 1023)
      have hE'1 : 0 < E' := by split at hE' <;> omega
      have hE'2 : E' < 2 ^ 11 := by split at hE' <;> omega
      rw [hE', Int.toNat_natCast, f64_put y E' hE'2]
      obtain ⟨c, hc1, hc2⟩ := hwMul_spec (BitVec.ofNat 64 (if X < -1022 then (1023 - 53) * 2 ^ 52 else 1023 * 2 ^ 52))
        (mk64 y.msb (2 ^ 52 * E' + mag64 y % 2 ^ 52))
      have b1 : 2 ^ 52 * E' + mag64 y % 2 ^ 52 < 2 ^ 63 := by omega
      rw [mag64_mk64 _ _ b1, value64_normal _ _ hE'1 hM] at hc2
      rw [msb_mk64 _ _ b1] at hc1
      refine ⟨c, ?_, ?_⟩
      · rw [hc1]
        congr 1
        split <;> cases y.msb <;> decide
      · have : b64.value (mag64 (BitVec.ofNat 64 (if X < -1022 then (1023 - 53) * 2 ^ 52 else 1023 * 2 ^ 52))) *
            (((2 ^ 52 + mag64 y % 2 ^ 52 : Nat) : ℚ) * 2 ^ ((E' : Int) - 1075)) =
            ((2 ^ 52 + mag64 y % 2 ^ 52 : Nat) : ℚ) * 2 ^ (X - 52) := by
          split at hE'
          · rename_i g
            rw [if_pos g]
            have em : mag64 (BitVec.ofNat 64 ((1023 - 53) * 2 ^ 52)) = 2 ^ 52 * 970 + 0 := by decide
            rw [em, value64_normal _ _ (by norm_num) (by norm_num)]
            have e1 : (2 : ℚ) ^ (X - 52) = 2 ^ (52 : Int) * 2 ^ (((970 : Nat) : Int) - 1075) * 2 ^ ((E' : Int) - 1075) := by
              rw [← zadd, ← zadd]; congr 1; push_cast; omega
            rw [e1]
            norm_num
            ring
          · rename_i g
            rw [if_neg g]
            have em : mag64 (BitVec.ofNat 64 (1023 * 2 ^ 52)) = 2 ^ 52 * 1023 + 0 := by decide
            rw [em, value64_normal _ _ (by norm_num) (by norm_num)]
            have e1 : (2 : ℚ) ^ (X - 52) = 2 ^ (52 : Int) * 2 ^ (((1023 : Nat) : Int) - 1075) * 2 ^ ((E' : Int) - 1075) := by
              rw [← zadd, ← zadd]; congr 1; push_cast; omega
            rw [e1]
            norm_num
        rwa [this] at hc2

/-- `frexp`: a fraction in [1/2, 1) and an exponent that together make the number, exactly. -/
theorem frexp_spec (x : D) (h0 : mag64 x ≠ 0) (hf : mag64 x < b64.inf) :
    (frexp x).1.msb = x.msb ∧ mag64 (frexp x).1 / 2 ^ 52 = 1022 ∧
    b64.value (mag64 (frexp x).1) * 2 ^ (frexp x).2 = b64.value (mag64 x) := by
  obtain ⟨n1, n2, n3, n4⟩ := f64Normalize_spec x h0 hf
  unfold frexp
  have z : f64IsZero x = false := by unfold f64IsZero; simpa using h0
  have nf : f64NotFinite x = false := by unfold f64NotFinite; simpa using hf
  rw [z, nf]
  simp only [Bool.false_eq_true, if_false]
  rw [show (0x7ff#64) = 2047#64 by rfl, f64_field, show (1022#64) = BitVec.ofNat 64 1022 by rfl,
    f64_put _ 1022 (by norm_num), ← n4, ← n1]
  generalize (f64Normalize x).1 = y at *
  generalize (f64Normalize x).2 = r at *
  have hM : mag64 y % 2 ^ 52 < 2 ^ 52 := Nat.mod_lt _ (by norm_num)
  have b1 : 2 ^ 52 * 1022 + mag64 y % 2 ^ 52 < 2 ^ 63 := by omega
  rw [mag64_mk64 _ _ b1, msb_mk64 _ _ b1]
  refine ⟨rfl, by omega, ?_⟩
  rw [value64_normal _ _ (by norm_num) hM, value64_normal' _ n2, mul_assoc, mul_assoc, ← zadd, ← zadd]
  congr 2
  push_cast; ring

theorem hwOfU64_spec (n : Nat) (hn : n < 2 ^ 53) :
    (hwOfU64 n).msb = false ∧ mag64 (hwOfU64 n) < b64.inf ∧ b64.value (mag64 (hwOfU64 n)) = n := by
  unfold hwOfU64
  have h := rneBits_nearest b64 n 1 (by norm_num)
  have key : rneBits b64 n 1 < b64.inf ∧ b64.value (rneBits b64 n 1) = n := by
    rcases Nat.eq_zero_or_pos n with rfl | hp
    · have : rneBits b64 0 1 = 0 := by unfold rneBits; rfl
      rw [this, b64.value_zero]
      exact ⟨by decide, by simp⟩
    · obtain ⟨c, hc1, hc2⟩ := b64.exists_code n 0 hp (by rw [b64_mb]; omega) (by rw [b64_mb, b64_bias]; norm_num)
        (by
          rw [b64_bias, zpow_zero, mul_one]
          have : (n : ℚ) < 2 ^ (53 : Int) := by exact_mod_cast hn
          exact lt_trans this (zpow_lt_iff.2 (by norm_num)))
      rw [zpow_zero, mul_one] at hc2
      have : rneBits b64 n 1 = c := h.unique (by
        have := b64.nearest_self c hc1
        rw [hc2] at this
        simpa using this)
      rw [this]; exact ⟨hc1, hc2⟩
  have hlt := nearest64_lt h
  rw [mag64_mk64 _ _ hlt, msb_mk64 _ _ hlt]
  exact ⟨rfl, key.1, key.2⟩

end RMath
