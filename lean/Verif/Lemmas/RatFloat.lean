import Verif.Model.RatFloat
import Verif.Lemmas.Ldexp
import Verif.Lemmas.Rat

/-!
# `Rat::to_f32` and `Rat::to_f64` round to nearest
-/

namespace RMath

/-- `m` is the integer part of `y`, and `s` says whether there is more. -/
structure Trunc (y : ℚ) (m : Nat) (s : Bool) : Prop where
  lo : (m : ℚ) ≤ y
  hi : y < m + 1
  sticky : s = true ↔ y ≠ m

theorem Trunc.of_div (n d : Nat) (hd : d ≠ 0) : Trunc ((n : ℚ) / d) (n / d) (decide (0 < n % d)) := by
  have hd' : (0 : ℚ) < d := by exact_mod_cast Nat.pos_of_ne_zero hd
  have h : (n : ℚ) = d * (n / d : Nat) + (n % d : Nat) := by exact_mod_cast (Nat.div_add_mod n d).symm
  have hr : ((n % d : Nat) : ℚ) < d := by exact_mod_cast Nat.mod_lt n (Nat.pos_of_ne_zero hd)
  generalize n / d = q at *
  have hr0 : (0 : ℚ) ≤ (n % d : Nat) := by positivity
  have hs : n % d = 0 ↔ ((n % d : Nat) : ℚ) = 0 := by norm_cast
  generalize n % d = r at *
  refine ⟨?_, ?_, ?_⟩
  · rw [le_div_iff₀ hd', h]; linarith
  · rw [div_lt_iff₀ hd', h]; linarith
  · rw [decide_eq_true_iff, Nat.pos_iff_ne_zero, not_iff_not, hs, div_eq_iff (ne_of_gt hd'), h]
    constructor <;> intro e <;> linarith

theorem Trunc.shift {y : ℚ} {m : Nat} {s : Bool} (h : Trunc y m s) (k : Nat) :
    Trunc (y / 2 ^ k) (m / 2 ^ k) (s || decide (m % 2 ^ k ≠ 0)) := by
  have hp : (0 : ℚ) < 2 ^ k := by positivity
  have e := Nat.div_add_mod m (2 ^ k)
  have hr := Nat.mod_lt m (by positivity : 2 ^ k > 0)
  have e' : (m : ℚ) = 2 ^ k * (m / 2 ^ k : Nat) + (m % 2 ^ k : Nat) := by exact_mod_cast e.symm
  have hr' : ((m % 2 ^ k : Nat) : ℚ) + 1 ≤ 2 ^ k := by exact_mod_cast hr
  have hr0 : (0 : ℚ) ≤ (m % 2 ^ k : Nat) := by positivity
  have hs : m % 2 ^ k = 0 ↔ ((m % 2 ^ k : Nat) : ℚ) = 0 := by norm_cast
  obtain ⟨h1, h2, h3⟩ := h
  generalize m / 2 ^ k = q at *
  generalize m % 2 ^ k = r at *
  refine ⟨?_, ?_, ?_⟩
  · rw [le_div_iff₀ hp]; linarith
  · rw [div_lt_iff₀ hp]; linarith
  · rw [Bool.or_eq_true, decide_eq_true_iff, h3, ne_eq, ne_eq, ne_eq, hs, div_eq_iff (ne_of_gt hp), ← not_and_or, not_iff_not]
    constructor
    · rintro ⟨a, b⟩; linarith
    · intro a; exact ⟨by linarith, by linarith⟩

/-- Rounding half to even from the integer part of twice the number. -/
theorem Trunc.round {y : ℚ} {m : Nat} {s : Bool} (h : Trunc y m s) :
    RneInt (y / 2) (m / 2 + if m % 2 = 1 ∧ (s = true ∨ m / 2 % 2 = 1) then 1 else 0) ∧
    ((m % 2 = 0 ∧ s = false) ↔
      y / 2 = ((m / 2 + if m % 2 = 1 ∧ (s = true ∨ m / 2 % 2 = 1) then 1 else 0 : Nat) : ℚ)) := by
  obtain ⟨h1, h2, h3⟩ := h
  have e := Nat.div_add_mod m 2
  have e' : (m : ℚ) = 2 * (m / 2 : Nat) + (m % 2 : Nat) := by exact_mod_cast e.symm
  have hm : m % 2 = 0 ∨ m % 2 = 1 := Nat.mod_two_eq_zero_or_one m
  generalize hq : m / 2 = q at *
  generalize hr : m % 2 = r at *
  rcases hm with rfl | rfl
  · simp only [zero_ne_one, false_and, if_false, Nat.add_zero, true_and]
    push_cast at e'
    refine ⟨⟨abs_le.2 ⟨by linarith, by linarith⟩, fun hh => ?_⟩, ?_⟩
    · rcases abs_eq (by norm_num : (0 : ℚ) ≤ 1 / 2) |>.1 hh with hh | hh
      · linarith
      · linarith
    · rw [← Bool.not_eq_true, h3, not_not]
      constructor <;> intro hh <;> linarith
  · push_cast at e'
    simp only [true_and, one_ne_zero, false_and, false_iff]
    split
    · rename_i hc
      have ec : ((q + 1 : Nat) : ℚ) = q + 1 := by push_cast; ring
      refine ⟨⟨abs_le.2 ⟨by linarith, by linarith⟩, fun hh => ?_⟩, by intro hh; linarith⟩
      rcases abs_eq (by norm_num : (0 : ℚ) ≤ 1 / 2) |>.1 hh with hh | hh
      · rcases hc with hc | hc
        · exact absurd (by linarith : y = m) (h3.1 hc)
        · omega
      · linarith
    · rename_i hc
      push Not at hc
      obtain ⟨c1, c2⟩ := hc
      have hy : y = m := by
        by_contra hn
        exact c1 (h3.2 hn)
      rw [Nat.add_zero]
      refine ⟨⟨abs_le.2 ⟨by linarith, by linarith⟩, fun _ => by omega⟩, by intro hh; linarith⟩

/-! ### The steps on machine words -/

section words
variable {w : Nat}

theorem bv_shr (m : BitVec w) (k : Nat) : (m >>> k).toNat = m.toNat / 2 ^ k := by
  rw [BitVec.toNat_ushiftRight, Nat.shiftRight_eq_div_pow]

theorem bv_one (hw : 0 < w) : (1#w).toNat = 1 := by
  rw [BitVec.toNat_ofNat, Nat.mod_eq_of_lt]
  exact Nat.one_lt_two_pow (by omega)

theorem bv_and_one (hw : 0 < w) (m : BitVec w) : (m &&& 1#w).toNat = m.toNat % 2 := by
  rw [BitVec.toNat_and, bv_one hw, show (1 : Nat) = 2 ^ 1 - 1 by norm_num, Nat.and_two_pow_sub_one_eq_mod]

theorem bv_and_mask (m : BitVec w) (k : Nat) (hk : k < w) : (m &&& ((1#w <<< k) - 1#w)).toNat = m.toNat % 2 ^ k := by
  have h1 : ((1#w <<< k) - 1#w).toNat = 2 ^ k - 1 := by
    have hp : 2 ^ k < 2 ^ w := Nat.pow_lt_pow_right (by norm_num) hk
    have e : (1#w <<< k).toNat = 2 ^ k := by
      rw [BitVec.toNat_shiftLeft, bv_one (by omega), Nat.one_shiftLeft, Nat.mod_eq_of_lt hp]
    rw [BitVec.toNat_sub_of_le, e, bv_one (by omega)]
    rw [BitVec.le_def, e, bv_one (by omega)]
    exact Nat.one_le_two_pow
  rw [BitVec.toNat_and, h1, Nat.and_two_pow_sub_one_eq_mod]

theorem bv_and_two (hw : 1 < w) (m : BitVec w) : (m &&& 2#w).toNat = 0 ↔ m.toNat / 2 % 2 = 0 := by
  have h2 : (2#w).toNat = 2 := by
    rw [BitVec.toNat_ofNat, Nat.mod_eq_of_lt]
    calc 2 < 2 ^ 2 := by norm_num
      _ ≤ 2 ^ w := Nat.pow_le_pow_right (by norm_num) (by omega)
  rw [BitVec.toNat_and, h2, show (2 : Nat) = 2 ^ 1 by norm_num, Nat.and_two_pow, Nat.testBit_eq_decide_div_mod_eq]
  norm_num

theorem bv_eq_iff (m n : BitVec w) : m = n ↔ m.toNat = n.toNat := BitVec.toNat_inj.symm

/-- Step 3. -/
theorem quoFit_spec {y : ℚ} {m : BitVec w} {s : Bool} {M : Nat} (hw : M + 2 < w) (e : Int) (h : Trunc y m.toNat s)
    (h1 : (2 : ℚ) ^ (M + 1) ≤ y) (h2 : y < 2 ^ (M + 3)) :
    ∃ y', Trunc y' (quoFit (M + 2) m s e).1.toNat (quoFit (M + 2) m s e).2.1 ∧
      (2 : ℚ) ^ (M + 1) ≤ y' ∧ y' < 2 ^ (M + 2) ∧ y' * 2 ^ (quoFit (M + 2) m s e).2.2 = y * 2 ^ e := by
  have b1 : 2 ^ (M + 1) ≤ m.toNat := by
    have : (2 : ℚ) ^ (M + 1) < m.toNat + 1 := lt_of_le_of_lt h1 h.hi
    have : 2 ^ (M + 1) < m.toNat + 1 := by exact_mod_cast this
    omega
  have b2 : m.toNat < 2 ^ (M + 3) := by
    have : (m.toNat : ℚ) < 2 ^ (M + 3) := lt_of_le_of_lt h.lo h2
    exact_mod_cast this
  have hc : m >>> (M + 2) = 1#w ↔ 2 ^ (M + 2) ≤ m.toNat := by
    rw [bv_eq_iff, bv_shr, bv_one (by omega)]
    have p : 2 ^ (M + 3) = 2 * 2 ^ (M + 2) := by rw [← pow_succ']
    have p0 : 0 < 2 ^ (M + 2) := by positivity
    rw [Nat.div_eq_iff p0]
    omega
  unfold quoFit
  by_cases g : 2 ^ (M + 2) ≤ m.toNat
  · rw [if_pos (hc.2 g)]
    refine ⟨y / 2 ^ 1, ?_, ?_, ?_, ?_⟩
    · have := h.shift 1
      dsimp only
      rw [bv_shr]
      convert this using 2
      rw [Bool.eq_iff_iff, beq_iff_eq, decide_eq_true_iff, bv_eq_iff, bv_and_one (by omega), bv_one (by omega)]
      norm_num
    · have : (2 : ℚ) ^ (M + 2) ≤ y := le_trans (by exact_mod_cast g) h.lo
      rw [pow_succ] at this
      rw [pow_one]; linarith
    · rw [pow_succ] at h2
      rw [pow_one]; linarith
    · dsimp only; rw [zsucc]; ring
  · rw [if_neg (fun c => g (hc.1 c))]
    refine ⟨y, h, h1, ?_, rfl⟩
    push Not at g
    have : (m.toNat : ℚ) + 1 ≤ 2 ^ (M + 2) := by exact_mod_cast g
    linarith [h.hi]

/-- The final rounding. -/
theorem quoRound_spec {y : ℚ} {m : BitVec w} {s : Bool} {M : Nat} (hw : M + 2 < w) (e : Int) (h : Trunc y m.toNat s)
    (h2 : y < 2 ^ (M + 2)) :
    ∃ k, RneInt (y / 2) k ∧ ((quoRound (M + 2) m s e).2.1 = true ↔ y / 2 = k) ∧
      ((quoRound (M + 2) m s e).1.toNat : ℚ) * 2 ^ (quoRound (M + 2) m s e).2.2 = k * 2 ^ e ∧
      (quoRound (M + 2) m s e).1.toNat < 2 ^ (M + 1) := by
  have b2 : m.toNat < 2 ^ (M + 2) := by
    have : (m.toNat : ℚ) < 2 ^ (M + 2) := lt_of_le_of_lt h.lo h2
    exact_mod_cast this
  have p0 : 2 ^ (M + 2) = 2 * 2 ^ (M + 1) := by rw [← pow_succ']
  have p1 : 2 ^ (M + 1) = 2 * 2 ^ M := by rw [← pow_succ']
  have p2 : 0 < 2 ^ M := by positivity
  have pw : 2 ^ (M + 2) < 2 ^ w := Nat.pow_lt_pow_right (by norm_num) hw
  obtain ⟨r1, r2⟩ := h.round
  refine ⟨_, r1, ?_⟩
  unfold quoRound
  have c1 : m &&& 1#w ≠ 0#w ↔ m.toNat % 2 = 1 := by
    rw [ne_eq, bv_eq_iff, bv_and_one (by omega)]; simp
  have c2 : (m &&& 2#w != 0#w) = true ↔ m.toNat / 2 % 2 = 1 := by
    rw [bne_iff_ne, ne_eq, bv_eq_iff, show (0#w).toNat = 0 by simp, bv_and_two (by omega)]; omega
  have madd : (m + 1#w).toNat = m.toNat + 1 := by
    rw [BitVec.toNat_add, bv_one (by omega), Nat.mod_eq_of_lt (by omega)]
  have c3 : (m + 1#w ≥ 1#w <<< (M + 2)) ↔ m.toNat + 1 = 2 ^ (M + 2) := by
    rw [ge_iff_le, BitVec.le_def, BitVec.toNat_shiftLeft, bv_one (by omega), Nat.one_shiftLeft, Nat.mod_eq_of_lt pw, madd]
    omega
  by_cases g1 : m.toNat % 2 = 1
  · rw [if_pos (c1.2 g1)]
    by_cases g2 : s = true ∨ m.toNat / 2 % 2 = 1
    · have hcond : (s || m &&& 2#w != 0#w) = true := by rw [Bool.or_eq_true, c2]; exact g2
      rw [if_pos hcond]
      simp only [g1, g2, and_self, if_true] at r2 ⊢
      split
      · rename_i g3
        rw [c3] at g3
        dsimp only
        rw [← r2]
        refine ⟨by simp, ?_, ?_⟩
        · rw [bv_shr, bv_shr, madd, zsucc, g3]
          have e1 : 2 ^ (M + 2) / 2 ^ 1 / 2 ^ 1 = 2 ^ M := by omega
          have e2 : m.toNat / 2 + 1 = 2 * 2 ^ M := by omega
          rw [e1, e2]; push_cast; ring
        · rw [bv_shr, bv_shr, madd, g3]; omega
      · rename_i g3
        rw [c3] at g3
        dsimp only
        rw [← r2]
        refine ⟨by simp, ?_, ?_⟩
        · rw [bv_shr, madd]
          have e1 : (m.toNat + 1) / 2 ^ 1 = m.toNat / 2 + 1 := by omega
          rw [e1]
        · rw [bv_shr, madd]; omega
    · have hcond : ¬ (s || m &&& 2#w != 0#w) = true := by rw [Bool.or_eq_true, c2]; exact g2
      rw [if_neg hcond]
      simp only [g1, g2, and_false, if_false] at r2 ⊢
      rw [← r2]
      refine ⟨by simp, by rw [bv_shr]; norm_num, by rw [bv_shr]; omega⟩
  · rw [if_neg (fun c => g1 (c1.1 c))]
    have g0 : m.toNat % 2 = 0 := by omega
    simp only [g0, zero_ne_one, false_and, if_false, true_and, Nat.add_zero] at r2 ⊢
    rw [← r2]
    refine ⟨by simp, by rw [bv_shr]; norm_num, by rw [bv_shr]; omega⟩

theorem RneInt.nat_eq {n K : Nat} (h : RneInt (n : ℚ) K) : K = n := by
  have h1 : |((n : ℤ) - K : ℤ)| < 1 := by
    have : |(((n : ℤ) - K : ℤ) : ℚ)| < 1 := by push_cast; rw [abs_sub_comm]; exact lt_of_le_of_lt h.1 (by norm_num)
    exact_mod_cast this
  have := Int.abs_lt_one_iff.1 h1
  omega

/-- Steps 3 and 4: both the exact number and the number handed to `ldexp` round to the same code, and the flag is right
unless the number is below half the smallest positive one; there it says whether the number has no more digits than fit. -/
theorem quoSteps_spec (F : Fmt) {y : ℚ} {m : BitVec w} {s : Bool} (hw : F.mb + 2 < w) (e : Int) (h : Trunc y m.toNat s)
    (h1 : (2 : ℚ) ^ (F.mb + 1) ≤ y) (h2 : y < 2 ^ (F.mb + 3)) :
    ∃ mf ex ef c, quoSteps F.mb F.bias m s e = .ok (mf, ex, ef) ∧ mf.toNat < 2 ^ (F.mb + 1) ∧
      F.Nearest (y * 2 ^ (e - F.mb - 2)) c ∧ F.Nearest (mf.toNat * 2 ^ (ef - F.mb - 1)) c ∧
      (2 ^ (-(F.bias : Int) - F.mb) ≤ y * 2 ^ (e - F.mb - 2) → c < F.inf → (ex = true ↔ F.value c = y * 2 ^ (e - F.mb - 2))) ∧
      (y * 2 ^ (e - F.mb - 2) < 2 ^ (-(F.bias : Int) - F.mb) →
        (ex = true ↔ ∃ (N : Nat) (k : Int), N < 2 ^ (F.mb + 1) ∧ y * 2 ^ (e - F.mb - 2) = N * 2 ^ k)) := by
  obtain ⟨y', t', l', u', eq'⟩ := quoFit_spec hw e h h1 h2
  unfold quoSteps
  dsimp only
  generalize quoFit (F.mb + 2) m s e = f at *
  obtain ⟨m', s', e'⟩ := f
  dsimp only at *
  have hp2 : (2 : ℚ) ^ (F.mb + 2) = 2 * 2 ^ (F.mb + 1) := by rw [← pow_succ']
  have hp1 : (2 : ℚ) ^ (F.mb + 1) = 2 * 2 ^ F.mb := by rw [← pow_succ']
  have b1 : 2 ^ (F.mb + 1) ≤ m'.toNat := by
    have : (2 : ℚ) ^ (F.mb + 1) < m'.toNat + 1 := lt_of_le_of_lt l' t'.hi
    have : 2 ^ (F.mb + 1) < m'.toNat + 1 := by exact_mod_cast this
    omega
  have b2 : m'.toNat < 2 ^ (F.mb + 2) := by
    have : (m'.toNat : ℚ) < 2 ^ (F.mb + 2) := lt_of_le_of_lt t'.lo u'
    exact_mod_cast this
  have hno : ¬ (m' >>> (F.mb + 1) ≠ 1#w) := by
    rw [not_not, bv_eq_iff, bv_shr, bv_one (by omega), Nat.div_eq_iff (by positivity)]
    rw [pow_succ] at b2
    omega
  rw [if_neg hno]
  have hq : y * 2 ^ (e - F.mb - 2) = y' * 2 ^ (e' - F.mb - 2) := by
    rw [show e - F.mb - 2 = e + (-F.mb - 2 : Int) by ring, zadd, ← mul_assoc, ← eq', mul_assoc, ← zadd]
    congr 2
    ring
  rw [hq]
  have big : (1 - (F.bias : Int)) - F.mb ≤ e' → ¬ y' * 2 ^ (e' - F.mb - 2) < 2 ^ (-(F.bias : Int) - F.mb) := by
    intro hge
    rw [not_lt]
    calc (2 : ℚ) ^ (-(F.bias : Int) - F.mb) ≤ 2 ^ (e' - 1) := zpow_le_iff.2 (by omega)
      _ = 2 ^ (F.mb + 1) * 2 ^ (e' - F.mb - 2) := by rw [← zpow_natCast, ← zadd]; congr 1; push_cast; ring
      _ ≤ _ := mul_le_mul_of_nonneg_right l' (le_of_lt (two_zpow_pos _))
  by_cases hd : (1 - (F.bias : Int)) - F.mb ≤ e' ∧ e' ≤ 1 - F.bias
  · -- denormal range
    have hden : quoDenormal F.mb F.bias m' s' e' =
        (m' >>> ((1 - (F.bias : Int)) - (e' - 1)).toNat,
          s' || m' &&& ((1#w <<< ((1 - (F.bias : Int)) - (e' - 1)).toNat) - 1#w) != 0#w, 2 - (F.bias : Int)) := by
      unfold quoDenormal
      dsimp only
      rw [if_pos hd]
    rw [hden]
    obtain ⟨k, hk⟩ := Int.eq_ofNat_of_zero_le (by omega : 0 ≤ (1 - (F.bias : Int)) - (e' - 1))
    rw [hk, Int.toNat_natCast]
    have hkw : k < w := by omega
    have t'' : Trunc (y' / 2 ^ k) (m' >>> k).toNat (s' || m' &&& ((1#w <<< k) - 1#w) != 0#w) := by
      have := t'.shift k
      rw [bv_shr]
      convert this using 2
      rw [Bool.eq_iff_iff, bne_iff_ne, decide_eq_true_iff, ne_eq, bv_eq_iff, bv_and_mask _ _ hkw]
      simp
    have hk1 : (1 : ℚ) ≤ 2 ^ k := one_le_pow₀ (by norm_num)
    have y0 : 0 ≤ y' := le_trans (by positivity) l'
    have hle : y' / 2 ^ k ≤ y' := div_le_self y0 hk1
    obtain ⟨K, r1, r2, r3, r4⟩ := quoRound_spec hw (2 - (F.bias : Int)) t'' (lt_of_le_of_lt hle u')
    have hmf := r4
    generalize quoRound (F.mb + 2) (m' >>> k) _ (2 - (F.bias : Int)) = f at *
    obtain ⟨mf, ex, ef⟩ := f
    dsimp only at *
    have hkpos : 1 ≤ k := by omega
    have hk2 : (2 : ℚ) ≤ 2 ^ k := by
      calc (2 : ℚ) = 2 ^ 1 := by norm_num
        _ ≤ 2 ^ k := pow_le_pow_right₀ (by norm_num) hkpos
    have sc : Scaled F (y' * 2 ^ (e' - F.mb - 2)) 0 (y' / 2 ^ k / 2) := by
      refine ⟨?_, by positivity, ?_, Or.inl rfl⟩
      · rw [div_div, ← pow_succ, div_mul_eq_mul_div, eq_div_iff (by positivity), mul_assoc]
        congr 1
        rw [← zpow_natCast, ← zadd]; congr 1; push_cast; omega
      · have : y' / 2 ^ k ≤ y' / 2 := div_le_div_of_nonneg_left y0 (by norm_num) hk2
        linarith
    have n1 := sc.nearest r1
    have n2 := sc.nearest_rounded r1
    have ev : (mf.toNat : ℚ) * 2 ^ (ef - F.mb - 1) = K * 2 ^ (((0 : Nat) : Int) + 1 - F.bias - F.mb) := by
      rw [show ef - F.mb - 1 = ef + (-F.mb - 1 : Int) by ring, zadd, ← mul_assoc, r3, mul_assoc, ← zadd]
      congr 2
      push_cast; ring
    refine ⟨mf, ex, ef, _, rfl, hmf, n1, by rw [ev]; exact n2, fun _ hlt => ?_, fun hc => absurd hc (big hd.1)⟩
    rw [r2]
    rw [Nat.min_eq_left (by omega : rneCode F 0 K ≤ F.inf), sc.value r1, sc.eq]
    rw [mul_left_inj' (ne_of_gt (two_zpow_pos _))]
    exact eq_comm
  · have hden : quoDenormal F.mb F.bias m' s' e' = (m', s', e') := by
      unfold quoDenormal
      dsimp only
      rw [if_neg hd]
    rw [hden]
    dsimp only
    obtain ⟨K, r1, r2, r3, r4⟩ := quoRound_spec hw e' t' u'
    generalize quoRound (F.mb + 2) m' s' e' = f at *
    obtain ⟨mf, ex, ef⟩ := f
    dsimp only at *
    have ev : (mf.toNat : ℚ) * 2 ^ (ef - F.mb - 1) = K * 2 ^ (e' - F.mb - 1) := by
      rw [show ef - F.mb - 1 = ef + (-F.mb - 1 : Int) by ring, zadd, ← mul_assoc, r3, mul_assoc, ← zadd]
      congr 2
      ring
    have eq2 : y' * 2 ^ (e' - F.mb - 2) = y' / 2 * 2 ^ (e' - F.mb - 1) := by
      rw [show (e' - F.mb - 1 : Int) = (e' - F.mb - 2) + 1 by ring, zsucc]; ring
    by_cases hlow : e' < (1 - (F.bias : Int)) - F.mb
    · -- below half the smallest positive number
      have top : ∀ z : ℚ, z ≤ 2 ^ (F.mb + 1) → z * 2 ^ (e' - F.mb - 1) ≤ 2 ^ (-(F.bias : Int) - F.mb) := by
        intro z hz
        calc z * 2 ^ (e' - F.mb - 1) ≤ 2 ^ (F.mb + 1) * 2 ^ (e' - F.mb - 1) :=
              mul_le_mul_of_nonneg_right hz (le_of_lt (two_zpow_pos _))
          _ = 2 ^ e' := by rw [← zpow_natCast, ← zadd]; congr 1; push_cast; ring
          _ ≤ _ := zpow_le_iff.2 (by omega)
      have y0 : 0 ≤ y' := le_trans (by positivity) l'
      have hK : K ≤ 2 ^ (F.mb + 1) := r1.le_of_lt (by push_cast; linarith)
      refine ⟨mf, ex, ef, 0, rfl, r4, ?_, ?_, ?_, fun _ => ?_⟩
      · rw [eq2]
        exact F.nearest_tiny (by positivity) (top _ (by linarith))
      · rw [ev]
        exact F.nearest_tiny (by positivity) (top _ (by exact_mod_cast hK))
      · intro hge _
        exfalso
        have : y' / 2 * 2 ^ (e' - F.mb - 1) < 2 ^ (F.mb + 1) * 2 ^ (e' - F.mb - 1) :=
          mul_lt_mul_of_pos_right (by linarith) (two_zpow_pos _)
        rw [eq2] at hge
        have h3 : (2 : ℚ) ^ (F.mb + 1) * 2 ^ (e' - F.mb - 1) ≤ 2 ^ (-(F.bias : Int) - F.mb) := top _ (le_refl _)
        linarith
      · rw [r2, eq2]
        constructor
        · intro hK'
          refine ⟨K, e' - F.mb - 1, ?_, by rw [hK']⟩
          have : (K : ℚ) < 2 ^ (F.mb + 1) := by rw [← hK']; linarith
          exact_mod_cast this
        · rintro ⟨N, k, hN, hk⟩
          have hyk : y' / 2 = N * 2 ^ (k - (e' - F.mb - 1)) := by
            have := two_zpow_pos (e' - F.mb - 1)
            rw [zpow_sub₀ (by norm_num), mul_div_assoc', ← hk, mul_div_assoc, div_self (ne_of_gt this), mul_one]
          have hj : 0 ≤ k - (e' - F.mb - 1) := by
            by_contra hneg
            have h1 : (2 : ℚ) ^ (k - (e' - F.mb - 1)) ≤ 2 ^ (-1 : Int) := zpow_le_iff.2 (by omega)
            have h2 : (N : ℚ) < 2 ^ (F.mb + 1) := by exact_mod_cast hN
            have h3 := two_zpow_pos (k - (e' - F.mb - 1))
            have h4 : (N : ℚ) * 2 ^ (k - (e' - F.mb - 1)) ≤ N * 2 ^ (-1 : Int) :=
              mul_le_mul_of_nonneg_left h1 (by positivity)
            rw [← hyk] at h4
            norm_num at h4
            linarith
          obtain ⟨j, hj'⟩ := Int.eq_ofNat_of_zero_le hj
          have hn : y' / 2 = ((N * 2 ^ j : Nat) : ℚ) := by rw [hyk, hj']; push_cast; rw [zpow_natCast]
          rw [hn] at r1 ⊢
          rw [r1.nat_eq]
    · -- normal range
      obtain ⟨i, hi⟩ := Int.eq_ofNat_of_zero_le (by omega : 0 ≤ e' - 2 + F.bias)
      have sc : Scaled F (y' * 2 ^ (e' - F.mb - 2)) i (y' / 2) := by
        refine ⟨?_, by have : 0 ≤ y' := le_trans (by positivity) l'
                       positivity, by linarith, Or.inr (by linarith)⟩
        rw [eq2]; congr 2; omega
      have n1 := sc.nearest r1
      have n2 := sc.nearest_rounded r1
      refine ⟨mf, ex, ef, _, rfl, r4, n1, ?_, fun _ hlt => ?_, fun hc => absurd hc (big (by omega))⟩
      · rw [ev]
        convert n2 using 3
        omega
      · rw [r2]
        rw [Nat.min_eq_left (by omega : rneCode F i K ≤ F.inf), sc.value r1, sc.eq]
        rw [mul_left_inj' (ne_of_gt (two_zpow_pos _))]
        exact eq_comm

end words

/-! ### The division -/

theorem bitLen_bounds {n : Nat} (h : n ≠ 0) : (2 : ℚ) ^ ((bitLen n : Int) - 1) ≤ n ∧ (n : ℚ) < 2 ^ (bitLen n : Int) := by
  have h1 := pow_bitLen_le h
  have h2 := lt_pow_bitLen n
  have h3 := bitLen_pos n
  constructor
  · rw [show ((bitLen n : Int) - 1) = ((bitLen n - 1 : Nat) : Int) by omega, zpow_natCast]
    exact_mod_cast h1
  · rw [zpow_natCast]; exact_mod_cast h2

theorem natDiv_enc {a b : Nat} (hb : b ≠ 0) : natDiv (enc a) (enc b) = .ok (enc (a / b)) := by
  simp [natDiv, opNatR, divInner_enc hb]

theorem quoDivide_spec (K a b : Nat) (ha : a ≠ 0) (hb : b ≠ 0) :
    ∃ A B : Nat, B ≠ 0 ∧
      quoDivide K (enc a) (enc b) = .ok (enc (A / B), enc (A % B), (bitLen a : Int) - bitLen b) ∧
      (A : ℚ) / B * 2 ^ ((bitLen a : Int) - bitLen b - K) = (a : ℚ) / b ∧
      (2 : ℚ) ^ ((K : Int) - 1) ≤ (A : ℚ) / B ∧ (A : ℚ) / B < 2 ^ ((K : Int) + 1) := by
  have hb' : (0 : ℚ) < b := by exact_mod_cast Nat.pos_of_ne_zero hb
  obtain ⟨a1, a2⟩ := bitLen_bounds ha
  obtain ⟨b1, b2⟩ := bitLen_bounds hb
  unfold quoDivide
  simp only [bitsLen_enc, deepClone_enc]
  generalize hE : (bitLen a : Int) - bitLen b = e
  have key : ∀ A B : Nat, B ≠ 0 → (A : ℚ) / B = (a : ℚ) / b * 2 ^ ((K : Int) - e) →
      (A : ℚ) / B * 2 ^ (e - K) = (a : ℚ) / b ∧
      (2 : ℚ) ^ ((K : Int) - 1) ≤ (A : ℚ) / B ∧ (A : ℚ) / B < 2 ^ ((K : Int) + 1) := by
    intro A B hB h
    rw [h]
    refine ⟨by rw [mul_assoc, ← zadd]; simp, ?_, ?_⟩
    · have : (2 : ℚ) ^ (e - 1) ≤ (a : ℚ) / b := by
        rw [le_div_iff₀ hb']
        calc (2 : ℚ) ^ (e - 1) * b ≤ 2 ^ (e - 1) * 2 ^ (bitLen b : Int) :=
              mul_le_mul_of_nonneg_left (le_of_lt b2) (le_of_lt (two_zpow_pos _))
          _ = 2 ^ ((bitLen a : Int) - 1) := by rw [← zadd]; congr 1; omega
          _ ≤ a := a1
      calc (2 : ℚ) ^ ((K : Int) - 1) = 2 ^ (e - 1) * 2 ^ ((K : Int) - e) := by rw [← zadd]; congr 1; ring
        _ ≤ _ := mul_le_mul_of_nonneg_right this (le_of_lt (two_zpow_pos _))
    · have : (a : ℚ) / b < 2 ^ (e + 1) := by
        rw [div_lt_iff₀ hb']
        calc (a : ℚ) < 2 ^ (bitLen a : Int) := a2
          _ = 2 ^ (e + 1) * 2 ^ ((bitLen b : Int) - 1) := by rw [← zadd]; congr 1; omega
          _ ≤ _ := mul_le_mul_of_nonneg_left b1 (le_of_lt (two_zpow_pos _))
      calc _ < (2 : ℚ) ^ (e + 1) * 2 ^ ((K : Int) - e) := mul_lt_mul_of_pos_right this (two_zpow_pos _)
        _ = _ := by rw [← zadd]; congr 1; ring
  by_cases g : (K : Int) > e
  · obtain ⟨n, hn⟩ := Int.eq_ofNat_of_zero_le (by omega : 0 ≤ (K : Int) - e)
    have hr : ((a * 2 ^ n : Nat) : ℚ) / (b : Nat) = (a : ℚ) / b * 2 ^ ((K : Int) - e) := by
      rw [hn, zpow_natCast]; push_cast; ring
    obtain ⟨k1, k2, k3⟩ := key _ _ hb hr
    refine ⟨a * 2 ^ n, b, hb, ?_, k1, k2, k3⟩
    simp only [g, decide_true, if_true, hn, Int.toNat_natCast]
    rw [shlInner_enc ha, natDiv_enc hb, natRem_enc hb]
    rfl
  · obtain ⟨n, hn⟩ := Int.eq_ofNat_of_zero_le (by omega : 0 ≤ e - (K : Int))
    have hB : b * 2 ^ n ≠ 0 := by positivity
    have hr : (a : ℚ) / (b * 2 ^ n : Nat) = (a : ℚ) / b * 2 ^ ((K : Int) - e) := by
      rw [show (K : Int) - e = -(n : Int) by omega, zpow_neg, zpow_natCast]; push_cast
      field_simp
    obtain ⟨k1, k2, k3⟩ := key _ _ hB hr
    refine ⟨a, b * 2 ^ n, hB, ?_, k1, k2, k3⟩
    simp only [g, decide_false, Bool.false_eq_true, if_false, hn, Int.toNat_natCast]
    rw [shlInner_enc hb, natDiv_enc hB, natRem_enc hB]
    rfl

theorem low64_enc (v : Nat) (h : v < 2 ^ 64) :
    (if (enc v).length > 1 then ((enc v).headD 0#32).setWidth 64 ||| (((enc v).tail.headD 0#32).setWidth 64 <<< 32)
      else ((enc v).headD 0#32).setWidth 64 : D).toNat = v := by
  rcases Nat.lt_or_ge v (2 ^ 32) with g | g
  · rw [enc_lt g]
    simp
    omega
  · rw [enc_ge g, enc_lt (by omega : v / 2 ^ 32 < 2 ^ 32)]
    simp only [List.length_cons, List.length_nil, List.headD_cons, List.tail_cons]
    rw [if_pos (by norm_num), BitVec.or_comm, BitVec.toNat_or, BitVec.toNat_shiftLeft, BitVec.toNat_setWidth,
      BitVec.toNat_setWidth, BitVec.toNat_ofNat, BitVec.toNat_ofNat]
    rw [Nat.mod_eq_of_lt (by omega : v / 2 ^ 32 % 2 ^ 32 < 2 ^ 64), Nat.shiftLeft_eq,
      Nat.mod_eq_of_lt (by omega : v / 2 ^ 32 % 2 ^ 32 * 2 ^ 32 < 2 ^ 64), Nat.mod_eq_of_lt (by omega : v % 2 ^ 32 < 2 ^ 64),
      Nat.mul_comm, ← Nat.two_pow_add_eq_or_of_lt (by omega : v % 2 ^ 32 < 2 ^ 32)]
    omega

theorem ldexp_zero (e : Int) : ldexp (hwOfU64 0) e = mk64 false 0 := by
  have h : hwOfU64 0 = mk64 false 0 := by unfold hwOfU64; rfl
  rw [h]
  unfold ldexp
  rw [if_pos (by decide)]

/-- `ldexp` of a short integer. -/
theorem ldexp_nat (m : Nat) (hm : m < 2 ^ 53) (e : Int) :
    ∃ c, ldexp (hwOfU64 m) e = mk64 false c ∧ b64.Nearest (m * 2 ^ e) c := by
  rcases Nat.eq_zero_or_pos m with rfl | hp
  · refine ⟨0, ldexp_zero e, ?_⟩
    simpa using b64.nearest_zero
  · obtain ⟨h1, h2, h3⟩ := hwOfU64_spec m hm
    have h0 : mag64 (hwOfU64 m) ≠ 0 := by
      intro h
      rw [h, b64.value_zero] at h3
      have : m = 0 := by exact_mod_cast h3.symm
      omega
    have := ldexp_spec (hwOfU64 m) e h0 h2
    rwa [h1, h3] at this

theorem quoToF64_spec (a b : Nat) (hb : b ≠ 0) :
    ∃ c ex, quoToF64 (enc a) (enc b) = .ok (mk64 false c, ex) ∧ b64.Nearest ((a : ℚ) / b) c ∧
      (a = 0 ∨ (2 : ℚ) ^ (-1075 : Int) ≤ (a : ℚ) / b → (ex = true ↔ c < b64.inf ∧ b64.value c = (a : ℚ) / b)) ∧
      (a ≠ 0 → (a : ℚ) / b < 2 ^ (-1075 : Int) → (ex = true ↔ ∃ (N : Nat) (k : Int), N < 2 ^ 53 ∧ (a : ℚ) / b = N * 2 ^ k)) := by
  unfold quoToF64
  rw [← enc_zero, eqv_enc]
  by_cases ha : a = 0
  · subst ha
    refine ⟨0, true, rfl, by simpa using b64.nearest_zero, fun _ => ?_, fun h => absurd rfl h⟩
    rw [b64.value_zero]
    simp [b64_inf]
  · rw [decide_eq_false ha]
    simp only [Bool.false_eq_true, if_false]
    obtain ⟨A, B, hB, d1, d2, d3, d4⟩ := quoDivide_spec 54 a b ha hb
    rw [show (54 : Int) = ((54 : Nat) : Int) by norm_num, d1]
    simp only [bind, Except.bind, ltOp_enc]
    have t := Trunc.of_div A B hB
    have bnd : A / B < 2 ^ 64 := by
      have h1 : ((A / B : Nat) : ℚ) < 2 ^ (((54 : Nat) : Int) + 1) := lt_of_le_of_lt t.lo d4
      have h2 : ((A / B : Nat) : ℚ) < ((2 ^ 55 : Nat) : ℚ) := by
        refine lt_of_lt_of_le h1 ?_
        norm_num
      have h3 : A / B < 2 ^ 55 := by exact_mod_cast h2
      omega
    have hm := low64_enc (A / B) bnd
    generalize (if (enc (A / B)).length > 1 then _ else _ : D) = m at *
    rw [← hm] at t
    obtain ⟨mf, ex, ef, c, q1, q2, q3, q4, q5, q6⟩ := quoSteps_spec b64 (by decide) ((bitLen a : Int) - bitLen b) t
      (by refine le_trans (le_of_eq ?_) d3; rw [b64_mb]; norm_num)
      (by refine lt_of_lt_of_le d4 (le_of_eq ?_); rw [b64_mb]; norm_num)
    rw [b64_mb, b64_bias, show ((1023 : Nat) : Int) = 1023 from rfl] at q1
    rw [b64_mb] at q2 q3 q4 q5 q6
    rw [b64_bias] at q5 q6
    have e1 : (A : ℚ) / B * 2 ^ ((bitLen a : Int) - bitLen b - (52 : Nat) - 2) = (a : ℚ) / b := by
      rw [← d2]; congr 2; push_cast; ring
    rw [e1] at q3 q5 q6
    rw [q1]
    dsimp only
    obtain ⟨c', l1, l2⟩ := ldexp_nat mf.toNat (by omega) (ef - 53)
    have : c' = c := l2.unique (by convert q4 using 3; push_cast; ring)
    subst this
    rw [l1, mag64_mk64 _ _ (nearest64_lt q3)]
    by_cases hi : c' = b64.inf
    · rw [if_pos hi]
      refine ⟨c', false, rfl, q3, fun _ => ?_, fun _ ht => ?_⟩
      · simp; intro h; omega
      · have h0 : b64.Nearest ((a : ℚ) / b) 0 := b64.nearest_tiny (by positivity) (by
          rw [b64_bias, b64_mb]; exact le_trans ht.le (zpow_le_iff.2 (by norm_num)))
        rw [q3.unique h0] at hi
        exact absurd hi (by rw [b64_inf]; norm_num)
    · rw [if_neg hi]
      have hlt : c' < b64.inf := lt_of_le_of_ne q3.le_inf hi
      refine ⟨c', ex, rfl, q3, fun h => ?_, fun _ ht => q6 (by convert ht using 2; norm_num)⟩
      have h' := h.resolve_left ha
      rw [q5 (by convert h' using 2; norm_num) hlt]
      exact ⟨fun g => ⟨hlt, g⟩, fun g => g.2⟩

/-! ### Singles -/

theorem hwTo32_spec (m : Nat) (hm : m < 2 ^ 24) (e : Int) {c : Nat} (h : b32.Nearest (m * 2 ^ e) c) :
    hwTo32 (ldexp (hwOfU64 m) e) = mk32 false c := by
  obtain ⟨d, l1, l2⟩ := ldexp_nat m (by omega) e
  have hd := nearest64_lt l2
  rw [l1]
  unfold hwTo32
  rw [mag64_mk64 _ _ hd, msb_mk64 _ _ hd]
  have hmq : (m : ℚ) < 2 ^ (24 : Int) := by exact_mod_cast hm
  have step : ∀ q : ℚ, b32.Nearest q c → b64.value d = q → rneBits b32 (fmtNum b64 d) (fmtDen b64) = c := by
    intro q hq hv
    exact rneBits_unique b32 (fmtDen_ne _) hq (by rw [← b64.value_eq, hv])
  rcases Nat.eq_zero_or_pos m with rfl | hp
  · have hd0 : d = 0 := l2.unique (by simpa using b64.nearest_zero)
    rw [if_neg (by rw [hd0, b64_inf]; norm_num)]
    congr 1
    exact step _ h (by rw [hd0, b64.value_zero]; simp)
  · have hm1 : (1 : ℚ) ≤ m := by exact_mod_cast hp
    by_cases hbig : (2 : ℚ) ^ ((b64.bias : Int) + 1) ≤ m * 2 ^ e
    · have hi : d = b64.inf := l2.unique (Or.inr ⟨rfl, by
        have := two_zpow_pos ((b64.bias : Int) - b64.mb - 1)
        linarith⟩)
      rw [if_pos hi]
      congr 1
      refine (Fmt.Nearest.unique h (Or.inr ⟨rfl, ?_⟩)).symm
      have h1 : (2 : ℚ) ^ ((b32.bias : Int) + 1) ≤ 2 ^ ((b64.bias : Int) + 1) := zpow_le_iff.2 (by rw [b32_bias, b64_bias]; norm_num)
      have := two_zpow_pos ((b32.bias : Int) - b32.mb - 1)
      linarith
    · push Not at hbig
      by_cases hlow : -1074 ≤ e
      · obtain ⟨d', h1, h2⟩ := b64.exists_code m e hp (by rw [b64_mb]; omega) (by rw [b64_mb, b64_bias]; push_cast; omega) hbig
        have : d = d' := l2.unique (h2 ▸ b64.nearest_self d' h1)
        subst this
        rw [if_neg (by omega)]
        congr 1
        exact step _ h h2
      · push Not at hlow
        have htiny : (m : ℚ) * 2 ^ e ≤ 2 ^ (-1050 : Int) := by
          calc (m : ℚ) * 2 ^ e ≤ 2 ^ (24 : Int) * 2 ^ e := mul_le_mul_of_nonneg_right (le_of_lt hmq) (le_of_lt (two_zpow_pos _))
            _ ≤ 2 ^ (-1050 : Int) := by rw [← zadd, zpow_le_iff]; omega
        have hpos : 0 ≤ (m : ℚ) * 2 ^ e := by positivity
        have hc0 : c = 0 := h.unique (b32.nearest_tiny hpos (le_trans htiny (zpow_le_iff.2 (by rw [b32_bias, b32_mb]; norm_num))))
        rcases l2 with ⟨x1, x2, x3⟩ | ⟨x1, x2⟩
        · have x4 := (x3 0 (by rw [b64_inf]; norm_num)).1
          rw [b64.value_zero, zero_sub, abs_neg, abs_of_nonneg hpos] at x4
          have x5 := (abs_le.1 x4).2
          have x6 : b64.value d ≤ 2 ^ (-1049 : Int) := by
            rw [show (-1049 : Int) = -1050 + 1 by norm_num, zsucc]; linarith
          rw [if_neg (by omega)]
          congr 1
          refine step (b64.value d) ?_ rfl
          rw [hc0]
          exact b32.nearest_tiny (b64.value_nonneg d) (le_trans x6 (zpow_le_iff.2 (by rw [b32_bias, b32_mb]; norm_num)))
        · exfalso
          rw [b64_bias, b64_mb] at x2
          have y1 : (2 : ℚ) ^ (-1050 : Int) < 2 ^ (1023 : Int) := zpow_lt_iff.2 (by norm_num)
          have y2 : (2 : ℚ) ^ (((1023 : Nat) : Int) - (52 : Nat) - 1) ≤ 2 ^ (1023 : Int) := zpow_le_iff.2 (by norm_num)
          have y3 : (2 : ℚ) ^ (((1023 : Nat) : Int) + 1) = 2 * 2 ^ (1023 : Int) := by rw [← zsucc]; norm_num
          linarith

theorem nearest32_lt {q : ℚ} {c : Nat} (h : b32.Nearest q c) : c < 2 ^ 31 := by
  have := h.le_inf
  rw [b32_inf] at this
  omega

theorem mk32_toNat (s : Bool) (c : Nat) (h : c < 2 ^ 31) : (mk32 s c).toNat = (if s then 2 ^ 31 else 0) + c := by
  unfold mk32
  rw [BitVec.toNat_ofNat]
  cases s <;> simp <;> omega

theorem quoToF32_spec (a b : Nat) (ha : a ≠ 0) (hb : b ≠ 0) :
    ∃ c ex, quoToF32 (enc a) (enc b) = .ok (mk32 false c, ex) ∧ b32.Nearest ((a : ℚ) / b) c ∧
      ((2 : ℚ) ^ (-150 : Int) ≤ (a : ℚ) / b → (ex = true ↔ c < b32.inf ∧ b32.value c = (a : ℚ) / b)) ∧
      ((a : ℚ) / b < 2 ^ (-150 : Int) → (ex = true ↔ ∃ (N : Nat) (k : Int), N < 2 ^ 24 ∧ (a : ℚ) / b = N * 2 ^ k)) := by
  unfold quoToF32
  obtain ⟨A, B, hB, d1, d2, d3, d4⟩ := quoDivide_spec 25 a b ha hb
  rw [← enc_zero, show (25 : Int) = ((25 : Nat) : Int) by norm_num, d1]
  simp only [bind, Except.bind, ltOp_enc]
  have t := Trunc.of_div A B hB
  have bnd : A / B < 2 ^ 26 := by
    have h1 : ((A / B : Nat) : ℚ) < 2 ^ (((25 : Nat) : Int) + 1) := lt_of_le_of_lt t.lo d4
    have h2 : ((A / B : Nat) : ℚ) < ((2 ^ 26 : Nat) : ℚ) := by
      refine lt_of_lt_of_le h1 ?_
      norm_num
    exact_mod_cast h2
  have hm : ((enc (A / B)).headD 0#32).toNat = A / B := by
    rw [enc_lt (by omega)]
    simp
    omega
  generalize (enc (A / B)).headD 0#32 = m at *
  rw [← hm] at t
  obtain ⟨mf, ex, ef, c, q1, q2, q3, q4, q5, q6⟩ := quoSteps_spec b32 (by decide) ((bitLen a : Int) - bitLen b) t
    (by refine le_trans (le_of_eq ?_) d3; rw [b32_mb]; norm_num)
    (by refine lt_of_lt_of_le d4 (le_of_eq ?_); rw [b32_mb]; norm_num)
  rw [b32_mb, b32_bias, show ((127 : Nat) : Int) = 127 from rfl] at q1
  rw [b32_mb] at q2 q3 q4 q5 q6
  rw [b32_bias] at q5 q6
  have e1 : (A : ℚ) / B * 2 ^ ((bitLen a : Int) - bitLen b - (23 : Nat) - 2) = (a : ℚ) / b := by
    rw [← d2]; congr 2; push_cast; ring
  rw [e1] at q3 q5 q6
  rw [q1]
  dsimp only
  rw [hwTo32_spec mf.toNat (by omega) (ef - 24) (by convert q4 using 3; push_cast; ring)]
  have hcode : (mk32 false c).toNat % 2 ^ 31 = c := by
    have := nearest32_lt q3
    rw [mk32_toNat _ _ this]
    simp; omega
  rw [hcode]
  by_cases hi : c = b32.inf
  · rw [if_pos hi]
    refine ⟨c, false, rfl, q3, fun _ => ?_, fun ht => ?_⟩
    · simp; intro h; omega
    · have h0 : b32.Nearest ((a : ℚ) / b) 0 := b32.nearest_tiny (by positivity) (by
        rw [b32_bias, b32_mb]; exact le_trans ht.le (zpow_le_iff.2 (by norm_num)))
      rw [q3.unique h0] at hi
      exact absurd hi (by rw [b32_inf]; norm_num)
  · rw [if_neg hi]
    have hlt : c < b32.inf := lt_of_le_of_ne q3.le_inf hi
    refine ⟨c, ex, rfl, q3, fun h' => ?_, fun ht => q6 (by convert ht using 2; norm_num)⟩
    rw [q5 (by convert h' using 2; norm_num) hlt]
    exact ⟨fun g => ⟨hlt, g⟩, fun g => g.2⟩

theorem quoToF32_zero (b : Nat) (hb : b ≠ 0) : quoToF32 (enc 0) (enc b) = .error .panic := by
  have key : ∃ e r, quoDivide 25 (enc 0) (enc b) = .ok (enc 0, r, e) := by
    unfold quoDivide
    simp only [bitsLen_enc, deepClone_enc]
    have h1 : bitLen 0 = 1 := by simp [bitLen]
    have h2 := bitLen_pos b
    have g : (25 : Int) > (bitLen 0 : Int) - bitLen b := by omega
    simp only [g, decide_true, if_true]
    generalize ((25 : Int) - ((bitLen 0 : Int) - bitLen b)).toNat = s
    have hne : shlInner (enc 0) s ≠ [] := by
      rw [enc_zero]
      unfold shlInner
      simp only
      split <;> simp [shlLoop]
    have hdc : deepClone (shlInner (enc 0) s) = enc 0 := by
      show trim _ = _
      rw [trim_eq_enc hne, shlInner_val]; simp
    have hnan : isNan (shlInner (enc 0) s) = false := by simpa [isNan] using hne
    have e1 : natDiv (shlInner (enc 0) s) (enc b) = .ok (enc 0) := by
      simp [natDiv, opNatR, hdc, hnan, divInner_enc hb]
    have e2 : natRem (shlInner (enc 0) s) (enc b) = .ok (enc 0) := by
      simp [natRem, opNatR, hdc, hnan, remInner_enc hb]
    rw [e1, e2]
    exact ⟨_, _, rfl⟩
  obtain ⟨e, r, h⟩ := key
  unfold quoToF32
  rw [h]
  simp only [bind, Except.bind]
  have : ∀ s : Bool, quoSteps 23 127 ((enc 0).headD 0#32) s e = .error .panic := by
    intro s
    rw [enc_zero]
    unfold quoSteps quoFit
    simp
  rw [this]

end RMath
