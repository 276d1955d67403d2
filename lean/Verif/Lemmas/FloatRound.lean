import Verif.Lemmas.FloatWords

/-! # `round` of float.rs, as a function of the mantissa's number -/

namespace RMath

theorem cut_eq {x : Words} {n : Nat} (h1 : 1 ≤ n) (h : n < x.length) :
    (x.rotateLeft (x.length - n)).take n = x.drop (x.length - n) := by
  unfold List.rotateLeft
  simp only
  rw [if_neg (by omega), Nat.mod_eq_of_lt (by omega), List.take_append_of_le_length (by simp; omega)]
  rw [List.take_of_length_le (by simp; omega)]

theorem val_drop (x : Words) (n : Nat) (h : n ≤ x.length) : val (x.drop n) = val x / 2 ^ (32 * n) := by
  have h1 := val_take_add_drop x n h
  have h2 := val_lt (x.take n)
  rw [List.length_take, Nat.min_eq_left h] at h2
  rw [h1, Nat.add_mul_div_left _ _ (by positivity), Nat.div_eq_of_lt h2, Nat.zero_add]

theorem word_and_not_low (a : W) {t : Nat} (ht : t < 32) :
    (a &&& ~~~((1#32 <<< t) - 1#32)).toNat = a.toNat / 2 ^ t * 2 ^ t := by
  have e : (1#32 <<< t) - 1#32 = BitVec.ofNat 32 (2 ^ t - 1) := by
    apply BitVec.eq_of_toNat_eq
    have h2 : 2 ^ t < 2 ^ 32 := Nat.pow_lt_pow_right (by norm_num) ht
    have h3 : 0 < 2 ^ t := by positivity
    rw [BitVec.toNat_sub]
    simp only [BitVec.toNat_shiftLeft, BitVec.toNat_ofNat, Nat.shiftLeft_eq]
    norm_num
    omega
  rw [e]
  apply Nat.eq_of_testBit_eq
  intro i
  rw [BitVec.toNat_and, Nat.testBit_and, ← Nat.shiftRight_eq_div_pow, ← Nat.shiftLeft_eq, Nat.testBit_shiftLeft,
    Nat.testBit_shiftRight]
  by_cases hi : i < 32
  · rw [BitVec.testBit_toNat, BitVec.testBit_toNat, BitVec.getLsbD_not, BitVec.getLsbD_ofNat,
      Nat.testBit_two_pow_sub_one]
    by_cases hti : t ≤ i
    · have h3 : ¬ i < t := by omega
      rw [show t + (i - t) = i by omega, BitVec.testBit_toNat]
      simp [hti, hi, h3]
    · have h3 : i < t := by omega
      simp [hti, hi, h3]
  · have h1 : a.toNat.testBit i = false := by
      rw [BitVec.testBit_toNat]; exact BitVec.getLsbD_of_ge _ _ (by omega)
    rw [h1]
    by_cases hti : t ≤ i
    · rw [show t + (i - t) = i by omega, h1]; simp
    · simp [hti]

theorem clearLow_val {t : Nat} (ht : t < 32) {x : Words} (hx : x ≠ []) :
    ∃ y, clearLow (1#32 <<< t) x = .ok y ∧ y.length = x.length ∧ val y = val x / 2 ^ t * 2 ^ t := by
  cases x with
  | nil => exact absurd rfl hx
  | cons a as =>
    refine ⟨_, rfl, rfl, ?_⟩
    rw [val_cons, val_cons, word_and_not_low a ht]
    have e : 2 ^ 32 * val as = 2 ^ t * (2 ^ (32 - t) * val as) := by
      rw [← Nat.mul_assoc, ← Nat.pow_add]; congr 2; omega
    rw [e, Nat.add_mul_div_left _ _ (by positivity)]
    ring

theorem shrVu_length (s : Nat) (x : Words) : (shrVu s x).length = x.length := by
  induction x with
  | nil => rfl
  | cons a as ih => cases as with
    | nil => rfl
    | cons b bs => simp only [shrVu, List.length_cons] at ih ⊢; omega

theorem shrVu_one_val (x : Words) : val (shrVu 1 x) = val x / 2 := by
  induction x with
  | nil => rfl
  | cons a as ih => cases as with
    | nil => simp [shrVu, Nat.shiftRight_eq_div_pow]
    | cons b bs =>
      simp only [shrVu]
      rw [val_cons, ih, val_cons a, val_cons b]
      have h : (a >>> 1 ||| b <<< (32 - 1)).toNat = a.toNat / 2 + 2 ^ 31 * (b.toNat % 2) := by
        rw [BitVec.toNat_or, BitVec.toNat_ushiftRight, BitVec.toNat_shiftLeft, Nat.shiftRight_eq_div_pow,
          Nat.shiftLeft_eq]
        have e : b.toNat * 2 ^ (32 - 1) % 2 ^ 32 = 2 ^ 31 * (b.toNat % 2) := by
          rw [show (2 : Nat) ^ 32 = 2 * 2 ^ 31 by norm_num, show 32 - 1 = 31 by rfl, Nat.mul_mod_mul_right, Nat.mul_comm]
        rw [e, Nat.lor_comm, ← Nat.two_pow_add_eq_or_of_lt]
        · omega
        · have := a.isLt; omega
      rw [h]
      omega

theorem topBit_testBit {x : Words} (hx : x ≠ []) (i : Nat) :
    (val (x.modify (x.length - 1) (· ||| 1#32 <<< 31))).testBit i
      = (decide (i = 32 * x.length - 1) || (val x).testBit i) := by
  have hp := List.length_pos_iff.2 hx
  rw [testBit_modify _ _ _ _ (by omega)]
  by_cases h : i / 32 = x.length - 1
  · rw [if_pos h, BitVec.toNat_or, Nat.testBit_or, testBit_val, h, List.getElem?_eq_getElem (by omega)]
    simp only [List.getD_eq_getElem?_getD, List.getElem?_eq_getElem (by omega : x.length - 1 < x.length),
      Option.getD_some]
    rw [Bool.or_comm]
    congr 1
    have : (1#32 <<< 31 : W).toNat = 2 ^ 31 := by decide
    rw [this, Nat.testBit_two_pow]
    simp only [decide_eq_decide]
    omega
  · rw [if_neg h]
    have : i ≠ 32 * x.length - 1 := by omega
    simp [this]

/-- What `round` delivers; `k` is the truncated mantissa, `rb` and `st` the rounding and sticky bits. -/
theorem fRound_spec {x : FloatV} {m L sbit : Nat} (hf : x.form = .finite) (hm : x.mant = enc m) (hN : Norm m L)
    (hp : 1 ≤ x.prec) (hlt : x.prec < 32 * L) (hs : sbit ≤ 1) :
    let B := 32 * L - x.prec
    let k := m / 2 ^ B
    let n := (x.prec + 31) / 32
    let t := n * 32 - x.prec
    let rb := m.testBit (B - 1)
    let st := decide (m % 2 ^ (B - 1) ≠ 0 ∨ sbit = 1)
    let inc := (rb || st) && roundInc x.mode x.neg rb st (decide (k % 2 = 1))
    let acc := if rb || st then makeAccuracy (inc != x.neg) else .exact
    ∃ w, fRound x sbit = .ok
      (if inc = true ∧ k + 1 = 2 ^ x.prec then
        (if maxExp ≤ x.exp then { x with acc := acc, form := .inf, mant := w }
         else { x with acc := acc, exp := x.exp + 1, mant := enc (2 ^ (32 * n - 1)) })
       else { x with acc := acc, mant := enc ((k + inc.toNat) * 2 ^ t) }) := by
  intro B k n t rb st inc acc
  have hL := hN.length
  have hLp := hN.pos
  have hn1 : 1 ≤ n := by omega
  have hnL : n ≤ L := by omega
  have ht : t < 32 := by omega
  have hp32 : x.prec + t = 32 * n := by omega
  have hB : B = 32 * (L - n) + t := by omega
  -- the words kept
  obtain ⟨v, hv, hvl, hvv⟩ : ∃ v, (if L > n then ((enc m).rotateLeft (L - n)).take n else enc m) = v ∧ v.length = n ∧
      val v = m / 2 ^ (32 * (L - n)) := by
    by_cases h : L > n
    · refine ⟨_, rfl, ?_, ?_⟩
      · rw [if_pos h, ← hL, cut_eq hn1 (by omega), List.length_drop]; omega
      · rw [if_pos h, ← hL, cut_eq hn1 (by omega), val_drop _ _ (by omega), val_enc]
    · refine ⟨_, rfl, ?_, ?_⟩
      · rw [if_neg h, hL]; omega
      · rw [if_neg h, val_enc, show L - n = 0 by omega]; simp
  have hvne : v ≠ [] := by intro h; rw [h] at hvl; simp at hvl; omega
  have hk : val v / 2 ^ t = k := by
    rw [hvv, Nat.div_div_eq_div_mul, ← Nat.pow_add, ← hB]
  have hkhi : k < 2 ^ x.prec := by
    apply (Nat.div_lt_iff_lt_mul (by positivity)).2
    rw [← Nat.pow_add, show x.prec + B = 32 * L by omega]; exact hN.hi
  have hklo : 2 ^ (x.prec - 1) ≤ k := by
    apply (Nat.le_div_iff_mul_le (by positivity)).2
    rw [← Nat.pow_add, show x.prec - 1 + B = 32 * L - 1 by omega]; exact hN.lo
  have hpow : 2 ^ x.prec * 2 ^ t = 2 ^ (32 * n) := by rw [← Nat.pow_add, hp32]
  -- clearing the low bits
  have hclear : ∀ (c : Nat) (u : Words), u.length = n → val u / 2 ^ t = c → 2 ^ (x.prec - 1) ≤ c →
      clearLow (1#32 <<< t) u = .ok (enc (c * 2 ^ t)) := by
    intro c u hu hc hlo
    obtain ⟨y, h1, h2, h3⟩ := clearLow_val ht (x := u) (by intro h; rw [h] at hu; simp at hu; omega)
    rw [hc] at h3
    rw [h1]
    have := Norm.of_words (x := y) (by intro h; rw [h] at h2; simp at h2; omega)
      (by rw [h2, hu, h3, show 32 * n - 1 = x.prec - 1 + t by omega, Nat.pow_add]; exact Nat.mul_le_mul_right _ hlo)
    rw [this.1, h3]
  unfold fRound
  simp only [hf, hm, hL, ne_eq, not_true_eq_false, if_false]
  rw [if_neg (by omega)]
  rw [isSetBit_enc, if_pos (by rw [hN.bitLen]; omega)]
  simp only [Option.some.injEq]
  have hr : L * 32 - x.prec - 1 = B - 1 := by omega
  rw [hr, sticky_canon (canon_enc m), val_enc, hv]
  change ∃ w, _ = _
  have hrb : decide (m.testBit (B - 1) = true) = rb := by simp [rb]
  rw [hrb]
  obtain ⟨sb, hsb⟩ : ∃ sb, decide ((if sbit = 0 ∧ (rb = false ∨ x.mode = .toNearestEven) then
      (if m % 2 ^ (B - 1) = 0 then 0 else 1) else sbit) % 2 = 1) = sb := ⟨_, rfl⟩
  rw [hsb]
  have hor : (rb || sb) = (rb || st) := by
    rw [← hsb]
    by_cases h1 : m % 2 ^ (B - 1) = 0 <;> rcases (by omega : sbit = 0 ∨ sbit = 1) with h2 | h2 <;>
      cases h3 : rb <;> simp [st, h1, h2]
  have hinc : ∀ l, (rb || st) = true → roundInc x.mode x.neg rb sb l = roundInc x.mode x.neg rb st l := by
    intro l h
    rw [← hsb]
    by_cases h1 : m % 2 ^ (B - 1) = 0 <;> rcases (by omega : sbit = 0 ∨ sbit = 1) with h2 | h2 <;>
      cases h3 : rb <;> cases h4 : x.mode <;> simp [st, h1, h2, roundInc]
  rw [hor]
  by_cases hin : (rb || st) = true
  · rw [if_pos hin]
    obtain ⟨m0, ms, rfl⟩ := List.exists_cons_of_ne_nil hvne
    simp only
    have hbit : decide (m0 &&& (1#32 <<< (n * 32 - x.prec)) ≠ 0#32) = decide (k % 2 = 1) := by
      rw [and_bit_ne_zero _ (by omega), ← hk]
      have h1 := testBit_cons m0 ms t
      rw [if_pos ht] at h1
      rw [← Nat.testBit_eq_decide_div_mod_eq, h1]
    rw [hbit, hinc _ hin]
    have hinceq : roundInc x.mode x.neg rb st (decide (k % 2 = 1)) = inc := by simp [inc, hin]
    rw [hinceq]
    have hacc : acc = makeAccuracy (inc != x.neg) := by simp [acc, hin]
    rw [← hacc]
    cases hi : inc
    · refine ⟨[], ?_⟩
      simp only [Bool.false_eq_true, if_false, false_and, Bool.toNat_false, Nat.add_zero]
      rw [hclear k _ hvl hk hklo]
      rfl
    · have hadd := adcBasic_val false (1#32 <<< t) hvne
      have hal := adcBasic_length false (1#32 <<< t) (m0 :: ms)
      rw [hvl] at hadd hal
      have hlsb : (1#32 <<< t : W).toNat = 2 ^ t := by
        rw [BitVec.toNat_shiftLeft, Nat.shiftLeft_eq]
        have : 2 ^ t < 2 ^ 32 := Nat.pow_lt_pow_right (by norm_num) ht
        simp only [BitVec.toNat_ofNat]
        norm_num
        omega
      rw [hlsb] at hadd
      have hlow := Nat.mod_lt (val (m0 :: ms)) (by positivity : 0 < 2 ^ t)
      have hdm := Nat.div_add_mod (val (m0 :: ms)) (2 ^ t)
      rw [hk] at hdm
      have hne1 : (adcBasic false (1#32 <<< t) (m0 :: ms)).1 ≠ [] := by
        intro h; rw [h] at hal; simp at hal; omega
      have hlt1 := val_lt (adcBasic false (1#32 <<< t) (m0 :: ms)).1
      rw [hal] at hlt1
      change ∃ w, (if true = true then if (adcBasic false (1#32 <<< t) (m0 :: ms)).2 = true then _ else _ else _) = _
      revert hadd hal hne1 hlt1
      generalize adcBasic false (1#32 <<< t) (m0 :: ms) = a
      intro hadd hal hne1 hlt1
      generalize val (m0 :: ms) = V at *
      have hmul : (k + 1) * 2 ^ t = 2 ^ t * k + 2 ^ t := by ring
      rw [if_pos rfl]
      cases hc : a.2
      · rw [hc] at hadd
        simp only [Bool.toNat_false, Nat.mul_zero, Nat.add_zero] at hadd
        have hlt2 : k + 1 < 2 ^ x.prec := by
          by_contra hcon
          have := Nat.mul_le_mul_right (2 ^ t) (Nat.le_of_not_lt hcon)
          omega
        refine ⟨[], ?_⟩
        simp only [Bool.false_eq_true, if_false, Bool.toNat_true]
        rw [if_neg (by omega)]
        have hq : val a.1 / 2 ^ t = k + 1 := by
          rw [hadd]
          exact Nat.div_eq_of_lt_le (by omega) (by rw [Nat.add_mul (k + 1)]; omega)
        rw [hclear (k + 1) a.1 hal hq (by omega)]
        rfl
      · rw [hc] at hadd
        simp only [Bool.toNat_true, Nat.mul_one, Bool.toNat_false, Nat.add_zero] at hadd
        have heq : k + 1 = 2 ^ x.prec := by
          by_contra hcon
          have := Nat.mul_le_mul_right (2 ^ t) (by omega : k + 1 + 1 ≤ 2 ^ x.prec)
          rw [Nat.add_mul (k + 1)] at this
          omega
        have ha1 : val a.1 = V % 2 ^ t := by
          rw [heq, hpow] at hmul; omega
        refine ⟨a.1, ?_⟩
        have hcond : true = true ∧ k + 1 = 2 ^ x.prec := ⟨rfl, heq⟩
        rw [if_pos rfl, if_pos hcond]
        by_cases hmax : maxExp ≤ x.exp
        · rw [if_pos hmax, if_pos hmax]
        · rw [if_neg hmax, if_neg hmax]
          obtain ⟨u, hu⟩ : ∃ u, shrVu 1 a.1 = u := ⟨_, rfl⟩
          have hul : u.length = n := by rw [← hu, shrVu_length, hal]
          have huv : val u < 2 ^ t := by rw [← hu, shrVu_one_val]; omega
          have hune : u ≠ [] := by intro h; rw [h] at hul; simp at hul; omega
          have htop := topBit_testBit hune
          rw [hul] at htop
          have hq : val (u.modify (n - 1) (· ||| 1#32 <<< 31)) / 2 ^ t = 2 ^ (x.prec - 1) := by
            apply Nat.eq_of_testBit_eq
            intro i
            rw [← Nat.shiftRight_eq_div_pow, Nat.testBit_shiftRight, htop, Nat.testBit_two_pow,
              Nat.testBit_lt_two_pow (lt_of_lt_of_le huv (Nat.pow_le_pow_right (by norm_num) (by omega))), Bool.or_false,
              decide_eq_decide]
            omega
          have hmod : (u.modify (n - 1) (· ||| 1#32 <<< 31)).length = n := by rw [List.length_modify, hul]
          rw [hu]
          change (do let mant ← clearLow (1#32 <<< t) (u.modify (n - 1) (· ||| 1#32 <<< 31)); _) = _
          rw [hclear _ _ hmod hq le_rfl, ← Nat.pow_add, show x.prec - 1 + t = 32 * n - 1 by omega]
          rfl
  · refine ⟨[], ?_⟩
    have hif : inc = false := by simp [inc, hin]
    have hacc : acc = .exact := by simp [acc, hin]
    rw [if_neg hin, hif, hacc]
    simp only [Bool.false_eq_true, false_and, if_false, Bool.toNat_false, Nat.add_zero]
    rw [hclear k _ hvl hk hklo]
    rfl

end RMath
