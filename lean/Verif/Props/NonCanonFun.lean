import Verif.Props.NonCanon
import Verif.Props.TextStd
import Verif.Lemmas.DecTotal

/-!
# C119: functions of a number with leading zero words

`a * u` and `a - u` with a machine word, `0 << s`, `a >> s` and random numbers may be numbers with leading zero words (C05,
C06, C12, C29).  The theorems describe what the functions of one number do with them.
-/

namespace RMath

private theorem isNan_of_ne {x : Words} (hx : x ≠ NaN) : isNan x = false := by
  rw [Bool.eq_false_iff]; intro h; exact hx (isNan_iff.1 h)

theorem sqrtLoop_value {x : Words} (hx : x ≠ NaN) : ∀ (fuel : Nat) (z : Words),
    sqrtLoop x fuel z = sqrtLoop (enc (val x)) fuel z := by
  intro fuel
  induction fuel with
  | zero => intro z; rfl
  | succ fuel ih =>
    intro z
    have h := (C118_left x (enc (val x)) z 0#32 0 hx (canon_enc _) (val_enc _)).2.2.2.1
    rw [sqrtLoop, sqrtLoop, h]
    simp only [ih]

theorem sqrtLoop_zero : ∀ (fuel z : Nat), z < fuel → sqrtLoop (enc 0) fuel (enc z) = .error .panic := by
  intro fuel
  induction fuel with
  | zero => intro z h; omega
  | succ fuel ih =>
    intro z hf
    rw [sqrtLoop]
    by_cases hz : z = 0
    · subst hz
      have hd : natDiv (enc 0) (enc 0) = .error .panic := by
        rw [enc_zero]; rfl
      rw [hd]; rfl
    · have hd : natDiv (enc 0) (enc z) = .ok (enc 0) := by
        simp [natDiv, opNatR, divInner_enc hz]
      have ha : assignPrim shrInner (assignNat addInner (enc 0) (enc z)) 1 = enc (z / 2) := by
        simp only [assignPrim, assignNat, isNan_enc, addInner_enc, Bool.false_or, Bool.false_eq_true, if_false]
        rw [shrInner_enc_lt (by norm_num), Nat.pow_one, Nat.zero_add]
      simp only [hd, bind, Except.bind, ha, geOp_enc]
      rw [if_neg (by simp; omega)]
      exact ih _ (by omega)

private theorem natSqrt_padded {x : Words} (hp : Padded x) :
    natSqrt x = sqrtLoop (enc (val x)) (2 ^ (((x.length - 1) * 32 + 1) / 2) + 1) (enc (2 ^ (((x.length - 1) * 32 + 1) / 2))) := by
  have hx : x ≠ NaN := by rintro rfl; exact absurd hp.1 (by simp [NaN])
  unfold natSqrt
  have hle : leOp x [1#32] = false := by
    have h2 := (C118_compare x [1#32] hx (by simp [NaN])).1
    have := hp.1
    rw [if_neg (by simp; omega), if_pos (by simp; omega)] at h2
    rw [leOp, h2]
  rw [isNan_of_ne hx, hle, Bool.or_self, if_neg (by simp)]
  simp only
  have hz : assignPrim shlInner [1#32] ((bitsLen x + 1) / 2) = enc (2 ^ (((x.length - 1) * 32 + 1) / 2)) := by
    rw [bitsLen_padded hp, ← enc_one]
    simp only [assignPrim, isNan_enc, Bool.false_eq_true, if_false]
    rw [shlInner_enc (by norm_num), Nat.one_mul]
  rw [hz, val_enc, sqrtLoop_value hx]

/-- `x.sqrt()` is the root of the value for every vector, unless it is a zero with leading zero words. -/
theorem C119_sqrt_partial (x : Words) (hx : x ≠ NaN) (h : Canon x ∨ val x ≠ 0) :
    natSqrt x = .ok (enc (Nat.sqrt (val x))) := by
  by_cases hc : Canon x
  · obtain ⟨n, rfl⟩ := canon_iff_enc.1 hc
    rw [natSqrt_enc, val_enc]
  · have hp := (not_canon_iff_padded hx).1 hc
    rw [natSqrt_padded hp]
    refine sqrtLoop_enc _ _ _ (by positivity) ?_ (by rcases h with h | h; exact absurd h hc; omega) (by omega)
    rw [← Nat.lt_succ_iff]
    apply Nat.sqrt_lt'.2
    refine hp.val_lt.trans (lt_of_le_of_lt ?_ (Nat.pow_lt_pow_left (Nat.lt_succ_self _) (by norm_num)))
    rw [← Nat.pow_mul]
    exact Nat.pow_le_pow_right (by norm_num) (by omega)

example : natSqrt (natMulW [10#32] 10#32) = .ok [10#32] ∧ ¬ Canon (natMulW [10#32] 10#32) := by
  refine ⟨(C119_sqrt_partial _ (by decide) (Or.inr (by decide))).trans ?_, ?_⟩
  · have : val (natMulW [10#32] 10#32) = 10 * 10 := by decide
    rw [this, Nat.sqrt_eq, show (10 : Nat) = (10#32 : W).toNat by decide, ← singleton_eq_enc]
    rfl
  · rw [show natMulW [10#32] 10#32 = [100#32, 0#32] by decide]
    rintro ⟨_, h | h⟩
    · simp at h
    · simp at h

/-- The square root of a zero with leading zero words panics: the iteration reaches zero and divides by it. -/
theorem C119_sqrt_zero_panics (x : Words) (hx : x ≠ NaN) (h0 : val x = 0) (hc : ¬ Canon x) : natSqrt x = .error .panic := by
  have hp := (not_canon_iff_padded hx).1 hc
  rw [natSqrt_padded hp, h0]
  exact sqrtLoop_zero _ _ (by omega)

/-- … in particular `(0 << s).sqrt()` for every `s ≥ 32`. -/
theorem C119_sqrt_shifted_zero (s : Nat) (hs : 32 ≤ s) : natSqrt (natShl [0#32] s) = .error .panic ∧
    bSqrt (bShl bZero s) = .error .panic := by
  have h1 := (C05_shl_zero_not_canonical s hs).1
  have h2 : val (natShl [0#32] s) = 0 := by rw [C05_shl_val _ _ (by simp [NaN])]; simp [val]
  have h3 : natShl [0#32] s ≠ NaN := by
    rw [natShl_zero]; simp [NaN]
  have h4 := C119_sqrt_zero_panics _ h3 h2 h1
  refine ⟨h4, ?_⟩
  have e : bShl bZero s = ⟨natShl [0#32] s, false⟩ := rfl
  rw [e, bSqrt]
  simp only [bIsNan, isNan_of_ne h3, Bool.or_self, Bool.false_eq_true, if_false, h4]
  rfl

/-- `bits_len` of a number with leading zero words counts all words but the last; `is_set_bit` reads the bits below. -/
theorem C119_bits (x : Words) (hx : x ≠ NaN) (hc : ¬ Canon x) (i : Nat) :
    bitsLen x = 32 * (x.length - 1) ∧
    isSetBit x i = .ok (if i < 32 * (x.length - 1) then some ((val x).testBit i) else none) ∧
    val x < 2 ^ bitsLen x := by
  have hp := (not_canon_iff_padded hx).1 hc
  have e : bitsLen x = 32 * (x.length - 1) := by rw [bitsLen_padded hp, Nat.mul_comm]
  refine ⟨e, ?_, by rw [e]; exact hp.val_lt⟩
  unfold isSetBit
  rw [e]
  have := hp.1
  by_cases h : i < 32 * (x.length - 1)
  · rw [if_neg (by omega), isSetBit__val (by omega), if_pos h]
  · rw [if_pos (by omega), if_neg h]

example : bitsLen (natMulW [3#32] 1#32) = 32 ∧ bitsLen [3#32] = 2 := by decide

/-- The bytes of a number with leading zero words denote its value, but there are `4·(n-1) + 1` of them. -/
theorem C119_bytes (x : Words) (hx : x ≠ NaN) (hc : ¬ Canon x) :
    bytesVal (toLeBytes x) = val x ∧ (toLeBytes x).length = 4 * (x.length - 1) + 1 ∧
    fromLeBytes (toLeBytes x) = enc (val x) := by
  have hp := (not_canon_iff_padded hx).1 hc
  have hl : (toLeBytes x).length = 4 * (x.length - 1) + 1 := by
    obtain ⟨y, w, rfl⟩ := exists_concat hx
    have hw : w = 0#32 := by have := hp.2; simpa using this
    subst hw
    rw [toLeBytes_length]
    simp [topBytes]
  refine ⟨toLeBytes_val x, hl, ?_⟩
  rw [fromLeBytes_eq (by rw [← List.length_pos_iff, hl]; omega), toLeBytes_val]

example : toLeBytes (natMulW [3#32] 1#32) = [3#8, 0#8, 0#8, 0#8, 0#8] ∧ toLeBytes [3#32] = [3#8] := by decide

/-- `!x` for a number with leading zero words complements all its words. -/
theorem C119_not (x : Words) (hx : x ≠ NaN) (hc : ¬ Canon x) :
    val (natNot x) = 2 ^ (32 * x.length) - 1 - val x ∧ Canon (natNot x) := by
  have hp := (not_canon_iff_padded hx).1 hc
  have hm := val_map_not x
  have e : natNot x = trim (x.map (~~~ ·)) := by
    unfold natNot notInner
    rw [isNan_of_ne hx, bitsLen_padded hp]
    simp only [Nat.mul_mod_left, gt_iff_lt, Nat.lt_irrefl, if_false, Bool.false_eq_true]
    exact trim_of_canon (canon_trim (by simpa using hx))
  rw [e, val_trim]
  exact ⟨by omega, canon_trim (by simpa using hx)⟩

example : val (natNot (natMulW [3#32] 1#32)) = 2 ^ 64 - 4 ∧ val (natNot [3#32]) = 0 := by decide

/-- `{}` and `{:o}` print the value of every number, with and without leading zero words. -/
theorem C119_text_partial (alt : Bool) (x : Words) (hx : x ≠ NaN) :
    natText .display alt x = .ok (stdText .display alt (val x)) ∧ natText .octal alt x = .ok (stdText .octal alt (val x)) := by
  have hd : natText .display alt x = .ok (stdText .display alt (val x)) := by
    have h := C110_nat .display alt (enc (val x)) (canon_enc _)
    rw [val_enc] at h
    rw [← h]
    exact natDisplay_words hx
  refine ⟨hd, ?_⟩
  obtain ⟨b1, h1, h2⟩ := natOctal_body false hx
  have h3 := natOctal_head hx
  simp only [Bool.false_eq_true, if_false, List.nil_append] at h1
  rw [h1] at h3
  have e : natOctal true x = ['0', 'o'] ++ natOctal false x := by
    simp [natOctal, isNan_of_ne hx]
  have h4 : natOctal false x = Nat.toDigits 8 (val x) := by
    rw [h1, ← toDigits_of_numeral (by norm_num) h2 h3, map_digitChar (by norm_num) h2]
  simp only [natText, stdText, stdDigits]
  cases alt
  · simpa using h4
  · rw [e, h4]; rfl

/-- `{:b}`, `{:x}`, `{:X}` and `{:?}` print a number with leading zero words with all the digits of all the words but the
last: the value is right, the zeros are superfluous. -/
theorem C119_text_zeros (upper alt : Bool) (base width : Nat) (pre : List Char)
    (h : base = 2 ∧ width = 32 ∨ base = 16 ∧ width = 8) (x : Words) (hx : x ≠ NaN) (hc : ¬ Canon x) :
    ∃ body, natFmt upper base width pre alt x = (if alt then pre else []) ++ body ∧ numeral base body = some (val x) ∧
      body.length = width * (x.length - 1) := by
  have hp := (not_canon_iff_padded hx).1 hc
  have hb : 2 ≤ base ∧ base ≤ 16 ∧ base ^ width = 2 ^ 32 := by
    rcases h with ⟨rfl, rfl⟩ | ⟨rfl, rfl⟩ <;> norm_num
  obtain ⟨body, h1, h2⟩ := natFmt_body upper hb.1 hb.2.1 hb.2.2 pre alt hx
  refine ⟨body, h1, h2, ?_⟩
  obtain ⟨y, w, rfl⟩ := exists_concat hx
  have hw : w = 0#32 := by have := hp.2; simpa using this
  subst hw
  have hy : y ≠ [] := by rintro rfl; exact absurd hp.1 (by simp)
  have hz : (fmtPad upper base width 0#32).dropWhile (· == '0') = [] := by
    rw [List.dropWhile_eq_nil_iff]
    intro c hc
    unfold fmtPad at hc
    obtain ⟨i, _, rfl⟩ := List.mem_map.1 hc
    cases upper
    · simp [fmtChar]
    · simp [fmtChar]; rfl
  have h3 : natFmt upper base width pre alt (y ++ [0#32]) =
      (if alt then pre else []) ++ (y.reverse.map (fmtPad upper base width)).flatten := by
    unfold natFmt
    rw [isNan_of_ne hx, if_neg (by simp), List.reverse_append]
    simp only [List.reverse_cons, List.reverse_nil, List.nil_append, List.cons_append, List.map_cons, List.flatten_cons, hz]
    have hl : (y ++ [0#32]).length ≠ 1 := by simpa using hy
    simp only [hl, and_false, if_false, List.nil_append]
  rw [h3] at h1
  rw [← List.append_cancel_left h1]
  have hl : ∀ l : Words, ((l.map (fmtPad upper base width)).flatten).length = width * l.length := by
    intro l
    induction l with
    | nil => simp
    | cons a as ih => simp [ih, fmtPad_length]; ring
  rw [hl]
  simp

example : natLowerHex false (natMulW [3#32] 1#32) = "00000003".toList ∧ natLowerHex false [3#32] = ['3'] := by decide

/-! ### powers -/

theorem powLoop_words {b : Words} (x : Nat) : ∀ (n i : Nat), 1 ≤ i → val b < 2 ^ (i + n) → i + n ≤ 32 * b.length →
    powLoop b n i (enc (x ^ 2 ^ (i - 1))) (enc (x ^ (val b % 2 ^ i))) = .ok (enc (x ^ val b)) := by
  intro n
  induction n with
  | zero =>
    intro i hi h _
    rw [powLoop, Nat.mod_eq_of_lt (by simpa using h)]
  | succ n ih =>
    intro i hi h hl
    rw [powLoop, isSetBit__val (by omega), mulInner_enc]
    have hsq : x ^ 2 ^ (i - 1) * x ^ 2 ^ (i - 1) = x ^ 2 ^ (i + 1 - 1) := by
      rw [← Nat.pow_add, show i + 1 - 1 = (i - 1) + 1 by omega, Nat.pow_succ, Nat.mul_two]
    rw [hsq]
    have hb := mod_two_pow_succ_testBit (val b) i
    have h' : val b < 2 ^ (i + 1 + n) := by rw [show i + 1 + n = i + (n + 1) by omega]; exact h
    cases ht : (val b).testBit i
    · rw [ht] at hb
      simp only [Bool.toNat_false, Nat.zero_mul, Nat.add_zero] at hb
      simp only
      rw [← hb]
      exact ih (i + 1) (by omega) h' (by omega)
    · rw [ht] at hb
      simp only [Bool.toNat_true, Nat.one_mul] at hb
      simp only
      rw [mulInner_enc, show i + 1 - 1 = i by omega, ← Nat.pow_add, ← hb]
      exact ih (i + 1) (by omega) h' (by omega)

/-- `x.pow(b)` is `x^b` for all vectors, also with leading zero words, except that `0.pow(b)` is 0 and not 1 for a zero `b` with
leading zero words. -/
theorem C119_pow (x b : Words) (hx : x ≠ NaN) (hb : b ≠ NaN) :
    natPow x b = .ok (enc (if val x = 0 ∧ val b = 0 ∧ 2 ≤ b.length then 0 else val x ^ val b)) := by
  rw [natPow, isNan_of_ne hx, isNan_of_ne hb, Bool.or_self, if_neg (by simp), deepClone, trim_eq_enc hx]
  by_cases hc : Canon b
  · obtain ⟨m, rfl⟩ := canon_iff_enc.1 hc
    rw [powInner_enc, val_enc, if_neg]
    rintro ⟨-, rfl, h⟩
    rw [enc_zero] at h
    simp at h
  · have hp := (not_canon_iff_padded hb).1 hc
    have hl := hp.1
    have hev : eqv b [0#32] = false := by
      rw [Bool.eq_false_iff, Ne, eqv_iff hb]
      rintro rfl
      simp at hl
    unfold powInner
    rw [hev, ← enc_zero, eqv_enc]
    by_cases hx0 : val x = 0
    · rw [if_pos (by simpa using hx0), if_neg (by simp)]
      by_cases hb0 : val b = 0
      · rw [if_pos ⟨hx0, hb0, hl⟩]
      · rw [if_neg (by simp [hb0]), hx0, Nat.zero_pow (by omega)]
    · rw [if_neg (by simpa using hx0), if_neg (by simp), isSetBit__val (by omega), if_neg (by simp [hx0]), bitsLen_padded hp]
      simp only [deepClone_enc]
      have h1 := mod_two_pow_succ_testBit (val b) 0
      simp only [Nat.pow_zero, Nat.mod_one, Nat.zero_add, Nat.mul_one] at h1
      have := powLoop_words (b := b) (val x) ((b.length - 1) * 32 - 1) 1 (by omega)
        (by rw [show 1 + ((b.length - 1) * 32 - 1) = 32 * (b.length - 1) by omega]; exact hp.val_lt) (by omega)
      simp only [Nat.sub_self, Nat.pow_zero, Nat.pow_one] at this
      rw [← this]
      congr 1
      rw [Nat.pow_one] at h1
      rw [h1]
      cases (val b).testBit 0 <;> simp [enc_one]

example : natPow (natMulW [3#32] 2#32) [3#32] = .ok (enc 216) ∧ natPow [0#32] [0#32] = .ok [1#32] ∧
    natPow [0#32] (natShl [0#32] 32) = .ok [0#32] := by
  refine ⟨(C119_pow _ _ (by decide) (by decide)).trans ?_, by decide, by decide⟩
  rw [show val (natMulW [3#32] 2#32) = 6 by decide, show val [3#32] = 3 by decide]
  rfl

theorem powModLoop_padded {b n : Words} (hn : Padded n) (h0 : val n ≠ 0) (x sm : Nat) (hsm : sm ≡ x [MOD val n]) :
    ∀ (i acc : Nat), i ≤ 32 * b.length → acc ≡ x ^ (val b / 2 ^ i) [MOD val n] → acc < 2 ^ (32 * (n.length - 1)) →
    ∃ r, powModLoop b n (enc sm) i (enc acc) = .ok (enc r) ∧ r ≡ x ^ val b [MOD val n] ∧ r < 2 ^ (32 * (n.length - 1)) := by
  have hne : n ≠ NaN := by rintro rfl; exact absurd hn.1 (by simp [NaN])
  have hcan : ¬ Canon n := (not_canon_iff_padded hne).2 hn
  have hrem : ∀ a, ∃ r, remInner (enc a) n = .ok (enc r) ∧ r ≡ a [MOD val n] ∧ r < 2 ^ (32 * (n.length - 1)) := by
    intro a
    obtain ⟨q, r, -, h2, -, h4, h5, -, h7⟩ := (C117_all (enc a) n (enc_ne_nil a) hne).2.2.2.2 h0
    obtain ⟨r, rfl⟩ := canon_iff_enc.1 h4
    have h7 := h7 hcan
    rw [natRem, opNatR, isNan_enc, isNan_of_ne hne, Bool.or_self, if_neg (by simp), deepClone_enc] at h2
    rw [val_enc] at h5 h7
    rw [val_enc] at h5
    refine ⟨r, h2, ?_, h7⟩
    unfold Nat.ModEq
    rw [h5, Nat.mul_add_mod_self_right]
  intro i
  induction i with
  | zero =>
    intro acc _ h1 h2
    exact ⟨acc, rfl, by simpa using h1, h2⟩
  | succ i ih =>
    intro acc hi h1 h2
    obtain ⟨r, e1, e2, e3⟩ := hrem (acc * acc)
    rw [powModLoop, mulInner_enc, e1, isSetBit__val (by omega)]
    simp only [bind, Except.bind]
    have hb : val b / 2 ^ i = 2 * (val b / 2 ^ (i + 1)) + ((val b).testBit i).toNat := by
      rw [Nat.pow_succ, ← Nat.div_div_eq_div_mul, Nat.toNat_testBit]
      exact (Nat.div_add_mod (val b / 2 ^ i) 2).symm
    have hsq : r ≡ x ^ (2 * (val b / 2 ^ (i + 1))) [MOD val n] := by
      rw [Nat.two_mul, Nat.pow_add]
      exact e2.trans (h1.mul h1)
    cases ht : (val b).testBit i
    · rw [ht] at hb
      simp only [Bool.toNat_false, Nat.add_zero] at hb
      simp only [Bool.false_eq_true, if_false]
      exact ih r (by omega) (by rw [hb]; exact hsq) e3
    · rw [ht] at hb
      simp only [Bool.toNat_true] at hb
      simp only [if_true]
      obtain ⟨r', f1, f2, f3⟩ := hrem (r * sm)
      rw [mulInner_enc, f1]
      simp only
      exact ih r' (by omega) (by rw [hb, Nat.pow_succ]; exact f2.trans (hsq.mul hsm)) f3

/-- `x.pow_mod(b, n)` with leading zero words in `n`, `n` not zero: it returns, in canonical form, a number congruent to `x^b`,
which need not be less than `n`, only than `2^(32·(l-1))`, if `n` has `l` words. -/
theorem C119_pow_mod_partial (x b n : Words) (hx : x ≠ NaN) (hb : b ≠ NaN) (hn : n ≠ NaN) (hc : ¬ Canon n) (h0 : val n ≠ 0) :
    ∃ r, natPowMod x b n = .ok r ∧ Canon r ∧ val r ≡ val x ^ val b [MOD val n] ∧ val r < 2 ^ (32 * (n.length - 1)) := by
  have hp := (not_canon_iff_padded hn).1 hc
  have hl := hp.1
  rw [natPowMod, isNan_of_ne hx, isNan_of_ne hb, isNan_of_ne hn]
  simp only [Bool.or_self, Bool.false_eq_true, if_false, deepClone]
  rw [trim_eq_enc hx]
  have hev : ∀ w : W, eqv n [w] = false := by
    intro w
    rw [Bool.eq_false_iff, Ne, eqv_iff hn]
    rintro rfl
    simp at hl
  have hrem : ∃ r, remInner (enc (val x)) n = .ok (enc r) ∧ r ≡ val x [MOD val n] := by
    obtain ⟨q, r, -, h2, -, h4, h5, -, h7⟩ := (C117_all (enc (val x)) n (enc_ne_nil _) hn).2.2.2.2 h0
    obtain ⟨r, rfl⟩ := canon_iff_enc.1 h4
    rw [natRem, opNatR, isNan_enc, isNan_of_ne hn, Bool.or_self, if_neg (by simp), deepClone_enc] at h2
    rw [val_enc, val_enc] at h5
    refine ⟨r, h2, ?_⟩
    unfold Nat.ModEq
    conv_rhs => rw [h5]
    rw [Nat.mul_add_mod_self_right]
  obtain ⟨sm, e1, e2⟩ := hrem
  have hblen : bitsLen b ≤ 32 * b.length ∧ val b < 2 ^ bitsLen b := by
    by_cases hcb : Canon b
    · have h1 := canon_bitLen hcb
      obtain ⟨m, rfl⟩ := canon_iff_enc.1 hcb
      rw [bitsLen_enc, val_enc] at *
      exact ⟨by omega, lt_pow_bitLen m⟩
    · have h1 := (C119_bits b hb hcb 0)
      exact ⟨by omega, h1.2.2⟩
  unfold powModInner
  rw [hev, hev, if_neg (by simp), if_neg (by simp)]
  simp only [deepClone, trim_enc, e1, bind, Except.bind, ← enc_one]
  obtain ⟨r, f1, f2, f3⟩ := powModLoop_padded (b := b) hp h0 (val x) sm e2 (bitsLen b) 1 hblen.1
    (by rw [Nat.div_eq_of_lt hblen.2, Nat.pow_zero]) (Nat.one_lt_two_pow (by omega))
  exact ⟨enc r, f1, canon_enc r, by rw [val_enc]; exact f2, by rw [val_enc]; exact f3⟩

/-- … and it is not reduced: `10^1 mod (3 * 1u32)` is 10, whereas `10^1 mod 3` is 1. -/
theorem C119_pow_mod_wrong : natPowMod [10#32] [1#32] (natMulW [3#32] 1#32) = .ok [10#32] ∧
    natPowMod [10#32] [1#32] [3#32] = .ok [1#32] := by decide

end RMath
