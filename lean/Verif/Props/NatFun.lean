import Verif.Props.NatArith
import Verif.Lemmas.NatExp
import Mathlib.Data.Nat.Digits.Defs

/-!
# Properties C15–C24 and C27–C30: functions of `Nat`

A call of the library returns `.ok r`; `.error .panic` is a panic and `.error .hang` would be a loop that the
model's fuel does not cover.  So every statement `… = .ok r` includes termination without panic.
-/

namespace RMath

/-! ## C15, C16 powers -/

/-- `a.pow(b)` returns the canonical vector of `a^b` (with `0^0 = 1`, as in `Nat`). -/
theorem C15_pow (a b : Words) (ha : Canon a) (hb : Canon b) :
    ∃ r, natPow a b = .ok r ∧ Canon r ∧ val r = val a ^ val b := by
  obtain ⟨a, rfl⟩ := canon_iff_enc.1 ha
  obtain ⟨b, rfl⟩ := canon_iff_enc.1 hb
  refine ⟨enc (a ^ b), ?_, canon_enc _, by simp⟩
  simp only [natPow, isNan_enc, Bool.or_self, Bool.false_eq_true, if_false, deepClone_enc, powInner_enc]

/-- `a.pow(b)` with a NaN is NaN. -/
theorem C15_pow_nan (a : Words) : natPow NaN a = .ok NaN ∧ natPow a NaN = .ok NaN := by
  constructor <;> simp [natPow, isNan]

/-- `a.pow_mod(b, n)` returns the canonical vector of `a^b mod n`, and of `a^b` when `n` is zero. -/
theorem C16_pow_mod (a b n : Words) (ha : Canon a) (hb : Canon b) (hn : Canon n) :
    ∃ r, natPowMod a b n = .ok r ∧ Canon r ∧
      val r = if val n = 0 then val a ^ val b else val a ^ val b % val n := by
  obtain ⟨a, rfl⟩ := canon_iff_enc.1 ha
  obtain ⟨b, rfl⟩ := canon_iff_enc.1 hb
  obtain ⟨n, rfl⟩ := canon_iff_enc.1 hn
  refine ⟨enc (a ^ b % n), ?_, canon_enc _, ?_⟩
  · simp only [natPowMod, isNan_enc, Bool.or_self, Bool.false_eq_true, if_false, deepClone_enc, powModInner_enc]
  · simp only [val_enc]
    split
    · next h => rw [h, Nat.mod_zero]
    · rfl

/-- any NaN argument gives NaN -/
theorem C16_pow_mod_nan (a b n : Words) (h : a = NaN ∨ b = NaN ∨ n = NaN) : natPowMod a b n = .ok NaN := by
  rcases h with rfl | rfl | rfl <;> simp [natPowMod, isNan]

/-! ## C17 modular exponentiation with windows and Montgomery products -/

/-- Without overflow checks (a release build), `a.exp(b, n)` is `a^b mod n` for `n > 0` and `a^b` for `n = 0`, in
canonical form, on every code path. -/
theorem C17_exp_release (a b n : Words) (ha : Canon a) (hb : Canon b) (hn : Canon n) :
    ∃ r, natExp false a b n = .ok r ∧ Canon r ∧
      val r = if val n = 0 then val a ^ val b else val a ^ val b % val n := by
  obtain ⟨a, rfl⟩ := canon_iff_enc.1 ha
  obtain ⟨b, rfl⟩ := canon_iff_enc.1 hb
  obtain ⟨n, rfl⟩ := canon_iff_enc.1 hn
  refine ⟨enc (a ^ b % n), natExp_enc false a b n (by simp), canon_enc _, ?_⟩
  simp only [val_enc]
  split
  · next h => rw [h, Nat.mod_zero]
  · rfl

/-- With overflow checks (a debug build) the same holds, except that the exponents described here make `exp`
panic (`C17_exp_debug_panics`).  Missing from the full property: exactly those exponents. -/
theorem C17_exp_debug_partial (a b n : Words) (ha : Canon a) (hb : Canon b) (hn : Canon n)
    (h : ¬(1 < b.length ∧ b.getLast? = some 1#32 ∧ (val a ≤ 1 ∨ val n = 0))) :
    ∃ r, natExp true a b n = .ok r ∧ Canon r ∧
      val r = if val n = 0 then val a ^ val b else val a ^ val b % val n := by
  obtain ⟨a, rfl⟩ := canon_iff_enc.1 ha
  obtain ⟨b, rfl⟩ := canon_iff_enc.1 hb
  obtain ⟨n, rfl⟩ := canon_iff_enc.1 hn
  simp only [val_enc] at h
  refine ⟨enc (a ^ b % n), natExp_enc true a b n (fun _ => h), canon_enc _, ?_⟩
  simp only [val_enc]
  split
  · next h => rw [h, Nat.mod_zero]
  · rfl

example : ¬(1 < sampleA.length ∧ sampleA.getLast? = some 1#32 ∧ (val sampleB ≤ 1 ∨ val sampleA = 0)) := by decide

/-- An exponent of several words with top word 1 makes the shift `v <<= 32` overflow when the base is 0 or 1, or
the modulus is 0. -/
theorem C17_exp_debug_panics (a b n : Words) (ha : Canon a) (_hb : Canon b) (hn : Canon n)
    (h1 : 1 < b.length) (h2 : b.getLast? = some 1#32) (h3 : val a ≤ 1 ∨ val n = 0) (h4 : val n ≠ 1) :
    natExp true a b n = .error .panic := by
  obtain ⟨a, rfl⟩ := canon_iff_enc.1 ha
  obtain ⟨n, rfl⟩ := canon_iff_enc.1 hn
  simp only [val_enc] at h3 h4
  have hb0 : b ≠ [] := by rintro rfl; simp at h1
  obtain ⟨rest, v, hbv⟩ := exists_concat hb0
  have hv : v = 1#32 := by rw [hbv] at h2; simpa using h2
  unfold natExp
  have hnan : isNan b = false := by simp [isNan, hb0]
  simp only [isNan_enc, hnan, Bool.or_self, Bool.false_eq_true, if_false]
  rw [if_neg (mt (len1_eq n 1#32).1 h4), if_neg (by omega), if_neg (by omega)]
  have hiff : (((enc a).length > 1 ∨ (enc a).headD 0#32 > 1#32) ∧ b.length > 1 ∧
      ((enc n).length > 1 ∨ (enc n).headD 0#32 > 0#32)) ↔
      (a > (1#32).toNat ∧ b.length > 1 ∧ n > (0#32).toNat) := by
    rw [long_or_gt a 1#32, long_or_gt n 0#32]
  rw [if_neg (mt hiff.1 (by rintro ⟨q1, _, q2⟩; simp at q1 q2; omega))]
  have hrev : b.reverse = v :: rest.reverse := by rw [hbv]; simp
  rw [hrev, hv]
  simp only
  rw [if_pos (by decide)]

/-- `0u.exp(2^32, 0)` in a debug build: a concrete panic. -/
theorem C17_exp_debug_panic_witness : natExp true [0#32] [0#32, 1#32] [5#32] = .error .panic := by decide

/-- any NaN argument gives NaN -/
theorem C17_exp_nan (c : Bool) (a b n : Words) (h : a = NaN ∨ b = NaN ∨ n = NaN) : natExp c a b n = .ok NaN := by
  rcases h with rfl | rfl | rfl <;> simp [natExp, isNan]

/-- `exp` and `pow_mod` are interchangeable (release build). -/
theorem C17_exp_eq_pow_mod (a b n : Words) (ha : Canon a) (hb : Canon b) (hn : Canon n) :
    natExp false a b n = natPowMod a b n := by
  obtain ⟨r, h1, c1, v1⟩ := C17_exp_release a b n ha hb hn
  obtain ⟨s, h2, c2, v2⟩ := C16_pow_mod a b n ha hb hn
  rw [h1, h2, canon_eq_enc c1, canon_eq_enc c2, v1, v2]

/-! ## C18 Montgomery multiplication -/

/-- One Montgomery multiplication: `n`-word operands and an odd `n`-word modulus whose lowest word is `m₀`, with
`k = -m₀⁻¹ mod 2^32` as computed by the code, yield an `n`-word `z` with `z * 2^(32 n) ≡ x * y (mod m)`. -/
theorem C18_montgomery (x y m : Words) (n : Nat) (hn : 0 < n)
    (hx : x.length = n) (hy : y.length = n) (hm : m.length = n) (hodd : val m % 2 = 1) :
    ∃ z, montgomery x y m (negInv (m.headD 0#32)) n = .ok z ∧ z.length = n ∧
      val z * 2 ^ (32 * n) % val m = val x * val y % val m := by
  have hhead : (m.headD 0#32).toNat = val m % 2 ^ 32 := by
    cases m with
    | nil => simp at hm; omega
    | cons w ws =>
      have := w.isLt
      simp only [List.headD_cons, val]
      omega
  have hk : (val m * (negInv (m.headD 0#32)).toNat + 1) % 2 ^ 32 = 0 := by
    have := negInv_toNat (m := m.headD 0#32) (by rw [hhead]; omega)
    rw [hhead] at this
    generalize (negInv (m.headD 0#32)).toNat = q at this
    rw [← this]
    conv_lhs => rw [Nat.add_mod, Nat.mul_mod]
    conv_rhs => rw [Nat.add_mod, Nat.mul_mod, Nat.mod_mod]
  exact montgomery_spec hx hy hm hn hk

/-- The value `k` computed by the code (five Newton steps) is `-m₀⁻¹` modulo `2^32`. -/
theorem C18_neg_inverse (m0 : W) (h : m0.toNat % 2 = 1) : (m0.toNat * (negInv m0).toNat + 1) % 2 ^ 32 = 0 :=
  negInv_toNat h

example : val sampleA % 2 = 1 ∧ sampleA.length = 3 := by decide

/-! ## C19 square root -/

/-- `a.sqrt()` terminates and returns the canonical `r` with `r² ≤ a < (r+1)²`. -/
theorem C19_sqrt (a : Words) (ha : Canon a) :
    ∃ r, natSqrt a = .ok r ∧ Canon r ∧ val r * val r ≤ val a ∧ val a < (val r + 1) * (val r + 1) := by
  obtain ⟨a, rfl⟩ := canon_iff_enc.1 ha
  refine ⟨enc (Nat.sqrt a), natSqrt_enc a, canon_enc _, ?_, ?_⟩
  · simp only [val_enc]; exact Nat.sqrt_le a
  · simp only [val_enc]; exact Nat.lt_succ_sqrt a

/-- the square root of NaN is NaN -/
theorem C19_sqrt_nan : natSqrt NaN = .ok NaN := by decide

/-! ## C20, C21 Karatsuba -/

/-- `a.mul_karatsuba(b)` is the canonical vector of the product, for any lengths. -/
theorem C20_mul_karatsuba (a b : Words) (ha : Canon a) (hb : Canon b) :
    Canon (natMulKaratsuba a b) ∧ val (natMulKaratsuba a b) = val a * val b ∧ natMulKaratsuba a b = natMul a b := by
  obtain ⟨a, rfl⟩ := canon_iff_enc.1 ha
  obtain ⟨b, rfl⟩ := canon_iff_enc.1 hb
  rw [natMulKaratsuba_enc, natMul, opNat_enc, mulInner_enc]
  simp [canon_enc]

/-- The value is right even for vectors that are not canonical, and the result is canonical. -/
theorem C20_mul_karatsuba_any (a b : Words) (ha : a ≠ NaN) (hb : b ≠ NaN) :
    Canon (natMulKaratsuba a b) ∧ val (natMulKaratsuba a b) = val a * val b := by
  rw [natMulKaratsuba, mulKara_spec ha hb, trim_enc]
  simp [canon_enc]

/-- `a.sqr()` is the canonical vector of `a * a`, through all size-dependent code paths. -/
theorem C21_sqr (a : Words) (ha : Canon a) :
    Canon (natSqr a) ∧ val (natSqr a) = val a * val a ∧ natSqr a = natMul a a := by
  obtain ⟨a, rfl⟩ := canon_iff_enc.1 ha
  rw [natSqr_enc, natMul, opNat_enc, mulInner_enc]
  simp [canon_enc]

/-- The value is right even for vectors that are not canonical, and the result is canonical. -/
theorem C21_sqr_any (a : Words) (ha : a ≠ NaN) : Canon (natSqr a) ∧ val (natSqr a) = val a * val a := by
  rw [natSqr, sqrV_spec ha, trim_enc]
  simp [canon_enc]

/-! ## C22–C24 bytes -/

/-- Export followed by import gives the same vector back, in both byte orders, for numbers and for NaN. -/
theorem C22_bytes_round_trip (a : Words) (ha : Canon a ∨ a = NaN) :
    fromLeBytes (toLeBytes a) = a ∧ fromBeBytes (toBeBytes a) = a := by
  rcases ha with ha | rfl
  · obtain ⟨a, rfl⟩ := canon_iff_enc.1 ha
    have hpos := (toLeBytes_enc_length a).1
    have hne : toLeBytes (enc a) ≠ [] := List.length_pos_iff.1 hpos
    refine ⟨?_, ?_⟩
    · rw [fromLeBytes_eq hne, toLeBytes_val, val_enc]
    · rw [fromBeBytes_eq (by rw [toBeBytes_eq]; simpa using hne), toBeBytes_eq, List.reverse_reverse, toLeBytes_val,
        val_enc]
  · decide

/-- The two encodings are reverses of each other. -/
theorem C22_bytes_reverse (a : Words) : toBeBytes a = (toLeBytes a).reverse := toBeBytes_eq a

/-- Import denotes the positional value, in canonical form. -/
theorem C23_from_bytes (bs : List Byte) (h : bs ≠ []) :
    Canon (fromLeBytes bs) ∧ val (fromLeBytes bs) = bytesVal bs ∧
    Canon (fromBeBytes bs) ∧ val (fromBeBytes bs) = bytesVal bs.reverse ∧
    fromBytes bs = .ok (fromLeBytes bs) := by
  rw [fromLeBytes_eq h, fromBeBytes_eq h, fromBytes_eq h]
  simp [canon_enc]

/-- Empty input gives NaN. -/
theorem C23_from_bytes_empty : fromLeBytes [] = NaN ∧ fromBeBytes [] = NaN ∧ fromBytes [] = .ok NaN := by
  decide

theorem bytesVal_replicate_zero (k : Nat) : bytesVal (List.replicate k 0#8) = 0 := by
  induction k with
  | zero => rfl
  | succ k ih => rw [List.replicate_succ, bytesVal, ih]; rfl

/-- Leading zero bytes do not matter. -/
theorem C23_leading_zeros (bs : List Byte) (k : Nat) (h : bs ≠ []) :
    fromLeBytes (bs ++ List.replicate k 0#8) = fromLeBytes bs ∧
    fromBeBytes (List.replicate k 0#8 ++ bs) = fromBeBytes bs := by
  have e : bytesVal (List.replicate k 0#8) = 0 := bytesVal_replicate_zero k
  constructor
  · rw [fromLeBytes_eq (by simp [h]), fromLeBytes_eq h, bytesVal_append, e, Nat.mul_zero, Nat.add_zero]
  · rw [fromBeBytes_eq (by simp [h]), fromBeBytes_eq h, List.reverse_append, List.reverse_replicate,
      bytesVal_append, e, Nat.mul_zero, Nat.add_zero]

/-- Export denotes the number and is as short as possible: `n` bytes with `256^(n-1) ≤ a < 256^n`, one byte for
zero. -/
theorem C24_to_bytes_minimal (a : Words) (ha : Canon a) :
    bytesVal (toLeBytes a) = val a ∧ 0 < (toLeBytes a).length ∧ val a < 256 ^ (toLeBytes a).length ∧
    (1 < (toLeBytes a).length → 256 ^ ((toLeBytes a).length - 1) ≤ val a) := by
  obtain ⟨a, rfl⟩ := canon_iff_enc.1 ha
  have := toLeBytes_enc_length a
  simp only [toLeBytes_val, val_enc]
  exact ⟨trivial, this⟩

/-- No superfluous zero byte: the most significant byte is not zero unless it is the only one. -/
theorem C24_top_byte (a : Words) (ha : Canon a) (h : 1 < (toLeBytes a).length) :
    ∃ b, (toLeBytes a).getLast? = some b ∧ (toBeBytes a).head? = some b ∧ b ≠ 0#8 := by
  obtain ⟨h1, h2, h3, h4⟩ := C24_to_bytes_minimal a ha
  have hne : toLeBytes a ≠ [] := List.length_pos_iff.1 h2
  refine ⟨(toLeBytes a).getLast hne, List.getLast?_eq_some_getLast hne, ?_, ?_⟩
  · rw [C22_bytes_reverse, List.head?_reverse, List.getLast?_eq_some_getLast hne]
  · intro hb
    have h5 := h4 h
    rw [← h1] at h5
    have hsplit := (List.dropLast_concat_getLast hne).symm
    rw [hb] at hsplit
    have h6 := congrArg bytesVal hsplit
    rw [bytesVal_append] at h6
    have h7 : bytesVal [0#8] = 0 := by decide
    rw [h7, Nat.mul_zero, Nat.add_zero] at h6
    have h8 := bytesVal_lt (toLeBytes a).dropLast
    rw [List.length_dropLast] at h8
    omega

/-- The number of bytes is the number of bits divided by 8, rounded up. -/
theorem C24_bits (a : Words) (ha : Canon a) : (toLeBytes a).length = (bitsLen a + 7) / 8 := by
  obtain ⟨a, rfl⟩ := canon_iff_enc.1 ha
  obtain ⟨h1, h2, h3⟩ := toLeBytes_enc_length a
  rw [bitsLen_enc]
  generalize (toLeBytes (enc a)).length = n at *
  have e : ∀ k, 256 ^ k = 2 ^ (8 * k) := by intro k; rw [Nat.pow_mul]
  rw [e] at h2 h3
  rcases Nat.eq_zero_or_pos a with h0 | h0
  · subst h0
    have : n = 1 := by
      by_contra hn
      have := h3 (by omega)
      have := Nat.two_pow_pos (8 * (n - 1))
      omega
    subst this
    decide
  · have hb1 : bitLen a ≤ 8 * n := by
      rw [bitLen, if_neg (by omega)]
      have := (Nat.log2_lt (by omega : a ≠ 0)).2 h2
      omega
    have hb2 : 1 < n → 8 * (n - 1) < bitLen a := by
      intro hn
      rw [bitLen, if_neg (by omega)]
      have := (Nat.le_log2 (by omega : a ≠ 0)).2 (h3 hn)
      omega
    have hb3 : 1 ≤ bitLen a := by rw [bitLen]; split <;> omega
    by_cases hn : 1 < n
    · have := hb2 hn; omega
    · have : n = 1 := by omega
      subst this; omega

example : 1 < (toLeBytes sampleA).length := by decide

/-! ## C27, C28 bits -/

/-- `bits_len` is the length of the binary expansion, 1 for zero. -/
theorem C27_bits_len (a : Words) (ha : Canon a) :
    1 ≤ bitsLen a ∧ val a < 2 ^ bitsLen a ∧ (val a ≠ 0 → 2 ^ (bitsLen a - 1) ≤ val a) ∧
    (val a = 0 → bitsLen a = 1) := by
  obtain ⟨a, rfl⟩ := canon_iff_enc.1 ha
  rw [bitsLen_enc, val_enc, bitLen]
  split
  · next h => subst h; simp
  · next h => exact ⟨by omega, Nat.lt_log2_self, fun _ => by simpa using Nat.log2_self_le h, fun h' => absurd h' h⟩

/-- `is_set_bit(i)` reads bit `i` below `bits_len` and is `None` from there on; it never panics. -/
theorem C27_is_set_bit (a : Words) (ha : Canon a) (i : Nat) :
    isSetBit a i = .ok (if i < bitsLen a then some ((val a).testBit i) else none) := by
  obtain ⟨a, rfl⟩ := canon_iff_enc.1 ha
  rw [isSetBit_enc, bitsLen_enc, val_enc]

/-- `trailling_zeros` is the number of trailing zero bits: `2^t` divides the number and `2^(t+1)` does not. -/
theorem C27_trailing_zeros (a : Words) (h : val a ≠ 0) :
    2 ^ traillingZeros a ∣ val a ∧ ¬ 2 ^ (traillingZeros a + 1) ∣ val a := by
  obtain ⟨h1, h2⟩ := traillingZeros_spec a h
  constructor
  · exact Nat.dvd_of_mod_eq_zero ((mod_pow_eq_zero_iff _ _).2 h2)
  · intro hd
    have := (mod_pow_eq_zero_iff _ _).1 (Nat.mod_eq_zero_of_dvd hd) (traillingZeros a) (by omega)
    rw [this] at h1
    exact absurd h1 (by simp)

example : val [0#32, 12#32] ≠ 0 ∧ traillingZeros [0#32, 12#32] = 34 := by decide

/-- `sticky(k)` is 1 exactly when some bit below position `k` is set, and 0 otherwise. -/
theorem C28_sticky (a : Words) (ha : Canon a) (k : Nat) :
    (sticky a k = 1 ↔ ∃ i, i < k ∧ (val a).testBit i = true) ∧
    (sticky a k = 0 ↔ ∀ i, i < k → (val a).testBit i = false) := by
  rw [sticky_canon ha]
  have h := mod_pow_eq_zero_iff (val a) k
  split
  · next h0 =>
    have h1 := h.1 h0
    refine ⟨⟨by simp, ?_⟩, ⟨fun _ => h1, fun _ => rfl⟩⟩
    rintro ⟨i, hi, hb⟩
    rw [h1 i hi] at hb
    exact absurd hb (by simp)
  · next h0 =>
    have h1 := mt h.2 h0
    push Not at h1
    obtain ⟨i, hi, hb⟩ := h1
    refine ⟨⟨fun _ => ⟨i, hi, by simpa using hb⟩, fun _ => rfl⟩, ⟨by simp, ?_⟩⟩
    intro h2
    exact absurd (h2 i hi) hb

/-- `set_bits(k, b)` sets bit `k` to `b` and changes no other bit (any vector, canonical or not). -/
theorem C28_set_bits (a : Words) (k : Nat) (b : Bool) (i : Nat) :
    (val (setBits a k b)).testBit i = if i = k then b else (val a).testBit i := setBits_testBit a k b i

/-- setting a bit keeps canonical form -/
theorem C28_set_bits_canon (a : Words) (ha : Canon a) (k : Nat) : Canon (setBits a k true) :=
  setBits_true_canon ha k

/-- clearing a bit need not: clearing the top bit of `2^32` leaves a leading zero word -/
theorem C28_clear_not_canonical : setBits [0#32, 1#32] 32 false = [0#32, 0#32] := by decide

/-! ## C29 random numbers -/

/-- `n.random(rng)`: whatever the source delivers (a list of successful and failed draws), a returned value is
smaller than `n`, is built only from the draws that succeeded — the `len` words drawn last, reduced to the bit
length of `n` — and every earlier group of `len` words was out of range.  Missing from the full property:
canonical form (`C29_not_canonical`). -/
theorem C29_random_partial (n : Words) (hn : Canon n) (h0 : val n ≠ 0) (draws rest : List (Option W)) (r : Words)
    (h : natRandom n draws = some (r, rest)) :
    val r < val n ∧ r.length = n.length ∧
    ∃ used k, draws = used ++ rest ∧ (delivered used).length = (k + 1) * n.length ∧
      val r = val ((delivered used).drop (k * n.length)) % 2 ^ bitsLen n ∧
      ∀ j, j < k → val n ≤ val (((delivered used).drop (j * n.length)).take n.length) % 2 ^ bitsLen n := by
  obtain ⟨n, rfl⟩ := canon_iff_enc.1 hn
  rw [val_enc] at h0
  unfold natRandom at h
  rw [if_neg (by rw [← enc_zero]; simp only [isNan_enc, Bool.false_or, eqv_enc]; simpa using h0)] at h
  obtain ⟨h1, h2, pre, k, h3, h4, h5, h6⟩ := randomLoop_some _ h
  rw [val_enc, bitsLen_enc]
  refine ⟨h2, h1, pre, k, h3, h4, ?_, ?_⟩
  · rw [h5, candidate]
    congr 2
    rw [List.take_of_length_le]
    rw [List.length_drop, h4, Nat.add_mul]; omega
  · intro j hj
    have := h6 j hj
    rw [candidate] at this
    exact this

/-- The call returns as soon as some complete group of delivered words, reduced to the bit length of `n`, is in
range: if it is still drawing, no complete group was. -/
theorem C29_random_terminates (n : Words) (hn : Canon n) (h0 : val n ≠ 0) (draws : List (Option W))
    (h : natRandom n draws = none) (j : Nat) (hj : (j + 1) * n.length ≤ (delivered draws).length) :
    val n ≤ val (((delivered draws).drop (j * n.length)).take n.length) % 2 ^ bitsLen n := by
  obtain ⟨n, rfl⟩ := canon_iff_enc.1 hn
  rw [val_enc] at h0
  unfold natRandom at h
  rw [if_neg (by rw [← enc_zero]; simp only [isNan_enc, Bool.false_or, eqv_enc]; simpa using h0)] at h
  have := randomLoop_none _ (by omega) h j hj
  rw [candidate] at this
  rw [val_enc, bitsLen_enc]
  exact this

/-- NaN and zero give NaN. -/
theorem C29_random_zero (draws : List (Option W)) :
    natRandom NaN draws = some (NaN, draws) ∧ natRandom [0#32] draws = some (NaN, draws) := by
  constructor <;> rfl

/-- The result need not be canonical: `n = 2^32 + 5` and draws 3, 0 give the vector `[3, 0]`, for which `==` with
`3` is false. -/
theorem C29_not_canonical :
    natRandom [5#32, 1#32] [some 3#32, none, some 0#32] = some ([3#32, 0#32], []) ∧
    eqv [3#32, 0#32] [3#32] = false := by decide

/-! ## C30 range product -/

/-- `Nat::mul_range(a, b)` is the product of all integers in `[a, b]` (1 for an empty range, 0 if 0 is in it). -/
theorem C30_mul_range (a b : D) :
    ∃ r, natMulRange a b = .ok r ∧ Canon r ∧ val r = ∏ i ∈ Finset.Icc a.toNat b.toNat, i :=
  ⟨_, natMulRange_eq a b, canon_enc _, val_enc _⟩

end RMath
