import Mathlib.Tactic.NormNum.Prime
import Mathlib.Data.Int.Bitwise
import Verif.Props.BigInt
import Verif.Lemmas.ModSqrt

/-!
# Properties C46, C47, C70, C71: Jacobi symbol, modular square roots, bits and random numbers of `BigInt`

`jacobiSym a b` is Mathlib's Jacobi symbol: the product of the Legendre symbols of `a` at the prime factors of `b`.
The condition `TwosFit` (in `Verif.SpecFun`) says that Euclid's algorithm on the two numbers meets no remainder
for which the shift that removes the factors of two is wrong (C06).
-/

namespace RMath

/-! ## C46 Jacobi symbol -/

/-- `a.jacobi(b)` for odd `b > 0` is the Jacobi symbol.  Missing from the full property: the condition `TwosFit`
(`C46_jacobi_panics`). -/
theorem C46_jacobi_partial (x y : BInt) (hx : CanonI x) (hy : CanonI y) (hpos : 0 < ival y) (hodd : ival y % 2 = 1)
    (hfit : TwosFit (ival x) (ival y).toNat) :
    bJacobi x y = .ok (some (jacobiSym (ival x) (ival y).toNat)) := by
  obtain ⟨a, rfl⟩ := canonI_iff_encI.1 hx
  obtain ⟨b, rfl⟩ := canonI_iff_encI.1 hy
  rw [ival_encI] at *
  obtain ⟨n, rfl⟩ := Int.eq_ofNat_of_zero_le hpos.le
  rw [ival_encI, Int.toNat_natCast] at *
  exact bJacobi_spec hfit (by omega)

/-- No condition is needed for an odd `b` that fits a machine word: `a.jacobi(b)` is the Jacobi symbol for every
`a`. -/
theorem C46_jacobi_word_partial (x y : BInt) (hx : CanonI x) (hy : CanonI y) (hpos : 0 < ival y) (hodd : ival y % 2 = 1)
    (hlt : ival y < 2 ^ 32) :
    bJacobi x y = .ok (some (jacobiSym (ival x) (ival y).toNat)) :=
  C46_jacobi_partial x y hx hy hpos hodd (twosFit_of_lt _ _ (by omega) (by omega))

/-- Nor is it needed for `0 ≤ a < 2^32` and odd `b` of any size. -/
theorem C46_jacobi_small_partial (x y : BInt) (hx : CanonI x) (hy : CanonI y) (hpos : 0 < ival y)
    (hodd : ival y % 2 = 1) (h0 : 0 ≤ ival x) (hlt : ival x < 2 ^ 32) :
    bJacobi x y = .ok (some (jacobiSym (ival x) (ival y).toNat)) :=
  C46_jacobi_partial x y hx hy hpos hodd (twosFit_of_small h0 hlt _ (by omega))

example : CanonI (encI 12345) ∧ CanonI sampleY ∧ 0 < ival sampleY ∧ ival sampleY % 2 = 1 ∧ 0 ≤ ival (encI 12345) ∧
    ival (encI 12345) < 2 ^ 32 := by
  rw [ival_encI]
  exact ⟨canonI_encI _, sampleY_canon, by decide, by decide, by norm_num, by norm_num⟩

example : CanonI sampleX ∧ CanonI (encI 4294967295) ∧ 0 < ival (encI 4294967295) ∧ ival (encI 4294967295) % 2 = 1 ∧
    ival (encI 4294967295) < 2 ^ 32 := by
  rw [ival_encI]
  exact ⟨sampleX_canon, canonI_encI _, by norm_num, by norm_num, by norm_num⟩

/-- an example of `TwosFit` for numbers of several words: `2^64 + 6` modulo `2^64 + 1` -/
example : TwosFit (2 ^ 64 + 6) (2 ^ 64 + 1) :=
  .step (s := 0) (q := 5) (by norm_num) (by norm_num) (shiftFits_lt (by norm_num)) (twosFit_of_lt 5 _ (by norm_num) (by norm_num))

/-- a remainder with 33 factors of two, of which the code removes all: `2^33·3` modulo `2^64 + 1` -/
example : TwosFit (2 ^ 33 * 3) (2 ^ 64 + 1) :=
  .step (s := 33) (q := 3) (by norm_num) (by norm_num) (.inr (by decide)) (twosFit_of_lt 3 _ (by norm_num) (by norm_num))

/-- For an odd negative `b` the result is the symbol at `|b|`, negated when `a` is negative as well. -/
theorem C46_jacobi_negative_partial (x y : BInt) (hx : CanonI x) (hy : CanonI y) (hneg : ival y < 0)
    (hodd : ival y % 2 = 1) (hfit : TwosFit (ival x) (ival y).natAbs) :
    bJacobi x y = .ok (some ((if ival x < 0 then -1 else 1) * jacobiSym (ival x) (ival y).natAbs)) := by
  obtain ⟨a, rfl⟩ := canonI_iff_encI.1 hx
  obtain ⟨b, rfl⟩ := canonI_iff_encI.1 hy
  rw [ival_encI, ival_encI] at *
  unfold bJacobi
  have hb0 : ¬ b = 0 := by omega
  simp only [bIsNan_encI, Bool.or_self, bEqW_zero_encI, hb0, decide_false, Bool.false_eq_true, if_false,
    bIsNegative_encI, hneg, bDeepClone_encI, decide_true, if_true, decide_eq_true_eq]
  have e1 : (⟨(encI b).nat, false⟩ : BInt) = encI (b.natAbs : Int) := by rw [encI_ofNat]; rfl
  have e2 : val (encI b).nat = b.natAbs := by simp [encI]
  rw [e1, e2, bJacobiLoop_spec hfit (by omega) _ _ le_rfl]

example : CanonI (encI (-15)) ∧ ival (encI (-15)) < 0 ∧ ival (encI (-15)) % 2 = 1 ∧
    TwosFit (ival sampleX) (ival (encI (-15))).natAbs := by
  rw [ival_encI]
  exact ⟨canonI_encI _, by norm_num, by norm_num, twosFit_of_lt _ _ (by norm_num) (by norm_num)⟩

/-- NaN operands and `b = 0` give `None`. -/
theorem C46_jacobi_none (x y : BInt) (h : x.nat = NaN ∨ y.nat = NaN ∨ y = bZero) : bJacobi x y = .ok none := by
  unfold bJacobi
  rw [if_pos]
  rcases h with h | h | h
  · simp [bIsNan, h, isNan, NaN]
  · simp [bIsNan, h, isNan, NaN]
  · subst h; simp [bEqW_zero_encI, bZero_eq]

example : bJacobi sampleX bZero = .ok none := C46_jacobi_none _ _ (.inr (.inr rfl))

/-- The code fails the property: `jacobi(2^32, 2^32 + 1)` panics (the remainder is divided by zero after the wrong
shift), although the symbol is defined, and equal to 1. -/
theorem C46_jacobi_panics :
    bJacobi ⟨[0#32, 1#32], false⟩ ⟨[1#32, 1#32], false⟩ = .error .panic ∧
    jacobiSym (2 ^ 32) (2 ^ 32 + 1) = 1 := by
  refine ⟨by rfl, ?_⟩
  rw [show ((2 : Int) ^ 32) = (2 ^ 16) ^ 2 by norm_num, jacobiSym.sq_one']
  norm_num

/-! ## C47 square roots modulo an odd prime -/

/-- no divisor in `[2, d + 1]` -/
def noDiv (p : Nat) : Nat → Bool
  | 0 => true
  | d + 1 => p % (d + 2) != 0 && noDiv p d

theorem noDiv_spec {p k : Nat} (h : noDiv p k = true) : ∀ d, 2 ≤ d → d ≤ k + 1 → ¬ d ∣ p := by
  induction k with
  | zero => intro d h1 h2; omega
  | succ k ih =>
    rw [noDiv, Bool.and_eq_true] at h
    intro d h1 h2 hd
    by_cases he : d = k + 2
    · subst he
      have := Nat.mod_eq_zero_of_dvd hd
      simp [this] at h
    · exact ih h.2 d h1 (by omega) hd

/-- trial division, for the sample primes below -/
theorem prime_of_noDiv {p k : Nat} (h2 : 2 ≤ p) (hk : p < (k + 2) ^ 2) (h : noDiv p k = true) : p.Prime := by
  by_contra hp
  have h1 := Nat.minFac_sq_le_self (by omega) hp
  have h3 : p.minFac < k + 2 := lt_of_pow_lt_pow_left₀ 2 (by omega) (lt_of_le_of_lt h1 hk)
  exact noDiv_spec h _ (Nat.minFac_prime (by omega)).two_le (by omega) (Nat.minFac_dvd p)

theorem prime_sample : Nat.Prime 4294967311 :=
  prime_of_noDiv (k := 65536) (by norm_num) (by norm_num) (by decide +kernel)

/-- What `mod_sqrt` has to return: a square root in `[0, p)`, or `None` if there is none. -/
def IsModSqrt (x : Int) (p : Nat) (r : Option BInt) : Prop :=
  (∃ y, r = some y ∧ CanonI y ∧ 0 ≤ ival y ∧ ival y < p ∧ ival y ^ 2 ≡ x [ZMOD p]) ∨
  (r = none ∧ ∀ y : Int, ¬ y ^ 2 ≡ x [ZMOD p])

/-- `a.mod_sqrt(p)` for an odd prime `p`, in a build without overflow checks.  Missing from the full property: the
conditions that keep the computation away from the wrong right shifts of C06: `TwosFit` for `a` and, when
`p ≡ 1 (mod 8)` (Tonelli-Shanks), `OddPartFits (p - 1)` and a non-residue below `2^32`. -/
theorem C47_mod_sqrt_partial (x y : BInt) (hx : CanonI x) (hy : CanonI y) (p : Nat) (hyp : ival y = p) (hp : p.Prime)
    (h2 : p ≠ 2) (hfit : TwosFit (ival x) p)
    (hT : p % 8 = 1 → OddPartFits (p - 1) ∧ ∃ n : Nat, n < 2 ^ 32 ∧ ¬ IsSquare (n : ZMod p)) :
    ∃ r, bModSqrt false x y = .ok r ∧ IsModSqrt (ival x) p r := by
  obtain ⟨a, rfl⟩ := canonI_iff_encI.1 hx
  obtain ⟨b, rfl⟩ := canonI_iff_encI.1 hy
  rw [ival_encI] at hyp
  subst hyp
  rw [ival_encI] at *
  have := Fact.mk hp
  have hodd : p % 2 = 1 := by rcases hp.eq_two_or_odd with h | h <;> [exact absurd h h2; exact h]
  rcases bModSqrt_spec hodd hfit hT with ⟨z, h0, h1, h3, h4⟩ | ⟨h1, h3⟩
  · exact ⟨_, h4, Or.inl ⟨_, rfl, canonI_encI _, by rwa [ival_encI], by rwa [ival_encI], by rwa [ival_encI]⟩⟩
  · exact ⟨_, h3, Or.inr ⟨rfl, h1⟩⟩

/-- No condition is needed for primes that fit a machine word. -/
theorem C47_mod_sqrt_word_partial (x y : BInt) (hx : CanonI x) (hy : CanonI y) (p : Nat) (hyp : ival y = p)
    (hp : p.Prime) (h2 : p ≠ 2) (hlt : p < 2 ^ 32) :
    ∃ r, bModSqrt false x y = .ok r ∧ IsModSqrt (ival x) p r := by
  have hodd : p % 2 = 1 := by rcases hp.eq_two_or_odd with h | h <;> [exact absurd h h2; exact h]
  have := Fact.mk hp
  refine C47_mod_sqrt_partial x y hx hy p hyp hp h2 (twosFit_of_lt _ _ hodd hlt) fun _ =>
    ⟨oddPartFits_of_not_dvd fun hd => ?_, ?_⟩
  · have := Nat.le_of_dvd (by have := hp.two_le; omega) hd
    omega
  · obtain ⟨n, h1, h3⟩ := exists_nonresidue (p := p) hodd
    refine ⟨n, by omega, ?_⟩
    rw [ZMod.nonsquare_iff_jacobiSym_eq_neg_one] at h3
    simpa using h3

example : CanonI sampleX ∧ CanonI (encI 65537) ∧ ival (encI 65537) = (65537 : Nat) ∧
    Nat.Prime 65537 ∧ 65537 ≠ 2 ∧ 65537 < 2 ^ 32 := by
  rw [ival_encI]
  exact ⟨sampleX_canon, canonI_encI _, by norm_num, by norm_num, by norm_num, by norm_num⟩

/-- a prime of more than one word: `2^34` modulo `4294967311 = 2^32 + 15` -/
example : Nat.Prime 4294967311 ∧ 4294967311 % 8 ≠ 1 ∧ TwosFit (2 ^ 34) 4294967311 := by
  refine ⟨prime_sample, by norm_num, ?_⟩
  exact .step (s := 0) (q := 4294967251) (by norm_num) (by norm_num) (shiftFits_lt (by norm_num))
    (twosFit_of_lt _ _ (by norm_num) (by norm_num))

/-- The code fails the property: `2^32` is the square of `65536`, but its square root modulo the prime `2^32 + 15`
panics. -/
theorem C47_mod_sqrt_panics :
    bModSqrt false ⟨[0#32, 1#32], false⟩ ⟨[15#32, 1#32], false⟩ = .error .panic ∧ Nat.Prime (2 ^ 32 + 15) :=
  ⟨by rfl, prime_sample⟩

/-! ## C70 bits of a `BigInt` -/

/-- `a.is_set_bit(i)`: a returned bit is bit `i` of the two's complement representation; non-negative numbers return
`None` exactly from `bits_len` on.  Missing from the full property: negative numbers return `None` from the bit
length of `|a| - 1` on, which is smaller than `bits_len` for a power of two (`C70_witness`). -/
theorem C70_is_set_bit_partial (x : BInt) (hx : CanonI x) (i : Nat) :
    ∃ o, bIsSetBit x i = .ok o ∧ (∀ b, o = some b → b = Int.testBit (ival x) i) ∧
      (o = none ↔ (if ival x < 0 then bitsLen (natSubW x.nat 1#32) else bitsLen x.nat) ≤ i) := by
  have key : ∀ v : Words, ∃ o, isSetBit v i = .ok o ∧ (∀ b, o = some b → b = (val v).testBit i) ∧
      (o = none ↔ bitsLen v ≤ i) := by
    intro v
    unfold isSetBit
    by_cases h : i ≥ bitsLen v
    · exact ⟨none, by rw [if_pos h], by simp, by simpa using h⟩
    · rw [if_neg h]
      have hlen : i / 32 < v.length := by
        have : bitsLen v ≤ 32 * v.length := by
          unfold bitsLen
          cases v using List.reverseRecOn with
          | nil => simp
          | append_singleton xs w =>
            simp only [List.getLast?_append, List.getLast?_singleton, Option.some_or, List.length_append,
              List.length_singleton]
            split_ifs <;> omega
        omega
      refine ⟨some ((val v).testBit i), by rw [isSetBit__val hlen], by simp, by simpa using h⟩
  obtain ⟨a, rfl⟩ := canonI_iff_encI.1 hx
  rw [ival_encI, bIsSetBit]
  rcases a with m | m
  · obtain ⟨o, h1, h2, h3⟩ := key (enc m)
    refine ⟨o, ?_, ?_, ?_⟩
    · simp [encI, h1]
    · intro b hb
      rw [h2 b hb, val_enc]
      rfl
    · rw [h3]
      have hm : ¬ (Int.ofNat m < 0) := by simp
      rw [if_neg hm]
      rfl
  · obtain ⟨o, h1, h2, h3⟩ := key (natSubW (enc (m + 1)) 1#32)
    refine ⟨o.map (!·), ?_, ?_, ?_⟩
    · rw [encI_negSucc]
      simp [h1]
    · intro b hb
      obtain ⟨c, hc, rfl⟩ := Option.map_eq_some_iff.1 hb
      rw [h2 c hc, natSubW_one, (decW_spec m).1]
      rfl
    · rw [Option.map_eq_none_iff, h3, encI_negSucc, if_pos (Int.negSucc_lt_zero m)]

example : CanonI sampleX ∧ bIsSetBit sampleX 0 = .ok (some true) ∧ bIsSetBit sampleX 1 = .ok (some true) ∧
    bIsSetBit sampleX 2 = .ok (some false) := ⟨sampleX_canon, by rfl, by rfl, by rfl⟩

/-- `-4` has three bits (`bits_len`), but bit 2 is reported as absent. -/
theorem C70_witness : bIsSetBit (encI (-4)) 2 = .ok none ∧ bitsLen (encI (-4)).nat = 3 := by
  have : encI (-4) = ⟨[4#32], true⟩ := by rw [encI, enc_lt (by decide)]; rfl
  rw [this]
  exact ⟨by rfl, by decide⟩

theorem cmp_zero_of_pos {v : Words} (h : 0 < val v) : partialCmp v [0#32] = some .gt := by
  match v, h with
  | [], h => simp [val] at h
  | [a], h =>
    have ha : 0#32 < a := by simpa [val, BitVec.lt_def] using h
    have hb : ¬ a < 0#32 := by simp [BitVec.lt_def]
    simp [partialCmp, isNan, cmpInner, cmpRev, ha]
  | a :: b :: t, h => simp [partialCmp, isNan, cmpInner]

/-- Setting bit `k` of a number (negative ones in two's complement) to `b` changes that bit and no other. -/
theorem C70_set_bits (x : BInt) (hx : CanonI x) (k : Nat) (b : Bool) (i : Nat) :
    Int.testBit (ival (bSetBits x k b)) i = if i = k then b else Int.testBit (ival x) i := by
  obtain ⟨a, rfl⟩ := canonI_iff_encI.1 hx
  rw [ival_encI, bSetBits, bIsNegative_encI]
  rcases a with m | m
  · rw [if_neg (by simp)]
    simp only [Int.ofNat_eq_natCast, encI_ofNat, ival, Bool.false_eq_true, if_false]
    have := setBits_testBit (enc m) k b i
    rw [val_enc] at this
    exact this
  · rw [if_pos (by simp [Int.negSucc_lt_zero]), encI_negSucc]
    simp only
    have hne : setBits (decW (enc (m + 1))) k (!b) ≠ [] := by
      have hl : decW (enc (m + 1)) ≠ [] := by
        intro h
        have := (decW_spec m).2.1
        rw [h] at this
        exact (canon_enc (m + 1)).1 (List.length_eq_zero_iff.1 this.symm)
      intro h
      have h2 := congrArg List.length h
      unfold setBits at h2
      have := List.length_pos_iff.2 hl
      simp only at h2
      split_ifs at h2 <;> simp only [List.length_modify, resize_length, List.length_nil] at h2 <;> omega
    have hv : val (incW (setBits (decW (enc (m + 1))) k (!b))) = val (setBits (decW (enc (m + 1))) k (!b)) + 1 := by
      have : isNan (setBits (decW (enc (m + 1))) k (!b)) = false := by simp [isNan, hne]
      simp only [incW, assignPrim, this, Bool.false_eq_true, if_false]
      rw [addInnerBasic_val hne]; rfl
    rw [cmp_zero_of_pos (by omega)]
    simp only [ival, hv, beq_self_eq_true, if_true]
    have hb := setBits_testBit (decW (enc (m + 1))) k (!b) i
    rw [(decW_spec m).1] at hb
    generalize val (setBits (decW (enc (m + 1))) k (!b)) = w at hb ⊢
    have e : -((w + 1 : Nat) : Int) = Int.negSucc w := rfl
    rw [e]
    change (!w.testBit i) = if i = k then b else !m.testBit i
    rw [hb]
    by_cases hik : i = k <;> simp [hik]

example : CanonI (encI (-4)) ∧ ival (bSetBits (encI (-4)) 40 false) = -4 - 2 ^ 40 := by
  refine ⟨canonI_encI _, ?_⟩
  have : encI (-4) = ⟨[4#32], true⟩ := by rw [encI, enc_lt (by decide)]; rfl
  rw [this]; decide

/-! ## C71 random `BigInt`s -/

/-- `n.random(rng)` for `n ≠ 0`, whatever the source delivers: a returned value lies in `[0, n)` for positive `n` and
in `(n, 0]` for negative `n`.  Missing: the result need not be canonical (as for `Nat`, `C29_not_canonical`), and a
result of several zero words keeps the sign `Negative`. -/
theorem C71_random_partial (n : BInt) (hn : CanonI n) (h0 : ival n ≠ 0) (draws rest : List (Option W)) (r : BInt)
    (h : bRandom n draws = some (r, rest)) :
    (0 < ival n → 0 ≤ ival r ∧ ival r < ival n) ∧ (ival n < 0 → ival n < ival r ∧ ival r ≤ 0) := by
  unfold bRandom at h
  have hz : bEqW n 0#32 = false := by
    obtain ⟨a, rfl⟩ := canonI_iff_encI.1 hn
    rw [ival_encI] at h0
    simpa using h0
  have hnan : bIsNan n = false := by
    obtain ⟨a, rfl⟩ := canonI_iff_encI.1 hn
    simp
  rw [hz, hnan] at h
  simp only [Bool.or_self, Bool.false_eq_true, if_false, Option.map_eq_some_iff, Prod.mk.injEq] at h
  obtain ⟨⟨w, ds⟩, h1, h2, h3⟩ := h
  have hv0 : val n.nat ≠ 0 := by
    intro hc; apply h0; unfold ival; split <;> simp [hc]
  have hlt := (C29_random_partial n.nat hn.1 hv0 draws ds w h1).1
  have hzero : eqv w [0#32] = true → val w = 0 := by
    intro he
    unfold eqv at he
    by_cases hw : isNan w
    · rw [if_pos hw] at he; simp at he
    · rw [if_neg hw] at he
      have : w = [0#32] := by simpa using he
      rw [this]; rfl
  subst h2
  unfold ival
  by_cases hneg : n.neg = true
  · simp only [hneg, if_true]
    constructor
    · intro h; omega
    · intro _
      by_cases he : eqv w [0#32] = true
      · simp only [he, if_true, Bool.false_eq_true, if_false, hzero he]; omega
      · simp only [he, Bool.false_eq_true, if_false, if_true]; omega
  · simp only [hneg, Bool.false_eq_true, if_false, ite_self]
    constructor
    · intro _; omega
    · intro h; omega

example : bRandom ⟨[5#32, 1#32], true⟩ [some 3#32, none, some 0#32] = some (⟨[3#32, 0#32], true⟩, []) := by decide

/-- NaN and zero have no random number: the result is NaN and nothing is drawn. -/
theorem C71_random_zero (draws : List (Option W)) (s : Bool) :
    bRandom ⟨NaN, s⟩ draws = some (bNan, draws) ∧ bRandom bZero draws = some (bNan, draws) := by
  constructor <;> rfl

/-- "minus zero" as a random number below `-(2^32 + 5)` -/
theorem C71_minus_zero :
    bRandom ⟨[5#32, 1#32], true⟩ [some 0#32, some 0#32] = some (⟨[0#32, 0#32], true⟩, []) := by decide

end RMath
