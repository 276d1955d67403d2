import Verif.Model.PrimeRounds
import Verif.Props.PrimePossible

/-!
# C140: the number of rounds of the primality test

`probably_prime_test(n)` should draw `n + 1` bases for every `usize` `n`.  For the greatest one it draws none.
-/

namespace RMath

open scoped NumberTheorySymbols

/-- the greatest `usize` -/
def usizeTop : D := BitVec.ofNat 64 (2 ^ 64 - 1)

theorem rounds_below {n : D} (h : n ≠ usizeTop) (checks : Bool) : roundsPlusOne checks n = .ok (n.toNat + 1) := by
  have hlt := n.isLt
  have hne : n.toNat + 1 ≠ 2 ^ 64 := fun e => h (BitVec.eq_of_toNat_eq (by simp [usizeTop]; omega))
  rw [roundsPlusOne, if_neg (fun h => hne h.1), BitVec.toNat_add]
  simp only [BitVec.toNat_ofNat]
  rw [Nat.mod_eq_of_lt (by omega)]

/-- the test of a number of at least 128, for every result of `n + 1` -/
theorem usize_big (checks : Bool) {n : ℕ} (hn : 128 ≤ n) (k : D) (ds : List (Option W)) :
    probablyPrimeTestUsize checks (enc n) k ds =
      if n % 2 = 0 ∨ ∃ q ∈ smallPrimes, q ∣ n then .ok (some (false, ds))
      else (roundsPlusOne checks k >>= fun s => millerRabin checks (enc n) s ds >>= fun r =>
        match r with
        | none => .ok none
        | some (false, ds) => .ok (some (false, ds))
        | some (true, ds) => primeLucas (enc n) >>= fun l => .ok (some (l, ds))) := by
  unfold probablyPrimeTestUsize
  rw [isNan_enc, Bool.false_or, ← enc_zero, eqv_enc, if_neg (by simp; omega)]
  obtain ⟨w, hw, hwn⟩ := word0_enc n
  rw [hw]
  simp only [bind, Except.bind]
  have hlen : ¬ ((enc n).length = 1 ∧ w.toNat < 128) := by
    rintro ⟨h1, h2⟩
    obtain ⟨u, hu⟩ := List.length_eq_one_iff.1 h1
    have := val_enc n
    rw [hu] at this
    simp at this
    have := u.isLt
    omega
  rw [if_neg hlen]
  have hpar : (w &&& 1#32 = 0#32) ↔ n % 2 = 0 := by
    rw [← BitVec.toNat_inj, BitVec.toNat_and]
    simp only [BitVec.toNat_ofNat, Nat.one_mod, Nat.and_one_is_mod]
    omega
  by_cases hp : n % 2 = 0
  · rw [if_pos (hpar.2 hp), if_pos (Or.inl hp)]
  rw [if_neg (mt hpar.1 hp)]
  have hsf := smallFactor_spec (enc n)
  rw [val_enc] at hsf
  by_cases hs : ∃ q ∈ smallPrimes, q ∣ n
  · rw [if_pos (hsf.2 hs), if_pos (Or.inr hs)]
  · rw [if_neg (mt hsf.1 hs), if_neg (by rintro (h | h); exacts [hp h, hs h])]
    rfl

theorem noSmallFactor_iff {n : ℕ} : NoSmallFactor n ↔ ¬ (n % 2 = 0 ∨ ∃ q ∈ smallPrimes, q ∣ n) := by
  have key1 : ∀ q ∈ smallPrimes, Nat.Prime q ∧ q ≤ 53 := by decide +kernel
  have key2 : ∀ q : Fin 54, Nat.Prime (q : ℕ) → (q : ℕ) = 2 ∨ (q : ℕ) ∈ smallPrimes := by decide +kernel
  constructor
  · rintro h (h' | ⟨q, hq, hqn⟩)
    · exact h 2 Nat.prime_two (by norm_num) (Nat.dvd_of_mod_eq_zero h')
    · exact h q (key1 q hq).1 (key1 q hq).2 hqn
  · intro hc q hq h53 hqn
    rcases key2 ⟨q, by omega⟩ hq with h | h
    · simp only at h; subst h; exact hc (Or.inl (by omega))
    · exact hc (Or.inr ⟨q, h, hqn⟩)

/-! ## Theorems -/

/-- **C140** for every number of rounds but the greatest: the test is the one described by C31, C72 and C106, for all vectors.  *Missing:* the greatest
number of rounds, for which the statement is false. -/
theorem C140_rounds_partial (checks : Bool) (x : Words) (n : D) (h : n ≠ usizeTop) (ds : List (Option W)) :
    probablyPrimeTestUsize checks x n ds = probablyPrimeTest checks x n.toNat ds := by
  unfold probablyPrimeTestUsize probablyPrimeTest
  rw [rounds_below h]
  rfl

/-- **C140**, numbers below 128: the answer is right whatever the number of rounds, and nothing is drawn. -/
theorem C140_small (checks : Bool) (x : Words) (hx : Canon x) (hlt : val x < 128) (n : D) (ds : List (Option W)) :
    probablyPrimeTestUsize checks x n ds = .ok (some (decide (val x).Prime, ds)) := by
  obtain ⟨m, rfl⟩ := canon_iff_enc.1 hx
  rw [val_enc] at *
  rw [← ppt_small checks hlt 0 ds]
  unfold probablyPrimeTestUsize probablyPrimeTest
  rw [isNan_enc, Bool.false_or, ← enc_zero, eqv_enc]
  by_cases h0 : m = 0
  · subst h0; rfl
  have hz : ¬ decide (m = 0) = true := by simpa using h0
  rw [if_neg hz, enc_lt (by omega)]
  simp only [word0, bind, Except.bind, List.length_singleton, BitVec.toNat_ofNat, true_and]
  rw [Nat.mod_eq_of_lt (by omega), if_pos hlt, if_pos hlt, if_neg hz]

/-- **C140**, the greatest number of rounds without overflow checks: no base is drawn, and the answer is that of trial division and the Lucas part. -/
theorem C140_top (x : Words) (hx : Canon x) (hge : 128 ≤ val x) (ds : List (Option W)) :
    ∃ b, probablyPrimeTestUsize false x usizeTop ds = .ok (some (b, ds)) ∧ (b = true ↔ NoSmallFactor (val x) ∧ PassesLucas (val x)) := by
  obtain ⟨n, rfl⟩ := canon_iff_enc.1 hx
  rw [val_enc] at *
  rw [usize_big false hge]
  by_cases hc : n % 2 = 0 ∨ ∃ q ∈ smallPrimes, q ∣ n
  · rw [if_pos hc]
    exact ⟨false, rfl, by simp [noSmallFactor_iff, hc]⟩
  rw [if_neg hc]
  have hodd : n % 2 = 1 := by
    rcases Nat.mod_two_eq_zero_or_one n with h | h
    · exact absurd (Or.inl h) hc
    · exact h
  obtain ⟨w, hw, hl⟩ := primeLucas_words hodd hge
  have h0 : roundsPlusOne false usizeTop = .ok 0 := by decide
  have h1 : millerRabin false (enc n) 0 ds = .ok (some (true, ds)) := rfl
  refine ⟨w, ?_, ?_⟩
  · rw [h0]
    simp only [bind, Except.bind, h1, hw]
  · rw [hl]
    exact ⟨fun h => ⟨noSmallFactor_iff.2 hc, h⟩, fun h => h.2⟩

/-- **C140**, the greatest number of rounds with overflow checks: the test panics exactly for the numbers of at least 128 that pass trial division, every
large prime among them; the others are rejected. -/
theorem C140_top_checked (x : Words) (hx : Canon x) (hge : 128 ≤ val x) (ds : List (Option W)) :
    (NoSmallFactor (val x) → probablyPrimeTestUsize true x usizeTop ds = .error .panic) ∧
    (¬ NoSmallFactor (val x) → probablyPrimeTestUsize true x usizeTop ds = .ok (some (false, ds))) := by
  obtain ⟨n, rfl⟩ := canon_iff_enc.1 hx
  rw [val_enc] at *
  rw [usize_big true hge, noSmallFactor_iff, not_not]
  have h0 : roundsPlusOne true usizeTop = .error .panic := by decide
  exact ⟨fun h => by rw [if_neg h, h0]; rfl, fun h => by rw [if_pos h]⟩

/-- every prime of at least 128 passes trial division -/
theorem C140_top_primes (x : Words) (hx : Canon x) (hge : 128 ≤ val x) (hp : (val x).Prime) (ds : List (Option W)) :
    probablyPrimeTestUsize true x usizeTop ds = .error .panic :=
  (C140_top_checked x hx hge ds).1 fun q hq h53 hd => by
    have := (Nat.prime_dvd_prime_iff_eq hq hp).1 hd
    omega

/-- **C140 is false**: `59·2^32 - 1 = 19927·12716569` is accepted with the greatest number of rounds, whatever the source delivers, and rejected with one
base, 2. -/
theorem C140_violated : ∃ x, Canon x ∧ val x = 19927 * 12716569 ∧
    (∀ ds, probablyPrimeTestUsize false x usizeTop ds = .ok (some (true, ds))) ∧
    probablyPrimeTestUsize false x 0#64 [some 2#32, some 0#32] = .ok (some (false, [])) := by
  have e : (19927 * 12716569 : ℕ) = 2 ^ (32 * 1) * 59 - 1 := by norm_num
  have hv : val [0xffffffff#32, 58#32] = 19927 * 12716569 := by decide
  have hc : Canon [0xffffffff#32, 58#32] := ⟨by simp, by simp⟩
  refine ⟨[0xffffffff#32, 58#32], hc, hv, fun ds => ?_, by decide +kernel⟩
  obtain ⟨b, h1, h2⟩ := C140_top _ hc (by rw [hv]; norm_num) ds
  rw [h1, h2.2]
  rw [hv]
  obtain ⟨-, h⟩ := (C139_possible false 38 0 (canon_enc (19927 * 12716569))).1 (by
    obtain ⟨p, ⟨ds, rest, hp⟩, hq⟩ := C139_composite false 0
    have : p = enc (19927 * 12716569) := by
      obtain ⟨hcp, -⟩ := C32_generate_prime false 38 0 ds p rest hp
      obtain ⟨m, rfl⟩ := canon_iff_enc.1 hcp
      rw [val_enc] at hq
      rw [hq]
    rw [← this]
    exact ⟨ds, rest, hp⟩)
  rw [val_enc] at h
  rcases h with h | h
  · exact absurd h.1 (by norm_num)
  · exact h.2

/-! ## Generation -/

theorem genPrimeLoopUsize_below {n : D} (h : n ≠ usizeTop) (checks : Bool) (bits b len fuel : ℕ) : ∀ ds : List (Option W),
    genPrimeLoopUsize checks bits n b len fuel ds = genPrimeLoop checks bits n.toNat b len fuel ds := by
  induction fuel with
  | zero => intro ds; rfl
  | succ fuel ih =>
    intro ds
    rw [genPrimeLoopUsize, genPrimeLoop]
    simp only [C140_rounds_partial checks _ n h, ih]
    rfl

theorem genPrimeLoopUsize_spec {checks : Bool} {bits : ℕ} {rounds : D} {b len : ℕ} (hb1 : 1 ≤ b) (hb32 : b ≤ 32) (hlen : 1 ≤ len)
    (hbits : bits = 32 * (len - 1) + b) (h2 : 2 ≤ bits) (fuel : ℕ) : ∀ {ds p rest},
    genPrimeLoopUsize checks bits rounds b len fuel ds = .ok (some (p, rest)) →
    Canon p ∧ val p % 2 = 1 ∧ 3 * 2 ^ (bits - 2) ≤ val p ∧ val p < 2 ^ bits ∧
    ∃ ds', probablyPrimeTestUsize checks p rounds ds' = .ok (some (true, rest)) := by
  induction fuel with
  | zero => intro ds p rest h; simp [genPrimeLoopUsize] at h
  | succ fuel ih =>
    intro ds p rest h
    rw [genPrimeLoopUsize] at h
    rcases ht : takeDraws len ds with _ | ⟨v, ds1⟩
    · rw [ht] at h; simp at h
    obtain ⟨hv1, hv2, -⟩ := takeDraws_some ht
    rw [ht] at h
    simp only [bind, Except.bind] at h
    rcases hs : shapePrime b v with e | q
    · rw [hs] at h; simp at h
    rw [hs] at h
    simp only at h
    obtain ⟨hvne, hql, hqc, hqo, hqlt, hqge⟩ := shapePrime_spec hb1 hb32 hs
    obtain ⟨d, hd2, hd20, hdv, hdc⟩ := bumpPrime_spec bits hqc
    by_cases hbl : bitsLen (bumpPrime bits q) = bits
    · rw [if_pos hbl] at h
      rcases hp : probablyPrimeTestUsize checks (bumpPrime bits q) rounds ds1 with e | _ | ⟨c, ds2⟩
      · rw [hp] at h; simp at h
      · rw [hp] at h; simp at h
      · rw [hp] at h
        cases c with
        | false => exact ih h
        | true =>
          simp only [Except.ok.injEq, Option.some.injEq, Prod.mk.injEq] at h
          obtain ⟨rfl, rfl⟩ := h
          obtain ⟨hlo, hhi⟩ := bitsLen_iff hdc h2 hbl
          have hvlen : v.length = len := by
            by_contra hne
            have hvpos : 0 < v.length := List.length_pos_iff.2 hvne
            have hle : 2 ^ (32 * (v.length - 1) + b) ≤ 2 ^ (bits - 2) :=
              Nat.pow_le_pow_right (by norm_num) (by omega)
            have hle2 : 2 ^ 20 ≤ 2 ^ (bits - 2) := Nat.pow_le_pow_right (by norm_num) (by omega)
            have : 2 ^ (bits - 1) = 2 * 2 ^ (bits - 2) := by
              rw [show bits - 1 = bits - 2 + 1 by omega, pow_succ]; ring
            omega
          have h3 := hqge (by rw [hvlen]; omega)
          rw [hvlen, ← hbits, show 2 ^ bits = 4 * 2 ^ (bits - 2) by
            conv_lhs => rw [show bits = bits - 2 + 2 by omega, pow_add]
            ring] at h3
          exact ⟨hdc, by omega, by omega, hhi, ds1, hp⟩
    · rw [if_neg hbl] at h
      exact ih h

theorem generatePrimeUsize_spec {checks : Bool} {bits : ℕ} {rounds : D} {ds : List (Option W)} {p : Words} {rest : List (Option W)}
    (h : generatePrimeUsize checks bits rounds ds = .ok (.prime p rest)) : Canon p ∧ Shaped bits (val p) ∧
      ∃ ds', probablyPrimeTestUsize checks p rounds ds' = .ok (some (true, rest)) := by
  unfold generatePrimeUsize at h
  by_cases h2 : bits < 2
  · rw [if_pos h2] at h; simp at h
  rw [if_neg h2] at h
  simp only [bind, Except.bind] at h
  split at h
  · simp at h
  rename_i r hr
  rcases r with _ | ⟨p', ds'⟩
  · simp at h
  simp only [Except.ok.injEq, GenPrime.prime.injEq] at h
  obtain ⟨rfl, rfl⟩ := h
  have hb : ∀ b, b = (if bits % 32 = 0 then 32 else bits % 32) →
      1 ≤ b ∧ b ≤ 32 ∧ bits = 32 * ((bits + 31) / 32 - 1) + b := by
    intro b hb
    split at hb <;> omega
  obtain ⟨hb1, hb2, hb3⟩ := hb _ rfl
  obtain ⟨c1, c2, c3, c4, c5⟩ := genPrimeLoopUsize_spec hb1 hb2 (by omega) hb3 (by omega) _ hr
  exact ⟨c1, ⟨by omega, c3, c4, c2⟩, c5⟩

/-- **C140**, `generate_prime`: for every number of rounds but the greatest it is the function described by C32, C137 and C139.  *Missing:* the greatest
number of rounds. -/
theorem C140_generate_partial (checks : Bool) (bits : ℕ) (n : D) (h : n ≠ usizeTop) (ds : List (Option W)) :
    generatePrimeUsize checks bits n ds = generatePrime checks bits n.toNat ds := by
  unfold generatePrimeUsize generatePrime
  simp only [genPrimeLoopUsize_below h]
  rfl

/-- **C140**, `generate_prime` with the greatest number of rounds, with overflow checks: from 8 bits on it never returns a number. -/
theorem C140_generate_checked (bits : ℕ) (hb : 8 ≤ bits) (ds : List (Option W)) (p : Words) (rest : List (Option W)) :
    generatePrimeUsize true bits usizeTop ds ≠ .ok (.prime p rest) := by
  intro h
  obtain ⟨hc, ⟨-, hs, -, -⟩, ds', ht⟩ := generatePrimeUsize_spec h
  have h1 : 2 ^ 6 ≤ 2 ^ (bits - 2) := Nat.pow_le_pow_right (by norm_num) (by omega)
  obtain ⟨h2, h3⟩ := C140_top_checked p hc (by omega) ds'
  by_cases hn : NoSmallFactor (val p)
  · rw [h2 hn] at ht; simp at ht
  · rw [h3 hn] at ht; simp at ht

/-- **C140**, `generate_prime` with the greatest number of rounds, without overflow checks: what is returned has the right shape and passed trial division
and the Lucas part, or is a prime below 128. -/
theorem C140_generate_top (bits : ℕ) (ds : List (Option W)) (p : Words) (rest : List (Option W))
    (h : generatePrimeUsize false bits usizeTop ds = .ok (.prime p rest)) : Canon p ∧ Shaped bits (val p) ∧
      ((val p < 128 ∧ (val p).Prime) ∨ (128 ≤ val p ∧ NoSmallFactor (val p) ∧ PassesLucas (val p))) := by
  obtain ⟨hc, hs, ds', ht⟩ := generatePrimeUsize_spec h
  refine ⟨hc, hs, ?_⟩
  by_cases h128 : val p < 128
  · rw [C140_small false p hc h128] at ht
    simp at ht
    exact Or.inl ⟨h128, ht.1⟩
  · obtain ⟨b, h1, h2⟩ := C140_top p hc (by omega) ds'
    rw [h1] at ht
    simp at ht
    exact Or.inr ⟨by omega, h2.1 ht.1⟩

/-- **C140**, `generate_prime`: with the greatest number of rounds the composite number of `C140_violated` is returned as soon as its words are drawn,
although nothing more is drawn. -/
theorem C140_generate_violated (ds : List (Option W)) :
    generatePrimeUsize false 38 usizeTop (some 0xffffffff#32 :: some 58#32 :: ds) = .ok (.prime [0xffffffff#32, 58#32] ds) := by
  obtain ⟨x, hx, hv, hacc, -⟩ := C140_violated
  obtain rfl : x = [0xffffffff#32, 58#32] := by
    obtain ⟨n, rfl⟩ := canon_iff_enc.1 hx
    rw [val_enc] at hv
    rw [hv]
    decide +kernel
  have h1 : takeDraws 2 (some 0xffffffff#32 :: some 58#32 :: ds) = some ([0xffffffff#32, 58#32], ds) := rfl
  have h2 : shapePrime 6 [0xffffffff#32, 58#32] = .ok [0xffffffff#32, 58#32] := by decide
  have h3 : bumpPrime 38 [0xffffffff#32, 58#32] = [0xffffffff#32, 58#32] := by decide +kernel
  have h4 : bitsLen [0xffffffff#32, 58#32] = 38 := by decide +kernel
  unfold generatePrimeUsize
  rw [if_neg (by norm_num)]
  show (genPrimeLoopUsize false 38 usizeTop 6 2 _ _ >>= _) = _
  rw [genPrimeLoopUsize, h1]
  simp only [bind, Except.bind, h2, h3, h4, hacc, if_true]

example : Canon [131#32] ∧ 128 ≤ val [131#32] ∧ (val [131#32]).Prime ∧ (5#64 : D) ≠ usizeTop :=
  ⟨⟨by simp, by simp⟩, by decide, by norm_num [val], by decide⟩

end RMath
