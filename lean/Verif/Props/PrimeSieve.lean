import Verif.Props.Prime
import Mathlib.Tactic.IntervalCases

/-!
# C137: the sieve of `generate_prime`

The candidate drawn is moved up to the next odd number that none of the primes 3 to 53 divides.  There is always one within 596, so the search ends, and
the number that is returned, if it has more than six bits, has no prime factor up to 53.
-/

namespace RMath

/-! ## Statement -/

/-- none of the first primes divides `n` -/
def NoSmallFactor (n : ℕ) : Prop := ∀ q, q.Prime → q ≤ 53 → ¬ q ∣ n

/-- `n` is a candidate for a prime of `bits` bits: none of the primes from 3 to 53 divides it, except that, for at most six bits, it may be one of
them -/
def Candidate (bits n : ℕ) : Prop := ∀ q, q.Prime → 3 ≤ q → q ≤ 53 → q ∣ n → bits ≤ 6 ∧ n = q

/-! ## Proof: the remainder -/

theorem or_eq_add_128 {r : BitVec 128} {a : W} (h : r.toNat < 2 ^ 96) : ((r <<< 32) ||| a.zeroExtend 128).toNat = r.toNat * 2 ^ 32 + a.toNat := by
  have ha := a.isLt
  rw [BitVec.toNat_or, BitVec.toNat_shiftLeft, Nat.shiftLeft_eq, Nat.mod_eq_of_lt (by omega),
    show (a.zeroExtend 128).toNat = a.toNat % 2 ^ 128 from BitVec.toNat_setWidth .., Nat.mod_eq_of_lt (by omega)]
  exact or_eq_add a.isLt

/-- the number whose words, from the most significant down, follow those of `r` -/
def downVal : ℕ → List W → ℕ
  | r, [] => r
  | r, a :: ws => downVal (r * 2 ^ 32 + a.toNat) ws

theorem downVal_mod (N : ℕ) : ∀ (ws : List W) (r : ℕ), downVal (r % N) ws % N = downVal r ws % N
  | [], r => by rw [downVal, downVal, Nat.mod_mod]
  | a :: ws, r => by
    have e : (r % N * 2 ^ 32 + a.toNat) % N = (r * 2 ^ 32 + a.toNat) % N := by rw [Nat.add_mod, Nat.mod_mul_mod, ← Nat.add_mod]
    rw [downVal, downVal, ← downVal_mod N ws, e, downVal_mod N ws]

theorem downVal_val : ∀ (ws : List W) (r : ℕ), downVal r ws = r * 2 ^ (32 * ws.length) + val ws.reverse
  | [], r => by simp [downVal, val_nil]
  | a :: ws, r => by
    rw [downVal, downVal_val ws, List.reverse_cons, val_concat, List.length_reverse, List.length_cons,
      show 32 * (ws.length + 1) = 32 + 32 * ws.length by omega, Nat.pow_add 2 32]
    generalize 2 ^ (32 * ws.length) = B
    generalize 2 ^ 32 = C
    ring

theorem remU64Loop_spec {rhs : BitVec 128} (h0 : 0 < rhs.toNat) (h64 : rhs.toNat < 2 ^ 64) : ∀ (r : BitVec 128) (ws : List W), r.toNat < rhs.toNat →
    (remU64Loop rhs r ws).toNat = downVal r.toNat ws % rhs.toNat
  | r, [], h => by rw [remU64Loop, downVal, Nat.mod_eq_of_lt h]
  | r, [a], h => by rw [remU64Loop, downVal, downVal, BitVec.toNat_umod, or_eq_add_128 (by omega)]
  | r, a :: b :: ws, h => by
    have ha := a.isLt
    have e1 := or_eq_add_128 (r := r) (a := a) (by omega)
    have e2 := or_eq_add_128 (r := (r <<< 32) ||| a.zeroExtend 128) (a := b) (by rw [e1]; omega)
    rw [remU64Loop, remU64Loop_spec h0 h64 _ ws (by rw [BitVec.toNat_umod]; exact Nat.mod_lt _ h0), BitVec.toNat_umod, e2, e1, downVal_mod, downVal, downVal]

theorem remInnerU64_spec (x : Words) {d : D} (hd : d ≠ 0#64) : (remInnerU64 x d).toNat = val x % d.toNat := by
  have h0 : 0 < d.toNat := Nat.pos_of_ne_zero (by simpa [← BitVec.toNat_inj] using hd)
  have hd64 := d.isLt
  have e : (d.zeroExtend 128).toNat = d.toNat := by
    rw [show (d.zeroExtend 128).toNat = d.toNat % 2 ^ 128 from BitVec.toNat_setWidth .., Nat.mod_eq_of_lt (by omega)]
  unfold remInnerU64
  rw [BitVec.truncate_eq_setWidth, BitVec.toNat_setWidth, remU64Loop_spec (by rw [e]; exact h0) (by rw [e]; exact hd64) _ _ (by rw [e]; exact h0), e,
    downVal_val, List.reverse_reverse]
  simp only [BitVec.toNat_ofNat, Nat.zero_mod, Nat.zero_mul, Nat.zero_add]
  exact Nat.mod_eq_of_lt (lt_trans (Nat.mod_lt _ h0) hd64)

/-! ## Proof: the search -/

theorem smallPrimes_iff (q : ℕ) : q ∈ smallPrimes ↔ q.Prime ∧ 3 ≤ q ∧ q ≤ 53 := by
  constructor
  · intro h
    simp only [smallPrimes, List.mem_cons, List.not_mem_nil, or_false] at h
    rcases h with rfl | rfl | rfl | rfl | rfl | rfl | rfl | rfl | rfl | rfl | rfl | rfl | rfl | rfl | rfl <;> norm_num
  · rintro ⟨h1, h2, h3⟩
    by_contra hno
    simp only [smallPrimes, List.mem_cons, List.not_mem_nil, or_false] at hno
    interval_cases q <;> first | omega | (revert h1; norm_num)

theorem smallPrimes_dvd {q : ℕ} (h : q ∈ smallPrimes) : q ∣ 16294579238595022365 := by
  simp only [smallPrimes, List.mem_cons, List.not_mem_nil, or_false] at h
  rcases h with rfl | rfl | rfl | rfl | rfl | rfl | rfl | rfl | rfl | rfl | rfl | rfl | rfl | rfl | rfl <;> decide

/-- the condition of the loop -/
def Sieved (bits m : ℕ) : Prop := ∀ q ∈ smallPrimes, q ∣ m → bits ≤ 6 ∧ m = q

theorem sieved_iff (bits m : ℕ) :
    (smallPrimes.any fun q => m % q == 0 && (decide (bits > 6) || m != q)) = false ↔ Sieved bits m := by
  rw [List.any_eq_false]
  refine forall₂_congr fun q _ => ?_
  rw [Nat.dvd_iff_mod_eq_zero]
  by_cases h1 : m % q = 0 <;> by_cases h2 : bits > 6 <;> by_cases h3 : m = q <;> simp [h1, h2, h3] <;> omega

theorem findDelta_least {bits m : Nat} (cnt : Nat) : ∀ {d d' : Nat}, findDelta bits m cnt d = some d' →
    Sieved bits (m + d') ∧ ∀ e, d ≤ e → e < d' → e % 2 = d % 2 → ¬ Sieved bits (m + e) := by
  induction cnt with
  | zero => intro d d' h; simp [findDelta] at h
  | succ cnt ih =>
    intro d d' h
    rw [findDelta] at h
    split at h
    · rename_i hs
      obtain ⟨h1, h2⟩ := ih h
      refine ⟨h1, fun e he he' hp hsv => ?_⟩
      by_cases hed : e = d
      · rw [hed, ← sieved_iff, hs] at hsv
        simp at hsv
      · exact h2 e (by omega) he' (by omega) hsv
    · rename_i hs
      simp only [Option.some.injEq] at h
      subst h
      exact ⟨(sieved_iff _ _).1 (by simpa using hs), fun e h1 h2 => by omega⟩

theorem findDelta_finds {bits m : Nat} (cnt : Nat) : ∀ {d e : Nat}, d ≤ e → e < d + 2 * cnt → e % 2 = d % 2 → Sieved bits (m + e) →
    ∃ d', findDelta bits m cnt d = some d' ∧ d' ≤ e := by
  induction cnt with
  | zero => intro d e h1 h2; omega
  | succ cnt ih =>
    intro d e h1 h2 h3 h4
    rw [findDelta]
    split
    · rename_i hs
      have hed : e ≠ d := by
        rintro rfl
        rw [← sieved_iff, hs] at h4
        simp at h4
      exact ih (by omega) (by omega) (by omega) h4
    · exact ⟨d, rfl, h1⟩

/-- few members of an arithmetic progression are divisible by `q` -/
theorem card_dvd_le {q s c : ℕ} (hc : Nat.Coprime c q) (K : ℕ) :
    ((Finset.range K).filter fun t => q ∣ s + c * t).card ≤ K / q + 1 := by
  rw [← Finset.card_range (K / q + 1)]
  refine Finset.card_le_card_of_injOn (fun t => t / q) (fun t ht => ?_) (fun t ht t' ht' h => ?_)
  · simp only [Finset.coe_filter, Finset.mem_range, Set.mem_ofPred_eq] at ht
    simp only [Finset.coe_range, Set.mem_Iio]
    exact Nat.lt_succ_of_le (Nat.div_le_div_right ht.1.le)
  · simp only [Finset.coe_filter, Finset.mem_range, Set.mem_ofPred_eq] at ht ht'
    have e : s + c * t ≡ s + c * t' [MOD q] := ((Nat.modEq_zero_iff_dvd).2 ht.2).trans ((Nat.modEq_zero_iff_dvd).2 ht'.2).symm
    have e2 : t ≡ t' [MOD q] := Nat.ModEq.cancel_left_of_coprime hc.symm (Nat.ModEq.add_left_cancel' s e)
    have h1 := Nat.div_add_mod t q
    have h2 := Nat.div_add_mod t' q
    simp only at h
    rw [h, show t % q = t' % q from e2] at h1
    omega

/-- there is a candidate within 596 -/
theorem sieve_gap (m : ℕ) : ∃ e, e ≤ 596 ∧ e % 2 = 0 ∧ ∀ q ∈ smallPrimes, ¬ q ∣ m + e := by
  obtain ⟨i, hi, h3⟩ : ∃ i, i ≤ 1 ∧ ¬ 3 ∣ m + 2 * i := by
    by_cases h : 3 ∣ m
    · exact ⟨1, le_rfl, by omega⟩
    · exact ⟨0, by omega, by simpa using h⟩
  by_contra hno
  push Not at hno
  have cover : Finset.range 100 ⊆ ([5, 7, 11, 13, 17, 19, 23, 29, 31, 37, 41, 43, 47, 53] : List ℕ).toFinset.biUnion fun q =>
      (Finset.range 100).filter fun t => q ∣ m + 2 * i + 6 * t := by
    intro t ht
    have ht' := Finset.mem_range.1 ht
    obtain ⟨q, hq, hd⟩ := hno (2 * i + 6 * t) (by omega) (by omega)
    rw [← Nat.add_assoc] at hd
    refine Finset.mem_biUnion.2 ⟨q, ?_, Finset.mem_filter.2 ⟨ht, hd⟩⟩
    have : q ≠ 3 := by
      rintro rfl
      exact h3 ((Nat.dvd_add_left (show 3 ∣ 6 * t from ⟨2 * t, by ring⟩)).1 hd)
    simp only [smallPrimes, List.mem_cons, List.not_mem_nil, or_false] at hq
    simp only [List.mem_toFinset, List.mem_cons, List.not_mem_nil, or_false]
    rcases hq with h | h
    · exact absurd h this
    · exact h
  have c1 := (Finset.card_le_card cover).trans Finset.card_biUnion_le
  have c2 : ∑ q ∈ ([5, 7, 11, 13, 17, 19, 23, 29, 31, 37, 41, 43, 47, 53] : List ℕ).toFinset,
      ((Finset.range 100).filter fun t => q ∣ m + 2 * i + 6 * t).card ≤
      ∑ q ∈ ([5, 7, 11, 13, 17, 19, 23, 29, 31, 37, 41, 43, 47, 53] : List ℕ).toFinset, (100 / q + 1) := by
    refine Finset.sum_le_sum fun q hq => ?_
    have hq' : Nat.Coprime 6 q := by
      simp only [List.mem_toFinset, List.mem_cons, List.not_mem_nil, or_false] at hq
      rcases hq with rfl | rfl | rfl | rfl | rfl | rfl | rfl | rfl | rfl | rfl | rfl | rfl | rfl | rfl <;> decide
    exact card_dvd_le hq' 100
  have c3 : ∑ q ∈ ([5, 7, 11, 13, 17, 19, 23, 29, 31, 37, 41, 43, 47, 53] : List ℕ).toFinset, (100 / q + 1) = 93 := by decide
  rw [Finset.card_range] at c1
  omega

/-- the remainder behaves as the number -/
theorem sieved_mod {bits n d : ℕ} (hs : bits ≤ 6 → n < 16294579238595022365) :
    Sieved bits (n % 16294579238595022365 + d) ↔ Candidate bits (n + d) := by
  have hdv : ∀ q ∈ smallPrimes, (q ∣ n % 16294579238595022365 + d ↔ q ∣ n + d) := by
    intro q hq
    have e : n % 16294579238595022365 + d ≡ n + d [MOD q] := by
      refine Nat.ModEq.add_right d ?_
      exact Nat.ModEq.of_dvd (smallPrimes_dvd hq) (Nat.mod_modEq _ _)
    exact ⟨fun h => (Nat.modEq_zero_iff_dvd).1 (e.symm.trans ((Nat.modEq_zero_iff_dvd).2 h)),
      fun h => (Nat.modEq_zero_iff_dvd).1 (e.trans ((Nat.modEq_zero_iff_dvd).2 h))⟩
  constructor
  · intro h q h1 h2 h3 h4
    have hq := (smallPrimes_iff q).2 ⟨h1, h2, h3⟩
    obtain ⟨h5, h6⟩ := h q hq ((hdv q hq).2 h4)
    rw [Nat.mod_eq_of_lt (hs h5)] at h6
    exact ⟨h5, h6⟩
  · intro h q hq h4
    obtain ⟨h1, h2, h3⟩ := (smallPrimes_iff q).1 hq
    obtain ⟨h5, h6⟩ := h q h1 h2 h3 ((hdv q hq).1 h4)
    rw [Nat.mod_eq_of_lt (hs h5)]
    exact ⟨h5, h6⟩

/-! ## Theorems -/

/-- **C137**: the remainder by a 64-bit number is right for any number of words. -/
theorem C137_remainder (x : Words) (d : D) (hd : d ≠ 0#64) : (remInnerU64 x d).toNat = val x % d.toNat := remInnerU64_spec x hd

/-- **C137**: the search for the next candidate moves the number up by the smallest even distance to a candidate, which is at most 596. -/
theorem C137_next_candidate (bits : ℕ) {p : Words} (hp : Canon p) (hs : bits ≤ 6 → val p < 2 ^ 32) :
    ∃ d, d ≤ 596 ∧ d % 2 = 0 ∧ Canon (bumpPrime bits p) ∧ val (bumpPrime bits p) = val p + d ∧ Candidate bits (val p + d) ∧
      ∀ e, e % 2 = 0 → e < d → ¬ Candidate bits (val p + e) := by
  have hm : (remInnerU64 p 16294579238595022365#64).toNat = val p % 16294579238595022365 := remInnerU64_spec p (by decide)
  have hs' : bits ≤ 6 → val p < 16294579238595022365 := fun h => lt_trans (hs h) (by norm_num)
  obtain ⟨e, he1, he2, he3⟩ := sieve_gap (val p % 16294579238595022365)
  obtain ⟨d, hd, hde⟩ := findDelta_finds (bits := bits) (m := val p % 16294579238595022365) (2 ^ 19) (Nat.zero_le e) (by omega) (by omega)
    (fun q hq hdv => absurd hdv (he3 q hq))
  obtain ⟨h1, h2⟩ := findDelta_least _ hd
  have h3 := (findDelta_some _ hd).2.2
  refine ⟨d, by omega, by omega, ?_⟩
  have hv : Canon (bumpPrime bits p) ∧ val (bumpPrime bits p) = val p + d := by
    unfold bumpPrime
    rw [hm, hd]
    simp only
    by_cases h0 : d > 0
    · rw [if_pos h0]
      obtain ⟨n, rfl⟩ := canon_iff_enc.1 hp
      simp only [assignPrim, isNan_enc, Bool.false_eq_true, if_false, addInnerBasic_enc]
      refine ⟨canon_enc _, ?_⟩
      rw [val_enc, val_enc]
      congr 1
      rw [BitVec.toNat_ofNat, Nat.mod_eq_of_lt (by omega)]
    · rw [if_neg h0]
      exact ⟨hp, by omega⟩
  refine ⟨hv.1, hv.2, (sieved_mod hs').1 h1, fun f hf hfd hc => ?_⟩
  exact h2 f (Nat.zero_le _) hfd (by omega) ((sieved_mod hs').2 hc)

theorem genPrimeLoop_bumped {checks : Bool} {bits rounds b len : Nat} (fuel : Nat) : ∀ {ds p rest},
    genPrimeLoop checks bits rounds b len fuel ds = .ok (some (p, rest)) →
    ∃ v q, v.length ≤ len ∧ shapePrime b v = .ok q ∧ p = bumpPrime bits q := by
  induction fuel with
  | zero => intro ds p rest h; simp [genPrimeLoop] at h
  | succ fuel ih =>
    intro ds p rest h
    rw [genPrimeLoop] at h
    rcases ht : takeDraws len ds with _ | ⟨v, ds1⟩
    · rw [ht] at h; simp at h
    obtain ⟨hv1, hv2, -⟩ := takeDraws_some ht
    rw [ht] at h
    simp only [bind, Except.bind] at h
    rcases hs : shapePrime b v with e | q
    · rw [hs] at h; simp at h
    rw [hs] at h
    simp only at h
    by_cases hbl : bitsLen (bumpPrime bits q) = bits
    · rw [if_pos hbl] at h
      rcases hp : probablyPrimeTest checks (bumpPrime bits q) rounds ds1 with e | _ | ⟨c, ds2⟩
      · rw [hp] at h; simp at h
      · rw [hp] at h; simp at h
      · rw [hp] at h
        cases c with
        | false => exact ih h
        | true =>
          simp only [Except.ok.injEq, Option.some.injEq, Prod.mk.injEq] at h
          exact ⟨v, q, hv1, hs, h.1.symm⟩
    · rw [if_neg hbl] at h
      exact ih h

/-- **C137**: a number that `generate_prime` returns is the first candidate from the shaped draws on; with seven bits or more no prime up to 53
divides it, whatever the rounds of the test, and with six or less it is a prime. -/
theorem C137_generated (checks : Bool) (bits rounds : ℕ) (ds : List (Option W)) (p : Words) (rest : List (Option W))
    (h : generatePrime checks bits rounds ds = .ok (.prime p rest)) :
    Candidate bits (val p) ∧ (7 ≤ bits → NoSmallFactor (val p)) ∧ (bits ≤ 6 → (val p).Prime) := by
  obtain ⟨-, -, hlo, hhi, hodd, htop, -⟩ := C32_generate_prime checks bits rounds ds p rest h
  have hc : Candidate bits (val p) := by
    unfold generatePrime at h
    by_cases h2 : bits < 2
    · rw [if_pos h2] at h; simp at h
    rw [if_neg h2] at h
    simp only [bind, Except.bind] at h
    split at h
    · simp at h
    rename_i r hr
    rcases r with _ | ⟨p', ds'⟩
    · simp at h
    simp only [Except.ok.injEq, GenPrime.prime.injEq] at h
    obtain ⟨rfl, rfl⟩ := h
    have hb : ∀ b, b = (if bits % 32 = 0 then 32 else bits % 32) → 1 ≤ b ∧ b ≤ 32 := by
      intro b hb
      split at hb <;> omega
    obtain ⟨hb1, hb2⟩ := hb _ rfl
    obtain ⟨v, q, hvl, hs, rfl⟩ := genPrimeLoop_bumped _ hr
    obtain ⟨hvne, hql, hqc, hqo, hqlt, -⟩ := shapePrime_spec hb1 hb2 hs
    obtain ⟨d, -, -, -, hd, hcd, -⟩ := C137_next_candidate bits hqc (fun h6 => by
      have : v.length = 1 := by
        have := List.length_pos_iff.2 hvne
        omega
      rw [this] at hqlt
      exact lt_of_lt_of_le hqlt (Nat.pow_le_pow_right (by norm_num) (by omega)))
    rw [hd]
    exact hcd
  refine ⟨hc, fun h7 q hq h53 hdv => ?_, fun h6 => ?_⟩
  · by_cases hq2 : q = 2
    · subst hq2
      omega
    · have := hc q hq (by have := hq.two_le; omega) h53 hdv
      omega
  · have hlt : val p < 64 := lt_of_lt_of_le hhi (Nat.pow_le_pow_right (by norm_num) h6)
    have h2 : 2 ≤ val p := by
      by_contra hh
      have : 0 < 3 * 2 ^ (bits - 2) := by positivity
      have : 3 * 2 ^ (bits - 2) ≥ 3 := by omega
      omega
    by_contra hnp
    have hm := Nat.minFac_prime (show val p ≠ 1 by omega)
    have hsq := Nat.minFac_sq_le_self (by omega) hnp
    have hd := Nat.minFac_dvd (val p)
    have hm7 : (val p).minFac ≤ 7 := by
      by_contra hh
      have : 8 ^ 2 ≤ (val p).minFac ^ 2 := Nat.pow_le_pow_left (by omega) 2
      omega
    have hm3 : 3 ≤ (val p).minFac := by
      have := hm.two_le
      by_contra hh
      have e : (val p).minFac = 2 := by omega
      rw [e] at hd
      omega
    obtain ⟨-, he⟩ := hc _ hm hm3 (by omega) hd
    rw [he] at hnp
    exact hnp hm

example : Candidate 7 59 ∧ ¬ Candidate 7 57 := by
  constructor
  · intro q h1 h2 h3 h4
    have := (Nat.prime_dvd_prime_iff_eq h1 (by norm_num : Nat.Prime 59)).1 h4
    omega
  · intro h
    have := h 3 (by norm_num) le_rfl (by norm_num) (by norm_num)
    omega
example : NoSmallFactor 59 := fun q h1 h2 h3 => by
  have := (Nat.prime_dvd_prime_iff_eq h1 (by norm_num : Nat.Prime 59)).1 h3
  omega

end RMath
