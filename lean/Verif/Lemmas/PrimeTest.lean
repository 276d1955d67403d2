import Verif.Lemmas.Lucas

/-! The whole primality test; the numbers that `generate_prime` tries. -/

namespace RMath

open NumberTheorySymbols jacobiSym

/-! ## trial division -/

theorem mod_word {w : W} {m N : Nat} (q : Nat) (hq : q < 2 ^ 32) (hd : q ∣ N) (hw : w.toNat = m % N) :
    (w % BitVec.ofNat 32 q == 0#32) = decide (m % q = 0) := by
  rw [beq_eq_decide, decide_eq_decide, ← BitVec.toNat_inj, BitVec.toNat_umod, hw, BitVec.toNat_ofNat,
    Nat.mod_eq_of_lt hq, Nat.mod_mod_of_dvd _ hd]
  simp

theorem smallFactor_spec (x : Words) : smallFactor x = true ↔ ∃ q ∈ smallPrimes, q ∣ val x := by
  have hA : (remInnerU32 x primesA).toNat = val x % 4127218095 := remInnerU32_spec x (by decide)
  have hB : (remInnerU32 x primesB).toNat = val x % 3948078067 := remInnerU32_spec x (by decide)
  unfold smallFactor
  simp only
  rw [mod_word 3 (by norm_num) (by norm_num) hA,
    mod_word 5 (by norm_num) (by norm_num) hA,
    mod_word 7 (by norm_num) (by norm_num) hA,
    mod_word 11 (by norm_num) (by norm_num) hA,
    mod_word 13 (by norm_num) (by norm_num) hA,
    mod_word 17 (by norm_num) (by norm_num) hA,
    mod_word 19 (by norm_num) (by norm_num) hA,
    mod_word 23 (by norm_num) (by norm_num) hA,
    mod_word 37 (by norm_num) (by norm_num) hA,
    mod_word 29 (by norm_num) (by norm_num) hB,
    mod_word 31 (by norm_num) (by norm_num) hB,
    mod_word 41 (by norm_num) (by norm_num) hB,
    mod_word 43 (by norm_num) (by norm_num) hB,
    mod_word 47 (by norm_num) (by norm_num) hB,
    mod_word 53 (by norm_num) (by norm_num) hB]
  simp only [Bool.or_eq_true, decide_eq_true_eq, smallPrimes, List.mem_cons, List.not_mem_nil, or_false,
    Nat.dvd_iff_mod_eq_zero, exists_eq_or_imp, exists_eq_left]
  tauto

theorem smallPrimes_bound : ∀ q ∈ smallPrimes, 1 < q ∧ q < 128 := by decide

/-! ## the non-residues -/

/-- If the test finds no suitable `P`, all numbers up to 10000 are squares modulo `n`. -/
theorem exists_disc {n m : Nat} (hn : n.Prime) (hodd : n % 2 = 1) (hm : m ≤ 10000) (hm0 : 0 < m)
    (hns : ¬ IsSquare (m : ZMod n)) : ∃ p, 3 ≤ p ∧ p ≤ 10000 ∧ J(((p * p - 4 : Nat) : Int) | n) ≠ 1 := by
  by_contra hall
  push Not at hall
  have := Fact.mk hn
  set χ : Nat → Int := fun k => J((k : Int) | n)
  have hmul : ∀ a b, χ (a * b) = χ a * χ b := by
    intro a b
    simp only [χ]
    push_cast
    exact jacobiSym.mul_left _ _ _
  have hsq : ∀ a, χ a = 0 ∨ χ a * χ a = 1 := by
    intro a
    rcases jacobiSym.trichotomy (a : Int) n with h | h | h
    · left; exact h
    · right; simp only [χ]; rw [h]; norm_num
    · right; simp only [χ]; rw [h]; norm_num
  have hstep : ∀ k, 1 ≤ k → k ≤ 9998 → χ k * χ (k + 4) = 1 := by
    intro k hk hk2
    have h := hall (k + 2) (by omega) (by omega)
    rw [← hmul]
    simp only [χ]
    rw [← h]
    congr 2
    rw [show (k + 2) * (k + 2) = k * (k + 4) + 4 by ring]
    simp
  have heq : ∀ k, 1 ≤ k → k ≤ 9998 → χ (k + 4) = χ k := by
    intro k hk hk2
    have h := hstep k hk hk2
    rcases hsq k with h0 | h0
    · rw [h0] at h; simp at h
    · have : χ k * (χ k * χ (k + 4)) = χ k * 1 := by rw [h]
      rw [← mul_assoc, h0] at this
      linarith
  have h1 : χ 1 = 1 := by simp [χ]
  have h22 : χ 2 * χ 2 = 1 := by
    rcases hsq 2 with h | h
    · have := hstep 2 (by norm_num) (by norm_num)
      rw [h] at this; simp at this
    · exact h
  have h4 : χ 4 = 1 := by rw [show 4 = 2 * 2 by norm_num, hmul, h22]
  have h2 : χ 2 = 1 := by
    have := heq 4 (by norm_num) (by norm_num)
    rw [h4, show 4 + 4 = 2 * 4 by norm_num, hmul, h4] at this
    simpa using this
  have h3 : χ 3 = 1 := by
    have := heq 2 (by norm_num) (by norm_num)
    rw [h2, show 2 + 4 = 2 * 3 by norm_num, hmul, h2] at this
    simpa using this
  have hones : ∀ k, 1 ≤ k → k ≤ 10000 → χ k = 1 := by
    intro k
    induction k using Nat.strong_induction_on with
    | _ k ih =>
      intro hk hk2
      by_cases hk4 : k ≤ 4
      · interval_cases k <;> assumption
      · obtain ⟨j, rfl⟩ : ∃ j, k = j + 4 := ⟨k - 4, by omega⟩
        rw [heq j (by omega) (by omega)]
        exact ih j (by omega) (by omega) (by omega)
  have := hones m hm0 hm
  have hneg : J((m : Int) | n) = -1 := by
    apply ZMod.nonsquare_iff_jacobiSym_eq_neg_one.2
    simpa using hns
  simp only [χ] at this
  rw [hneg] at this
  norm_num at this

/-- A prime below `10^8` has a non-residue of at most 10000. -/
theorem small_nonresidue {n : Nat} (hn : n.Prime) (hodd : n % 2 = 1) (hlt : n < 10 ^ 8) :
    ∃ m : Nat, 0 < m ∧ m ≤ 10000 ∧ ¬ IsSquare (m : ZMod n) := by
  have := Fact.mk hn
  obtain ⟨N0, hN0n, hN0⟩ := exists_nonresidue (p := n) hodd
  have hex : ∃ m : Nat, J((m : Int) | n) = -1 := ⟨N0, hN0⟩
  classical
  set N := Nat.find hex with hNdef
  have hN := Nat.find_spec hex
  rw [← hNdef] at hN
  have hmin : ∀ m : Nat, m < N → J((m : Int) | n) ≠ -1 := fun m hm => Nat.find_min hex hm
  have hNn : N ≤ N0 := Nat.find_min' hex hN0
  have hn2 := hn.two_le
  have hN2 : 2 ≤ N := by
    by_contra hc
    have hN1 : N = 0 ∨ N = 1 := by omega
    rcases hN1 with h | h
    · rw [h] at hN
      have h0 : J(((0 : Nat) : Int) | n) = 0 := by
        rw [Nat.cast_zero]
        exact jacobiSym.zero_left hn.one_lt
      rw [h0] at hN
      norm_num at hN
    · rw [h] at hN; simp at hN
  refine ⟨N, by omega, ?_, ?_⟩
  · -- `M` the quotient rounded up
    by_contra hbig
    have hnd : ¬ N ∣ n := by
      intro hd
      rcases (Nat.dvd_prime hn).1 hd with h | h <;> omega
    have hr : 0 < n % N := Nat.pos_of_ne_zero fun h => hnd (Nat.dvd_of_mod_eq_zero h)
    have hdm := Nat.div_add_mod n N
    have hrl : n % N < N := Nat.mod_lt _ (by omega)
    have hMlt : n / N + 1 < N := by
      have : n / N ≤ n / 10001 := Nat.div_le_div_left (by omega) (by norm_num)
      omega
    have hprod : (n / N + 1) * N = n + (N - n % N) := by
      rw [Nat.add_mul, Nat.one_mul, Nat.mul_comm]; omega
    have hJ1 : J((((n / N + 1) * N : Nat) : Int) | n) = J(((N - n % N : Nat) : Int) | n) := by
      rw [hprod, Nat.cast_add, jacobiSym.mod_left, Int.add_emod_left, ← jacobiSym.mod_left]
    have hpos : ∀ k : Nat, 0 < k → k < N → J((k : Int) | n) = 1 := by
      intro k h0 hk
      rcases jacobiSym.trichotomy (k : Int) n with h | h | h
      · exfalso
        rw [jacobiSym.eq_zero_iff] at h
        apply h.2
        rw [Int.gcd_natCast_natCast]
        exact (Nat.coprime_comm.1 (Nat.coprime_of_lt_prime (by omega) (by omega) hn))
      · exact h
      · exact absurd h (hmin k hk)
    rw [hpos (N - n % N) (by omega) (by omega), Nat.cast_mul, jacobiSym.mul_left, hN,
      hpos (n / N + 1) (Nat.succ_pos _) hMlt] at hJ1
    norm_num at hJ1
  · have := ZMod.nonsquare_iff_jacobiSym_eq_neg_one.1 hN
    simpa using this

/-! ## the test as a whole -/

theorem ppt_small (checks : Bool) {n : Nat} (hn : n < 128) (k : Nat) (ds : List (Option W)) :
    probablyPrimeTest checks (enc n) k ds = .ok (some (decide n.Prime, ds)) := by
  unfold probablyPrimeTest
  rw [isNan_enc, Bool.false_or, ← enc_zero, eqv_enc]
  by_cases h0 : n = 0
  · subst h0
    simp [Nat.not_prime_zero]
  rw [if_neg (by simpa using h0), enc_lt (by omega)]
  simp only [word0, bind, Except.bind, List.length_singleton, BitVec.toNat_ofNat, true_and]
  rw [Nat.mod_eq_of_lt (by omega), if_pos hn]
  have key : ∀ m : Fin 128, ((1#128 <<< (m : Nat)) &&& primeMask != 0#128) = decide (Nat.Prime (m : Nat)) := by
    decide +kernel
  rw [key ⟨n, hn⟩]

theorem ppt_big (checks : Bool) {n : Nat} (hn : 128 ≤ n) (k : Nat) (ds : List (Option W)) :
    probablyPrimeTest checks (enc n) k ds =
      if n % 2 = 0 ∨ ∃ q ∈ smallPrimes, q ∣ n then .ok (some (false, ds))
      else (millerRabin checks (enc n) (k + 1) ds >>= fun r =>
        match r with
        | none => .ok none
        | some (false, ds) => .ok (some (false, ds))
        | some (true, ds) => primeLucas (enc n) >>= fun l => .ok (some (l, ds))) := by
  unfold probablyPrimeTest
  rw [isNan_enc, Bool.false_or, ← enc_zero, eqv_enc, if_neg (by simp; omega)]
  obtain ⟨w, hw, hwn⟩ := word0_enc n
  rw [hw]
  simp only [bind, Except.bind]
  have hlen : ¬ ((enc n).length = 1 ∧ w.toNat < 128) := by
    rintro ⟨h1, h2⟩
    obtain ⟨u, hu⟩ := List.length_eq_one_iff.1 h1
    have := val_enc n
    rw [hu] at this
    simp at this
    have := u.isLt
    omega
  rw [if_neg hlen]
  have hpar : (w &&& 1#32 = 0#32) ↔ n % 2 = 0 := by
    rw [← BitVec.toNat_inj, BitVec.toNat_and]
    simp only [BitVec.toNat_ofNat, Nat.one_mod, Nat.and_one_is_mod]
    omega
  by_cases hp : n % 2 = 0
  · rw [if_pos (hpar.2 hp), if_pos (Or.inl hp)]
  rw [if_neg (mt hpar.1 hp)]
  have hsf := smallFactor_spec (enc n)
  rw [val_enc] at hsf
  by_cases hs : ∃ q ∈ smallPrimes, q ∣ n
  · rw [if_pos (hsf.2 hs), if_pos (Or.inr hs)]
  · rw [if_neg (mt hsf.1 hs), if_neg (by rintro (h | h); exacts [hp h, hs h])]
    rfl

theorem drawMany_lt {n : Nat} (hn : n ≠ 0) (k : Nat) : ∀ {ds as rest}, drawMany (enc n) k ds = some (as, rest) →
    ∀ a ∈ as, val a < n := by
  induction k with
  | zero => intro ds as rest h; simp [drawMany] at h; rw [h.1]; simp
  | succ k ih =>
    intro ds as rest h
    rw [drawMany, natRandom_enc hn] at h
    rcases hd : randomLoop (enc n) (enc n).length (randomMask (enc n)) (ds.length + 1) ds with _ | ⟨a, ds'⟩
    · rw [hd] at h; simp at h
    rw [hd] at h
    simp only [Option.map_eq_some_iff, Prod.exists, Prod.mk.injEq] at h
    obtain ⟨as', r', h1, rfl, rfl⟩ := h
    obtain ⟨-, hlt, -⟩ := randomLoop_some _ hd
    intro b hb
    rcases List.mem_cons.1 hb with rfl | hb
    · exact hlt
    · exact ih h1 b hb

theorem ppt_prime (checks : Bool) {n : Nat} (hp : n.Prime) (h128 : 128 ≤ n) (h1 : OddPartFits (n - 1))
    (h2 : OddPartFits (n + 1)) (hex : ∃ m : Nat, m ≤ 10000 ∧ ¬ IsSquare (m : ZMod n)) (k : Nat)
    {ds : List (Option W)} {as : List Words} {rest : List (Option W)} (hd : drawMany (enc n) (k + 1) ds = some (as, rest))
    (hnz : ∀ a ∈ as, val a ≠ 0) : probablyPrimeTest checks (enc n) k ds = .ok (some (true, rest)) := by
  have hodd : n % 2 = 1 := hp.eq_two_or_odd.resolve_left (by omega)
  rw [ppt_big checks h128, if_neg]
  · obtain ⟨r, hr, h3, -⟩ := millerRabin_spec (by omega) hodd h1 checks (k + 1) ds
    have := (h3 rest).2 ⟨as, hd, fun a ha => strong_of_prime hp hodd fun hdv => by
      have := drawMany_lt (by omega) _ hd a ha
      have := Nat.le_of_dvd (Nat.pos_of_ne_zero (hnz a ha)) hdv
      omega⟩
    obtain ⟨m, hm, hns⟩ := hex
    have hm0 : 0 < m := by
      rcases Nat.eq_zero_or_pos m with h | h
      · subst h; exact absurd ⟨0, by simp⟩ hns
      · exact h
    rw [hr, this]
    simp only [bind, Except.bind]
    rw [primeLucas_spec hp (by omega) h1 h2 (exists_disc hp hodd hm hm0 hns)]
  · rintro (h | ⟨q, hq, hqn⟩)
    · omega
    · obtain ⟨hq1, hq2⟩ := smallPrimes_bound q hq
      rcases (Nat.dvd_prime hp).1 hqn with h | h <;> omega

end RMath
