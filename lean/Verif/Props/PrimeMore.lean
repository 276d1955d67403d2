import Verif.Lemmas.LucasReject
import Mathlib.Tactic.NormNum.Prime
import Mathlib.NumberTheory.LucasLehmer

/-!
# Property C31, the converse: which primes are rejected
-/

open scoped NumberTheorySymbols

namespace RMath

/-- A prime `p > 2` that has no quadratic non-residue up to 10000 is never accepted, whatever the bases drawn. -/
theorem C31_rejected (checks : Bool) (x : Words) (hx : Canon x) (hp : (val x).Prime) (h2x : val x ≠ 2)
    (h1 : OddPartFits (val x - 1)) (h2 : OddPartFits (val x + 1)) (hall : ∀ m : Nat, m ≤ 10000 → IsSquare (m : ZMod (val x)))
    (k : Nat) (ds : List (Option W)) :
    (∃ r, probablyPrimeTest checks x k ds = .ok r ∧ ∀ rest, r ≠ some (true, rest)) ∧
    ∀ bases rest, drawMany x (k + 1) ds = some (bases, rest) → (∀ a ∈ bases, val a ≠ 0) →
      probablyPrimeTest checks x k ds = .ok (some (false, rest)) := by
  obtain ⟨n, rfl⟩ := canon_iff_enc.1 hx
  rw [val_enc] at *
  have h2n : 2 < n := lt_of_le_of_ne hp.two_le (Ne.symm h2x)
  have hodd : n % 2 = 1 := hp.eq_two_or_odd.resolve_left h2x
  have hbig : 10 ^ 8 ≤ n := by
    by_contra hc
    obtain ⟨m, hm0, hm, hns⟩ := small_nonresidue hp hodd (by omega)
    exact hns (hall m hm)
  have hl := primeLucas_rejects hp h2n (fun m _ hm => hall m hm) h1 h2
  have hnc : ¬ (n % 2 = 0 ∨ ∃ q ∈ smallPrimes, q ∣ n) := by
    rintro (h | ⟨q, hq, hqn⟩)
    · omega
    · obtain ⟨hq1, hq2⟩ := smallPrimes_bound q hq
      rcases (Nat.dvd_prime hp).1 hqn with h | h <;> omega
  rw [ppt_big checks (by omega), if_neg hnc]
  obtain ⟨r, hr, h3, -⟩ := millerRabin_spec (by omega) hodd h1 checks (k + 1) ds
  rw [hr]
  simp only [bind, Except.bind, hl]
  refine ⟨?_, fun bases rest hd hnz => ?_⟩
  · rcases r with _ | ⟨_ | _, ds'⟩ <;> exact ⟨_, rfl, by simp⟩
  · have := (h3 rest).2 ⟨bases, hd, fun a ha => strong_of_prime hp hodd fun hdv => by
      have := drawMany_lt (by omega) _ hd a ha
      have := Nat.le_of_dvd (Nat.pos_of_ne_zero (hnz a ha)) hdv
      omega⟩
    rw [this]

/-- There are infinitely many such primes: no number of rounds and no choice of bases makes the test accept them. -/
theorem C31_rejected_exist (B : Nat) : ∃ x, Canon x ∧ B < val x ∧ (val x).Prime ∧ ¬ 2 ^ 32 ∣ val x - 1 ∧ ¬ 2 ^ 32 ∣ val x + 1 ∧
    ∀ checks k ds, ∃ r, probablyPrimeTest checks x k ds = .ok r ∧ ∀ rest, r ≠ some (true, rest) := by
  obtain ⟨p, hB, hp, h16, hall⟩ := exists_prime_all_squares 10000 B
  have e1 : ¬ 2 ^ 32 ∣ p - 1 := by omega
  have e2 : ¬ 2 ^ 32 ∣ p + 1 := by omega
  refine ⟨enc p, canon_enc p, by rwa [val_enc], by rwa [val_enc], by rwa [val_enc], by rwa [val_enc], fun checks k ds => ?_⟩
  refine (C31_rejected checks (enc p) (canon_enc p) ?_ ?_ ?_ ?_ ?_ k ds).1
  all_goals rw [val_enc]
  · exact hp
  · omega
  · exact oddPartFits_of_not_dvd e1
  · exact oddPartFits_of_not_dvd e2
  · exact hall

/-- **C31, exactly**, for primes whose neighbours the shift of C06 does not spoil and bases that are not zero: the prime is accepted
if and only if it is 2 or has a quadratic non-residue up to 10000. -/
theorem C31_exact (checks : Bool) (x : Words) (hx : Canon x) (hp : (val x).Prime) (h1 : OddPartFits (val x - 1))
    (h2 : OddPartFits (val x + 1)) (k : Nat) (ds : List (Option W)) (bases : List Words) (rest : List (Option W))
    (hd : drawMany x (k + 1) ds = some (bases, rest)) (hnz : ∀ a ∈ bases, val a ≠ 0) :
    (∃ rest', probablyPrimeTest checks x k ds = .ok (some (true, rest'))) ↔
      val x = 2 ∨ ∃ m : Nat, m ≤ 10000 ∧ ¬ IsSquare (m : ZMod (val x)) := by
  constructor
  · rintro ⟨rest', h⟩
    by_contra hc
    push Not at hc
    obtain ⟨r, hr, hne⟩ := (C31_rejected checks x hx hp hc.1 h1 h2 hc.2 k ds).1
    rw [hr] at h
    exact hne rest' (Except.ok.inj h)
  · obtain ⟨n, rfl⟩ := canon_iff_enc.1 hx
    rw [val_enc] at *
    rintro (h | h)
    · exact ⟨ds, by rw [ppt_small checks (by omega)]; simp [hp]⟩
    · by_cases h128 : n < 128
      · exact ⟨ds, by rw [ppt_small checks h128]; simp [hp]⟩
      · exact ⟨rest, ppt_prime checks hp (by omega) h1 h2 h k hd hnz⟩

/-- the hypotheses, for 1000003 -/
example : Canon [1000003#32] ∧ (val [1000003#32]).Prime ∧ OddPartFits (val [1000003#32] - 1) ∧
    OddPartFits (val [1000003#32] + 1) ∧
    drawMany [1000003#32] 2 [some 5#32, some 77#32, none] = some ([[5#32], [77#32]], [none]) ∧
    (∀ a ∈ [[5#32], [77#32]], val a ≠ 0) :=
  ⟨⟨by simp, by simp⟩, by norm_num [val], oddPartFits_of_not_dvd (by decide), oddPartFits_of_not_dvd (by decide),
    by decide +kernel, by decide⟩

/-- the hypotheses of `C31_rejected` -/
example : ∃ x, Canon x ∧ (val x).Prime ∧ val x ≠ 2 ∧ OddPartFits (val x - 1) ∧ OddPartFits (val x + 1) ∧
    ∀ m : Nat, m ≤ 10000 → IsSquare (m : ZMod (val x)) := by
  obtain ⟨p, -, hp, h16, hall⟩ := exists_prime_all_squares 10000 0
  refine ⟨enc p, canon_enc p, ?_⟩
  rw [val_enc]
  exact ⟨hp, by omega, oddPartFits_of_not_dvd (by omega), oddPartFits_of_not_dvd (by omega), hall⟩

/-- Every Mersenne prime `2^j - 1` is accepted if no base drawn is zero: for these primes neither the shift by `j`, which may be
far beyond a word, nor the search for the parameter of the Lucas test goes wrong. -/
theorem C31_mersenne (checks : Bool) (x : Words) (hx : Canon x) (j : Nat) (hj : val x = mersenne j) (hp : (val x).Prime) (k : Nat)
    (ds : List (Option W)) (bases : List Words) (rest : List (Option W)) (hd : drawMany x (k + 1) ds = some (bases, rest))
    (hnz : ∀ a ∈ bases, val a ≠ 0) : ∃ rest', probablyPrimeTest checks x k ds = .ok (some (true, rest')) := by
  have hjp : j.Prime := Nat.Prime.of_mersenne (hj ▸ hp)
  by_cases h3 : j < 3
  · have hlt : mersenne j < mersenne 3 := mersenne_lt_mersenne.2 h3
    have e3 : mersenne 3 = 7 := rfl
    obtain ⟨n, rfl⟩ := canon_iff_enc.1 hx
    rw [val_enc] at *
    exact ⟨ds, by rw [ppt_small checks (by omega)]; simp [hp]⟩
  have hjo : j % 2 = 1 := hjp.eq_two_or_odd.resolve_left (by omega)
  have h4 := mersenne_mod_four (n := j) (by omega)
  rw [C31_exact checks x hx hp ?_ ?_ k ds bases rest hd hnz]
  · right
    refine ⟨3, by norm_num, ?_⟩
    rw [hj] at hp ⊢
    have := Fact.mk hp
    have hl := legendreSym_mersenne_three (p := j) (by omega) (Nat.odd_iff.2 hjo)
    rw [legendreSym.eq_neg_one_iff] at hl
    simpa using hl
  · rw [hj]
    exact oddPartFits_of_not_dvd fun h => by
      have : 4 ∣ mersenne j - 1 := dvd_trans (by norm_num) h
      omega
  · rw [hj, succ_mersenne]
    refine oddPartFits_two_pow fun h => ?_
    omega

/-- 2^61 - 1, with one base of two words -/
example : Canon [0xffffffff#32, 0x1fffffff#32] ∧ val [0xffffffff#32, 0x1fffffff#32] = mersenne 61 ∧ (mersenne 61).Prime ∧
    drawMany [0xffffffff#32, 0x1fffffff#32] 1 [some 7#32, some 9#32] = some ([[7#32, 9#32]], []) ∧ val [7#32, 9#32] ≠ 0 :=
  ⟨⟨by simp, by simp⟩, by decide, lucas_lehmer_sufficiency 61 (by norm_num) (by norm_num), rfl, by decide⟩

/-! ## C72 acceptance, exactly -/

/-- **C72, exactly**, for `n ≥ 128` whose neighbours the shift of C06 does not spoil: the test does not panic, and it accepts with `rest` left
of the draws if and only if `n` is odd, no prime up to 53 divides it, it passes the strong test to each of the `k + 1` bases
drawn, and it passes the Lucas test with the first `P ≥ 3` for which the Jacobi symbol of `P² - 4` is -1, all the earlier ones
being 1, or with 10001 if they are all 1 and `n` is not a square.  Missing from the full property: the other
numbers. -/
theorem C72_exact_partial (checks : Bool) (x : Words) (hx : Canon x) (hge : 128 ≤ val x) (h1 : OddPartFits (val x - 1))
    (h2 : OddPartFits (val x + 1)) (k : Nat) (ds : List (Option W)) :
    ∃ r, probablyPrimeTest checks x k ds = .ok r ∧ ∀ rest, r = some (true, rest) ↔
      (∀ q : Nat, q.Prime → q ≤ 53 → ¬ q ∣ val x) ∧
      (∃ bases, drawMany x (k + 1) ds = some (bases, rest) ∧ ∀ a ∈ bases, StrongProbablePrime (val x) (val a)) ∧
      (∃ P : Nat, 3 ≤ P ∧ P ≤ 10001 ∧ LucasProbablePrime (val x) P ∧
        (∀ q : Nat, 3 ≤ q → q < P → J(((q * q - 4 : Nat) : Int) | val x) = 1) ∧
        (J(((P * P - 4 : Nat) : Int) | val x) = -1 ∨ (P = 10001 ∧ ¬ IsSquare (val x)))) := by
  obtain ⟨n, rfl⟩ := canon_iff_enc.1 hx
  rw [val_enc] at *
  rw [ppt_big checks hge]
  by_cases hc : n % 2 = 0 ∨ ∃ q ∈ smallPrimes, q ∣ n
  · rw [if_pos hc]
    refine ⟨_, rfl, fun rest => ⟨by simp, fun h => ?_⟩⟩
    rcases hc with h' | ⟨q, hq, hqn⟩
    · exact absurd (Nat.dvd_of_mod_eq_zero h') (h.1 2 Nat.prime_two (by norm_num))
    · have key : ∀ q ∈ smallPrimes, Nat.Prime q ∧ q ≤ 53 := by decide +kernel
      exact absurd hqn (h.1 q (key q hq).1 (key q hq).2)
  rw [if_neg hc]
  have hodd : n % 2 = 1 := by
    rcases Nat.mod_two_eq_zero_or_one n with h | h
    · exact absurd (Or.inl h) hc
    · exact h
  have hq : ∀ q : Nat, q.Prime → q ≤ 53 → ¬ q ∣ n := by
    intro q hq hq53 hqn
    have key : ∀ q : Fin 54, Nat.Prime (q : Nat) → (q : Nat) = 2 ∨ (q : Nat) ∈ smallPrimes := by decide +kernel
    rcases key ⟨q, by omega⟩ hq with h | h
    · simp only at h; subst h; omega
    · exact hc (Or.inr ⟨q, h, hqn⟩)
  obtain ⟨r, hr, hiff, -⟩ := millerRabin_spec (by omega) hodd h1 checks (k + 1) ds
  obtain ⟨w, hw, hl⟩ := primeLucas_iff hodd hge h1 h2
  rw [hr]
  simp only [bind, Except.bind]
  rcases r with _ | ⟨b, ds'⟩
  · exact ⟨_, rfl, fun rest => ⟨by simp, fun h => by simpa using (hiff rest).2 h.2.1⟩⟩
  rcases b
  · exact ⟨_, rfl, fun rest => ⟨by simp, fun h => by simpa using (hiff rest).2 h.2.1⟩⟩
  simp only [hw]
  refine ⟨_, rfl, fun rest => ⟨fun h => ?_, fun h => ?_⟩⟩
  · simp only [Option.some.injEq, Prod.mk.injEq] at h
    obtain ⟨rfl, rfl⟩ := h
    exact ⟨hq, (hiff ds').1 rfl, hl.1 rfl⟩
  · have h3 := (hiff rest).2 h.2.1
    simp only [Option.some.injEq, Prod.mk.injEq, true_and] at h3
    rw [hl.2 h.2.2, h3]

/-- the hypotheses, for the composite 1022117 = 1009·1013; the test rejects it -/
example : Canon [1022117#32] ∧ 128 ≤ val [1022117#32] ∧ OddPartFits (val [1022117#32] - 1) ∧
    OddPartFits (val [1022117#32] + 1) ∧
    probablyPrimeTest false [1022117#32] 0 [some 5#32, none] = .ok (some (false, [none])) :=
  ⟨⟨by simp, by simp⟩, by decide, oddPartFits_of_not_dvd (by decide), oddPartFits_of_not_dvd (by decide), by decide +kernel⟩

end RMath
