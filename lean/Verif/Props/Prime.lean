import Mathlib.NumberTheory.LucasPrimality
import Mathlib.Tactic.NormNum.LegendreSymbol
import Verif.Props.Residue
import Verif.Lemmas.LucasExact
import Verif.Lemmas.GenPrime

/-!
# Properties C31, C32, C72: the primality test and the generation of primes

The random source is the list of its draws (`none` is a failed draw).  `drawMany x k ds` is what `k` successive calls
of `x.random(rng)` (C28) give: the numbers and the draws that are left; `none` when the draws run out.  A result
`.ok none` of the test says the same.
-/

namespace RMath

open NumberTheorySymbols

/-! ## C31 the test never rejects a prime -/

/-- Below 128 the test decides primality, without reading the source; so it says no for zero and one. -/
theorem C31_small (checks : Bool) (x : Words) (hx : Canon x) (hlt : val x < 128) (k : Nat) (ds : List (Option W)) :
    probablyPrimeTest checks x k ds = .ok (some (decide (val x).Prime, ds)) := by
  obtain ⟨n, rfl⟩ := canon_iff_enc.1 hx
  rw [val_enc] at *
  exact ppt_small checks hlt k ds

example : Canon [113#32] ∧ val [113#32] < 128 := ⟨⟨by simp, by simp⟩, by decide⟩

theorem C31_nan (checks : Bool) (k : Nat) (ds : List (Option W)) :
    probablyPrimeTest checks NaN k ds = .ok (some (false, ds)) := rfl

/-- A prime is accepted whatever the number `k` of additional rounds, in builds with and without overflow checks.
Missing from the full property: none of the drawn bases is zero (`C31_base_zero`), the shifts that remove the factors
of two from `p - 1` and `p + 1` are not affected by C06 (`C31_rejects_prime`, `C31_lucas_rejects_prime`), and `p` has a
quadratic non-residue up to 10000. -/
theorem C31_prime_partial (checks : Bool) (x : Words) (hx : Canon x) (hp : (val x).Prime) (h1 : OddPartFits (val x - 1))
    (h2 : OddPartFits (val x + 1)) (hex : ∃ m : Nat, m ≤ 10000 ∧ ¬ IsSquare (m : ZMod (val x))) (k : Nat)
    (ds : List (Option W)) (bases : List Words) (rest : List (Option W))
    (hd : drawMany x (k + 1) ds = some (bases, rest)) (hnz : ∀ a ∈ bases, val a ≠ 0) :
    ∃ rest', probablyPrimeTest checks x k ds = .ok (some (true, rest')) := by
  obtain ⟨n, rfl⟩ := canon_iff_enc.1 hx
  rw [val_enc] at *
  by_cases h128 : n < 128
  · exact ⟨ds, by rw [ppt_small checks h128]; simp [hp]⟩
  · exact ⟨rest, ppt_prime checks hp (by omega) h1 h2 hex k hd hnz⟩

/-- For primes below `10^8` the only condition left is that the drawn bases are not zero. -/
theorem C31_below_partial (checks : Bool) (x : Words) (hx : Canon x) (hp : (val x).Prime) (hlt : val x < 10 ^ 8) (k : Nat)
    (ds : List (Option W)) (bases : List Words) (rest : List (Option W))
    (hd : drawMany x (k + 1) ds = some (bases, rest)) (hnz : ∀ a ∈ bases, val a ≠ 0) :
    ∃ rest', probablyPrimeTest checks x k ds = .ok (some (true, rest')) := by
  have h2 := hp.two_le
  rcases hp.eq_two_or_odd with h | h
  · exact ⟨ds, by rw [C31_small checks x hx (by omega)]; simp [hp]⟩
  obtain ⟨m, -, hm, hns⟩ := small_nonresidue hp h hlt
  refine C31_prime_partial checks x hx hp (oddPartFits_of_not_dvd fun hdv => ?_) (oddPartFits_of_not_dvd fun hdv => ?_)
    ⟨m, hm, hns⟩ k ds bases rest hd hnz
  · have := Nat.le_of_dvd (by omega) hdv; omega
  · have := Nat.le_of_dvd (by omega) hdv; omega

/-- 1000003 and two rounds; the first draw is masked to 20 bits and rejected -/
example : Canon [1000003#32] ∧ (val [1000003#32]).Prime ∧ val [1000003#32] < 10 ^ 8 ∧
    drawMany [1000003#32] 2 [some 0xffffffff#32, some 5#32, some 77#32, none] = some ([[5#32], [77#32]], [none]) ∧
    ∀ a ∈ [[5#32], [77#32]], val a ≠ 0 :=
  ⟨⟨by simp, by simp⟩, prime_of_noDiv (k := 1000) (by decide) (by decide) (by decide +kernel), by decide, rfl, by decide⟩

/-- a number with 3 as a non-residue, for the general theorem: 2^32 + 15 -/
example : Canon [15#32, 1#32] ∧ (val [15#32, 1#32]).Prime ∧ OddPartFits (val [15#32, 1#32] - 1) ∧
    OddPartFits (val [15#32, 1#32] + 1) ∧ (∃ m : Nat, m ≤ 10000 ∧ ¬ IsSquare (m : ZMod (val [15#32, 1#32]))) ∧
    drawMany [15#32, 1#32] 1 [some 7#32, some 0#32] = some ([[7#32, 0#32]], []) ∧ ∀ a ∈ [[7#32, 0#32]], val a ≠ 0 := by
  have hv : val [15#32, 1#32] = 4294967311 := by decide
  rw [hv]
  have := Fact.mk prime_sample
  have hJ : J(3 | 4294967311) = -1 := by norm_num
  refine ⟨⟨by simp, by simp⟩, prime_sample, oddPartFits_of_not_dvd (by decide), oddPartFits_of_not_dvd (by decide), ⟨3, by norm_num, ?_⟩, rfl, by decide⟩
  intro hs
  rw [show ((3 : Nat) : ZMod 4294967311) = ((3 : Int) : ZMod 4294967311) by norm_num] at hs
  exact (ZMod.nonsquare_iff_jacobiSym_eq_neg_one.1 hJ) hs

/-- The full property fails: a source that delivers zero as base makes the test reject the prime 131. -/
theorem C31_base_zero : ∃ ds, (val [131#32]).Prime ∧ probablyPrimeTest false [131#32] 0 ds = .ok (some (false, [])) :=
  ⟨[some 0#32], by norm_num [val], rfl⟩

/-! ### two primes that are rejected with the base 2 -/

/-- `a^e` modulo `n`, by repeated squaring; the first argument bounds the number of binary digits of `e` -/
def powMod (n : Nat) : Nat → Nat → Nat → Nat
  | 0, _, _ => 1 % n
  | fuel + 1, a, e =>
    if e = 0 then 1 % n
    else if e % 2 = 1 then a * powMod n fuel (a * a % n) (e / 2) % n
    else powMod n fuel (a * a % n) (e / 2)

theorem powMod_eq (n fuel : Nat) : ∀ a e, e < 2 ^ fuel → powMod n fuel a e = a ^ e % n := by
  induction fuel with
  | zero => intro a e he; have : e = 0 := by simpa using he
            rw [this]; rfl
  | succ fuel ih =>
    intro a e he
    rw [powMod]
    by_cases h0 : e = 0
    · rw [if_pos h0, h0, pow_zero]
    have hlt : e / 2 < 2 ^ fuel := by rw [pow_succ] at he; omega
    have hsq : (a * a % n) ^ (e / 2) % n = a ^ (2 * (e / 2)) % n := by rw [← Nat.pow_mod, ← pow_two, ← pow_mul]
    rw [if_neg h0, ih _ _ hlt]
    by_cases h1 : e % 2 = 1
    · rw [if_pos h1, hsq, Nat.mul_mod, Nat.mod_mod, ← Nat.mul_mod, ← pow_succ', show 2 * (e / 2) + 1 = e by omega]
    · rw [if_neg h1, hsq, show 2 * (e / 2) = e by omega]

theorem zmod_pow_eq_one {n a e fuel : Nat} (hn : 1 < n) (he : e < 2 ^ fuel) (h : powMod n fuel a e = 1) :
    (a : ZMod n) ^ e = 1 := by
  rw [powMod_eq n fuel a e he] at h
  rw [← Nat.cast_pow, ← Nat.cast_one, ZMod.natCast_eq_natCast_iff', h, Nat.mod_eq_of_lt hn]

theorem zmod_pow_ne_one {n a e fuel : Nat} (hn : 1 < n) (he : e < 2 ^ fuel) (h : powMod n fuel a e ≠ 1) :
    (a : ZMod n) ^ e ≠ 1 := by
  rw [powMod_eq n fuel a e he] at h
  rw [← Nat.cast_pow, ← Nat.cast_one, Ne, ZMod.natCast_eq_natCast_iff', Nat.mod_eq_of_lt hn]
  exact h

/-- Pratt's certificate: `fs` contains every prime factor of `n - 1`, and `a` is a primitive root -/
theorem prime_of_pratt (n a fuel : Nat) (fs : List Nat) (hn : 1 < n) (hfuel : n - 1 < 2 ^ fuel)
    (hfs : ∀ q, q.Prime → q ∣ n - 1 → q ∈ fs) (h1 : powMod n fuel a (n - 1) = 1)
    (h : ∀ q ∈ fs, powMod n fuel a ((n - 1) / q) ≠ 1) : n.Prime := by
  refine lucas_primality n (a : ZMod n) (zmod_pow_eq_one hn hfuel h1) fun q hq hd => ?_
  exact zmod_pow_ne_one hn (lt_of_le_of_lt (Nat.div_le_self _ _) hfuel) (h q (hfs q hq hd))

theorem mem_of_dvd_prod {q : Nat} (hq : q.Prime) : ∀ (fs : List Nat), (∀ f ∈ fs, f.Prime) → q ∣ fs.prod → q ∈ fs := by
  intro fs
  induction fs with
  | nil => intro _ h; simp at h; exact absurd (h ▸ hq) Nat.not_prime_one
  | cons f fs ih =>
    intro hp h
    rw [List.prod_cons] at h
    rcases (Nat.Prime.dvd_mul hq).1 h with h | h
    · rw [(Nat.prime_dvd_prime_iff_eq hq (hp f (by simp))).1 h]; simp
    · exact List.mem_cons_of_mem _ (ih (fun f' hf' => hp f' (by simp [hf'])) h)

/-- `3·5^9·2^44 + 1` -/
theorem prime_rejected_mr : Nat.Prime 103079215104000000001 := by
  refine prime_of_pratt _ 13 67 [2, 3, 5] (by norm_num) (by norm_num) (fun q hq hd => ?_) (by decide +kernel)
    (by decide +kernel)
  rw [show 103079215104000000001 - 1 = 2 ^ 44 * 3 * 5 ^ 9 by norm_num] at hd
  rcases (Nat.Prime.dvd_mul hq).1 hd with h | h
  · rcases (Nat.Prime.dvd_mul hq).1 h with h | h
    · rw [(Nat.prime_dvd_prime_iff_eq hq Nat.prime_two).1 (hq.dvd_of_dvd_pow h)]; simp
    · rw [(Nat.prime_dvd_prime_iff_eq hq Nat.prime_three).1 h]; simp
  · rw [(Nat.prime_dvd_prime_iff_eq hq Nat.prime_five).1 (hq.dvd_of_dvd_pow h)]; simp

theorem prime_rejected_lucas : Nat.Prime 36893549737250127871 := by
  refine prime_of_pratt _ 6 66 [2, 3, 5, 13, 71, 683, 11083, 12197, 14431] (by norm_num) (by norm_num)
    (fun q hq hd => ?_) (by decide +kernel) (by decide +kernel)
  apply mem_of_dvd_prod hq
  · intro f hf
    simp only [List.mem_cons, List.not_mem_nil, or_false] at hf
    rcases hf with rfl | rfl | rfl | rfl | rfl | rfl | rfl | rfl | rfl <;> norm_num
  · have : [2, 3, 5, 13, 71, 683, 11083, 12197, 14431].prod = 36893549737250127871 - 1 := by norm_num
    rwa [this]

deriving instance DecidableEq for Except

/-- The full property fails without a zero base as well: the prime `3·5^9·2^44 + 1` is rejected with the base 2,
because the odd part of `p - 1` is computed by a right shift by 44 bits (C06). -/
theorem C31_rejects_prime : ∃ x ds, Canon x ∧ (val x).Prime ∧
    (∃ a, drawMany x 1 ds = some ([a], []) ∧ val a = 2) ∧ probablyPrimeTest false x 0 ds = .ok (some (false, [])) := by
  refine ⟨[1#32, 2525163520#32, 5#32], [some 2#32, some 0#32, some 0#32], ⟨by simp, by simp⟩, ?_, ⟨_, rfl, by decide⟩, by decide +kernel⟩
  rw [show val [1#32, 2525163520#32, 5#32] = 103079215104000000001 by decide]
  exact prime_rejected_mr

/-- And a prime with `2^32 ∣ p + 1` that the Lucas part rejects, for the same reason. -/
theorem C31_lucas_rejects_prime : ∃ x ds, Canon x ∧ (val x).Prime ∧ ¬ 2 ^ 32 ∣ val x - 1 ∧
    (∃ a, drawMany x 1 ds = some ([a], []) ∧ val a = 2) ∧ probablyPrimeTest false x 0 ds = .ok (some (false, [])) := by
  refine ⟨[4294967295#32, 14339#32, 2#32], [some 2#32, some 0#32, some 0#32], ⟨by simp, by simp⟩, ?_, by decide +kernel,
    ⟨_, rfl, by decide⟩, by decide +kernel⟩
  rw [show val [4294967295#32, 14339#32, 2#32] = 36893549737250127871 by decide]
  exact prime_rejected_lucas

/-! ## C72 what acceptance means -/

/-- The test does not panic, and acceptance of `n ≥ 128` means: `n` is odd, no prime up to 53 divides it, it passes the
strong test to every drawn base, and it is prime or passes the Lucas test with the first `P ≥ 3` for which the Jacobi
symbol of `P² - 4` is not 1 (10001 if there is none up to 10000).  Missing from the full property: numbers
for which the shift that removes the factors of two from `n - 1` or `n + 1` is affected by C06. -/
theorem C72_accepted_partial (checks : Bool) (x : Words) (hx : Canon x) (hge : 128 ≤ val x) (h1 : OddPartFits (val x - 1))
    (h2 : OddPartFits (val x + 1)) (k : Nat) (ds : List (Option W)) :
    ∃ r, probablyPrimeTest checks x k ds = .ok r ∧ ∀ rest, r = some (true, rest) →
      val x % 2 = 1 ∧ (∀ q : Nat, q.Prime → q ≤ 53 → ¬ q ∣ val x) ∧
      (∃ bases, drawMany x (k + 1) ds = some (bases, rest) ∧ bases.length = k + 1 ∧
        ∀ a ∈ bases, val a < val x ∧ StrongProbablePrime (val x) (val a)) ∧
      ((val x).Prime ∨ ∃ P : Nat, 3 ≤ P ∧ P ≤ 10001 ∧ LucasProbablePrime (val x) P ∧
        (∀ q : Nat, 3 ≤ q → q < P → J(((q * q - 4 : Nat) : Int) | val x) = 1) ∧
        (J(((P * P - 4 : Nat) : Int) | val x) = -1 ∨ P = 10001)) := by
  obtain ⟨n, rfl⟩ := canon_iff_enc.1 hx
  rw [val_enc] at *
  rw [ppt_big checks hge]
  by_cases hc : n % 2 = 0 ∨ ∃ q ∈ smallPrimes, q ∣ n
  · rw [if_pos hc]
    exact ⟨_, rfl, by simp⟩
  rw [if_neg hc]
  have hodd : n % 2 = 1 := by
    rcases Nat.mod_two_eq_zero_or_one n with h | h
    · exact absurd (Or.inl h) hc
    · exact h
  have hq : ∀ q : Nat, q.Prime → q ≤ 53 → ¬ q ∣ n := by
    intro q hq hq53 hqn
    have key : ∀ q : Fin 54, Nat.Prime (q : Nat) → (q : Nat) = 2 ∨ (q : Nat) ∈ smallPrimes := by decide +kernel
    rcases key ⟨q, by omega⟩ hq with h | h
    · simp only at h; subst h; omega
    · exact hc (Or.inr ⟨q, h, hqn⟩)
  obtain ⟨r, hr, hiff, -⟩ := millerRabin_spec (by omega) hodd h1 checks (k + 1) ds
  obtain ⟨w, hw, hl⟩ := primeLucas_exact hodd (by omega) h1 h2
  rw [hr]
  simp only [bind, Except.bind]
  rcases r with _ | ⟨b, ds'⟩
  · exact ⟨_, rfl, by simp⟩
  rcases b
  · exact ⟨_, rfl, by simp⟩
  simp only [hw]
  refine ⟨_, rfl, fun rest h => ?_⟩
  simp only [Option.some.injEq, Prod.mk.injEq] at h
  obtain ⟨rfl, rfl⟩ := h
  obtain ⟨as, hd, hs⟩ := (hiff ds').1 rfl
  have hlen : ∀ k ds as rest, drawMany (enc n) k ds = some (as, rest) → as.length = k := by
    intro k
    induction k with
    | zero => intro ds as rest h; simp [drawMany] at h; rw [h.1]; rfl
    | succ k ih =>
      intro ds as rest h
      rw [drawMany] at h
      rcases hr : natRandom (enc n) ds with _ | ⟨a, ds1⟩
      · rw [hr] at h; simp at h
      rw [hr] at h
      simp only [Option.map_eq_some_iff, Prod.exists, Prod.mk.injEq] at h
      obtain ⟨as', r', h1, rfl, rfl⟩ := h
      rw [List.length_cons, ih _ _ _ h1]
  exact ⟨hodd, hq, ⟨as, hd, hlen _ _ _ _ hd, fun a ha => ⟨drawMany_lt (by omega) _ hd a ha, hs a ha⟩⟩, hl rfl⟩

/-- the hypotheses hold for the prime 1000003 and the composite 1022117 = 1009·1013, and the test accepts the first one -/
example : Canon [1000003#32] ∧ 128 ≤ val [1000003#32] ∧ OddPartFits (val [1000003#32] - 1) ∧
    OddPartFits (val [1000003#32] + 1) ∧
    probablyPrimeTest false [1000003#32] 1 [some 5#32, some 77#32, none] = .ok (some (true, [none])) ∧
    probablyPrimeTest false [1022117#32] 1 [some 5#32, some 77#32, none] = .ok (some (false, [some 77#32, none])) :=
  ⟨⟨by simp, by simp⟩, by decide, oddPartFits_of_not_dvd (by decide), oddPartFits_of_not_dvd (by decide), by decide +kernel,
    by decide +kernel⟩

/-! ## C32 generation of primes -/

/-- What `generate_prime(bits)` returns, for every bit length, number of rounds and source: a number of exactly `bits`
bits, odd, with its two top bits set, that the primality test has just accepted. -/
theorem C32_generate_prime (checks : Bool) (bits rounds : Nat) (ds : List (Option W)) (p : Words)
    (rest : List (Option W)) (h : generatePrime checks bits rounds ds = .ok (.prime p rest)) :
    Canon p ∧ bitsLen p = bits ∧ 2 ^ (bits - 1) ≤ val p ∧ val p < 2 ^ bits ∧ val p % 2 = 1 ∧
    3 * 2 ^ (bits - 2) ≤ val p ∧
    ∃ ds', ds' <:+ ds ∧ probablyPrimeTest checks p rounds ds' = .ok (some (true, rest)) := by
  unfold generatePrime at h
  by_cases h2 : bits < 2
  · rw [if_pos h2] at h; simp at h
  rw [if_neg h2] at h
  simp only [bind, Except.bind] at h
  split at h
  · simp at h
  rename_i r hr
  rcases r with _ | ⟨p', ds'⟩
  · simp at h
  simp only [Except.ok.injEq, GenPrime.prime.injEq] at h
  obtain ⟨rfl, rfl⟩ := h
  have hb : ∀ b, b = (if bits % 32 = 0 then 32 else bits % 32) →
      1 ≤ b ∧ b ≤ 32 ∧ bits = 32 * ((bits + 31) / 32 - 1) + b := by
    intro b hb
    split at hb <;> omega
  obtain ⟨hb1, hb2, hb3⟩ := hb _ rfl
  obtain ⟨c1, c2, c3, c4, c5, c6⟩ := genPrimeLoop_spec hb1 hb2 (by omega) hb3 (by omega) _ hr
  refine ⟨c1, c2, ?_, c5, c3, c4, c6⟩
  have : 2 ^ (bits - 1) = 2 * 2 ^ (bits - 2) := by rw [← pow_succ', show bits - 2 + 1 = bits - 1 by omega]
  omega

/-- 40 bits: the words drawn are shaped, moved to the next candidate, tested with the base 3 -/
example : generatePrime false 40 0 [some 112#32, some 1#32, some 3#32, some 0#32] =
    .ok (.prime [121#32, 193#32] []) := by decide +kernel

/-- A request for less than two bits is an error. -/
theorem C32_too_short (checks : Bool) (bits rounds : Nat) (ds : List (Option W)) (h : bits < 2) :
    generatePrime checks bits rounds ds = .ok .tooShort := by
  unfold generatePrime
  rw [if_pos h]

/-- The loop's bound in the model never ends it early: with more steps than draws the result does not change. -/
theorem C32_no_cutoff (checks : Bool) (bits rounds b len : Nat) (hlen : 1 ≤ len) (ds : List (Option W)) (extra : Nat) :
    genPrimeLoop checks bits rounds b len (ds.length + 1 + extra) ds =
      genPrimeLoop checks bits rounds b len (ds.length + 1) ds := by
  induction extra with
  | zero => rfl
  | succ e ih => rw [← ih, ← genPrimeLoop_fuel hlen (ds.length + 1 + e) (by omega)]; rfl

/-- A source whose first draw fails makes the function panic. -/
theorem C32_panics (checks : Bool) : generatePrime checks 64 0 [none] = .error .panic := rfl

end RMath
