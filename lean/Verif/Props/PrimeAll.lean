import Verif.Lemmas.PrimeAll
import Mathlib.Tactic.NormNum.LegendreSymbol

/-!
# Property C72 for all numbers: what the primality test accepts
-/

open scoped NumberTheorySymbols

namespace RMath

/-- If the code removes the factors of two of `n - 1` correctly, its strong test is the textbook one. -/
theorem StrongAsShifted.iff_strong {n a : Nat} (h : OddPartFits (n - 1)) :
    StrongAsShifted n a ↔ StrongProbablePrime n a := by
  have key : ∀ t u, n - 1 = 2 ^ t * u → u % 2 = 1 → shiftedOut (n - 1) t = u := by
    intro t u htu hu
    have hf := h t u htu hu
    rw [htu] at hf ⊢
    exact shiftedOut_fits hu hf
  constructor
  · rintro ⟨t, u, htu, hu, h'⟩
    rw [key t u htu hu] at h'
    exact ⟨t, u, htu, hu, h'⟩
  · rintro ⟨t, u, htu, hu, h'⟩
    refine ⟨t, u, htu, hu, ?_⟩
    rwa [key t u htu hu]

/-- If the code removes the factors of two of `n - 1` and `n + 1` correctly, its Lucas test is the textbook one. -/
theorem LucasAsShifted.iff_lucas {n : Nat} {P : Int} (h1 : OddPartFits (n - 1)) (h2 : OddPartFits (n + 1)) :
    LucasAsShifted n P ↔ LucasProbablePrime n P := by
  have key : ∀ t u, n + 1 = 2 ^ t * u → u % 2 = 1 → shiftedOut (n + 1) t = u := by
    intro t u htu hu
    have hf := h2 t u htu hu
    rw [htu] at hf ⊢
    exact shiftedOut_fits hu hf
  have hk : ∀ k, 1 ≤ k → n ≠ 2 ^ (32 * k) + 1 := by
    rintro k hk rfl
    rw [Nat.add_sub_cancel] at h1
    exact not_oddPartFits (k := k) (by omega) h1
  constructor
  · rintro ⟨r, s, hrs, hs, h'⟩
    rw [key r s hrs hs] at h'
    exact ⟨r, s, hrs, hs, h'.imp_left (And.imp_left (Or.imp_right And.left))⟩
  · rintro ⟨r, s, hrs, hs, h'⟩
    refine ⟨r, s, hrs, hs, ?_⟩
    rw [key r s hrs hs]
    exact h'.imp_left (And.imp_left (Or.imp_right fun h => ⟨h, hk⟩))

/-- **C72, what the code does**, for every number of at least 128: the test does not panic, and it accepts with `rest` left of
the draws if and only if no prime up to 53 divides `n` (so `n` is odd), `n` passes the strong test, with the right shift as
the code computes it, to each of the `k + 1` bases drawn, and it passes the Lucas test, with the same shift, with the
first `P ≥ 3` for which the Jacobi symbol of `P² - 4` is -1, all the earlier ones being 1, or with 10001 if they are all
1 and `n` is not a square. -/
theorem C72_described (checks : Bool) (x : Words) (hx : Canon x) (hge : 128 ≤ val x) (k : Nat) (ds : List (Option W)) :
    ∃ r, probablyPrimeTest checks x k ds = .ok r ∧ ∀ rest, r = some (true, rest) ↔
      (∀ q : Nat, q.Prime → q ≤ 53 → ¬ q ∣ val x) ∧
      (∃ bases, drawMany x (k + 1) ds = some (bases, rest) ∧ ∀ a ∈ bases, StrongAsShifted (val x) (val a)) ∧
      (∃ P : Nat, 3 ≤ P ∧ P ≤ 10001 ∧ LucasAsShifted (val x) P ∧
        (∀ q : Nat, 3 ≤ q → q < P → J(((q * q - 4 : Nat) : Int) | val x) = 1) ∧
        (J(((P * P - 4 : Nat) : Int) | val x) = -1 ∨ (P = 10001 ∧ ¬ IsSquare (val x)))) := by
  obtain ⟨n, rfl⟩ := canon_iff_enc.1 hx
  rw [val_enc] at *
  rw [ppt_big checks hge]
  by_cases hc : n % 2 = 0 ∨ ∃ q ∈ smallPrimes, q ∣ n
  · rw [if_pos hc]
    refine ⟨_, rfl, fun rest => ⟨by simp, fun h => ?_⟩⟩
    rcases hc with h' | ⟨q, hq, hqn⟩
    · exact absurd (Nat.dvd_of_mod_eq_zero h') (h.1 2 Nat.prime_two (by norm_num))
    · have key : ∀ q ∈ smallPrimes, Nat.Prime q ∧ q ≤ 53 := by decide +kernel
      exact absurd hqn (h.1 q (key q hq).1 (key q hq).2)
  rw [if_neg hc]
  have hodd : n % 2 = 1 := by
    rcases Nat.mod_two_eq_zero_or_one n with h | h
    · exact absurd (Or.inl h) hc
    · exact h
  have hq : ∀ q : Nat, q.Prime → q ≤ 53 → ¬ q ∣ n := by
    intro q hq hq53 hqn
    have key : ∀ q : Fin 54, Nat.Prime (q : Nat) → (q : Nat) = 2 ∨ (q : Nat) ∈ smallPrimes := by decide +kernel
    rcases key ⟨q, by omega⟩ hq with h | h
    · simp only at h; subst h; omega
    · exact hc (Or.inr ⟨q, h, hqn⟩)
  obtain ⟨r, hr, hiff, -⟩ := millerRabin_words (by omega) hodd checks (k + 1) ds
  obtain ⟨w, hw, hl⟩ := primeLucas_words hodd hge
  rw [hr]
  simp only [bind, Except.bind]
  rcases r with _ | ⟨b, ds'⟩
  · exact ⟨_, rfl, fun rest => ⟨by simp, fun h => by simpa using (hiff rest).2 h.2.1⟩⟩
  rcases b
  · exact ⟨_, rfl, fun rest => ⟨by simp, fun h => by simpa using (hiff rest).2 h.2.1⟩⟩
  simp only [hw]
  refine ⟨_, rfl, fun rest => ⟨fun h => ?_, fun h => ?_⟩⟩
  · simp only [Option.some.injEq, Prod.mk.injEq] at h
    obtain ⟨rfl, rfl⟩ := h
    exact ⟨hq, (hiff ds').1 rfl, hl.1 rfl⟩
  · have h3 := (hiff rest).2 h.2.1
    simp only [Option.some.injEq, Prod.mk.injEq, true_and] at h3
    rw [hl.2 h.2.2, h3]

/-- the hypotheses, for the number `3·2^64 + 1` whose predecessor the shift spoils -/
example : Canon [1#32, 0#32, 3#32] ∧ 128 ≤ val [1#32, 0#32, 3#32] ∧ ¬ OddPartFits (val [1#32, 0#32, 3#32] - 1) ∧
    shiftedOut (val [1#32, 0#32, 3#32] - 1) 64 = 0 := by
  refine ⟨⟨by simp, by simp⟩, by decide, fun h => ?_, by decide +kernel⟩
  rcases h 64 3 (by decide) (by decide) with h | h
  · omega
  · omega

/-- The numbers `n = 2^(32 j) q - 1` with `q < 2^(32 j)` pass the Lucas test of the code whatever the parameter: the shift
leaves the exponent 0. -/
theorem C72_lucas_blind (j q : Nat) (hj : 1 ≤ j) (hq : q % 2 = 1) (hlt : q < 2 ^ (32 * j)) (P : Int) :
    LucasAsShifted (2 ^ (32 * j) * q - 1) P := by
  have hpos : 0 < 2 ^ (32 * j) * q := Nat.mul_pos (Nat.two_pow_pos _) (by omega)
  have hn : 2 ^ (32 * j) * q - 1 + 1 = 2 ^ (32 * j) * q := by omega
  have h0 : shiftedOut (2 ^ (32 * j) * q) (32 * j) = 0 := by
    have hq0 : 0 < q := by omega
    have hlog : (2 ^ (32 * j) * q).log2 = 32 * j + q.log2 := by
      rw [Nat.mul_comm, Nat.log2_eq_iff (by positivity), show 32 * j + q.log2 + 1 = (q.log2 + 1) + 32 * j by omega,
        show 32 * j + q.log2 = q.log2 + 32 * j by omega, Nat.pow_add, Nat.pow_add]
      exact ⟨Nat.mul_le_mul_right _ (Nat.log2_self_le (by omega)),
        Nat.mul_lt_mul_of_pos_right Nat.lt_log2_self (Nat.two_pow_pos _)⟩
    have hql : q.log2 < 32 * j := (Nat.log2_lt (by omega)).2 hlt
    unfold shiftedOut shrWords
    rw [hlog, if_neg (by omega), if_pos (by omega)]
    apply Nat.mod_eq_zero_of_dvd
    refine Dvd.dvd.mul_right (pow_dvd_pow 2 ?_) q
    omega
  refine ⟨32 * j, q, hn, hq, Or.inl ?_⟩
  rw [hn, h0]
  refine ⟨Or.inl ?_, ?_⟩
  · simp [lucasSeq]
  · simp only [lucasSeq]
    rw [mul_comm P 2]

/-- with `83·2^32 - 1` -/
example : 1 ≤ 1 ∧ 83 % 2 = 1 ∧ 83 < 2 ^ (32 * 1) ∧ 2 ^ (32 * 1) * 83 - 1 = 331 * 1076985757 := by norm_num

/-- **C72 is violated**: a composite number is accepted, although it does not pass the Lucas test. -/
theorem C72_violated : ∃ x ds, Canon x ∧ 128 ≤ val x ∧ ¬ (val x).Prime ∧
    probablyPrimeTest true x 0 ds = .ok (some (true, [])) ∧
    ∀ P : Nat, 3 ≤ P → (∀ q : Nat, 3 ≤ q → q < P → J(((q * q - 4 : Nat) : Int) | val x) = 1) →
      ¬ LucasProbablePrime (val x) P := by
  have hv : val [0xffffffff#32, 82#32] = 356482285567 := by decide
  have hJ : J(((3 * 3 - 4 : Nat) : Int) | 356482285567) = -1 := by norm_num
  refine ⟨[0xffffffff#32, 82#32], [some 1#32, some 0#32], ⟨by simp, by simp⟩, by rw [hv]; norm_num, ?_, by decide +kernel, ?_⟩
  · rw [hv, show 356482285567 = 331 * 1076985757 by norm_num]
    exact Nat.not_prime_mul (by norm_num) (by norm_num)
  rw [hv]
  intro P h3 hall hL
  have hP : P = 3 := by
    by_contra hc
    have := hall 3 (by norm_num) (by omega)
    omega
  subst hP
  obtain ⟨r, s, hrs, hs, h⟩ := hL
  obtain ⟨rfl, rfl⟩ := two_pow_odd_inj (t := 32) (u := 83) (by rw [← hrs]; norm_num) (by norm_num) hs
  obtain ⟨a, b, hab, ha, hb, haV, -⟩ := lucasChain_exact (n := 331) (P := 3) (by norm_num) (by norm_num) 83 7 2 3
    (by norm_num) (by norm_num) (by norm_num [lucasSeq]) (by norm_num [lucasSeq])
  have hch : lucasChain (enc 331) (enc (331 - 2)) (enc 3) (enc 83) 7 (enc 2) (enc 3) = .ok (enc 98, enc 196) := by
    rw [enc_lt (by norm_num : 331 < 2 ^ 32), enc_lt (by norm_num : 331 - 2 < 2 ^ 32), enc_lt (by norm_num : 3 < 2 ^ 32),
      enc_lt (by norm_num : 83 < 2 ^ 32), enc_lt (by norm_num : 2 < 2 ^ 32), enc_lt (by norm_num : 98 < 2 ^ 32),
      enc_lt (by norm_num : 196 < 2 ^ 32)]
    decide +kernel
  rw [hch] at hab
  simp only [Except.ok.injEq, Prod.mk.injEq] at hab
  have ha98 : a = 98 := by rw [← val_enc a, ← hab.1, val_enc]
  subst ha98
  have hd : ((331 : Nat) : Int) ∣ ((356482285567 : Nat) : Int) := by norm_num
  have hred : ∀ u v : Int, u ≡ v [ZMOD ((356482285567 : Nat) : Int)] → ((u : Int) : ZMod 331) = (v : Int) :=
    fun u v h => (cast_modEq u v).2 (Int.ModEq.of_dvd hd h)
  rcases h with ⟨h | h, -⟩ | ⟨t, ht, h⟩
  · have := hred _ _ h
    rw [← haV] at this
    exact absurd this (by decide)
  · have := hred _ _ h
    rw [← haV] at this
    exact absurd this (by decide)
  · obtain ⟨w, hw, hiff⟩ := lucasTail_exact (n := 331) (by norm_num) (32 - 1) 98
      (fun t => ((lucasSeq 3 (2 ^ t * 83) : Int) : ZMod 331)) ha (by simpa using haV.symm) (by
        intro t
        rw [pow_succ, mul_comm (2 ^ t) 2, mul_assoc, (lucasSeq_double 3 _).1]
        push_cast; ring)
    have hwf : lucasTail (enc 331) (32 - 1) (enc 98) = .ok false := by
      rw [enc_lt (by norm_num : 331 < 2 ^ 32), enc_lt (by norm_num : 98 < 2 ^ 32)]
      decide +kernel
    rw [hwf] at hw
    simp only [Except.ok.injEq] at hw
    subst hw
    have h2 := hiff.2 ⟨t, ht, by simpa using hred _ _ h⟩
    simp at h2

end RMath
