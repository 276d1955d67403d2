import Verif.Props.PrimeSieve
import Verif.Props.PrimeAll
import Verif.Props.RandomUniform
import Verif.Props.PrimeMore
import Verif.Lemmas.FloatOps

/-!
# C139: which numbers `generate_prime` can return

Every prime of the requested length whose two top bits are set should be returned for some outcome of the random source.  What can be returned is exactly
what passes trial division and the Lucas part of the test: the bases of the Miller-Rabin part are drawn, and the base 1 proves nothing.
-/

namespace RMath

open scoped NumberTheorySymbols

/-! ## Statement -/

/-- `generate_prime` returns `p` for some outcome of the random source -/
def CanReturn (checks : Bool) (bits rounds : ℕ) (p : Words) : Prop :=
  ∃ ds rest, generatePrime checks bits rounds ds = .ok (.prime p rest)

/-- a number with `bits` bits, the first two and the last of which are set -/
def Shaped (bits n : ℕ) : Prop := 2 ≤ bits ∧ 3 * 2 ^ (bits - 2) ≤ n ∧ n < 2 ^ bits ∧ n % 2 = 1

/-- the Lucas part of the test, with the exponents that the code uses -/
def PassesLucas (n : ℕ) : Prop :=
  ∃ P : ℕ, 3 ≤ P ∧ P ≤ 10001 ∧ LucasAsShifted n P ∧
    (∀ q : ℕ, 3 ≤ q → q < P → J(((q * q - 4 : ℕ) : ℤ) | n) = 1) ∧
    (J(((P * P - 4 : ℕ) : ℤ) | n) = -1 ∨ (P = 10001 ∧ ¬ IsSquare n))

/-! ## Proof: the draws -/

theorem takeDraws_words (v : Words) (rest : List (Option W)) : takeDraws v.length (v.map some ++ rest) = some (v, rest) := by
  induction v with
  | nil => rfl
  | cons x v ih => simp [takeDraws, ih]

/-- the words of 1, as many as `n` has -/
def oneWords (n : ℕ) : Words := 1#32 :: List.replicate ((enc n).length - 1) 0#32

theorem val_zeros (k : ℕ) : val (List.replicate k 0#32) = 0 := by
  induction k with
  | zero => rfl
  | succ k ih => rw [List.replicate_succ, val_cons, ih]; rfl

theorem val_oneWords (n : ℕ) : val (oneWords n) = 1 := by
  rw [oneWords, val_cons, val_zeros]; rfl

theorem length_oneWords (n : ℕ) : (oneWords n).length = (enc n).length := by
  have := List.length_pos_iff.2 (enc_ne_nil n)
  simp [oneWords]
  omega

theorem draw_one {n : ℕ} (hn : 2 ≤ n) (rest : List (Option W)) :
    ∃ a, natRandom (enc n) ((oneWords n).map some ++ rest) = some (a, rest) ∧ val a = 1 := by
  have hl := length_oneWords n
  let g : Fin (enc n).length → W := fun i => (oneWords n)[i.1]'(by rw [hl]; exact i.2)
  have hg : List.ofFn g = oneWords n := by
    apply List.ext_getElem
    · simp [hl]
    · intro i h1 h2
      simp [g]
  have h1 : (1 : ℕ) % 2 ^ bitLen n = 1 := Nat.mod_eq_of_lt (lt_of_lt_of_le (by omega) (lt_pow_bitLen n).le)
  rw [natRandom_enc (by omega)]
  have := randomLoop_group (fuel := ((oneWords n).map some ++ rest).length) g rest
  rw [drawn, hg, val_oneWords, h1, if_pos (by omega)] at this
  refine ⟨_, this, ?_⟩
  rw [(maskLast_val hl).1, val_oneWords, h1]

theorem draw_ones {n : ℕ} (hn : 2 ≤ n) (k : ℕ) : ∃ ds bases, drawMany (enc n) k ds = some (bases, []) ∧ ∀ a ∈ bases, val a = 1 := by
  induction k with
  | zero => exact ⟨[], [], rfl, by simp⟩
  | succ k ih =>
    obtain ⟨ds, bases, h1, h2⟩ := ih
    obtain ⟨a, ha, hv⟩ := draw_one hn ds
    refine ⟨(oneWords n).map some ++ ds, a :: bases, by rw [drawMany, ha]; simp [h1], ?_⟩
    intro b hb
    rcases List.mem_cons.1 hb with rfl | hb
    · exact hv
    · exact h2 b hb

theorem strong_one {n : ℕ} (hn : 2 ≤ n) : StrongAsShifted n 1 := by
  obtain ⟨t, u, hu, e⟩ := Nat.exists_eq_two_pow_mul_odd (show n - 1 ≠ 0 by omega)
  exact ⟨t, u, e, Nat.odd_iff.1 hu, Or.inl (by rw [one_pow]; exact Nat.mod_eq_of_lt (by omega))⟩

/-- some draws make the test accept exactly the numbers that pass trial division and the Lucas part -/
theorem accepts_some {n : ℕ} (h : 128 ≤ n) (checks : Bool) (k : ℕ) :
    (∃ ds rest, probablyPrimeTest checks (enc n) k ds = .ok (some (true, rest))) ↔ NoSmallFactor n ∧ PassesLucas n := by
  constructor
  · rintro ⟨ds, rest, h1⟩
    obtain ⟨r, hr, hi⟩ := C72_described checks (enc n) (canon_enc n) (by rwa [val_enc]) k ds
    rw [hr] at h1
    have := (hi rest).1 (Except.ok.inj h1)
    rw [val_enc] at this
    exact ⟨this.1, this.2.2⟩
  · rintro ⟨h1, h2⟩
    obtain ⟨ds, bases, hd, hb⟩ := draw_ones (n := n) (by omega) (k + 1)
    obtain ⟨r, hr, hi⟩ := C72_described checks (enc n) (canon_enc n) (by rwa [val_enc]) k ds
    refine ⟨ds, [], ?_⟩
    rw [hr, (hi []).2]
    rw [val_enc]
    exact ⟨h1, ⟨bases, hd, fun a ha => by rw [hb a ha]; exact strong_one (by omega)⟩, h2⟩

/-! ## Proof: the shape -/

theorem or_top {w x : W} {s c : ℕ} (hx : x.toNat = c * 2 ^ s) (hw : w.toNat / 2 ^ s = c) : w ||| x = w := by
  apply BitVec.eq_of_toNat_eq
  rw [BitVec.toNat_or, hx]
  have h1 := Nat.div_add_mod w.toNat (2 ^ s)
  have h2 : w.toNat = c * 2 ^ s ||| w.toNat % 2 ^ s := by
    rw [or_eq_add (Nat.mod_lt _ (by positivity)), ← hw, Nat.mul_comm]
    exact h1.symm
  rw [h2]
  rw [Nat.or_assoc, Nat.or_comm (w.toNat % 2 ^ s), ← Nat.or_assoc, Nat.or_self]

theorem or_low {w : W} (hw : w.toNat % 2 = 1) : w ||| 1#32 = w := by
  apply BitVec.eq_of_toNat_eq
  rw [BitVec.toNat_or]
  apply Nat.eq_of_testBit_eq
  intro i
  rw [Nat.testBit_or]
  rcases i with _ | i
  · simp [Nat.testBit_zero, hw]
  · simp [Nat.testBit_succ]

/-- a number of the right shape is left as it is -/
theorem shapePrime_shaped {bits n : ℕ} (h : Shaped bits n) :
    (enc n).length = (bits + 31) / 32 ∧ shapePrime (if bits % 32 = 0 then 32 else bits % 32) (enc n) = .ok (enc n) := by
  obtain ⟨h2, hlo, hhi, hodd⟩ := h
  obtain ⟨b, hb⟩ : ∃ b, b = (if bits % 32 = 0 then 32 else bits % 32) := ⟨_, rfl⟩
  obtain ⟨l, hl⟩ : ∃ l, l = (bits + 31) / 32 - 1 := ⟨_, rfl⟩
  have hb1 : 1 ≤ b := by split at hb <;> omega
  have hb2 : b ≤ 32 := by split at hb <;> omega
  have hbits : bits = 32 * l + b := by split at hb <;> omega
  rw [← hb]
  have hge : 2 ^ (bits - 1) ≤ n := by
    have e : 2 ^ (bits - 1) = 2 * 2 ^ (bits - 2) := by rw [← pow_succ']; congr 1; omega
    have : 0 < 2 ^ (bits - 2) := by positivity
    omega
  have hlen : (enc n).length = l + 1 := enc_length_bits
    (le_trans (Nat.pow_le_pow_right (by norm_num) (by omega)) hge)
    (lt_of_lt_of_le hhi (Nat.pow_le_pow_right (by norm_num) (by omega)))
  refine ⟨by omega, ?_⟩
  have hv := val_enc n
  generalize enc n = v at *
  rcases List.eq_nil_or_concat' v with rfl | ⟨init, w, rfl⟩
  · simp at hlen
  have hil : init.length = l := by simpa using hlen
  rw [val_concat, hil] at hv
  have hvi := val_lt init
  rw [hil] at hvi
  have hw : w.toNat < 2 ^ b := by
    by_contra hc
    have : 2 ^ (32 * l) * 2 ^ b ≤ 2 ^ (32 * l) * w.toNat := Nat.mul_le_mul_left _ (by omega)
    rw [← pow_add, ← hbits] at this
    omega
  have e1 : (if b ≠ 32 then onLast (fun w => w &&& ((1#32 <<< b) - 1#32)) (init ++ [w]) else .ok (init ++ [w]) : Res Words) = .ok (init ++ [w]) := by
    by_cases h32 : b = 32
    · rw [if_neg (by simpa using h32)]
    · rw [if_pos h32, onLast]
      have : w &&& ((1#32 <<< b) - 1#32) = w := by
        apply BitVec.eq_of_toNat_eq
        rw [and_mask_toNat w (by omega), Nat.mod_eq_of_lt hw]
      simp [this]
  have e2 : (if 2 ≤ b then onLast (fun w => w ||| (3#32 <<< (b - 2))) (init ++ [w]) else .ok (topTwoSplit (init ++ [w])) : Res Words) =
      .ok (init ++ [w]) := by
    by_cases hb' : 2 ≤ b
    · rw [if_pos hb', onLast]
      have hq : w.toNat / 2 ^ (b - 2) = 3 := by
        have eb : 2 ^ b = 4 * 2 ^ (b - 2) := by
          rw [show (4 : ℕ) = 2 ^ 2 by norm_num, ← pow_add]; congr 1; omega
        have hlow : 3 * 2 ^ (b - 2) ≤ w.toNat := by
          by_contra hc
          have h3 : 2 ^ (32 * l) * (w.toNat + 1) ≤ 2 ^ (32 * l) * (3 * 2 ^ (b - 2)) := Nat.mul_le_mul_left _ (by omega)
          have e : 2 ^ (32 * l) * (3 * 2 ^ (b - 2)) = 3 * 2 ^ (bits - 2) := by
            rw [show bits - 2 = 32 * l + (b - 2) by omega, pow_add]; ring
          rw [e, Nat.mul_add] at h3
          omega
        rw [Nat.div_eq_iff (by positivity)]
        omega
      have := or_top (w := w) (x := 3#32 <<< (b - 2)) (s := b - 2) (c := 3) (three_shift hb' hb2) hq
      simp [this]
    · rw [if_neg hb']
      have hb0 : b = 1 := by omega
      subst hb0
      rcases List.eq_nil_or_concat' init with rfl | ⟨init', w', rfl⟩
      · simp at hil
        omega
      have hl' : l = init'.length + 1 := by simpa using hil.symm
      subst hl'
      have hw1 : w.toNat = 1 := by
        have : w.toNat ≠ 0 := by
          intro h0
          rw [h0, Nat.mul_zero] at hv
          rw [show bits - 1 = 32 * (init'.length + 1) by omega] at hge
          omega
        omega
      have hq : w'.toNat / 2 ^ 31 = 1 := by
        have hlow : 2 ^ 31 ≤ w'.toNat := by
          by_contra hc
          rw [val_concat, hw1] at hv
          have h3 : 2 ^ (32 * init'.length) * (w'.toNat + 1) ≤ 2 ^ (32 * init'.length) * 2 ^ 31 := Nat.mul_le_mul_left _ (by omega)
          have hvi' := val_lt init'
          have e : 3 * 2 ^ (bits - 2) = 2 ^ (32 * init'.length) * 2 ^ 31 + 2 ^ (32 * (init'.length + 1)) * 1 := by
            rw [show bits - 2 = 32 * init'.length + 31 by omega, show 32 * (init'.length + 1) = 32 * init'.length + 31 + 1 by ring, pow_succ,
              pow_add]
            ring
          rw [e] at hlo
          rw [Nat.mul_add] at h3
          omega
        have := w'.isLt
        omega
      have h4 := or_top (w := w') (x := 0x80000000#32) (s := 31) (c := 1) (by decide) hq
      have h5 := or_low (w := w) (by omega)
      simp [topTwoSplit, h4, h5]
  unfold shapePrime
  rw [e1]
  simp only [bind, Except.bind]
  rw [e2]
  have hv2 : val (init ++ [w]) = n := by rw [val_concat, hil]; exact hv
  generalize init ++ [w] = v at hv2 hlen
  cases v with
  | nil => simp at hlen
  | cons a ws =>
    simp only
    rw [or_low]
    rw [val_cons] at hv2
    omega

theorem bump_candidate {bits n : ℕ} (hc : Candidate bits n) (hs : bits ≤ 6 → n < 2 ^ 32) : bumpPrime bits (enc n) = enc n := by
  obtain ⟨d, -, -, h1, h2, -, h3⟩ := C137_next_candidate bits (canon_enc n) (by rwa [val_enc])
  have hd : d = 0 := by
    by_contra h0
    exact h3 0 rfl (by omega) (by rwa [val_enc])
  obtain ⟨m, hm⟩ := canon_iff_enc.1 h1
  rw [hm, val_enc, val_enc, hd] at h2
  rw [hm, h2, Nat.add_zero]

/-- a candidate of the right shape that the test can accept can be returned -/
theorem can_return {bits n : ℕ} (h : Shaped bits n) (hc : Candidate bits n) {checks : Bool} {rounds : ℕ}
    (ht : ∃ ds rest, probablyPrimeTest checks (enc n) rounds ds = .ok (some (true, rest))) : CanReturn checks bits rounds (enc n) := by
  obtain ⟨ds, rest, ht⟩ := ht
  obtain ⟨hl, hs⟩ := shapePrime_shaped h
  refine ⟨(enc n).map some ++ ds, rest, ?_⟩
  have htake := takeDraws_words (enc n) ds
  rw [hl] at htake
  have hbl : bitsLen (enc n) = bits := by
    have h0 : n ≠ 0 := by have := h.2.2.2; omega
    have h1 := lt_pow_bitLen n
    have h2 := pow_bitLen_le h0
    have h3 := bitLen_pos n
    obtain ⟨hb, hlo, hhi, -⟩ := h
    have hge : 2 ^ (bits - 1) ≤ n := by
      have e : 2 ^ (bits - 1) = 2 * 2 ^ (bits - 2) := by rw [← pow_succ']; congr 1; omega
      have : 0 < 2 ^ (bits - 2) := by positivity
      omega
    rw [bitsLen_enc]
    have a1 : bits - 1 < bitLen n := (Nat.pow_lt_pow_iff_right (by norm_num : 1 < 2)).1 (lt_of_le_of_lt hge h1)
    have a2 : bitLen n - 1 < bits := (Nat.pow_lt_pow_iff_right (by norm_num : 1 < 2)).1 (lt_of_le_of_lt h2 hhi)
    omega
  have hbump := bump_candidate hc (fun h6 => lt_of_lt_of_le h.2.2.1 (Nat.pow_le_pow_right (by norm_num) (by omega)))
  unfold generatePrime
  have hb2 := h.1
  rw [if_neg (by omega)]
  simp only [genPrimeLoop, htake, hs, hbump, hbl, ht, bind, Except.bind, if_true]

theorem candidate_of_prime {bits n : ℕ} (h : Shaped bits n) (hp : n.Prime) : Candidate bits n := by
  intro q hq h3 h53 hd
  have e : q = n := (Nat.prime_dvd_prime_iff_eq hq hp).1 hd
  refine ⟨?_, e.symm⟩
  by_contra hb
  have h1 : 2 ^ 5 ≤ 2 ^ (bits - 2) := Nat.pow_le_pow_right (by norm_num) (by omega)
  have := h.2.1
  omega

/-! ## Theorems -/

/-- **C139**: the numbers that `generate_prime` can return are those of the right shape that are primes below 128, or pass trial division and the Lucas
part of the test; the number of rounds makes no difference. -/
theorem C139_possible (checks : Bool) (bits rounds : ℕ) {p : Words} (hp : Canon p) :
    CanReturn checks bits rounds p ↔ Shaped bits (val p) ∧
      ((val p < 128 ∧ (val p).Prime) ∨ (128 ≤ val p ∧ NoSmallFactor (val p) ∧ PassesLucas (val p))) := by
  obtain ⟨n, rfl⟩ := canon_iff_enc.1 hp
  rw [val_enc]
  constructor
  · rintro ⟨ds, rest, h⟩
    obtain ⟨-, -, -, hhi, hodd, htop, ds', -, ht⟩ := C32_generate_prime checks bits rounds ds _ rest h
    rw [val_enc] at hhi hodd htop
    have hb : 2 ≤ bits := by
      by_contra hb
      rw [C32_too_short checks bits rounds ds (by omega)] at h
      simp at h
    refine ⟨⟨hb, htop, hhi, hodd⟩, ?_⟩
    by_cases h128 : n < 128
    · rw [C31_small checks _ (canon_enc n) (by rwa [val_enc]), val_enc] at ht
      simp at ht
      exact Or.inl ⟨h128, ht.1⟩
    · exact Or.inr ⟨by omega, (accepts_some (by omega) checks rounds).1 ⟨ds', rest, ht⟩⟩
  · rintro ⟨hs, ⟨h1, h2⟩ | ⟨h1, h2, h3⟩⟩
    · refine can_return hs (candidate_of_prime hs h2) ⟨[], [], ?_⟩
      rw [C31_small checks _ (canon_enc n) (by rwa [val_enc]), val_enc]
      simp [h2]
    · exact can_return hs (fun q hq _ h53 hd => absurd hd (h2 q hq h53)) ((accepts_some h1 checks rounds).2 ⟨h2, h3⟩)

/-- **C139** for primes: every prime of the right shape can be returned, as far as the test can accept it.  *Missing:* primes for which the shift of C06
spoils the odd part of one of the neighbours, and primes without quadratic non-residue up to 10000, which are never returned (`C139_never`). -/
theorem C139_primes_partial (checks : Bool) (bits rounds : ℕ) {p : Words} (hc : Canon p) (hs : Shaped bits (val p)) (hp : (val p).Prime)
    (h1 : OddPartFits (val p - 1)) (h2 : OddPartFits (val p + 1)) (hex : ∃ m : ℕ, m ≤ 10000 ∧ ¬ IsSquare (m : ZMod (val p))) :
    CanReturn checks bits rounds p := by
  have hp2 := hp.two_le
  obtain ⟨n, rfl⟩ := canon_iff_enc.1 hc
  have hn : 2 ≤ n := by rwa [val_enc] at hp2
  obtain ⟨ds, bases, hd, hb⟩ := draw_ones hn (rounds + 1)
  obtain ⟨rest, ht⟩ := C31_prime_partial checks (enc n) hc hp h1 h2 hex rounds ds bases [] hd (fun a ha => by rw [hb a ha]; norm_num)
  rw [val_enc] at hs hp
  exact can_return hs (candidate_of_prime hs hp) ⟨ds, rest, ht⟩

/-- **C139**: every prime below `10^8` whose first two bits are set can be returned. -/
theorem C139_primes_below (checks : Bool) (bits rounds : ℕ) {p : Words} (hc : Canon p) (hs : Shaped bits (val p)) (hp : (val p).Prime)
    (hlt : val p < 10 ^ 8) : CanReturn checks bits rounds p := by
  have hp2 := hp.two_le
  obtain ⟨n, rfl⟩ := canon_iff_enc.1 hc
  have hn : 2 ≤ n := by rwa [val_enc] at hp2
  obtain ⟨ds, bases, hd, hb⟩ := draw_ones hn (rounds + 1)
  obtain ⟨rest, ht⟩ := C31_below_partial checks (enc n) hc hp hlt rounds ds bases [] hd (fun a ha => by rw [hb a ha]; norm_num)
  rw [val_enc] at hs hp
  exact can_return hs (candidate_of_prime hs hp) ⟨ds, rest, ht⟩

/-- **C139**: a prime without quadratic non-residue up to 10000 is never returned. -/
theorem C139_never (checks : Bool) (bits rounds : ℕ) {p : Words} (hc : Canon p) (hp : (val p).Prime) (h2 : val p ≠ 2)
    (h3 : OddPartFits (val p - 1)) (h4 : OddPartFits (val p + 1)) (hall : ∀ m : ℕ, m ≤ 10000 → IsSquare (m : ZMod (val p))) :
    ¬ CanReturn checks bits rounds p := by
  rintro ⟨ds, rest, h⟩
  obtain ⟨-, -, -, -, -, -, ds', -, ht⟩ := C32_generate_prime checks bits rounds ds _ rest h
  obtain ⟨⟨r, hr, hne⟩, -⟩ := C31_rejected checks p hc hp h2 h3 h4 hall rounds ds'
  rw [hr] at ht
  exact hne rest (Except.ok.inj ht)

/-- **C139**: whatever the number of rounds, a composite number can be returned that the shift of C06 lets pass the Lucas part: `59·2^32 - 1`. -/
theorem C139_composite (checks : Bool) (rounds : ℕ) : ∃ p, CanReturn checks 38 rounds p ∧ val p = 19927 * 12716569 := by
  have e : (19927 * 12716569 : ℕ) = 2 ^ (32 * 1) * 59 - 1 := by norm_num
  refine ⟨enc (19927 * 12716569), (C139_possible checks 38 rounds (canon_enc _)).2 ?_, val_enc _⟩
  rw [val_enc]
  refine ⟨⟨by norm_num, by norm_num, by norm_num, by norm_num⟩, Or.inr ⟨by norm_num, fun q hq h53 hd => ?_, 3, le_rfl, by norm_num, ?_, ?_, Or.inl ?_⟩⟩
  · have := hq.two_le
    interval_cases q <;> revert hd hq <;> norm_num
  · rw [e]
    exact C72_lucas_blind 1 59 le_rfl (by norm_num) (by norm_num) _
  · intro q h1 h2
    omega
  · norm_num

example : Canon (enc 61) ∧ Shaped 6 (val (enc 61)) ∧ (val (enc 61)).Prime := by
  refine ⟨canon_enc _, ?_, ?_⟩ <;> rw [val_enc]
  · exact ⟨by norm_num, by norm_num, by norm_num, by norm_num⟩
  · norm_num

end RMath
