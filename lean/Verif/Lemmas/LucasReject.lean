import Verif.Lemmas.PrimeTest
import Verif.Lemmas.LucasExact
import Mathlib.NumberTheory.LSeries.PrimesInAP

/-! The primes that the Lucas part of the primality test rejects: those without a quadratic non-residue up to 10000. -/

namespace RMath

open NumberTheorySymbols jacobiSym

variable {n : Nat}

theorem jacobi_of_square (hn : n.Prime) {m : Nat} (hm0 : 0 < m) (hmn : m < n) (hs : IsSquare (m : ZMod n)) :
    J((m : Int) | n) = 1 := by
  have := Fact.mk hn
  rw [← jacobiSym.legendreSym.to_jacobiSym]
  rw [legendreSym.eq_one_iff']
  · exact hs
  · rw [Ne, ZMod.natCast_eq_zero_iff]
    intro h
    have := Nat.le_of_dvd hm0 h
    omega

/-- if every number up to 10000 is a square, the search for `P` ends at 10001 -/
theorem lucasFind_all (hn : n.Prime) (hbig : 10 ^ 8 ≤ n) (hall : ∀ m : Nat, 0 < m → m ≤ 10000 → IsSquare (m : ZMod n)) (fuel : Nat) :
    ∀ p, 3 ≤ p → p ≤ 10001 → p + fuel = 10002 → lucasFind (enc n) fuel p = .ok (.inr 10001) := by
  have hodd : n % 2 = 1 := hn.eq_two_or_odd.resolve_left (by omega)
  have hsq : ∀ m : Nat, 0 < m → m ≤ 10002 → IsSquare (m : ZMod n) := by
    intro m h0 hm
    by_cases h1 : m ≤ 10000
    · exact hall m h0 h1
    have h2 : m = 73 * 137 ∨ m = 2 * 3 * 1667 := by omega
    rcases h2 with rfl | rfl
    · rw [Nat.cast_mul]
      exact (hall 73 (by norm_num) (by norm_num)).mul (hall 137 (by norm_num) (by norm_num))
    · rw [Nat.cast_mul, Nat.cast_mul]
      exact ((hall 2 (by norm_num) (by norm_num)).mul (hall 3 (by norm_num) (by norm_num))).mul
        (hall 1667 (by norm_num) (by norm_num))
  induction fuel with
  | zero => intro p h3 h1 hf; omega
  | succ fuel ih =>
    intro p h3 h1 hf
    rw [lucasFind]
    by_cases hle : 10000 < p
    · rw [if_pos hle, show p = 10001 by omega]
    rw [if_neg hle]
    have hw : p * p - 4 < 2 ^ 32 := by
      have : p * p ≤ 10000 * 10000 := Nat.mul_le_mul (by omega) (by omega)
      omega
    have hj : J(((p * p - 4 : Nat) : Int) | n) = 1 := by
      rw [show p * p - 4 = (p - 2) * (p + 2) by
        obtain ⟨q, rfl⟩ : ∃ q, p = q + 2 := ⟨p - 2, by omega⟩
        rw [show (q + 2) * (q + 2) = q * (q + 2 + 2) + 4 by ring]
        simp, Nat.cast_mul, jacobiSym.mul_left,
        jacobi_of_square hn (by omega) (by omega) (hsq _ (by omega) (by omega)),
        jacobi_of_square hn (by omega) (by omega) (hsq _ (by omega) (by omega)), one_mul]
    rw [jacobi_small hw hodd]
    simp only [bind, Except.bind]
    rw [hj, if_neg (by decide), if_neg (by decide)]
    have hnext := ih (p + 1) (by omega) (by omega) (by omega)
    by_cases h40 : p = 40
    · rw [if_pos h40, natSqrt_enc]
      simp only
      rw [natSqr_enc, eqv_enc, if_neg]
      · exact hnext
      · intro hc
        rw [decide_eq_true_eq] at hc
        rw [← hc] at hn
        exact (Nat.not_prime_mul (by rintro h; rw [h] at hc; omega) (by rintro h; rw [h] at hc; omega)) hn
    · rw [if_neg h40]
      exact hnext

theorem lucasSeq_root [Fact n.Prime] {P : Nat} {α : ZMod n} (h0 : α ≠ 0) (hP : α + α⁻¹ = P) (k : Nat) :
    ((lucasSeq P k : Int) : ZMod n) = α ^ k + (α⁻¹) ^ k ∧
    ((lucasSeq P (k + 1) : Int) : ZMod n) = α ^ (k + 1) + (α⁻¹) ^ (k + 1) := by
  induction k with
  | zero =>
    simp only [lucasSeq, pow_zero, zero_add, pow_one]
    rw [hP]
    push_cast
    exact ⟨by norm_num, rfl⟩
  | succ k ih =>
    refine ⟨ih.2, ?_⟩
    rw [lucasSeq]
    push_cast
    have h : α * α⁻¹ = 1 := mul_inv_cancel₀ h0
    rw [ih.1, ih.2, ← hP]
    linear_combination (α ^ k + (α⁻¹) ^ k) * h

/-- The Lucas test with a discriminant that is a square rejects primes. -/
theorem lucas_square_disc (hn : n.Prime) (h5 : 5 ≤ n) {P : Nat} (h3 : 3 ≤ P) (hPn : ¬ n ∣ P * P - 4)
    (hs : IsSquare ((P * P - 4 : Nat) : ZMod n)) : ¬ LucasProbablePrime n P := by
  have := Fact.mk hn
  have hodd : n % 2 = 1 := hn.eq_two_or_odd.resolve_left (by omega)
  have h2K : (2 : ZMod n) ≠ 0 := two_ne_zero_of (n := n) (by omega)
  obtain ⟨δ, hδ⟩ := hs
  have h9 : 9 ≤ P * P := Nat.mul_le_mul h3 h3
  have hD : ((P * P - 4 : Nat) : ZMod n) = (P : ZMod n) ^ 2 - 4 := by
    rw [Nat.cast_sub (by omega)]
    push_cast; ring
  have hD0 : ((P * P - 4 : Nat) : ZMod n) ≠ 0 := by
    rw [Ne, ZMod.natCast_eq_zero_iff]
    exact hPn
  have hprod : ((P : ZMod n) + δ) / 2 * ((P - δ) / 2) = 1 := by
    rw [div_mul_div_comm, div_eq_one_iff_eq (mul_ne_zero h2K h2K)]
    linear_combination hδ - hD
  obtain ⟨α, hα⟩ : ∃ α, α = ((P : ZMod n) + δ) / 2 := ⟨_, rfl⟩
  rw [← hα] at hprod
  have hα0 : α ≠ 0 := left_ne_zero_of_mul (by rw [hprod]; exact one_ne_zero)
  have hinv : α⁻¹ = (P - δ) / 2 := inv_eq_of_mul_eq_one_right hprod
  have hαP : α + α⁻¹ = P := by rw [hinv, hα, ← add_div, div_eq_iff h2K]; ring
  have hfer : α ^ (n - 1) = 1 := ZMod.pow_card_sub_one_eq_one hα0
  -- `α² ≠ 1`
  have hα2 : α ^ 2 ≠ 1 := by
    intro h
    apply hD0
    rw [hD, ← hαP]
    have h' : α * α⁻¹ = 1 := mul_inv_cancel₀ hα0
    have : α⁻¹ = α := by
      have : α⁻¹ * (α ^ 2) = α⁻¹ * 1 := by rw [h]
      rw [mul_one, pow_two, ← mul_assoc, inv_mul_cancel₀ hα0, one_mul] at this
      exact this.symm
    rw [this]
    linear_combination 4 * h
  -- hence `α^(n+1) ≠ 1`
  have hne : α ^ (n + 1) ≠ 1 := by
    rw [show n + 1 = (n - 1) + 2 by omega, pow_add, hfer, one_mul]
    exact hα2
  rintro ⟨r, s, hrs, hs1, hcase⟩
  have hr1 : 1 ≤ r := by
    by_contra hc
    have : r = 0 := by omega
    subst this
    omega
  have hV := fun k => (lucasSeq_root hα0 hαP k).1
  -- `V(k) = 0, ±2` implies that `α^(2k)` is `±1`
  rcases hcase with ⟨hpm, -⟩ | ⟨t, ht, h0⟩
  · apply hne
    have hc0 : α ^ s ≠ 0 := pow_ne_zero _ hα0
    have hsq : (α ^ s) ^ 2 = 1 := by
      have hVs := hV s
      rw [inv_pow] at hVs
      rcases hpm with h | h
      · rw [← cast_modEq, hVs] at h
        push_cast at h
        have : (α ^ s - 1) ^ 2 = 0 := by
          field_simp at h
          linear_combination h
        rw [sub_eq_zero.1 (pow_eq_zero_iff two_ne_zero |>.1 this), one_pow]
      · rw [← cast_modEq, hVs] at h
        push_cast at h
        have : (α ^ s + 1) ^ 2 = 0 := by
          field_simp at h
          linear_combination h
        rw [eq_neg_of_add_eq_zero_left (pow_eq_zero_iff two_ne_zero |>.1 this)]
        ring
    rw [hrs, show 2 ^ r * s = s * 2 * 2 ^ (r - 1) by
      obtain ⟨q, rfl⟩ : ∃ q, r = q + 1 := ⟨r - 1, by omega⟩
      rw [Nat.add_sub_cancel, pow_succ]; ring, pow_mul, pow_mul, hsq, one_pow]
  · apply hne
    have hVs := hV (2 ^ t * s)
    rw [inv_pow] at hVs
    have hc0 : α ^ (2 ^ t * s) ≠ 0 := pow_ne_zero _ hα0
    have h4 : (α ^ (2 ^ t * s)) ^ 2 = -1 := by
      rw [← cast_modEq, hVs] at h0
      push_cast at h0
      field_simp at h0
      linear_combination h0
    rw [hrs, show 2 ^ r * s = 2 ^ t * s * 2 * 2 * 2 ^ (r - t - 2) by
      obtain ⟨q, rfl⟩ : ∃ q, r = t + q + 2 := ⟨r - t - 2, by omega⟩
      rw [show t + q + 2 - t - 2 = q by omega, pow_add, pow_add]; ring, pow_mul, pow_mul, pow_mul, h4]
    norm_num

/-- A prime without a non-residue up to 10000 is rejected. -/
theorem primeLucas_rejects (hn : n.Prime) (h2n : 2 < n) (hall : ∀ m : Nat, 0 < m → m ≤ 10000 → IsSquare (m : ZMod n))
    (h1 : OddPartFits (n - 1)) (h2 : OddPartFits (n + 1)) : primeLucas (enc n) = .ok false := by
  have hodd : n % 2 = 1 := hn.eq_two_or_odd.resolve_left (by omega)
  have hbig : 10 ^ 8 ≤ n := by
    by_contra hc
    obtain ⟨m, hm0, hm, hns⟩ := small_nonresidue hn hodd (by omega)
    exact hns (hall m hm0 hm)
  unfold primeLucas
  rw [isNan_enc, eqv_one_enc, if_neg (by simp; omega)]
  obtain ⟨w, hw, hwn⟩ := word0_enc n
  rw [hw]
  simp only [bind, Except.bind]
  rw [if_neg]
  · rw [lucasFind_all hn hbig hall 9999 3 (by norm_num) (by norm_num) (by norm_num)]
    obtain ⟨b, hb, hiff⟩ := lucasCheck_exact (P := 10001) hodd (by omega) (by omega) (by norm_num) h1 h2
    simp only [hb]
    congr 1
    rw [Bool.eq_false_iff]
    intro hc
    rw [hiff] at hc
    have hsq : IsSquare ((10001 * 10001 - 4 : Nat) : ZMod n) := by
      rw [show 10001 * 10001 - 4 = 3 * 3 * 11 * 101 * 7 * 1429 by norm_num]
      simp only [Nat.cast_mul]
      exact ((((((hall 3 (by norm_num) (by norm_num)).mul (hall 3 (by norm_num) (by norm_num))).mul
        (hall 11 (by norm_num) (by norm_num))).mul (hall 101 (by norm_num) (by norm_num))).mul
        (hall 7 (by norm_num) (by norm_num))).mul (hall 1429 (by norm_num) (by norm_num)))
    refine lucas_square_disc hn (by omega) (by norm_num) (fun hd => ?_) hsq hc
    rw [show 10001 * 10001 - 4 = 9999 * 10003 by norm_num, hn.dvd_mul] at hd
    rcases hd with h | h
    · have := Nat.le_of_dvd (by norm_num) h; omega
    · have := Nat.le_of_dvd (by norm_num) h; omega
  · intro h
    have h3 := congrArg BitVec.toNat h
    rw [BitVec.toNat_and] at h3
    simp only [BitVec.toNat_ofNat, Nat.one_mod, Nat.and_one_is_mod] at h3
    omega

/-- Such primes exist: for every bound there is a larger prime modulo which all numbers up to `N` are squares. -/
theorem exists_prime_all_squares (N B : Nat) : ∃ p, B < p ∧ p.Prime ∧ p % 16 = 9 ∧ ∀ m : Nat, m ≤ N → IsSquare (m : ZMod p) := by
  obtain ⟨k, Q, hQ, hfac⟩ := Nat.exists_eq_two_pow_mul_odd (n := N.factorial) (Nat.factorial_ne_zero N)
  have hQ1 := Nat.odd_iff.1 hQ
  have hcop : (1 + 8 * Q).Coprime (16 * Q) := by
    rw [show 16 = 2 ^ 4 by norm_num]
    apply Nat.Coprime.mul_right
    · apply Nat.Coprime.pow_right
      rw [Nat.coprime_two_right]
      exact Nat.odd_iff.2 (by omega)
    · have : Nat.Coprime (1 + 8 * Q) Q := by simp
      exact this
  obtain ⟨p, hpB, hp, hmod⟩ := Nat.forall_exists_prime_gt_and_modEq (max B N) (q := 16 * Q) (by omega) hcop
  have hp16 : p % 16 = 9 := by
    have := hmod.of_mul_right Q
    unfold Nat.ModEq at this
    omega
  have hp8Q : p ≡ 1 [MOD 8 * Q] := by
    have h : p ≡ 1 + 8 * Q [MOD 8 * Q] := by
      rw [show 16 * Q = 8 * Q * 2 by ring] at hmod
      exact hmod.of_mul_right 2
    exact h.trans (by simp [Nat.ModEq])
  have := Fact.mk hp
  have hpodd : Odd p := Nat.odd_iff.2 (by omega)
  have h2 : J((2 : Int) | p) = 1 := by
    rw [jacobiSym.at_two hpodd, ZMod.χ₈_nat_eq_if_mod_eight, if_neg (by omega), if_pos (by omega)]
  refine ⟨p, lt_of_le_of_lt (le_max_left _ _) hpB, hp, hp16, fun m hm => ?_⟩
  rcases Nat.eq_zero_or_pos m with rfl | hm0
  · exact ⟨0, by simp⟩
  obtain ⟨j, m', hm', hmj⟩ := Nat.exists_eq_two_pow_mul_odd (n := m) (by omega)
  have hdvd : m' ∣ Q := by
    have h1 : m' ∣ N.factorial := (hmj ▸ Dvd.intro_left _ rfl : m' ∣ m).trans (Nat.dvd_factorial hm0 hm)
    rw [hfac] at h1
    exact (Nat.Coprime.pow_right k (Nat.coprime_two_right.2 hm')).dvd_of_dvd_mul_left h1
  have hm'0 : m' ≠ 0 := by
    rintro rfl
    simp at hm'
  have hJm : J((m' : Int) | p) = 1 := by
    rw [jacobiSym.mod_right _ hpodd]
    have h4 : p ≡ 1 [MOD 4 * m'] := by
      obtain ⟨c, rfl⟩ := hdvd
      rw [show 8 * (m' * c) = 4 * m' * (2 * c) by ring] at hp8Q
      exact hp8Q.of_mul_right _
    unfold Nat.ModEq at h4
    rw [Int.natAbs_natCast, h4, Nat.mod_eq_of_lt (by omega)]
    simp
  have hJ : J((m : Int) | p) = 1 := by
    rw [hmj, Nat.cast_mul, jacobiSym.mul_left, hJm, Nat.cast_pow, jacobiSym.pow_left]
    push_cast
    rw [h2, one_pow, one_mul]
  rw [← jacobiSym.legendreSym.to_jacobiSym] at hJ
  refine (legendreSym.eq_one_iff' p ?_).1 hJ
  rw [Ne, ZMod.natCast_eq_zero_iff]
  intro h
  have h5 := Nat.le_of_dvd hm0 h
  have h6 := lt_of_le_of_lt (le_max_right B N) hpB
  omega

/-! ## what exactly the Lucas part accepts -/

/-- a step of the search at a `P` with Jacobi symbol 1 -/
theorem lucasFind_step (hodd : n % 2 = 1) {fuel p : Nat} (hp : p ≤ 10000) (hj : J(((p * p - 4 : Nat) : Int) | n) = 1) :
    lucasFind (enc n) (fuel + 1) p =
      if p = 40 ∧ IsSquare n then .ok (.inl false) else lucasFind (enc n) fuel (p + 1) := by
  rw [lucasFind, if_neg (by omega)]
  have hw : p * p - 4 < 2 ^ 32 := by
    have : p * p ≤ 10000 * 10000 := Nat.mul_le_mul (by omega) (by omega)
    omega
  rw [jacobi_small hw hodd]
  simp only [bind, Except.bind]
  rw [hj, if_neg (by decide), if_neg (by decide)]
  by_cases h40 : p = 40
  · rw [if_pos h40, natSqrt_enc]
    simp only
    rw [natSqr_enc, eqv_enc]
    by_cases hs : IsSquare n
    · have hd : n.sqrt * n.sqrt = n := by
        obtain ⟨m, rfl⟩ := hs
        rw [Nat.sqrt_eq]
      rw [if_pos (decide_eq_true hd), if_pos ⟨h40, hs⟩]
    · have hd : ¬ decide (n.sqrt * n.sqrt = n) = true := by
        intro h
        rw [decide_eq_true_eq] at h
        exact hs ⟨_, h.symm⟩
      rw [if_neg hd, if_neg (fun h => hs h.2)]
  · rw [if_neg h40, if_neg (fun h => h40 h.1)]

theorem lucasFind_reaches (hodd : n % 2 = 1) {P : Nat} (hP : P ≤ 10001)
    (hall : ∀ q : Nat, 3 ≤ q → q < P → J(((q * q - 4 : Nat) : Int) | n) = 1)
    (hj : J(((P * P - 4 : Nat) : Int) | n) = -1 ∨ (P = 10001 ∧ ¬ IsSquare n)) (fuel : Nat) :
    ∀ p, 3 ≤ p → p ≤ P → p + fuel = 10002 → lucasFind (enc n) fuel p = .ok (.inr P) := by
  have hns : ¬ IsSquare n := by
    rcases hj with h | h
    · rintro ⟨m, rfl⟩
      rw [jacobiSym.mul_right'] at h
      · rcases jacobiSym.trichotomy ((P * P - 4 : Nat) : Int) m with h' | h' | h' <;> rw [h'] at h <;> norm_num at h
      · rintro rfl; simp at hodd
      · rintro rfl; simp at hodd
    · exact h.2
  induction fuel with
  | zero => intro p h3 h1 hf; omega
  | succ fuel ih =>
    intro p h3 h1 hf
    rcases Nat.lt_or_ge p P with h | h
    · rw [lucasFind_step hodd (by omega) (hall p h3 h), if_neg (fun h => hns h.2)]
      exact ih (p + 1) (by omega) (by omega) (by omega)
    · obtain rfl : p = P := by omega
      rw [lucasFind]
      by_cases h10 : 10000 < p
      · rw [if_pos h10]
      rw [if_neg h10]
      have hw : p * p - 4 < 2 ^ 32 := by
        have : p * p ≤ 10000 * 10000 := Nat.mul_le_mul (by omega) (by omega)
        omega
      rw [jacobi_small hw hodd]
      simp only [bind, Except.bind]
      rw [hj.resolve_right (fun h => by omega), if_pos rfl]

theorem lucasFind_square (hodd : n % 2 = 1) (hs : IsSquare n)
    (hall : ∀ q : Nat, 3 ≤ q → q ≤ 40 → J(((q * q - 4 : Nat) : Int) | n) = 1) (fuel : Nat) :
    ∀ p, 3 ≤ p → p ≤ 40 → p + fuel = 10002 → lucasFind (enc n) fuel p = .ok (.inl false) := by
  induction fuel with
  | zero => intro p h3 h1 hf; omega
  | succ fuel ih =>
    intro p h3 h1 hf
    rw [lucasFind_step hodd (by omega) (hall p h3 h1)]
    by_cases h40 : p = 40
    · rw [if_pos ⟨h40, hs⟩]
    · rw [if_neg (fun h => h40 h.1)]
      exact ih (p + 1) (by omega) (by omega) (by omega)

/-- If all the Jacobi symbols up to `N` are 1, all numbers up to `N + 2` have symbol 1. -/
theorem all_ones {N : Nat} (hN : 8 ≤ N) (hall : ∀ p : Nat, 3 ≤ p → p ≤ N → J(((p * p - 4 : Nat) : Int) | n) = 1) :
    ∀ k : Nat, 1 ≤ k → k ≤ N + 2 → J((k : Int) | n) = 1 := by
  obtain ⟨χ, hχ⟩ : ∃ χ : Nat → Int, χ = fun k : Nat => J((k : Int) | n) := ⟨_, rfl⟩
  have hmul : ∀ a b, χ (a * b) = χ a * χ b := by
    intro a b
    simp only [hχ]
    push_cast
    exact jacobiSym.mul_left _ _ _
  have hsq : ∀ a, χ a = 0 ∨ χ a * χ a = 1 := by
    intro a
    simp only [hχ]
    rcases jacobiSym.trichotomy (a : Int) n with h | h | h <;> rw [h] <;> norm_num
  have hstep : ∀ k, 1 ≤ k → k + 2 ≤ N → χ k * χ (k + 4) = 1 := by
    intro k hk hk2
    have h := hall (k + 2) (by omega) (by omega)
    rw [← hmul]
    simp only [hχ]
    rw [← h]
    congr 2
    rw [show (k + 2) * (k + 2) = k * (k + 4) + 4 by ring]
    simp
  have heq : ∀ k, 1 ≤ k → k + 2 ≤ N → χ (k + 4) = χ k := by
    intro k hk hk2
    have h := hstep k hk hk2
    rcases hsq k with h0 | h0
    · rw [h0] at h; simp at h
    · have : χ k * (χ k * χ (k + 4)) = χ k * 1 := by rw [h]
      rw [← mul_assoc, h0] at this
      linarith
  have h1 : χ 1 = 1 := by simp [hχ]
  have h22 : χ 2 * χ 2 = 1 := by
    rcases hsq 2 with h | h
    · have := hstep 2 (by norm_num) (by omega)
      rw [h] at this; simp at this
    · exact h
  have h4 : χ 4 = 1 := by rw [show 4 = 2 * 2 by norm_num, hmul, h22]
  have h2 : χ 2 = 1 := by
    have := heq 4 (by norm_num) (by omega)
    rw [h4, show 4 + 4 = 2 * 4 by norm_num, hmul, h4] at this
    simpa using this
  have h3 : χ 3 = 1 := by
    have := heq 2 (by norm_num) (by omega)
    rw [h2, show 2 + 4 = 2 * 3 by norm_num, hmul, h2] at this
    simpa using this
  have hones : ∀ k, 1 ≤ k → k ≤ N + 2 → χ k = 1 := by
    intro k
    induction k using Nat.strong_induction_on with
    | _ k ih =>
      intro hk hk2
      by_cases hk4 : k ≤ 4
      · interval_cases k <;> assumption
      · obtain ⟨j, rfl⟩ : ∃ j, k = j + 4 := ⟨k - 4, by omega⟩
        rw [heq j (by omega) (by omega)]
        exact ih j (by omega) (by omega) (by omega)
  intro k h1 h2
  have := hones k h1 h2
  rwa [hχ] at this

/-- The search finds no divisor before the number itself. -/
theorem not_all_one (hn : n.Prime) (h128 : 128 ≤ n) :
    ¬ ∀ q : Nat, 3 ≤ q → q + 2 < n → J(((q * q - 4 : Nat) : Int) | n) = 1 := by
  intro hall
  have := Fact.mk hn
  have hodd : n % 2 = 1 := hn.eq_two_or_odd.resolve_left (by omega)
  obtain ⟨m, hmn, hm⟩ := exists_nonresidue (p := n) hodd
  have hm0 : m ≠ 0 := by
    rintro rfl
    rw [Nat.cast_zero, jacobiSym.zero_left hn.one_lt] at hm
    norm_num at hm
  have := all_ones (n := n) (N := n - 3) (by omega) (fun p h3 hp => hall p h3 (by omega)) m (by omega) (by omega)
  rw [this] at hm
  norm_num at hm

theorem primeLucas_iff (hodd : n % 2 = 1) (h128 : 128 ≤ n) (h1 : OddPartFits (n - 1)) (h2 : OddPartFits (n + 1)) :
    ∃ w, primeLucas (enc n) = .ok w ∧ (w = true ↔ ∃ P : Nat, 3 ≤ P ∧ P ≤ 10001 ∧ LucasProbablePrime n P ∧
      (∀ q : Nat, 3 ≤ q → q < P → J(((q * q - 4 : Nat) : Int) | n) = 1) ∧
      (J(((P * P - 4 : Nat) : Int) | n) = -1 ∨ (P = 10001 ∧ ¬ IsSquare n))) := by
  have hwn : ∃ w, word0 (enc n) = .ok w ∧ ¬ (w &&& 1#32 = 0#32) := by
    obtain ⟨w, hw, hwn⟩ := word0_enc n
    refine ⟨w, hw, fun h => ?_⟩
    have h3 := congrArg BitVec.toNat h
    rw [BitVec.toNat_and] at h3
    simp only [BitVec.toNat_ofNat, Nat.one_mod, Nat.and_one_is_mod] at h3
    omega
  obtain ⟨w, hw, hwn⟩ := hwn
  have hred : primeLucas (enc n) = (lucasFind (enc n) 9999 3 >>= fun f =>
      match f with
      | .inl b => .ok b
      | .inr p => lucasCheck (enc n) p) := by
    unfold primeLucas
    rw [isNan_enc, eqv_one_enc, if_neg (by simp; omega), hw]
    simp only [bind, Except.bind]
    rw [if_neg hwn]
    rfl
  rw [hred]
  by_cases hP : ∃ P : Nat, 3 ≤ P ∧ P ≤ 10001 ∧
      (∀ q : Nat, 3 ≤ q → q < P → J(((q * q - 4 : Nat) : Int) | n) = 1) ∧
      (J(((P * P - 4 : Nat) : Int) | n) = -1 ∨ (P = 10001 ∧ ¬ IsSquare n))
  · obtain ⟨P, h3, hP1, hall, hj⟩ := hP
    rw [lucasFind_reaches hodd hP1 hall hj 9999 3 (by norm_num) h3 (by norm_num)]
    simp only [bind, Except.bind]
    have hPn : P < n := by
      by_contra hc
      have h0 := jacobi_disc_self (n := n) (by omega)
      rw [hall (n - 2) (by omega) (by omega)] at h0
      omega
    obtain ⟨b, hb, hiff⟩ := lucasCheck_exact hodd (by omega) hPn (by omega) h1 h2
    refine ⟨b, hb, hiff.trans ⟨fun h => ⟨P, h3, hP1, h, hall, hj⟩, ?_⟩⟩
    rintro ⟨P', h3', hP1', hl, hall', hj'⟩
    have heq : P' = P := by
      rcases Nat.lt_trichotomy P' P with h | h | h
      · have := hall P' h3' h
        rcases hj' with h' | h'
        · omega
        · omega
      · exact h
      · have := hall' P h3 h
        rcases hj with h' | h'
        · omega
        · omega
    rwa [heq] at hl
  · rcases lucasFind_exact hodd (by omega) 9999 3 (by norm_num) (by norm_num) (by norm_num) (fun q h3 hq => by omega) with h | h
    · obtain ⟨q, hq, h3, hqn, hq10, hall, hj⟩ := h
      exfalso
      apply hP
      refine ⟨q, h3, hq10, hall, ?_⟩
      by_cases hs : IsSquare n
      · left
        rcases hj with h | h
        · exact h
        · rw [lucasFind_square hodd hs (fun q' h h' => hall q' h (by omega)) 9999 3 (by norm_num) (by norm_num) (by norm_num)] at hq
          cases hq
      · rcases hj with h | h
        · exact Or.inl h
        · exact Or.inr ⟨h, hs⟩
    · obtain ⟨b, hb, himp⟩ := h
      rw [hb]
      refine ⟨b, rfl, fun h => ?_, fun h => ?_⟩
      · obtain ⟨q, h3, hnq, hall⟩ := himp h
        have hall' : ∀ q' : Nat, 3 ≤ q' → q' + 2 < n → J(((q' * q' - 4 : Nat) : Int) | n) = 1 :=
          fun q' h h' => hall q' h (by omega)
        exact absurd hall' (not_all_one (prime_of_all_one hodd (by omega) hall') h128)
      · obtain ⟨P, h3, hP1, -, hall, hj⟩ := h
        exact absurd ⟨P, h3, hP1, hall, hj⟩ hP

end RMath
