import Verif.Lemmas.PrimeTest

/-! The exact meaning of the Lucas part of the primality test. -/

namespace RMath

open NumberTheorySymbols jacobiSym

theorem lucasSeq_inv (P : Int) (k : Nat) :
    lucasSeq P (k + 1) ^ 2 - P * lucasSeq P k * lucasSeq P (k + 1) + lucasSeq P k ^ 2 = 4 - P ^ 2 := by
  induction k with
  | zero => simp only [lucasSeq]; ring
  | succ k ih =>
    rw [lucasSeq]
    linear_combination ih

theorem lucasSeq_double (P : Int) (k : Nat) :
    lucasSeq P (2 * k) = lucasSeq P k ^ 2 - 2 ∧ lucasSeq P (2 * k + 1) = lucasSeq P k * lucasSeq P (k + 1) - P := by
  induction k with
  | zero => simp only [lucasSeq]; constructor <;> ring
  | succ k ih =>
    have hi := lucasSeq_inv P k
    have h1 : lucasSeq P (2 * (k + 1)) = lucasSeq P (k + 1) ^ 2 - 2 := by
      rw [show 2 * (k + 1) = 2 * k + 2 by ring, lucasSeq, ih.1, ih.2]
      linear_combination -hi
    refine ⟨h1, ?_⟩
    rw [show 2 * (k + 1) + 1 = (2 * k + 1) + 2 by ring, lucasSeq, show 2 * k + 1 + 1 = 2 * (k + 1) by ring, h1, ih.2,
      lucasSeq]
    ring

section
variable {n : Nat}

theorem zmod_mod (m : Nat) : ((m % n : Nat) : ZMod n) = (m : ZMod n) := by simp

theorem lucasChain_exact {P : Nat} (hPn : P < n) (h2n : 2 < n) (s : Nat) (i : Nat) : ∀ vk vk1 : Nat, vk < n → vk1 < n →
    (vk : ZMod n) = (lucasSeq P (s / 2 ^ i) : Int) → (vk1 : ZMod n) = (lucasSeq P (s / 2 ^ i + 1) : Int) →
    ∃ a b, lucasChain (enc n) (enc (n - 2)) (enc P) (enc s) i (enc vk) (enc vk1) = .ok (enc a, enc b) ∧
      a < n ∧ b < n ∧ (a : ZMod n) = (lucasSeq P s : Int) ∧ (b : ZMod n) = (lucasSeq P (s + 1) : Int) := by
  have hn0 : n ≠ 0 := by omega
  have hcn : ((n : Nat) : ZMod n) = 0 := by simp
  induction i with
  | zero =>
    intro vk vk1 h1 h2 h3 h4
    rw [pow_zero, Nat.div_one] at h3 h4
    exact ⟨vk, vk1, rfl, h1, h2, h3, h4⟩
  | succ i ih =>
    intro vk vk1 h1 h2 h3 h4
    rw [lucasChain, mulKara_enc, addInner_enc, subInner_enc_of_le (by omega), isSetBit_enc]
    simp only [bind, Except.bind]
    have ht : ((vk * vk1 + n - P : Nat) : ZMod n) = (lucasSeq P (2 * (s / 2 ^ (i + 1)) + 1) : Int) := by
      rw [Nat.cast_sub (by omega), (lucasSeq_double P _).2]
      push_cast
      rw [hcn, h3, h4, add_zero]
    have hs : s / 2 ^ i = 2 * (s / 2 ^ (i + 1)) + (s / 2 ^ i) % 2 := by
      rw [pow_succ, ← Nat.div_div_eq_div_mul]; omega
    have hbit : s.testBit i = decide (s / 2 ^ i % 2 = 1) := Nat.testBit_eq_decide_div_mod_eq
    have hsq : ∀ v k : Nat, (v : ZMod n) = (lucasSeq P k : Int) →
        ((v * v + (n - 2) : Nat) : ZMod n) = (lucasSeq P (2 * k) : Int) := by
      intro v k h
      rw [Nat.cast_add, Nat.cast_sub (by omega), (lucasSeq_double P _).1]
      push_cast
      rw [hcn, h]
      ring
    have hb : ((if i < bitLen s then some (s.testBit i) else none) = some true) ↔ s / 2 ^ i % 2 = 1 := by
      by_cases hi : i < bitLen s
      · rw [if_pos hi, hbit]; simp
      · rw [if_neg hi]
        have : s / 2 ^ i = 0 := by
          apply Nat.div_eq_of_lt
          exact lt_of_lt_of_le (lt_pow_bitLen s) (Nat.pow_le_pow_right (by norm_num) (by omega))
        simp [this]
    by_cases hbt : s / 2 ^ i % 2 = 1
    · rw [if_pos (hb.2 hbt), natRem_enc hn0, sqrV_enc, addInner_enc, natRem_enc hn0]
      simp only
      apply ih _ _ (Nat.mod_lt _ (by omega)) (Nat.mod_lt _ (by omega))
      · rw [zmod_mod, ht, hs, hbt]
      · rw [zmod_mod, hsq _ _ h4, hs, hbt, Nat.mul_add]
    · have hbt0 : s / 2 ^ i % 2 = 0 := by omega
      rw [if_neg (mt hb.1 hbt), natRem_enc hn0, sqrV_enc, addInner_enc, natRem_enc hn0]
      simp only
      apply ih _ _ (Nat.mod_lt _ (by omega)) (Nat.mod_lt _ (by omega))
      · rw [zmod_mod, hsq _ _ h3, hs, hbt0]; rfl
      · rw [zmod_mod, ht, hs, hbt0]

theorem zmod_eq {a b : Nat} (ha : a < n) (hb : b < n) : ((a : ZMod n) = (b : ZMod n)) ↔ a = b := by
  rw [ZMod.natCast_eq_natCast_iff', Nat.mod_eq_of_lt ha, Nat.mod_eq_of_lt hb]

/-- the last loop, in terms of the iterates of `v ↦ v² - 2` -/
theorem lucasTail_exact (h3n : 3 < n) (m : Nat) : ∀ (v : Nat) (f : Nat → ZMod n), v < n → f 0 = v →
    (∀ t, f (t + 1) = f t ^ 2 - 2) →
    ∃ w, lucasTail (enc n) m (enc v) = .ok w ∧ (w = true ↔ ∃ t, t < m ∧ f t = 0) := by
  have hn0 : n ≠ 0 := by omega
  have h1n : ((1 : Nat) : ZMod n) ≠ ((0 : Nat) : ZMod n) := by rw [Ne, zmod_eq (by omega) (by omega)]; omega
  have h2n : ((2 : Nat) : ZMod n) ≠ ((0 : Nat) : ZMod n) := by rw [Ne, zmod_eq (by omega) (by omega)]; omega
  push_cast at h1n h2n
  induction m with
  | zero => intro v f _ _ _; exact ⟨false, rfl, by simp⟩
  | succ m ih =>
    intro v f hv hf0 hf
    rw [lucasTail, ← enc_zero, eqv_enc]
    by_cases hv0 : v = 0
    · rw [if_pos (by simpa using hv0)]
      refine ⟨true, rfl, by simp only [true_iff]; exact ⟨0, by omega, by rw [hf0, hv0]; simp⟩⟩
    rw [if_neg (by simpa using hv0)]
    have hf00 : f 0 ≠ 0 := by
      intro h
      rw [hf0] at h
      exact hv0 ((zmod_eq hv (by omega : 0 < n)).1 (by rw [h]; simp))
    by_cases hv2 : v = 2
    · rw [if_pos (by rw [len1_eq v 2#32]; exact hv2)]
      refine ⟨false, rfl, ?_⟩
      have hall : ∀ t, f t = 2 := by
        intro t
        induction t with
        | zero => rw [hf0, hv2]; simp
        | succ t iht => rw [hf, iht]; norm_num
      simp only [Bool.false_eq_true, false_iff, not_exists, not_and]
      intro t _
      rw [hall]
      exact h2n
    rw [if_neg (by rw [len1_eq v 2#32]; exact hv2)]
    have hraw : natRem (assignPrim subInnerBasic (sqrV (enc v)) 2#32) (enc n) =
        .ok (enc ((v * v - 2 + (2 - v * v)) % n)) := by
      rw [sqrV_enc]
      simp only [assignPrim, isNan_enc, Bool.false_eq_true, if_false]
      rw [natRem_raw (subInnerBasic_ne_nil (enc_ne_nil _) _) hn0, subInnerBasic_val (canon_enc _), val_enc]
      rfl
    rw [hraw]
    simp only [bind, Except.bind]
    by_cases hv1 : v = 1
    · -- the subtraction `1 - 2` gives 1 in place of -1; neither sequence meets zero
      subst hv1
      have hone : ∀ m, lucasTail (enc n) m (enc 1) = .ok false := by
        intro m
        induction m with
        | zero => rfl
        | succ m ihm =>
          rw [lucasTail, ← enc_zero, eqv_enc, if_neg (by simp), if_neg (by rw [len1_eq 1 2#32]; decide), hraw]
          simp only [bind, Except.bind]
          rw [Nat.mod_eq_of_lt (by omega)]
          exact ihm
      refine ⟨false, by rw [Nat.mod_eq_of_lt (by omega)]; exact hone m, ?_⟩
      have hall : ∀ t, f (t + 1) = -1 := by
        intro t
        induction t with
        | zero => rw [hf, hf0]; norm_num
        | succ t iht => rw [hf, iht]; norm_num
      simp only [Bool.false_eq_true, false_iff, not_exists, not_and]
      rintro (_ | t) _
      · exact hf00
      · rw [hall]
        intro h
        rw [neg_eq_zero] at h
        exact h1n h
    · have hge : 2 ≤ v * v := by nlinarith [show 3 ≤ v by omega]
      obtain ⟨w, hw, hiff⟩ := ih ((v * v - 2 + (2 - v * v)) % n) (fun t => f (t + 1)) (Nat.mod_lt _ (by omega)) (by
        rw [zmod_mod, show v * v - 2 + (2 - v * v) = v * v - 2 by omega, Nat.cast_sub hge, hf, hf0]
        push_cast; ring) (fun t => hf _)
      refine ⟨w, hw, hiff.trans ?_⟩
      constructor
      · rintro ⟨t, ht, h⟩
        exact ⟨t + 1, by omega, h⟩
      · rintro ⟨_ | t, ht, h⟩
        · exact absurd h hf00
        · exact ⟨t, by omega, h⟩

theorem cast_modEq (a b : Int) : ((a : ZMod n) = (b : ZMod n)) ↔ a ≡ b [ZMOD n] := ZMod.intCast_eq_intCast_iff a b n

theorem lucasCheck_exact {P : Nat} (hodd : n % 2 = 1) (h5 : 5 ≤ n) (hPn : P < n) (hP : P < 2 ^ 32)
    (h1 : OddPartFits (n - 1)) (h2 : OddPartFits (n + 1)) :
    ∃ w, lucasCheck (enc n) P = .ok w ∧ (w = true ↔ LucasProbablePrime n P) := by
  have hn0 : n ≠ 0 := by omega
  obtain ⟨r, s, hs, hrs⟩ := Nat.exists_eq_two_pow_mul_odd (n := n + 1) (by omega)
  have hs1 := Nat.odd_iff.1 hs
  have hr32 : ShiftFits (2 ^ r * s) r := hrs ▸ h2 r s hrs hs1
  unfold lucasCheck
  simp only [natAddW_one, natSubW_two (by omega : 2 < n) hodd h1]
  have htz : traillingZeros (enc (n + 1)) = r := by rw [hrs]; exact traillingZeros_eq hs1
  have hshr : shrInner (enc (n + 1)) r = enc s := by
    rw [hrs, shrInner_odd_part hs1 hr32]
  have hPe : ([BitVec.ofNat 32 P] : Words) = enc P := by rw [enc_lt hP]
  have h2e : ([2#32] : Words) = enc 2 := by rw [enc_lt (by norm_num)]
  rw [htz, hshr, hPe, h2e, bitsLen_enc]
  have hs0 : s / 2 ^ (bitLen s + 1) = 0 := by
    apply Nat.div_eq_of_lt
    exact lt_of_lt_of_le (lt_pow_bitLen s) (Nat.pow_le_pow_right (by norm_num) (by omega))
  obtain ⟨a, b, hab, ha, hb, haV, hbV⟩ := lucasChain_exact (n := n) hPn (by omega) s (bitLen s + 1) 2 P
    (by omega) hPn (by rw [hs0]; simp [lucasSeq]) (by rw [hs0]; simp [lucasSeq])
  rw [hab]
  simp only [bind, Except.bind, eqv_enc]
  -- the specification for this `r` and `s`
  have hspec : LucasProbablePrime n P ↔
      (((lucasSeq P s ≡ 2 [ZMOD n] ∨ lucasSeq P s ≡ -2 [ZMOD n]) ∧ P * lucasSeq P s ≡ 2 * lucasSeq P (s + 1) [ZMOD n]) ∨
      ∃ t, t < r - 1 ∧ lucasSeq P (2 ^ t * s) ≡ 0 [ZMOD n]) := by
    constructor
    · rintro ⟨r', s', h, hs', h'⟩
      obtain ⟨rfl, rfl⟩ := two_pow_odd_inj (hrs.symm.trans h) hs1 hs'
      exact h'
    · intro h
      exact ⟨r, s, hrs, hs1, h⟩
  rw [hspec]
  have hcn : ((n : Nat) : ZMod n) = 0 := by simp
  have hA : (a = 2 ∨ a = n - 2) ↔ (lucasSeq P s ≡ 2 [ZMOD n] ∨ lucasSeq P s ≡ -2 [ZMOD n]) := by
    rw [← cast_modEq, ← cast_modEq, ← haV, ← zmod_eq ha (by omega : 2 < n), ← zmod_eq ha (by omega : n - 2 < n),
      Nat.cast_sub (by omega), hcn]
    push_cast
    rw [zero_sub]
  obtain ⟨w, hw, hwiff⟩ := lucasTail_exact (n := n) (by omega) (r - 1) a
    (fun t => ((lucasSeq P (2 ^ t * s) : Int) : ZMod n)) ha (by simp [haV]) (by
      intro t
      rw [pow_succ, mul_comm (2 ^ t) 2, mul_assoc, (lucasSeq_double P _).1]
      push_cast; ring)
  have hwiff' : w = true ↔ ∃ t, t < r - 1 ∧ lucasSeq P (2 ^ t * s) ≡ 0 [ZMOD n] := by
    rw [hwiff]
    constructor
    · rintro ⟨t, ht, h⟩
      exact ⟨t, ht, (cast_modEq _ _).1 (by rw [h]; simp)⟩
    · rintro ⟨t, ht, h⟩
      exact ⟨t, ht, by have := (cast_modEq (n := n) _ _).2 h; simpa using this⟩
  have hshl : natShl (enc b) 1 = enc (b * 2 ^ 1) := by
    simp only [natShl, opPrim, isNan_enc, Bool.false_eq_true, if_false, deepClone_enc]
    rw [shlInner_enc_lt (by norm_num)]
  have hB : ((a * P - b * 2 ^ 1 + (b * 2 ^ 1 - a * P)) % n = 0) ↔
      P * lucasSeq P s ≡ 2 * lucasSeq P (s + 1) [ZMOD n] := by
    rw [← cast_modEq]
    push_cast
    rw [← haV, ← hbV]
    have e : ((P : ZMod n) * a = 2 * b) ↔ a * P ≡ b * 2 [MOD n] := by
      rw [← ZMod.natCast_eq_natCast_iff]
      push_cast
      rw [mul_comm (P : ZMod n), mul_comm (2 : ZMod n)]
    rw [e, ← Nat.dvd_iff_mod_eq_zero]
    rcases Nat.le_total (a * P) (b * 2) with h | h
    · rw [show a * P - b * 2 + (b * 2 - a * P) = b * 2 - a * P by omega]
      exact (Nat.modEq_iff_dvd' h).symm
    · rw [show a * P - b * 2 + (b * 2 - a * P) = a * P - b * 2 by omega]
      exact ((Nat.modEq_iff_dvd' h).symm).trans ⟨Nat.ModEq.symm, Nat.ModEq.symm⟩
  by_cases hc : a = 2 ∨ a = n - 2
  · rw [if_pos (by simpa using hc), mulKara_enc, hshl, assign_sub_enc, natRem_enc hn0]
    simp only [← enc_zero, eqv_enc]
    by_cases hd : (a * P - b * 2 ^ 1 + (b * 2 ^ 1 - a * P)) % n = 0
    · rw [if_pos (by simpa using hd)]
      exact ⟨true, rfl, by simp only [true_iff]; exact Or.inl ⟨hA.1 hc, hB.1 hd⟩⟩
    · rw [if_neg (by simpa using hd)]
      refine ⟨w, hw, hwiff'.trans ⟨Or.inr, ?_⟩⟩
      rintro (h | h)
      · exact absurd (hB.2 h.2) hd
      · exact h
  · rw [if_neg (by simpa using hc)]
    simp only [Bool.false_eq_true, if_false]
    refine ⟨w, hw, hwiff'.trans ⟨Or.inr, ?_⟩⟩
    rintro (h | h)
    · exact absurd (hA.2 h.1) hc
    · exact h

theorem jacobi_disc_self (h5 : 5 ≤ n) : J((((n - 2) * (n - 2) - 4 : Nat) : Int) | n) = 0 := by
  rw [jacobiSym.eq_zero_iff, Int.gcd_natCast_natCast]
  refine ⟨by omega, ?_⟩
  obtain ⟨m, rfl⟩ : ∃ m, n = m + 4 := ⟨n - 4, by omega⟩
  rw [show (m + 4 - 2) * (m + 4 - 2) - 4 = m * (m + 4) by
    rw [show m + 4 - 2 = m + 2 by omega, show (m + 2) * (m + 2) = m * (m + 4) + 4 by ring]
    simp]
  rw [Nat.gcd_mul_left_left]
  omega

/-- what the search for `P` returns -/
theorem lucasFind_exact (hodd : n % 2 = 1) (h5 : 5 ≤ n) (fuel : Nat) :
    ∀ p, 3 ≤ p → p + fuel = 10002 → p ≤ 10001 → (∀ q, 3 ≤ q → q < p → J(((q * q - 4 : Nat) : Int) | n) = 1) →
    (∃ q, lucasFind (enc n) fuel p = .ok (.inr q) ∧ 3 ≤ q ∧ q < n ∧ q ≤ 10001 ∧
      (∀ q', 3 ≤ q' → q' < q → J(((q' * q' - 4 : Nat) : Int) | n) = 1) ∧
      (J(((q * q - 4 : Nat) : Int) | n) = -1 ∨ q = 10001)) ∨
    (∃ b, lucasFind (enc n) fuel p = .ok (.inl b) ∧ (b = true → ∃ q, 3 ≤ q ∧ n = q + 2 ∧
      ∀ q', 3 ≤ q' → q' < q → J(((q' * q' - 4 : Nat) : Int) | n) = 1)) := by
  have hpn' : ∀ p, 3 ≤ p → (∀ q, 3 ≤ q → q < p → J(((q * q - 4 : Nat) : Int) | n) = 1) → p ≤ n - 2 := by
    intro p h3 hall
    by_contra hc
    have h0 := jacobi_disc_self h5
    rw [hall (n - 2) (by omega) (by omega)] at h0
    omega
  induction fuel with
  | zero => intro p h3 hf hp1 hall; omega
  | succ fuel ih =>
    intro p h3 hf hp1 hall
    rw [lucasFind]
    have hpn := hpn' p h3 hall
    by_cases hle : 10000 < p
    · rw [if_pos hle]
      exact Or.inl ⟨p, rfl, h3, by omega, hp1, hall, Or.inr (by omega)⟩
    have hw : p * p - 4 < 2 ^ 32 := by
      have : p * p ≤ 10000 * 10000 := Nat.mul_le_mul (by omega) (by omega)
      omega
    rw [if_neg hle, jacobi_small hw hodd]
    simp only [bind, Except.bind]
    by_cases hm : J(((p * p - 4 : Nat) : Int) | n) = -1
    · rw [if_pos hm]
      exact Or.inl ⟨p, rfl, h3, by omega, by omega, hall, Or.inl hm⟩
    rw [if_neg hm]
    by_cases hz : J(((p * p - 4 : Nat) : Int) | n) = 0
    · rw [if_pos hz]
      right
      refine ⟨_, rfl, ?_⟩
      intro hb
      simp only [Bool.and_eq_true, beq_iff_eq] at hb
      refine ⟨p, h3, ?_, hall⟩
      have := (len1_eq n (BitVec.ofNat 32 (p + 2))).1 ⟨hb.1, hb.2⟩
      rw [this, BitVec.toNat_ofNat, Nat.mod_eq_of_lt (by omega)]
    rw [if_neg hz]
    have hone : J(((p * p - 4 : Nat) : Int) | n) = 1 := by
      rcases jacobiSym.trichotomy ((p * p - 4 : Nat) : Int) n with h | h | h
      · exact absurd h hz
      · exact h
      · exact absurd h hm
    have hnext := ih (p + 1) (by omega) (by omega) (by omega) (fun q hq hqp => by
      by_cases hqe : q = p
      · rw [hqe]; exact hone
      · exact hall q hq (by omega))
    by_cases h40 : p = 40
    · rw [if_pos h40, natSqrt_enc]
      simp only
      split
      · exact Or.inr ⟨false, rfl, by simp⟩
      · exact hnext
    · rw [if_neg h40]
      exact hnext

/-- the early acceptance only happens for a prime -/
theorem prime_of_all_one (hodd : n % 2 = 1) (h5 : 5 ≤ n)
    (hall : ∀ q, 3 ≤ q → q + 2 < n → J(((q * q - 4 : Nat) : Int) | n) = 1) : n.Prime := by
  by_contra hc
  have hmf := Nat.minFac_prime (n := n) (by omega)
  have hd := Nat.minFac_dvd n
  have hsq := Nat.minFac_sq_le_self (n := n) (by omega) hc
  generalize n.minFac = a at *
  have ha3 : 3 ≤ a := by
    have := hmf.two_le
    by_contra h
    have : a = 2 := by omega
    subst this
    omega
  have h := hall (a + 2) (by omega) (by nlinarith)
  have h0 : J((((a + 2) * (a + 2) - 4 : Nat) : Int) | n) = 0 := by
    rw [jacobiSym.eq_zero_iff, Int.gcd_natCast_natCast]
    refine ⟨by omega, ?_⟩
    intro hg
    have : a ∣ 1 := hg ▸ Nat.dvd_gcd (by
      rw [show (a + 2) * (a + 2) = a * (a + 4) + 4 by ring]
      simp) hd
    have := Nat.le_of_dvd (by omega) this
    omega
  omega

theorem primeLucas_exact (hodd : n % 2 = 1) (h5 : 5 ≤ n) (h1 : OddPartFits (n - 1)) (h2 : OddPartFits (n + 1)) :
    ∃ w, primeLucas (enc n) = .ok w ∧ (w = true → n.Prime ∨ ∃ P : Nat, 3 ≤ P ∧ P ≤ 10001 ∧ LucasProbablePrime n P ∧
      (∀ q : Nat, 3 ≤ q → q < P → J(((q * q - 4 : Nat) : Int) | n) = 1) ∧
      (J(((P * P - 4 : Nat) : Int) | n) = -1 ∨ P = 10001)) := by
  unfold primeLucas
  rw [isNan_enc, eqv_one_enc, if_neg (by simp; omega)]
  obtain ⟨w, hw, hwn⟩ := word0_enc n
  rw [hw]
  simp only [bind, Except.bind]
  rw [if_neg]
  · rcases lucasFind_exact hodd h5 9999 3 (by norm_num) (by norm_num) (by norm_num) (fun q h3 hq => by omega) with h | h
    · obtain ⟨q, hq, h3, hqn, hq10, hall, hj⟩ := h
      rw [hq]
      simp only
      obtain ⟨w, hw, hiff⟩ := lucasCheck_exact hodd h5 hqn (by omega) h1 h2
      exact ⟨w, hw, fun h => Or.inr ⟨q, h3, hq10, hiff.1 h, hall, hj⟩⟩
    · obtain ⟨b, hb, himp⟩ := h
      rw [hb]
      refine ⟨b, rfl, fun h => Or.inl ?_⟩
      obtain ⟨q, h3, hnq, hall⟩ := himp h
      exact prime_of_all_one hodd h5 (fun q' h h' => hall q' h (by omega))
  · intro h
    have h3 := congrArg BitVec.toNat h
    rw [BitVec.toNat_and] at h3
    simp only [BitVec.toNat_ofNat, Nat.one_mod, Nat.and_one_is_mod] at h3
    omega

end

end RMath
