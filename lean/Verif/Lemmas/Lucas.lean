import Verif.Lemmas.Prime

/-! The Lucas part of the primality test accepts every prime. -/

namespace RMath

open NumberTheorySymbols jacobiSym

/-! ## the choice of `P` -/

theorem encI_word {w : Nat} (h : w < 2 ^ 32) : (⟨[BitVec.ofNat 32 w], false⟩ : BInt) = encI (w : Int) := by
  rw [encI_ofNat, enc_lt h]

theorem jacobi_small {w n : Nat} (hw : w < 2 ^ 32) (hn : n % 2 = 1) :
    bJacobi ⟨[BitVec.ofNat 32 w], false⟩ ⟨enc n, false⟩ = .ok (some J((w : Int) | n)) := by
  rw [encI_word hw, ← encI_ofNat, bJacobi_spec (twosFit_of_small (by omega) (by exact_mod_cast hw) n hn) hn]

/-- the discriminant `P² - 4` -/
theorem jacobi_disc_zero {n p : Nat} (hn : n.Prime) (hp : 3 ≤ p) :
    J(((p * p - 4 : Nat) : Int) | n) = 0 ↔ n ∣ p - 2 ∨ n ∣ p + 2 := by
  have := Fact.mk hn
  rw [jacobiSym.eq_zero_iff, Int.gcd_natCast_natCast, show p * p - 4 = (p - 2) * (p + 2) by
    obtain ⟨q, rfl⟩ : ∃ q, p = q + 2 := ⟨p - 2, by omega⟩
    rw [show (q + 2) * (q + 2) = q * (q + 2 + 2) + 4 by ring]
    simp]
  rw [← hn.dvd_mul]
  constructor
  · rintro ⟨-, h⟩
    by_contra hc
    exact h ((Nat.coprime_comm.1 ((Nat.Prime.coprime_iff_not_dvd hn).2 hc)))
  · intro h
    refine ⟨hn.ne_zero, fun hc => ?_⟩
    have := Nat.dvd_gcd h (dvd_refl n)
    rw [hc] at this
    exact hn.one_lt.ne' (Nat.dvd_one.1 this)

theorem lucasFind_spec {n : Nat} (hn : n.Prime) (h5 : 5 ≤ n)
    (hex : ∃ p, 3 ≤ p ∧ p ≤ 10000 ∧ J(((p * p - 4 : Nat) : Int) | n) ≠ 1) (fuel : Nat) :
    ∀ p, 3 ≤ p → p + fuel = 10002 → (∀ q, 3 ≤ q → q < p → J(((q * q - 4 : Nat) : Int) | n) = 1) →
    lucasFind (enc n) fuel p = .ok (.inl true) ∨
    ∃ q, lucasFind (enc n) fuel p = .ok (.inr q) ∧ 3 ≤ q ∧ q < n ∧ q ≤ 10000 ∧
      J(((q * q - 4 : Nat) : Int) | n) = -1 := by
  have hodd : n % 2 = 1 := hn.eq_two_or_odd.resolve_left (by omega)
  obtain ⟨p0, hp3, hp10, hp1⟩ := hex
  induction fuel with
  | zero =>
    intro p h3 hf hall
    exact absurd (hall p0 hp3 (by omega)) hp1
  | succ fuel ih =>
    intro p h3 hf hall
    rw [lucasFind]
    have hle : ¬ 10000 < p := by
      intro hc
      exact hp1 (hall p0 hp3 (by omega))
    have hpn : p ≤ n - 2 := by
      by_contra hc
      have h0 : J(((n - 2) * (n - 2) - 4 : Nat) | n) = 0 :=
        (jacobi_disc_zero hn (by omega)).2 (Or.inr (by rw [show n - 2 + 2 = n by omega]))
      rw [hall (n - 2) (by omega) (by omega)] at h0
      omega
    have hw : p * p - 4 < 2 ^ 32 := by
      have : p * p ≤ 10000 * 10000 := Nat.mul_le_mul (by omega) (by omega)
      omega
    rw [if_neg hle, jacobi_small hw hodd]
    simp only [bind, Except.bind]
    by_cases hm : J(((p * p - 4 : Nat) : Int) | n) = -1
    · rw [if_pos hm]
      exact Or.inr ⟨p, rfl, h3, by omega, by omega, hm⟩
    rw [if_neg hm]
    by_cases hz : J(((p * p - 4 : Nat) : Int) | n) = 0
    · rw [if_pos hz]
      left
      have hnp : n = p + 2 := by
        rcases (jacobi_disc_zero hn h3).1 hz with h | h
        · have := Nat.le_of_dvd (by omega) h; omega
        · have := Nat.le_of_dvd (by omega) h; omega
      rw [enc_lt (by omega : n < 2 ^ 32), hnp]
      simp
    rw [if_neg hz]
    have hone : J(((p * p - 4 : Nat) : Int) | n) = 1 := by
      rcases jacobiSym.trichotomy ((p * p - 4 : Nat) : Int) n with h | h | h
      · exact absurd h hz
      · exact h
      · exact absurd h hm
    have hnext := ih (p + 1) (by omega) (by omega) (fun q hq hqp => by
      by_cases hqe : q = p
      · rw [hqe]; exact hone
      · exact hall q hq (by omega))
    by_cases h40 : p = 40
    · rw [if_pos h40, natSqrt_enc]
      simp only
      rw [natSqr_enc, eqv_enc, if_neg]
      · exact hnext
      · intro hc
        rw [decide_eq_true_eq] at hc
        rw [← hc] at hn
        exact (Nat.not_prime_mul (by rintro h; rw [h] at hc; omega) (by rintro h; rw [h] at hc; omega)) hn
    · rw [if_neg h40]
      exact hnext

/-! ## the Lucas sequence in an algebraic closure -/

section
variable {n : Nat} [hp : Fact n.Prime] {K : Type} [Field K] [CharP K n] [IsAlgClosed K]

omit [IsAlgClosed K] in
theorem two_ne_zero_of (hn2 : n ≠ 2) : (2 : K) ≠ 0 := by
  intro h
  have h' : ((2 : Nat) : K) = 0 := by exact_mod_cast h
  rw [CharP.cast_eq_zero_iff K n] at h'
  exact hn2 ((Nat.prime_dvd_prime_iff_eq hp.out Nat.prime_two).1 h')

/-- A root of `X² - P X + 1` has order dividing `n + 1` when the discriminant is not a square. -/
theorem exists_lucas_root {P : Nat} (hn2 : n ≠ 2) (h3 : 3 ≤ P) (hj : J(((P * P - 4 : Nat) : Int) | n) = -1) :
    ∃ α : K, α ≠ 0 ∧ α + α⁻¹ = P ∧ α ^ (n + 1) = 1 := by
  have h2K : (2 : K) ≠ 0 := two_ne_zero_of hn2
  obtain ⟨δ, hδ⟩ := IsAlgClosed.exists_pow_nat_eq (((P * P - 4 : Nat) : K)) (n := 2) (by norm_num)
  have hD : ((P * P - 4 : Nat) : K) = (P : K) ^ 2 - 4 := by
    rw [Nat.cast_sub (by nlinarith)]
    push_cast; ring
  have hfrob : ∀ m : Nat, (m : K) ^ n = m := by
    intro m
    have := map_natCast (frobenius K n) m
    rwa [frobenius_def] at this
  -- Euler's criterion
  have hodd : n % 2 = 1 := hp.out.eq_two_or_odd.resolve_left hn2
  have heul : ((P * P - 4 : Nat) : K) ^ (n / 2) = -1 := by
    have h := congrArg (ZMod.castHom (dvd_refl n) K) (euler_neg_one hj)
    rw [map_pow, map_neg, map_one, map_intCast] at h
    exact_mod_cast h
  have hδn : δ ^ n = -δ := by
    have : δ ^ (2 * (n / 2) + 1) = -δ := by
      rw [pow_succ, pow_mul, hδ, heul]
      ring
    rwa [show 2 * (n / 2) + 1 = n by omega] at this
  have hprod : ((P : K) + δ) / 2 * ((P - δ) / 2) = (1 : K) := by
    rw [div_mul_div_comm, div_eq_one_iff_eq (mul_ne_zero h2K h2K)]
    linear_combination -hδ - hD
  have hα0 : ((P : K) + δ) / 2 ≠ 0 := left_ne_zero_of_mul (by rw [hprod]; exact one_ne_zero)
  have hinv : (((P : K) + δ) / 2)⁻¹ = (P - δ) / 2 := inv_eq_of_mul_eq_one_right hprod
  refine ⟨(P + δ) / 2, hα0, ?_, ?_⟩
  · rw [hinv, ← add_div, div_eq_iff h2K]; ring
  · rw [pow_succ, div_pow, add_pow_char, hfrob, hδn]
    have := hfrob 2
    push_cast at this
    rw [this, mul_comm, ← sub_eq_add_neg]
    exact hprod

/-! ## the chain of pairs -/

omit hp [IsAlgClosed K] in
theorem cast_mod (m : Nat) : ((m % n : Nat) : K) = (m : K) := by
  conv_rhs => rw [← Nat.div_add_mod m n]
  push_cast
  rw [CharP.cast_eq_zero K n]
  ring

omit hp [IsAlgClosed K] in
theorem cast_inj {a b : Nat} (ha : a < n) (hb : b < n) (h : (a : K) = (b : K)) : a = b := by
  rw [CharP.natCast_eq_natCast K n] at h
  have := h
  unfold Nat.ModEq at this
  rwa [Nat.mod_eq_of_lt ha, Nat.mod_eq_of_lt hb] at this

/-- the sequence `V` -/
def lucV (α : K) (k : Nat) : K := α ^ k + (α⁻¹) ^ k

omit [IsAlgClosed K] hp [CharP K n] in
theorem lucV_odd {α : K} (h0 : α ≠ 0) (k : Nat) : lucV α k * lucV α (k + 1) - (α + α⁻¹) = lucV α (2 * k + 1) := by
  have h : α ^ k * (α⁻¹) ^ k = 1 := by rw [← mul_pow, mul_inv_cancel₀ h0, one_pow]
  unfold lucV
  rw [pow_succ, pow_succ, pow_succ α (2 * k), pow_succ (α⁻¹) (2 * k), mul_comm 2 k, pow_mul, pow_mul]
  linear_combination (α + α⁻¹) * h

omit [IsAlgClosed K] hp [CharP K n] in
theorem lucV_even {α : K} (h0 : α ≠ 0) (k : Nat) : lucV α k * lucV α k - 2 = lucV α (2 * k) := by
  have h : α ^ k * (α⁻¹) ^ k = 1 := by rw [← mul_pow, mul_inv_cancel₀ h0, one_pow]
  unfold lucV
  rw [mul_comm 2 k, pow_mul, pow_mul]
  linear_combination 2 * h

omit [IsAlgClosed K] in
theorem lucasChain_spec {P : Nat} {α : K} (h0 : α ≠ 0) (hP : α + α⁻¹ = P) (hPn : P < n) (h2n : 2 < n) (s : Nat)
    (i : Nat) : ∀ vk vk1 : Nat, vk < n → vk1 < n → (vk : K) = lucV α (s / 2 ^ i) → (vk1 : K) = lucV α (s / 2 ^ i + 1) →
    ∃ a b, lucasChain (enc n) (enc (n - 2)) (enc P) (enc s) i (enc vk) (enc vk1) = .ok (enc a, enc b) ∧
      a < n ∧ b < n ∧ (a : K) = lucV α s ∧ (b : K) = lucV α (s + 1) := by
  have hn0 : n ≠ 0 := by omega
  have hcn : ((n : Nat) : K) = 0 := CharP.cast_eq_zero K n
  induction i with
  | zero =>
    intro vk vk1 h1 h2 h3 h4
    rw [pow_zero, Nat.div_one] at h3 h4
    exact ⟨vk, vk1, rfl, h1, h2, h3, h4⟩
  | succ i ih =>
    intro vk vk1 h1 h2 h3 h4
    rw [lucasChain, mulKara_enc, addInner_enc, subInner_enc_of_le (by omega), isSetBit_enc]
    simp only [bind, Except.bind]
    have ht : ((vk * vk1 + n - P : Nat) : K) = lucV α (2 * (s / 2 ^ (i + 1)) + 1) := by
      rw [Nat.cast_sub (by omega)]
      push_cast
      rw [hcn, h3, h4, ← hP, add_zero, lucV_odd h0]
    have hs : s / 2 ^ i = 2 * (s / 2 ^ (i + 1)) + (s / 2 ^ i) % 2 := by
      rw [pow_succ, ← Nat.div_div_eq_div_mul]; omega
    have hbit : s.testBit i = decide (s / 2 ^ i % 2 = 1) := Nat.testBit_eq_decide_div_mod_eq
    have hsq : ∀ v k : Nat, (v : K) = lucV α k → ((v * v + (n - 2) : Nat) : K) = lucV α (2 * k) := by
      intro v k h
      rw [Nat.cast_add, Nat.cast_sub (by omega)]
      push_cast
      rw [hcn, h, ← lucV_even h0]
      ring
    have hb : ((if i < bitLen s then some (s.testBit i) else none) = some true) ↔ s / 2 ^ i % 2 = 1 := by
      by_cases hi : i < bitLen s
      · rw [if_pos hi, hbit]; simp
      · rw [if_neg hi]
        have : s / 2 ^ i = 0 := by
          apply Nat.div_eq_of_lt
          exact lt_of_lt_of_le (lt_pow_bitLen s) (Nat.pow_le_pow_right (by norm_num) (by omega))
        simp [this]
    by_cases hbt : s / 2 ^ i % 2 = 1
    · rw [if_pos (hb.2 hbt), natRem_enc hn0, sqrV_enc, addInner_enc, natRem_enc hn0]
      simp only
      apply ih _ _ (Nat.mod_lt _ (by omega)) (Nat.mod_lt _ (by omega))
      · rw [cast_mod, ht, hs, hbt]
      · rw [cast_mod, hsq _ _ h4, hs, hbt, Nat.mul_add]
    · have hbt0 : s / 2 ^ i % 2 = 0 := by omega
      rw [if_neg (mt hb.1 hbt), natRem_enc hn0, sqrV_enc, addInner_enc, natRem_enc hn0]
      simp only
      apply ih _ _ (Nat.mod_lt _ (by omega)) (Nat.mod_lt _ (by omega))
      · rw [cast_mod, hsq _ _ h3, hs, hbt0]; rfl
      · rw [cast_mod, ht, hs, hbt0]

/-! ## the last loop -/

omit [IsAlgClosed K] in
theorem lucasTail_spec (h3n : 3 < n) (m : Nat) : ∀ (c : K) (v : Nat), c ≠ 0 → v < n → (v : K) = c + c⁻¹ →
    c ^ 2 ^ (m + 1) = 1 → c ^ 2 ≠ 1 → lucasTail (enc n) m (enc v) = .ok true := by
  have hn0 : n ≠ 0 := by omega
  induction m with
  | zero => intro c v _ _ _ h1 h2; exact absurd (by simpa using h1) h2
  | succ m ih =>
    intro c v hc hv hvc h1 h2
    rw [lucasTail, ← enc_zero, eqv_enc]
    by_cases hv0 : v = 0
    · rw [if_pos (by simpa using hv0)]
    rw [if_neg (by simpa using hv0)]
    have hquad : c ^ 2 - (v : K) * c + 1 = 0 := by
      rw [hvc]; field_simp; ring
    have hv2 : v ≠ 2 := by
      rintro rfl
      apply h2
      have h : (c - 1) ^ 2 = 0 := by push_cast at hquad; linear_combination hquad
      have := pow_eq_zero_iff (two_ne_zero) |>.1 h
      rw [sub_eq_zero.1 this]; simp
    rw [if_neg (by rw [len1_eq v 2#32]; exact hv2)]
    have hv1 : v ≠ 1 := by
      rintro rfl
      apply h2
      push_cast at hquad
      have h6 : c ^ 6 = 1 := by linear_combination (c ^ 4 + c ^ 3 - c - 1) * hquad
      have hd1 := orderOf_dvd_of_pow_eq_one h1
      have hd2 := orderOf_dvd_of_pow_eq_one h6
      have hg := Nat.dvd_gcd hd1 hd2
      have : Nat.gcd (2 ^ (m + 1 + 1)) 6 = 2 := by
        rw [show 2 ^ (m + 1 + 1) = 2 * 2 ^ (m + 1) by ring, show (6 : Nat) = 2 * 3 by norm_num, Nat.gcd_mul_left]
        have : Nat.Coprime (2 ^ (m + 1)) 3 := Nat.Coprime.pow_left _ (by norm_num)
        rw [this.gcd_eq_one]
      rw [this] at hg
      exact orderOf_dvd_iff_pow_eq_one.1 hg
    have hge : 2 ≤ v * v := by nlinarith [show 3 ≤ v by omega]
    have hraw : natRem (assignPrim subInnerBasic (sqrV (enc v)) 2#32) (enc n) = .ok (enc ((v * v - 2) % n)) := by
      rw [sqrV_enc]
      simp only [assignPrim, isNan_enc, Bool.false_eq_true, if_false]
      rw [natRem_raw (subInnerBasic_ne_nil (enc_ne_nil _) _) hn0, subInnerBasic_val (canon_enc _), val_enc]
      congr 3
      simp only [BitVec.toNat_ofNat]
      omega
    rw [hraw]
    simp only [bind, Except.bind]
    apply ih (c ^ 2) _ (pow_ne_zero _ hc) (Nat.mod_lt _ (by omega))
    · rw [cast_mod, Nat.cast_sub hge]
      push_cast
      rw [hvc, ← inv_pow]
      field_simp
      ring
    · rw [← pow_mul, ← pow_succ']; exact h1
    · intro h4
      rw [← pow_mul] at h4
      have : (c ^ 2) ^ 2 = 1 := by rw [← pow_mul]; exact h4
      rcases sq_eq_one_iff.1 this with h | h
      · exact h2 h
      · apply hv0
        apply cast_inj (K := K) hv (by omega)
        rw [hvc]
        field_simp
        rw [h]; simp

end

/-! ## the whole test -/

theorem natSubW_two {n : Nat} (hn : 2 < n) (hodd : n % 2 = 1) (h32 : OddPartFits (n - 1)) :
    natSubW (enc n) 2#32 = enc (n - 2) := by
  simp only [natSubW, opPrim, isNan_enc, Bool.false_eq_true, if_false, deepClone_enc]
  have hval : val (subInnerBasic (enc n) 2#32) = n - 2 := by
    rw [subInnerBasic_val (canon_enc _), val_enc]
    simp only [BitVec.toNat_ofNat]
    omega
  refine enc_eq_iff.2 ⟨?_, hval⟩
  apply canon_of_le_val (subInnerBasic_ne_nil (enc_ne_nil _) _)
  rw [subInnerBasic_length, hval]
  intro hlen
  have hle := (canon_enc n).le_val hlen
  rw [val_enc] at hle
  obtain ⟨k, hk⟩ : ∃ k, (enc n).length - 1 = k + 1 := ⟨(enc n).length - 2, by omega⟩
  rw [hk] at hle ⊢
  have hX : 2 ^ (32 * (k + 1)) % 2 = 0 := by rw [mul_add, pow_add, Nat.mul_mod]; norm_num
  have hno := not_oddPartFits (k := k + 1) (by omega)
  generalize 2 ^ (32 * (k + 1)) = X at *
  rcases Nat.lt_or_ge (n - 2) X with h | h
  · exfalso
    have : n - 1 = X := by omega
    exact hno (this ▸ h32)
  · exact h

theorem lucasCheck_of_root {n P : Nat} (hp : n.Prime) (h5 : 5 ≤ n) (hPn : P < n) (hP10 : P ≤ 10000)
    (h1 : OddPartFits (n - 1)) (h2 : OddPartFits (n + 1)) {K : Type} [Field K] [CharP K n] {α : K} (hα0 : α ≠ 0)
    (hαP : α + α⁻¹ = P) (hord : α ^ (n + 1) = 1) : lucasCheck (enc n) P = .ok true := by
  have := Fact.mk hp
  have hodd : n % 2 = 1 := hp.eq_two_or_odd.resolve_left (by omega)
  have hn0 : n ≠ 0 := by omega
  have h2K : (2 : K) ≠ 0 := two_ne_zero_of (n := n) (by omega)
  obtain ⟨r, s, hs, hrs⟩ := Nat.exists_eq_two_pow_mul_odd (n := n + 1) (by omega)
  have hs1 := Nat.odd_iff.1 hs
  have hr32 : ShiftFits (2 ^ r * s) r := hrs ▸ h2 r s hrs hs1
  have hr1 : 1 ≤ r := by
    by_contra hc
    have : r = 0 := by omega
    subst this
    omega
  unfold lucasCheck
  simp only [natAddW_one, natSubW_two (by omega : 2 < n) hodd h1]
  have htz : traillingZeros (enc (n + 1)) = r := by rw [hrs]; exact traillingZeros_eq hs1
  have hshr : shrInner (enc (n + 1)) r = enc s := by
    rw [hrs, shrInner_odd_part hs1 hr32]
  have hPe : ([BitVec.ofNat 32 P] : Words) = enc P := by rw [enc_lt (by omega)]
  have h2e : ([2#32] : Words) = enc 2 := by rw [enc_lt (by norm_num)]
  rw [htz, hshr, hPe, h2e, bitsLen_enc]
  have hs0 : s / 2 ^ (bitLen s + 1) = 0 := by
    apply Nat.div_eq_of_lt
    exact lt_of_lt_of_le (lt_pow_bitLen s) (Nat.pow_le_pow_right (by norm_num) (by omega))
  obtain ⟨a, b, hab, ha, hb, haV, hbV⟩ := lucasChain_spec (n := n) hα0 hαP hPn (by omega) s (bitLen s + 1) 2 P
    (by omega) hPn (by rw [hs0]; simp [lucV]; norm_num) (by rw [hs0]; simp [lucV, hαP])
  rw [hab]
  simp only [bind, Except.bind, eqv_enc]
  set c := α ^ s with hcdef
  have hc0 : c ≠ 0 := pow_ne_zero _ hα0
  have haV' : (a : K) = c + c⁻¹ := by rw [haV, lucV, inv_pow]
  have hbV' : (b : K) = c * α + c⁻¹ * α⁻¹ := by rw [hbV, lucV, inv_pow, pow_succ, mul_inv]
  have hcord : c ^ 2 ^ r = 1 := by rw [hcdef, ← pow_mul, mul_comm, ← hrs, hord]
  have hiff : (a = 2 ∨ a = n - 2) ↔ c ^ 2 = 1 := by
    have hcn : ((n : Nat) : K) = 0 := CharP.cast_eq_zero K n
    rw [sq_eq_one_iff]
    constructor
    · rintro (rfl | rfl)
      · left
        have h : (c - 1) ^ 2 = 0 := by
          field_simp at haV'
          push_cast at haV'
          linear_combination -haV'
        exact sub_eq_zero.1 (pow_eq_zero_iff two_ne_zero |>.1 h)
      · right
        have h : (c + 1) ^ 2 = 0 := by
          rw [Nat.cast_sub (by omega), hcn] at haV'
          field_simp at haV'
          push_cast at haV'
          linear_combination -haV'
        exact eq_neg_of_add_eq_zero_left (pow_eq_zero_iff two_ne_zero |>.1 h)
    · rintro (h | h)
      · left
        apply cast_inj (K := K) ha (by omega)
        rw [haV', h]; push_cast; norm_num
      · right
        apply cast_inj (K := K) ha (by omega)
        rw [haV', h, Nat.cast_sub (by omega), hcn]; push_cast; norm_num
  by_cases hc2 : c ^ 2 = 1
  · rw [if_pos (by simpa using hiff.2 hc2), mulKara_enc]
    have hshl : natShl (enc b) 1 = enc (b * 2 ^ 1) := by
      simp only [natShl, opPrim, isNan_enc, Bool.false_eq_true, if_false, deepClone_enc]
      rw [shlInner_enc_lt (by norm_num)]
    rw [hshl, assign_sub_enc, natRem_enc hn0]
    simp only [← enc_zero, eqv_enc]
    rw [if_pos]
    rw [decide_eq_true_eq]
    have hz : ((a * P : Nat) : K) = ((b * 2 ^ 1 : Nat) : K) := by
      push_cast
      rw [haV', hbV', ← hαP]
      rcases sq_eq_one_iff.1 hc2 with h | h
      · rw [h]; norm_num; ring
      · rw [h]; norm_num; ring
    rw [CharP.natCast_eq_natCast K n] at hz
    have e1 : (n : Int) ∣ (a * P : Nat) - (b * 2 ^ 1 : Nat) := (Nat.modEq_iff_dvd.1 hz.symm)
    apply Nat.mod_eq_zero_of_dvd
    rcases Nat.le_total (a * P) (b * 2 ^ 1) with h | h
    · have : a * P - b * 2 ^ 1 + (b * 2 ^ 1 - a * P) = b * 2 ^ 1 - a * P := by omega
      rw [this]
      exact (Nat.modEq_iff_dvd' h).1 hz
    · have : a * P - b * 2 ^ 1 + (b * 2 ^ 1 - a * P) = a * P - b * 2 ^ 1 := by omega
      rw [this]
      exact (Nat.modEq_iff_dvd' h).1 hz.symm
  · rw [if_neg (by simpa using mt hiff.1 hc2)]
    simp only [Bool.false_eq_true, if_false]
    exact lucasTail_spec (by omega) (r - 1) c a hc0 ha haV' (by rw [show r - 1 + 1 = r by omega]; exact hcord) hc2

theorem lucasCheck_spec {n P : Nat} (hp : n.Prime) (h5 : 5 ≤ n) (h3 : 3 ≤ P) (hPn : P < n) (hP10 : P ≤ 10000)
    (h1 : OddPartFits (n - 1)) (h2 : OddPartFits (n + 1)) (hj : J(((P * P - 4 : Nat) : Int) | n) = -1) :
    lucasCheck (enc n) P = .ok true := by
  have := Fact.mk hp
  have hchar : CharP (AlgebraicClosure (ZMod n)) n :=
    charP_of_injective_algebraMap (algebraMap (ZMod n) (AlgebraicClosure (ZMod n))).injective n
  obtain ⟨α, hα0, hαP, hord⟩ := exists_lucas_root (K := AlgebraicClosure (ZMod n)) (by omega) h3 hj
  exact lucasCheck_of_root hp h5 hPn hP10 h1 h2 hα0 hαP hord

theorem primeLucas_spec {n : Nat} (hp : n.Prime) (h5 : 5 ≤ n) (h1 : OddPartFits (n - 1)) (h2 : OddPartFits (n + 1))
    (hex : ∃ p, 3 ≤ p ∧ p ≤ 10000 ∧ J(((p * p - 4 : Nat) : Int) | n) ≠ 1) : primeLucas (enc n) = .ok true := by
  have hodd : n % 2 = 1 := hp.eq_two_or_odd.resolve_left (by omega)
  unfold primeLucas
  rw [isNan_enc, eqv_one_enc, if_neg (by simp; omega)]
  obtain ⟨w, hw, hwn⟩ := word0_enc n
  rw [hw]
  simp only [bind, Except.bind]
  rw [if_neg]
  · rcases lucasFind_spec hp h5 hex 9999 3 (by norm_num) (by norm_num) (fun q h3 hq => by omega) with h | h
    · rw [h]
    · obtain ⟨q, hq, h3, hqn, hq10, hj⟩ := h
      rw [hq]
      exact lucasCheck_spec hp h5 h3 hqn hq10 h1 h2 hj
  · intro h
    have h3 := congrArg BitVec.toNat h
    rw [BitVec.toNat_and] at h3
    simp only [BitVec.toNat_ofNat, Nat.one_mod, Nat.and_one_is_mod] at h3
    omega

/-! ## trial division -/

theorem remInnerU32_spec (x : Words) {r : W} (hr : r ≠ 0#32) : (remInnerU32 x r).toNat = val x % r.toNat := by
  have hr0 : 0 < r.toNat := Nat.pos_of_ne_zero (by simpa [← BitVec.toNat_inj] using hr)
  have hrl := r.isLt
  have key : (x.foldr (fun (e : W) (r' : D) => ((r' <<< 32) ||| toD e) % toD r) 0#64).toNat = val x % r.toNat := by
    induction x with
    | nil => simp
    | cons w ws ih =>
      rw [List.foldr_cons, BitVec.toNat_umod, toD_toNat]
      generalize List.foldr (fun (e : W) (r' : D) => ((r' <<< 32) ||| toD e) % toD r) 0#64 ws = acc at *
      have hacc : acc.toNat < r.toNat := by rw [ih]; exact Nat.mod_lt _ hr0
      have hor : (acc <<< 32 ||| toD w).toNat = acc.toNat * 2 ^ 32 + w.toNat := by
        rw [BitVec.toNat_or, BitVec.toNat_shiftLeft, toD_toNat, Nat.shiftLeft_eq, Nat.mod_eq_of_lt (by omega)]
        exact or_eq_add w.isLt
      rw [hor, ih, val_cons, Nat.add_comm w.toNat, Nat.mul_comm (2 ^ 32)]
      rw [Nat.add_mod, Nat.mod_mul_mod, ← Nat.add_mod]
  unfold remInnerU32
  rw [toW_toNat, key, Nat.mod_eq_of_lt]
  exact lt_trans (Nat.mod_lt _ hr0) hrl

end RMath
