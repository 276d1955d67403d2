import Verif.Props.ModSqrtAny

/-!
# Property C114, moduli that are 1 mod 8

What the algorithm of Tonelli and Shanks returns is a root whether or not the modulus is a prime: that the square of `y` is `x·b` is
preserved by each round, and it ends when `b` is 1.
-/

namespace RMath
open jacobiSym

open scoped NumberTheorySymbols

theorem bOrderLoop_zero {p : BInt} : ∀ (fuel : Nat) (t : BInt) (m k : Nat), bOrderLoop p fuel t m = .ok k →
    m ≤ k ∧ (k = m → bEqW t 1#32 = true) := by
  intro fuel
  induction fuel with
  | zero => intro t m k h; simp [bOrderLoop] at h
  | succ fuel ih =>
    intro t m k h
    rw [bOrderLoop] at h
    by_cases h1 : bEqW t 1#32 = true
    · rw [if_pos h1] at h
      have := Except.ok.inj h
      exact ⟨by omega, fun _ => h1⟩
    · rw [if_neg h1] at h
      cases h2 : bRemEuclidInner (bMulInner t t) p with
      | error e => rw [h2] at h; simp [bind, Except.bind] at h
      | ok t' =>
        rw [h2] at h
        have := ih t' (m + 1) k h
        exact ⟨by omega, fun hk => by omega⟩

theorem tonelliLoop_sound {n : Nat} (hn : 0 < n) (x : Int) (fuelM : Nat) : ∀ (fuel r : Nat) (y b g : Int) (w : BInt), 0 ≤ y → y < n → 0 ≤ b →
    0 ≤ g → y ^ 2 ≡ x * b [ZMOD n] →
    bTonelliLoop false (encI n) fuelM fuel (encI y) (encI b) (encI g) r = .ok w →
    ∃ z : Int, w = encI z ∧ 0 ≤ z ∧ z < n ∧ z ^ 2 ≡ x [ZMOD n] := by
  have n0 : (n : Int) ≠ 0 := by omega
  intro fuel
  induction fuel with
  | zero => intro r y b g w _ _ _ _ _ h; simp [bTonelliLoop] at h
  | succ f ih =>
    intro r y b g w hy0 hy1 hb0 hg0 hyb h
    rw [bTonelliLoop] at h
    cases hm : bOrderLoop (encI n) fuelM (encI b) 0 with
    | error e => rw [hm] at h; simp [bind, Except.bind] at h
    | ok m =>
      rw [hm] at h
      simp only [bind, Except.bind] at h
      by_cases h0 : m = 0
      · subst h0
        rw [if_pos rfl] at h
        have hb1 := (bOrderLoop_zero _ _ _ _ hm).2 rfl
        rw [bEqW_one_encI] at hb1
        have hb1 : b = 1 := by simpa using hb1
        subst hb1
        exact ⟨y, (Except.ok.inj h).symm, hy0, hy1, by simpa using hyb⟩
      · rw [if_neg h0] at h
        by_cases hr : r < m + 1
        · rw [if_pos hr] at h; simp at h
        · rw [if_neg hr, bSetBits_zero, bExp_ok _ _ n0] at h
          simp only [] at h
          set t : Int := g ^ 2 ^ (r - m - 1) % (n : Int) with ht
          have ht0 : 0 ≤ t := Int.emod_nonneg _ n0
          have e3 : (⟨sqrV (encI t).nat, false⟩ : BInt) = encI (t * t) := by
            obtain ⟨k, hk⟩ := Int.eq_ofNat_of_zero_le ht0
            rw [hk, encI_ofNat, sqrV_enc, ← encI_ofNat]
            push_cast
            rfl
          rw [e3, bRemEuclidInner_ok n0 (Or.inl (by positivity))] at h
          simp only [] at h
          have hg'0 : 0 ≤ t * t % (n : Int) := Int.emod_nonneg _ n0
          rw [bMulInner_encI, bRemEuclidInner_ok n0 (Or.inl (by positivity))] at h
          simp only [] at h
          rw [bMulInner_encI, bRemEuclidInner_ok n0 (Or.inl (by positivity))] at h
          simp only [] at h
          refine ih m _ _ _ w (Int.emod_nonneg _ n0) (Int.emod_lt_of_pos _ (by omega)) (Int.emod_nonneg _ n0) hg'0 ?_ h
          have c1 : (y * t % (n : Int)) ^ 2 ≡ (y * t) ^ 2 [ZMOD n] := (Int.mod_modEq _ _).pow 2
          have c2 : b * (t * t % (n : Int)) % (n : Int) ≡ b * (t * t) [ZMOD n] :=
            (Int.mod_modEq _ _).trans ((Int.mod_modEq _ _).mul_left _)
          refine c1.trans (Int.ModEq.trans ?_ (c2.mul_left x).symm)
          rw [mul_pow, show x * (b * (t * t)) = x * b * t ^ 2 by ring]
          exact hyb.mul_right _

/-- A modulus `n` of one word that is 1 mod 8, prime or not: whatever number `mod_sqrt` returns for a number with symbol 1 is a root, in
the range from 0 to `n - 1`. -/
theorem C114_one_mod_eight (x y z : BInt) (hx : CanonI x) (hy : CanonI y) (n : Nat) (hyn : ival y = n) (hn : n % 8 = 1) (h1 : 1 < n)
    (hlt : n < 2 ^ 32) (hJ : jacobiSym (ival x) n = 1) (h : bModSqrt false x y = .ok (some z)) :
    CanonI z ∧ 0 ≤ ival z ∧ ival z < n ∧ ival z ^ 2 ≡ ival x [ZMOD n] := by
  obtain ⟨a, rfl⟩ := canonI_iff_encI.1 hx
  obtain ⟨b, rfl⟩ := canonI_iff_encI.1 hy
  rw [ival_encI] at hyn
  subst hyn
  rw [ival_encI] at *
  have hodd : n % 2 = 1 := by omega
  have n0 : (n : Int) ≠ 0 := by omega
  obtain ⟨x', h0, -, -, h3, h4⟩ := modSqrt_one (by omega) hodd (twosFit_of_lt _ _ hodd hlt) hJ
  have hnat : (encI (n : Int)).nat = enc n := by rw [encI_ofNat]
  obtain ⟨e, s, hs, hps⟩ := Nat.exists_eq_two_pow_mul_odd (n := n - 1) (by omega)
  have hso : s % 2 = 1 := Nat.odd_iff.1 hs
  have he : e < 32 := by
    by_contra hc
    have h1 : 2 ^ 32 ≤ 2 ^ e := Nat.pow_le_pow_right (by norm_num) (by omega)
    have h2 : 2 ^ e ≤ 2 ^ e * s := Nat.le_mul_of_pos_right _ (by omega)
    omega
  rw [h4, if_neg (by omega), if_neg (by omega), bTonelli, hnat, natSubW_odd hodd, hps, traillingZeros_eq hso] at h
  have e1 : (⟨shrInner (enc (2 ^ e * s)) e, false⟩ : BInt) = encI ((s : Nat) : Int) := by
    rw [shrInner_enc_lt he, Nat.mul_div_cancel_left _ (by positivity), ← encI_ofNat]
  have e2 : (⟨[2#32], false⟩ : BInt) = encI ((2 : Nat) : Int) := by
    rw [encI_ofNat, show [2#32] = enc 2 from enc_eq_iff.2 ⟨⟨by decide, by decide⟩, rfl⟩]
  rw [e1, e2] at h
  simp only [bind, Except.bind] at h
  rcases nonSquare_ends hodd hlt (val (enc n) + 1) 2 with hN | ⟨N, hN⟩
  · rw [hN] at h; simp at h
  · rw [hN] at h
    simp only [] at h
    rw [encI_ofNat s, natAddW_one, shrInner_enc_lt (by norm_num), ← encI_ofNat, ← encI_ofNat, bExp_ok _ _ n0] at h
    simp only [] at h
    rw [bExp_ok _ _ n0] at h
    simp only [] at h
    rw [bExp_ok _ _ n0] at h
    simp only [] at h
    split at h
    · rename_i w hw
      have hzw : w = z := by simpa using h
      subst hzw
      obtain ⟨r, e5, e6, e7, e8⟩ := tonelliLoop_sound (by omega) x' _ _ _ _ _ _ _ (Int.emod_nonneg _ n0)
        (Int.emod_lt_of_pos _ (by omega)) (Int.emod_nonneg _ n0) (Int.emod_nonneg _ n0) (by
          refine ((Int.mod_modEq _ _).pow 2).trans (Int.ModEq.trans ?_ ((Int.mod_modEq _ _).mul_left _).symm)
          rw [← pow_mul, show (s + 1) / 2 ^ 1 * 2 = s + 1 by omega, pow_succ']) hw
      rw [e5]
      refine ⟨canonI_encI r, ?_⟩
      rw [ival_encI]
      exact ⟨e6, e7, e8.trans h3⟩
    · simp at h

/-- 25 modulo 217 = 7 * 31: the root returned is 191 -/
example : CanonI ⟨[25#32], false⟩ ∧ CanonI ⟨[217#32], false⟩ ∧ ival ⟨[217#32], false⟩ = (217 : Nat) ∧ 217 % 8 = 1 ∧
    jacobiSym (ival ⟨[25#32], false⟩) 217 = 1 ∧ bModSqrt false ⟨[25#32], false⟩ ⟨[217#32], false⟩ = .ok (some ⟨[191#32], false⟩) := by
  refine ⟨⟨⟨by decide, by decide⟩, by decide⟩, ⟨⟨by decide, by decide⟩, by decide⟩, by decide, rfl, ?_, by decide +kernel⟩
  rw [show ival ⟨[25#32], false⟩ = 25 by decide]
  norm_num

end RMath
