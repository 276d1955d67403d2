import Mathlib.Tactic.NormNum.LegendreSymbol
import Verif.Props.Residue

/-!
# Property C114: square roots modulo a number that is no prime

The documentation of `mod_sqrt` says that it panics when the modulus is not an odd prime.  It does not: depending on the modulus it
returns `None`, returns a number that need not be a root, or never returns.
-/

namespace RMath
open jacobiSym

open scoped NumberTheorySymbols

/-! ## Proof -/

theorem modSqrt_arg {x : Int} {n : Nat} (hn : 2 ≤ n) (hJ : J(x | n) = 1) : ∃ x' : Int,
    (if (bIsNegative (encI x) || bGe (encI x) (encI (n : Int))) = true then bRemEuclid (encI x) (encI (n : Int))
      else .ok (encI x) : Res BInt) = .ok (encI x') ∧ 0 ≤ x' ∧ x' < n ∧ J(x' | n) = 1 ∧ x' ≡ x [ZMOD n] := by
  have hnd : ¬ ((n : Int) ∣ x) := by
    intro hd
    rw [mod_left, Int.emod_eq_zero_of_dvd hd, zero_left (by omega)] at hJ
    norm_num at hJ
  have n0 : (n : Int) ≠ 0 := by omega
  rw [bIsNegative_encI, bGe_encI]
  by_cases hc : x < 0 ∨ (n : Int) ≤ x
  · refine ⟨x % (n : Int), ?_, Int.emod_nonneg _ n0, Int.emod_lt_of_pos _ (by omega), by rw [← mod_left]; exact hJ,
      Int.mod_modEq _ _⟩
    rw [if_pos (by simpa using hc), bRemEuclid_ok n0 (Or.inr hnd)]
  · refine ⟨x, ?_, by omega, by omega, hJ, Int.ModEq.refl _⟩
    rw [if_neg (by simpa using hc)]

/-- what is left to do when the symbol is 1 -/
theorem modSqrt_one {x : Int} {n : Nat} (hn : 2 ≤ n) (hodd : n % 2 = 1) (hx : TwosFit x n) (hJ : J(x | n) = 1) :
    ∃ x' : Int, 0 ≤ x' ∧ x' < n ∧ J(x' | n) = 1 ∧ x' ≡ x [ZMOD n] ∧
      bModSqrt false (encI x) (encI n) = (match (if n % 4 = 3 then bModSqrt3mod4 false (encI x') (encI n)
        else if n % 8 = 5 then bModSqrt5mod8 false (encI x') (encI n) else bTonelli false (encI x') (encI n)) with
        | .ok y => .ok (some y)
        | .error e => .error e) := by
  have hnat : (encI (n : Int)).nat = enc n := by rw [encI_ofNat]
  obtain ⟨x', hx', h0, h1, h2, h3⟩ := modSqrt_arg hn hJ
  refine ⟨x', h0, h1, h2, h3, ?_⟩
  rw [bModSqrt, bJacobi_spec hx hodd]
  simp only [bind, Except.bind, Option.some.injEq]
  rw [hJ, if_neg (by norm_num), if_neg (by norm_num), if_pos rfl, hnat]
  obtain ⟨w, hw, hwv⟩ := word0_enc n
  rw [hw]
  simp only []
  have hodd' : ¬ (w &&& 1#32 ≠ 1#32) := by
    rw [not_not, ← BitVec.toNat_inj, BitVec.toNat_and, hwv]
    simp only [BitVec.toNat_ofNat, Nat.reducePow, Nat.reduceMod, Nat.and_one_is_mod]
    omega
  rw [if_neg hodd', hx']
  simp only []
  have m4 : (w % 4#32 = 3#32) ↔ n % 4 = 3 := by
    rw [← BitVec.toNat_inj, word0_mod w hwv (by norm_num) (by norm_num)]
    simp
  have m8 : (w % 8#32 = 5#32) ↔ n % 8 = 5 := by
    rw [← BitVec.toNat_inj, word0_mod w hwv (by norm_num) (by norm_num)]
    simp
  simp only [m4, m8]
  generalize (if n % 4 = 3 then bModSqrt3mod4 false (encI x') (encI ↑n) else _) = r
  cases r <;> rfl

theorem modSqrt_other {x : Int} {n : Nat} (hodd : n % 2 = 1) (hx : TwosFit x n) :
    (J(x | n) = -1 → bModSqrt false (encI x) (encI n) = .ok none) ∧
    (J(x | n) = 0 → bModSqrt false (encI x) (encI n) = .ok (some (encI 0))) := by
  rw [bModSqrt, bJacobi_spec hx hodd]
  simp only [bind, Except.bind, Option.some.injEq]
  exact ⟨fun h => by rw [if_pos h], fun h => by rw [h, if_neg (by norm_num), if_pos rfl, bZero_eq]⟩

theorem sqrt5mod8_any {x : Int} {n : Nat} (hn8 : n % 8 = 5) (hx : 0 ≤ x) (hJ : J(x | n) = 1) :
    bModSqrt5mod8 false (encI x) (encI n) =
      .ok (encI (x * (2 * x) ^ (n / 8) * (2 * x * ((2 * x) ^ (n / 8)) ^ 2 - 1) % n)) := by
  have hP : (n : Int) ≠ 0 := by omega
  set e := n / 8 with he
  set al : Int := (x * 2) ^ e % (n : Int) with hal
  set b1 : Int := al * al % (n : Int) with hb1
  set b2 : Int := b1 * (x * 2) % (n : Int) with hb2
  set b3 : Int := (b2 - 1) * x % (n : Int) with hb3
  have hal0 : 0 ≤ al := Int.emod_nonneg _ hP
  have hb10 : 0 ≤ b1 := Int.emod_nonneg _ hP
  have hb20 : 0 ≤ b2 := Int.emod_nonneg _ hP
  have hb30 : 0 ≤ b3 := Int.emod_nonneg _ hP
  have c1 : al ≡ (x * 2) ^ e [ZMOD n] := Int.mod_modEq _ _
  have c2 : b1 ≡ (x * 2) ^ e * (x * 2) ^ e [ZMOD n] := (Int.mod_modEq _ _).trans (c1.mul c1)
  have c3 : b2 ≡ (x * 2) ^ e * (x * 2) ^ e * (x * 2) [ZMOD n] := (Int.mod_modEq _ _).trans (c2.mul_right _)
  have c4 : b3 ≡ ((x * 2) ^ e * (x * 2) ^ e * (x * 2) - 1) * x [ZMOD n] :=
    (Int.mod_modEq _ _).trans ((c3.sub (Int.ModEq.refl 1)).mul_right _)
  have hcop : IsCoprime (x * 2) (n : Int) := by
    refine IsCoprime.mul_left ?_ ?_
    · rw [Int.isCoprime_iff_gcd_eq_one]
      by_contra hc
      rw [(eq_zero_iff (a := x) (b := n)).2 ⟨by omega, hc⟩] at hJ
      norm_num at hJ
    · rw [Int.isCoprime_iff_gcd_eq_one]
      have : Nat.Coprime 2 n := Nat.coprime_two_left.2 (Nat.odd_iff.2 (by omega))
      exact this
  have hb2pos : 1 ≤ b2 := by
    rcases lt_or_ge 0 b2 with h | h
    · omega
    · exfalso
      have h0 : b2 = 0 := by omega
      rw [h0] at c3
      have hd : (n : Int) ∣ (x * 2) ^ (e + e + 1) := by
        rw [pow_succ, pow_add]
        exact Int.modEq_zero_iff_dvd.1 c3.symm
      have := (hcop.pow_left (m := e + e + 1)).symm.isUnit_of_dvd' dvd_rfl hd
      rw [Int.isUnit_iff] at this
      omega
  have e1 : bShr (encI (n : Int)) 3 = encI ((e : Nat) : Int) := by
    rw [bShr, bDeepClone_encI, bShrInner_nat (by norm_num), he]
    norm_num
  have e2 : bShl (encI x) 1 = encI (x * 2) := by
    rw [bShl_encI (Or.inr (by norm_num)), pow_one]
  have e3 : (⟨sqrV (encI al).nat, false⟩ : BInt) = encI (al * al) := by
    obtain ⟨k, hk⟩ := Int.eq_ofNat_of_zero_le hal0
    rw [hk, encI_ofNat, sqrV_enc, ← encI_ofNat]
    push_cast
    rfl
  rw [bModSqrt5mod8, e1, e2]
  simp only [bind, Except.bind]
  rw [bExp_ok _ _ hP]
  simp only []
  rw [← hal, e3, bRemEuclidInner_ok hP (Or.inl (by positivity))]
  simp only []
  rw [← hb1, bMulInner_encI, bRemEuclidInner_ok hP (Or.inl (by positivity))]
  simp only []
  rw [← hb2, bOne_eq, bSubInner_encI, bMulInner_encI,
    bRemEuclidInner_ok hP (Or.inl (mul_nonneg (by omega) hx))]
  simp only []
  rw [← hb3, bMulInner_encI, bRemEuclidInner_ok hP (Or.inl (by positivity))]
  congr 2
  have := c4.mul c1
  rw [Int.ModEq] at this
  rw [this]
  congr 1
  ring

/-- the search for a non-residue, if there is none -/
theorem nonSquare_hangs {p : Nat} (hp : p % 2 = 1) (hlt : p < 2 ^ 32) (h : ∀ k : Nat, J(k | p) ≠ -1) :
    ∀ (fuel n : Nat), bNonSquare (encI p) fuel (encI (n : Int)) = .error .hang := by
  intro fuel
  induction fuel with
  | zero => intro n; rfl
  | succ f ih =>
    intro n
    rw [bNonSquare, bJacobi_spec (twosFit_of_lt _ _ hp hlt) hp]
    simp only [bind, Except.bind, Option.some.injEq, h n, if_false]
    have : (⟨addInnerBasic (encI (n : Int)).nat 1#32, (encI (n : Int)).neg⟩ : BInt) = encI ((n + 1 : Nat) : Int) := by
      rw [encI_ofNat, encI_ofNat, addInnerBasic_enc]
      rfl
    rw [this]
    exact ih _

theorem nonSquare_ends {p : Nat} (hp : p % 2 = 1) (hlt : p < 2 ^ 32) :
    ∀ (fuel n : Nat), bNonSquare (encI p) fuel (encI (n : Int)) = .error .hang ∨
      ∃ N : Nat, bNonSquare (encI p) fuel (encI (n : Int)) = .ok (encI (N : Int)) := by
  intro fuel
  induction fuel with
  | zero => intro n; exact Or.inl rfl
  | succ f ih =>
    intro n
    rw [bNonSquare, bJacobi_spec (twosFit_of_lt _ _ hp hlt) hp]
    simp only [bind, Except.bind, Option.some.injEq]
    split
    · exact Or.inr ⟨n, rfl⟩
    · have : (⟨addInnerBasic (encI (n : Int)).nat 1#32, (encI (n : Int)).neg⟩ : BInt) = encI ((n + 1 : Nat) : Int) := by
        rw [encI_ofNat, encI_ofNat, addInnerBasic_enc]
        rfl
      rw [this]
      exact ih _

/-- the search for the order, if it is no power of two -/
theorem order_hangs {n : Nat} (hn : 0 < n) : ∀ (fuel : Nat) (t : Int) (m : Nat), 0 ≤ t → t < n → (∀ k : Nat, ¬ t ^ 2 ^ k ≡ 1 [ZMOD n]) →
    bOrderLoop (encI n) fuel (encI t) m = .error .hang := by
  intro fuel
  induction fuel with
  | zero => intros; rfl
  | succ f ih =>
    intro t m h0 h1 h
    have ht : ¬ t = 1 := by
      rintro rfl
      exact h 0 (by norm_num)
    rw [bOrderLoop, bEqW_one_encI]
    simp only [ht, decide_false, Bool.false_eq_true, if_false]
    rw [bMulInner_encI, bRemEuclidInner_ok (by omega) (Or.inl (by positivity))]
    simp only [bind, Except.bind]
    refine ih _ _ (Int.emod_nonneg _ (by omega)) (Int.emod_lt_of_pos _ (by omega)) fun k hk => h (k + 1) ?_
    have : (t * t % (n : Int)) ^ 2 ^ k ≡ (t * t) ^ 2 ^ k [ZMOD n] := (Int.mod_modEq _ _).pow _
    have := this.symm.trans hk
    rwa [← pow_two, ← pow_mul, ← pow_succ'] at this

/-- one round of the loop of `jacobi`, for numbers below `2^32` -/
theorem jacobiLoop_step {a r : Int} {b s q : Nat} (hb1 : b ≠ 1) (hb0 : b ≠ 0) (ha : a ≠ 0)
    (hr : bRemEuclidInner (encI a) (encI b) = .ok (encI r)) (hq : q % 2 = 1) (hrq : r = ((2 ^ s * q : Nat) : Int)) (hlt : 2 ^ s * q < 2 ^ 32)
    (f : Nat) (j : Int) : ∃ j', bJacobiLoop (f + 1) (encI a) (encI b) j = bJacobiLoop f (encI b) (encI q) j' := by
  have hnat : ∀ n : Nat, (encI (n : Int)).nat = enc n := fun n => by rw [encI_ofNat]
  have hb1' : ¬ ((b : Int) = 1) := by omega
  obtain ⟨w, hw, hwv⟩ := word0_enc b
  obtain ⟨u, hu, huv⟩ := word0_enc q
  have hr0 : ¬ r = 0 := by
    rw [hrq]
    have : 0 < 2 ^ s * q := Nat.mul_pos (by positivity) (by omega)
    omega
  rw [bJacobiLoop, bEqW_one_encI, encI_nat_eqv]
  simp only [hb1', ha, decide_false, Bool.false_eq_true, if_false]
  rw [hr]
  simp only [bind, Except.bind, encI_nat_eqv, hr0, decide_false, Bool.false_eq_true, if_false]
  have hs : s < 32 := by
    by_contra hc
    have h1 : 2 ^ 32 ≤ 2 ^ s := Nat.pow_le_pow_right (by norm_num) (by omega)
    have h2 : 2 ^ s ≤ 2 ^ s * q := Nat.le_mul_of_pos_right _ (by omega)
    omega
  rw [hrq, hnat, hnat, traillingZeros_eq hq, hw]
  simp only []
  rw [bShrInner_odd_part hq (shiftFits_lt hs), hnat, hu]
  simp only []
  exact ⟨_, rfl⟩

/-- `jacobi` with an even second argument returns something -/
theorem jacobi_even_returns (a : Int) {b : Nat} (hb0 : b ≠ 0) (hb2 : b % 2 = 0) (hlt : b < 2 ^ 32) :
    ∃ v, bJacobi (encI a) (encI b) = .ok (some v) := by
  have hbI : ¬ ((b : Int) = 0) := by omega
  have hneg : ¬ ((b : Int) < 0) := by omega
  have hb1 : b ≠ 1 := by omega
  suffices h : ∃ v, bJacobiLoop (b + 2) (encI a) (encI b) 1 = .ok v by
    obtain ⟨v, hv⟩ := h
    refine ⟨v, ?_⟩
    unfold bJacobi
    simp only [bIsNan_encI, Bool.or_self, bEqW_zero_encI, hbI, decide_false, Bool.false_eq_true, if_false,
      bIsNegative_encI, hneg, bDeepClone_encI]
    rw [show val (encI (b : Int)).nat = b by rw [encI_ofNat, val_enc], hv]
  by_cases ha : a = 0
  · refine ⟨0, ?_⟩
    rw [bJacobiLoop, bEqW_one_encI, encI_nat_eqv]
    simp [ha, show ¬ ((b : Int) = 1) by omega]
  -- what the remainder is
  obtain ⟨r, hr, hrle⟩ : ∃ r : Nat, bRemEuclidInner (encI a) (encI b) = .ok (encI (r : Int)) ∧ r ≤ b := by
    rw [bRemEuclidInner_encI a hbI]
    split
    · exact ⟨b, by simp, le_rfl⟩
    · have h1 := Int.emod_nonneg a hbI
      have h2 := Int.emod_lt_of_pos a (show (0 : Int) < b by omega)
      exact ⟨(a % b).toNat, by rw [Int.toNat_of_nonneg h1], by omega⟩
  by_cases hr0 : r = 0
  · refine ⟨0, ?_⟩
    rw [bJacobiLoop, bEqW_one_encI, encI_nat_eqv]
    simp only [show ¬ ((b : Int) = 1) by omega, ha, decide_false, Bool.false_eq_true, if_false]
    rw [hr, hr0]
    simp [bind, Except.bind, encI_nat_eqv]
  obtain ⟨s, q, hq, hrq⟩ := Nat.exists_eq_two_pow_mul_odd hr0
  have hqo : q % 2 = 1 := Nat.odd_iff.1 hq
  have hqr : q ≤ r := by
    have : 1 ≤ 2 ^ s := Nat.one_le_two_pow
    nlinarith
  obtain ⟨j', hj⟩ := jacobiLoop_step hb1 hb0 ha hr hqo (by rw [hrq]) (by omega) (b + 1) 1
  have hqb : q < b := by
    rcases Nat.lt_or_ge q b with h | h
    · exact h
    · omega
  exact ⟨_, by rw [hj, bJacobiLoop_spec (twosFit_of_lt _ _ hqo (by omega)) hqo _ _ (by omega)]⟩

/-! ## C114 -/

/-- A modulus `n` with `n mod 4 = 3`, prime or not: `mod_sqrt` returns.  If the Jacobi symbol is 1 it returns `x^((n+1)/4) mod n`,
whether or not this is a root. -/
theorem C114_three_mod_four (x y : BInt) (hx : CanonI x) (hy : CanonI y) (n : Nat) (hyn : ival y = n) (hn : n % 4 = 3)
    (hfit : TwosFit (ival x) n) : bModSqrt false x y = .ok (if jacobiSym (ival x) n = -1 then none else
      if jacobiSym (ival x) n = 0 then some (encI 0) else some (encI (ival x ^ ((n + 1) / 4) % n))) := by
  obtain ⟨a, rfl⟩ := canonI_iff_encI.1 hx
  obtain ⟨b, rfl⟩ := canonI_iff_encI.1 hy
  rw [ival_encI] at hyn
  subst hyn
  rw [ival_encI] at *
  obtain ⟨o1, o2⟩ := modSqrt_other (by omega) hfit
  rcases trichotomy a n with hJ | hJ | hJ
  · rw [o2 hJ, hJ]; norm_num
  · obtain ⟨x', h0, h1, h2, h3, h4⟩ := modSqrt_one (by omega) (by omega) hfit hJ
    rw [h4, if_pos hn, hJ, bModSqrt3mod4, encI_ofNat, natAddW_one, shrInner_enc_lt (by norm_num), ← encI_ofNat, ← encI_ofNat,
      bExp_ok _ _ (by omega), if_neg (by norm_num), if_neg (by norm_num)]
    have := h3.pow ((n + 1) / 2 ^ 2)
    rw [Int.ModEq] at this
    simp only []
    rw [this]
    norm_num
  · rw [o1 hJ, hJ, if_pos rfl]

/-- A modulus `n` with `n mod 8 = 5`, prime or not: `mod_sqrt` returns, if the Jacobi symbol is 1 what Atkin's formula gives. -/
theorem C114_five_mod_eight (x y : BInt) (hx : CanonI x) (hy : CanonI y) (n : Nat) (hyn : ival y = n) (hn : n % 8 = 5)
    (hfit : TwosFit (ival x) n) : bModSqrt false x y = .ok (if jacobiSym (ival x) n = -1 then none else
      if jacobiSym (ival x) n = 0 then some (encI 0) else
      let α := (2 * ival x) ^ (n / 8)
      some (encI (ival x * α * (2 * ival x * α ^ 2 - 1) % n))) := by
  obtain ⟨a, rfl⟩ := canonI_iff_encI.1 hx
  obtain ⟨b, rfl⟩ := canonI_iff_encI.1 hy
  rw [ival_encI] at hyn
  subst hyn
  rw [ival_encI] at *
  obtain ⟨o1, o2⟩ := modSqrt_other (by omega) hfit
  rcases trichotomy a n with hJ | hJ | hJ
  · rw [o2 hJ, hJ]; norm_num
  · obtain ⟨x', h0, h1, h2, h3, h4⟩ := modSqrt_one (by omega) (by omega) hfit hJ
    rw [h4, if_neg (by omega), if_pos hn, hJ, sqrt5mod8_any hn h0 h2, if_neg (by norm_num), if_neg (by norm_num)]
    have e1 : (2 * x') ^ (n / 8) ≡ (2 * a) ^ (n / 8) [ZMOD n] := (h3.mul_left 2).pow _
    have e2 := (h3.mul e1).mul (((h3.mul_left 2).mul (e1.pow 2)).sub (Int.ModEq.refl 1))
    rw [Int.ModEq] at e2
    simp only []
    rw [e2]
  · rw [o1 hJ, hJ, if_pos rfl]

/-- An even modulus of one word: `mod_sqrt` returns `None` or 0. -/
theorem C114_even (x y : BInt) (hx : CanonI x) (hy : CanonI y) (n : Nat) (hyn : ival y = n) (hn : n % 2 = 0) (hlt : n < 2 ^ 32) :
    bModSqrt false x y = .ok none ∨ bModSqrt false x y = .ok (some (encI 0)) := by
  obtain ⟨a, rfl⟩ := canonI_iff_encI.1 hx
  obtain ⟨b, rfl⟩ := canonI_iff_encI.1 hy
  rw [ival_encI] at hyn
  subst hyn
  by_cases h0 : n = 0
  · left
    rw [bModSqrt, C46_jacobi_none _ _ (Or.inr (Or.inr (by rw [h0, bZero_eq]; rfl)))]
    rfl
  obtain ⟨v, hv⟩ := jacobi_even_returns a h0 hn hlt
  rw [bModSqrt, hv]
  simp only [bind, Except.bind, Option.some.injEq]
  by_cases h1 : v = -1
  · rw [if_pos h1]; exact Or.inl rfl
  rw [if_neg h1]
  by_cases h2 : v = 0
  · rw [if_pos h2, bZero_eq]; exact Or.inr rfl
  rw [if_neg h2]
  by_cases h3 : v = 1
  · rw [if_pos h3, show (encI (n : Int)).nat = enc n by rw [encI_ofNat]]
    obtain ⟨w, hw, hwv⟩ := word0_enc n
    rw [hw]
    simp only []
    rw [if_pos]
    · exact Or.inl rfl
    · rw [ne_eq, ← BitVec.toNat_inj, BitVec.toNat_and, hwv]
      simp only [BitVec.toNat_ofNat, Nat.reducePow, Nat.reduceMod, Nat.and_one_is_mod]
      omega
  · rw [if_neg h3]; exact Or.inl rfl

/-- The square of an odd number of at most 16 bits as modulus: `mod_sqrt` of every number prime to it searches for a number with symbol
-1 and never finds one, however long it runs. -/
theorem C114_square_never_ends (x y : BInt) (hx : CanonI x) (hy : CanonI y) (m : Nat) (hym : ival y = (m * m : Nat)) (hodd : m % 2 = 1)
    (h1 : 1 < m) (hlt : m < 2 ^ 16) (hc : Int.gcd (ival x) m = 1) :
    bModSqrt false x y = .error .hang ∧ ∀ fuel, bNonSquare y fuel ⟨[2#32], false⟩ = .error .hang := by
  obtain ⟨a, rfl⟩ := canonI_iff_encI.1 hx
  obtain ⟨b, rfl⟩ := canonI_iff_encI.1 hy
  rw [ival_encI] at hym hc
  subst hym
  have hm8 : (m * m) % 8 = 1 := by
    have : m % 8 = 1 ∨ m % 8 = 3 ∨ m % 8 = 5 ∨ m % 8 = 7 := by omega
    rcases this with h | h | h | h <;> simp [Nat.mul_mod, h]
  have hodd2 : (m * m) % 2 = 1 := by omega
  have hlt2 : m * m < 2 ^ 32 := by nlinarith
  have m0 : NeZero m := ⟨by omega⟩
  have hns : ∀ k : Nat, J((k : Int) | m * m) ≠ -1 := by
    intro k hk
    rw [mul_right] at hk
    nlinarith [mul_self_nonneg (J((k : Int) | m))]
  have hJ : J(a | m * m) = 1 := by
    rw [mul_right]
    rcases trichotomy a m with h | h | h
    · exact absurd hc ((eq_zero_iff (a := a) (b := m)).1 h).2
    · rw [h]; rfl
    · rw [h]; rfl
  have key := nonSquare_hangs hodd2 hlt2 hns
  have e2 : (⟨[2#32], false⟩ : BInt) = encI ((2 : Nat) : Int) := by
    rw [encI_ofNat, show [2#32] = enc 2 from enc_eq_iff.2 ⟨⟨by decide, by decide⟩, rfl⟩]
  obtain ⟨x', h0, -, -, -, h4⟩ := modSqrt_one (by nlinarith) hodd2 (twosFit_of_lt _ _ hodd2 hlt2) hJ
  rw [h4, if_neg (by omega), if_neg (by omega), bTonelli, e2]
  simp only [bind, Except.bind]
  rw [key]
  exact ⟨rfl, fun fuel => key fuel 2⟩

/-- A modulus `n` of one word with `n mod 8 = 1`, where `n - 1 = 2^e s` and no power `x^(s 2^k)` is 1 (which cannot happen for a prime, by
Fermat): `mod_sqrt` never ends, since it squares `x^s` until it becomes 1. -/
theorem C114_order_never_ends (x y : BInt) (hx : CanonI x) (hy : CanonI y) (n e s : Nat) (hyn : ival y = n) (hn : n % 8 = 1) (h1 : 1 < n)
    (hlt : n < 2 ^ 32) (hs : n - 1 = 2 ^ e * s) (hso : s % 2 = 1) (hJ : jacobiSym (ival x) n = 1)
    (h : ∀ k : Nat, ¬ ival x ^ (s * 2 ^ k) ≡ 1 [ZMOD n]) :
    bModSqrt false x y = .error .hang ∧ ∀ fuel, bOrderLoop y fuel (encI (ival x ^ s % n)) 0 = .error .hang := by
  obtain ⟨a, rfl⟩ := canonI_iff_encI.1 hx
  obtain ⟨b, rfl⟩ := canonI_iff_encI.1 hy
  rw [ival_encI] at hyn
  subst hyn
  rw [ival_encI] at *
  have hodd : n % 2 = 1 := by omega
  have n0 : (n : Int) ≠ 0 := by omega
  have key : ∀ z : Int, z ≡ a [ZMOD n] → ∀ fuel, bOrderLoop (encI n) fuel (encI (z ^ s % n)) 0 = .error .hang := by
    intro z hz fuel
    refine order_hangs (by omega) _ _ _ (Int.emod_nonneg _ n0) (Int.emod_lt_of_pos _ (by omega)) fun k hk => h k ?_
    rw [pow_mul]
    exact ((((Int.mod_modEq _ _).trans (hz.pow s)).pow _).symm).trans hk
  refine ⟨?_, key a (Int.ModEq.refl _)⟩
  obtain ⟨x', h0, -, -, h3, h4⟩ := modSqrt_one (by omega) hodd (twosFit_of_lt _ _ hodd hlt) hJ
  have hnat : (encI (n : Int)).nat = enc n := by rw [encI_ofNat]
  have he : e < 32 := by
    by_contra hc
    have h1 : 2 ^ 32 ≤ 2 ^ e := Nat.pow_le_pow_right (by norm_num) (by omega)
    have h2 : 2 ^ e ≤ 2 ^ e * s := Nat.le_mul_of_pos_right _ (by omega)
    omega
  rw [h4, if_neg (by omega), if_neg (by omega), bTonelli, hnat, natSubW_odd hodd, hs, traillingZeros_eq hso]
  have e1 : (⟨shrInner (enc (2 ^ e * s)) e, false⟩ : BInt) = encI ((s : Nat) : Int) := by
    rw [shrInner_enc_lt he, Nat.mul_div_cancel_left _ (by positivity), ← encI_ofNat]
  have e2 : (⟨[2#32], false⟩ : BInt) = encI ((2 : Nat) : Int) := by
    rw [encI_ofNat, show [2#32] = enc 2 from enc_eq_iff.2 ⟨⟨by decide, by decide⟩, rfl⟩]
  rw [e1, e2]
  simp only [bind, Except.bind]
  rcases nonSquare_ends hodd hlt (val (enc n) + 1) 2 with hN | ⟨N, hN⟩
  · rw [hN]
  · rw [hN]
    simp only []
    rw [encI_ofNat s, natAddW_one, shrInner_enc_lt (by norm_num), ← encI_ofNat, ← encI_ofNat, bExp_ok _ _ n0]
    simp only []
    rw [bExp_ok _ _ n0]
    simp only []
    rw [bExp_ok _ _ n0]
    simp only []
    rw [bTonelliLoop, key x' h3]
    rfl

/-- The documentation promises a panic for all these.  15 = 3 * 5, 21 = 3 * 7 and 2 return, and what is returned is no root; 25 and 33 do
not return. -/
theorem C114_violated :
    (bModSqrt false ⟨[4#32], false⟩ ⟨[15#32], false⟩ = .ok (some ⟨[1#32], false⟩) ∧ ¬ (1 : Int) ^ 2 ≡ 4 [ZMOD 15]) ∧
    (bModSqrt false ⟨[5#32], false⟩ ⟨[21#32], false⟩ = .ok (some ⟨[12#32], false⟩) ∧ ¬ (12 : Int) ^ 2 ≡ 5 [ZMOD 21]) ∧
    bModSqrt false ⟨[1#32], false⟩ ⟨[2#32], false⟩ = .ok none ∧
    bModSqrt false ⟨[4#32], false⟩ ⟨[25#32], false⟩ = .error .hang ∧
    bModSqrt false ⟨[2#32], false⟩ ⟨[33#32], false⟩ = .error .hang := by
  refine ⟨⟨by decide +kernel, by decide⟩, ⟨by decide +kernel, by decide⟩, by decide +kernel, by decide +kernel, by decide +kernel⟩

/-- the hypotheses of the first two are met by composite numbers, and the symbol of 2 modulo 15 is 1 -/
example : 15 % 4 = 3 ∧ TwosFit 2 15 ∧ jacobiSym 2 15 = 1 ∧ 21 % 8 = 5 ∧ TwosFit 5 21 :=
  ⟨rfl, twosFit_of_lt _ _ rfl (by norm_num), by norm_num, rfl, twosFit_of_lt _ _ rfl (by norm_num)⟩

/-- 4 modulo 25 -/
example : 5 % 2 = 1 ∧ 1 < 5 ∧ 5 < 2 ^ 16 ∧ Int.gcd 4 5 = 1 := by decide

/-- 2 modulo 33 = 2^5 + 1: the squares of 2 are 4, 16, 25, 31, 4, ... -/
example : 33 % 8 = 1 ∧ 33 - 1 = 2 ^ 5 * 1 ∧ jacobiSym 2 33 = 1 ∧ ∀ k : Nat, ¬ (2 : Int) ^ (1 * 2 ^ k) ≡ 1 [ZMOD 33] := by
  refine ⟨rfl, rfl, by norm_num, ?_⟩
  have key : ∀ k : Nat, (2 : Int) ^ 2 ^ k % 33 ∈ [(2 : Int), 4, 16, 25, 31] := by
    intro k
    induction k with
    | zero => decide
    | succ k ih =>
      rw [pow_succ, pow_mul, pow_two, Int.mul_emod]
      generalize (2 : Int) ^ 2 ^ k % 33 = v at ih
      fin_cases ih <;> decide
  intro k hk
  have := key k
  rw [one_mul, Int.ModEq] at hk
  rw [hk] at this
  revert this
  decide

end RMath
