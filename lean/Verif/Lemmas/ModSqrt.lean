import Mathlib.NumberTheory.LegendreSymbol.QuadraticReciprocity
import Verif.Lemmas.Jacobi

/-!
# Square roots modulo an odd prime
-/

namespace RMath

open NumberTheorySymbols jacobiSym

theorem natAddW_one (n : Nat) : natAddW (enc n) 1#32 = enc (n + 1) := by
  simp [natAddW, opPrim, addInnerBasic_enc]

theorem natSubW_odd {p : Nat} (hp : p % 2 = 1) : natSubW (enc p) 1#32 = enc (p - 1) := by
  obtain ⟨m, rfl⟩ : ∃ m, p = m + 1 := ⟨p - 1, by omega⟩
  obtain ⟨h1, h2, h3⟩ := decW_spec m
  rw [natSubW_one]
  refine enc_eq_iff.2 ⟨?_, by rw [h1]; omega⟩
  apply canon_of_le_val h3.1
  intro hlen
  rw [h2] at hlen ⊢
  have hle := (canon_enc (m + 1)).le_val hlen
  rw [val_enc] at hle
  rw [h1]
  have heven : 2 ^ (32 * ((enc (m + 1)).length - 1)) % 2 = 0 := by
    rw [show 32 * ((enc (m + 1)).length - 1) = (32 * ((enc (m + 1)).length - 1) - 1) + 1 by omega, pow_succ]
    omega
  omega

theorem bSetBits_zero (k : Nat) : bSetBits ⟨[0#32], false⟩ k true = encI ((2 ^ k : Nat) : Int) := by
  have h : setBits [0#32] k true = enc (2 ^ k) := by
    refine enc_eq_iff.2 ⟨setBits_true_canon ⟨by decide, by decide⟩ k, ?_⟩
    apply Nat.eq_of_testBit_eq
    intro i
    rw [setBits_testBit, Nat.testBit_two_pow]
    by_cases hi : i = k
    · simp [hi]
    · rw [if_neg hi]
      simp [val]
      omega
  rw [encI_ofNat, ← h]
  rfl

/-- powers modulo `p`, without overflow checks -/
theorem bExp_ok (a : Int) (b : Nat) {p : Int} (hp : p ≠ 0) :
    bExp false (encI a) (encI b) (encI p) = .ok (encI (a ^ b % p)) := by
  rw [bExp_nonneg false a b p (by simp), if_neg hp]

section
variable {p : Nat} [hp : Fact p.Prime]

theorem emod_cast (z : Int) : ((z % (p : Int) : Int) : ZMod p) = (z : ZMod p) := by
  rw [ZMod.intCast_mod]

theorem cast_eq_one {z : Int} (h0 : 0 ≤ z) (h1 : z < p) : (z : ZMod p) = 1 ↔ z = 1 := by
  have h2 := hp.out.two_le
  constructor
  · intro h
    have : ((z : Int) : ZMod p) = ((1 : Int) : ZMod p) := by rw [h]; simp
    rw [ZMod.intCast_eq_intCast_iff'] at this
    rw [Int.emod_eq_of_lt h0 h1, Int.emod_eq_of_lt (by omega) (by omega)] at this
    exact this
  · rintro rfl
    simp

theorem euler_one {x : Int} (h : J(x | p) = 1) : (x : ZMod p) ^ (p / 2) = 1 := by
  rw [← legendreSym.to_jacobiSym] at h
  have := legendreSym.eq_pow p x
  rw [h] at this
  simpa using this.symm

theorem euler_neg_one {x : Int} (h : J(x | p) = -1) : (x : ZMod p) ^ (p / 2) = -1 := by
  rw [← legendreSym.to_jacobiSym] at h
  have := legendreSym.eq_pow p x
  rw [h] at this
  simpa using this.symm

theorem sq_modEq {y x : Int} (h : (y : ZMod p) ^ 2 = x) : y ^ 2 ≡ x [ZMOD p] := by
  rw [← ZMod.intCast_eq_intCast_iff]
  push_cast
  exact h

theorem p_ne : ((p : Nat) : Int) ≠ 0 := by
  have := hp.out.pos
  omega

theorem sqrt3mod4_spec {x : Int} (hp4 : p % 4 = 3) (hJ : J(x | p) = 1) :
    ∃ y : Int, 0 ≤ y ∧ y < p ∧ y ^ 2 ≡ x [ZMOD p] ∧ bModSqrt3mod4 false (encI x) (encI p) = .ok (encI y) := by
  have hpos := hp.out.pos
  refine ⟨x ^ ((p + 1) / 4) % (p : Int), Int.emod_nonneg _ p_ne, Int.emod_lt_of_pos _ (by omega), ?_, ?_⟩
  · apply sq_modEq
    rw [emod_cast]
    push_cast
    rw [← pow_mul, show (p + 1) / 4 * 2 = p / 2 + 1 by omega, pow_succ, euler_one hJ, one_mul]
  · rw [bModSqrt3mod4, encI_ofNat, natAddW_one, shrInner_enc_lt (by norm_num), ← encI_ofNat, ← encI_ofNat]
    exact bExp_ok _ _ p_ne

theorem sqrt5mod8_spec {x : Int} (hp8 : p % 8 = 5) (hJ : J(x | p) = 1) (hx : 0 ≤ x) :
    ∃ y : Int, 0 ≤ y ∧ y < p ∧ y ^ 2 ≡ x [ZMOD p] ∧ bModSqrt5mod8 false (encI x) (encI p) = .ok (encI y) := by
  have hpos := hp.out.pos
  have hP : (p : Int) ≠ 0 := p_ne
  have hP0 : (0 : Int) < p := by omega
  set e := p / 8 with he
  set al : Int := (x * 2) ^ e % (p : Int) with hal
  set b1 : Int := al * al % (p : Int) with hb1
  set b2 : Int := b1 * (x * 2) % (p : Int) with hb2
  set b3 : Int := (b2 - 1) * x % (p : Int) with hb3
  have hal0 : 0 ≤ al := Int.emod_nonneg _ hP
  have hb10 : 0 ≤ b1 := Int.emod_nonneg _ hP
  have hb20 : 0 ≤ b2 := Int.emod_nonneg _ hP
  have hb30 : 0 ≤ b3 := Int.emod_nonneg _ hP
  have cal : (al : ZMod p) = (x * 2 : ZMod p) ^ e := by rw [hal, emod_cast]; push_cast; rfl
  have cb2 : (b2 : ZMod p) = (x * 2 : ZMod p) ^ (p / 4) := by
    rw [hb2, emod_cast, Int.cast_mul, hb1, emod_cast, Int.cast_mul, cal]
    push_cast
    rw [← pow_add, ← pow_succ]
    congr 1
    omega
  have hJ2 : J(x * 2 | p) = -1 := by
    rw [mul_left, hJ]
    have := even_odd (a := 2) (b := p) (by norm_num) (by omega)
    rw [if_pos (Or.inr hp8)] at this
    rw [← this]
    norm_num
  have cb2sq : (b2 : ZMod p) ^ 2 = -1 := by
    have := euler_neg_one hJ2
    rw [cb2, ← pow_mul, show p / 4 * 2 = p / 2 by omega]
    simpa using this
  have hb2pos : 1 ≤ b2 := by
    rcases lt_or_ge 0 b2 with h | h
    · omega
    · have : b2 = 0 := by omega
      rw [this] at cb2sq
      simp at cb2sq
  refine ⟨b3 * al % (p : Int), Int.emod_nonneg _ hP, Int.emod_lt_of_pos _ hP0, ?_, ?_⟩
  · apply sq_modEq
    rw [emod_cast, Int.cast_mul, hb3, emod_cast]
    push_cast
    have h1 : (b2 : ZMod p) = 2 * x * al ^ 2 := by
      rw [hb2, emod_cast, Int.cast_mul, hb1, emod_cast]
      push_cast
      ring
    linear_combination ((x : ZMod p) ^ 2 * (al : ZMod p) ^ 2 - x) * cb2sq + (b2 : ZMod p) * x * h1
  · have e1 : bShr (encI (p : Int)) 3 = encI ((e : Nat) : Int) := by
      rw [bShr, bDeepClone_encI, bShrInner_nat (by norm_num), he]
      norm_num
    have e2 : bShl (encI x) 1 = encI (x * 2) := by
      rw [bShl_encI (Or.inr (by norm_num)), pow_one]
    have e3 : (⟨sqrV (encI al).nat, false⟩ : BInt) = encI (al * al) := by
      obtain ⟨k, hk⟩ := Int.eq_ofNat_of_zero_le hal0
      rw [hk, encI_ofNat, sqrV_enc, ← encI_ofNat]
      push_cast
      rfl
    rw [bModSqrt5mod8, e1, e2]
    simp only [bind, Except.bind]
    rw [bExp_ok _ _ hP]
    simp only []
    rw [← hal, e3, bRemEuclidInner_ok hP (Or.inl (by positivity))]
    simp only []
    rw [← hb1, bMulInner_encI, bRemEuclidInner_ok hP (Or.inl (by positivity))]
    simp only []
    rw [← hb2, bOne_eq, bSubInner_encI, bMulInner_encI,
      bRemEuclidInner_ok hP (Or.inl (mul_nonneg (by omega) hx))]
    simp only []
    rw [← hb3, bMulInner_encI, bRemEuclidInner_ok hP (Or.inl (by positivity))]

/-! ## Tonelli-Shanks -/

theorem bNonSquare_spec {N : Nat} (hp2 : p % 2 = 1) (hN : J(N | p) = -1)
    (hfit : ∀ n : Nat, 2 ≤ n → n ≤ N → TwosFit n p) (hlt : ∀ n : Nat, 2 ≤ n → n < N → J(n | p) ≠ -1) :
    ∀ (fuel n : Nat), 2 ≤ n → n ≤ N → N - n < fuel → bNonSquare (encI p) fuel (encI (n : Int)) = .ok (encI (N : Int)) := by
  intro fuel
  induction fuel with
  | zero => intro n _ _ h; omega
  | succ f ih =>
    intro n h2 hn hf
    rw [bNonSquare, bJacobi_spec (hfit n h2 hn) hp2]
    simp only [bind, Except.bind, Option.some.injEq]
    by_cases he : n = N
    · subst he
      rw [if_pos hN]
    · rw [if_neg (hlt n h2 (by omega))]
      have e1 : (⟨addInnerBasic (encI (n : Int)).nat 1#32, (encI (n : Int)).neg⟩ : BInt) = encI ((n + 1 : Nat) : Int) := by
        rw [encI_ofNat, addInnerBasic_enc, encI_ofNat]
        simp
      rw [e1]
      exact ih (n + 1) (by omega) (by omega) (by omega)

theorem bOrderLoop_spec : ∀ (k fuel : Nat) (t : Int) (m : Nat), 0 ≤ t → t < p → (t : ZMod p) ^ 2 ^ k = 1 → k < fuel →
    ∃ k0, k0 ≤ k ∧ (t : ZMod p) ^ 2 ^ k0 = 1 ∧ (0 < k0 → (t : ZMod p) ^ 2 ^ (k0 - 1) ≠ 1) ∧
      bOrderLoop (encI p) fuel (encI t) m = .ok (m + k0) := by
  intro k
  induction k with
  | zero =>
    intro fuel t m h0 h1 ht hf
    obtain ⟨f, rfl⟩ : ∃ f, fuel = f + 1 := ⟨fuel - 1, by omega⟩
    have : t = 1 := (cast_eq_one h0 h1).1 (by simpa using ht)
    subst this
    refine ⟨0, le_rfl, by simp, by simp, ?_⟩
    rw [bOrderLoop]
    simp
  | succ k ih =>
    intro fuel t m h0 h1 ht hf
    obtain ⟨f, rfl⟩ : ∃ f, fuel = f + 1 := ⟨fuel - 1, by omega⟩
    by_cases h : t = 1
    · subst h
      refine ⟨0, by omega, by simp, by simp, ?_⟩
      rw [bOrderLoop]
      simp
    · have hsq : ((t * t % (p : Int) : Int) : ZMod p) = (t : ZMod p) ^ 2 := by
        rw [emod_cast]; push_cast; ring
      obtain ⟨k0, g1, g2, g3, g4⟩ := ih f (t * t % (p : Int)) (m + 1) (Int.emod_nonneg _ p_ne)
        (Int.emod_lt_of_pos _ (by have := hp.out.pos; omega))
        (by rw [hsq, ← pow_mul, ← pow_succ']; exact ht) (by omega)
      rw [hsq, ← pow_mul, ← pow_succ'] at g2
      refine ⟨k0 + 1, by omega, g2, ?_, ?_⟩
      · intro _
        rw [show k0 + 1 - 1 = k0 by omega]
        rcases Nat.eq_zero_or_pos k0 with hk | hk
        · subst hk
          intro hc
          exact h ((cast_eq_one h0 h1).1 (by simpa using hc))
        · have := g3 hk
          rw [hsq, ← pow_mul, ← pow_succ', show k0 - 1 + 1 = k0 by omega] at this
          exact this
      · rw [bOrderLoop, bEqW_one_encI]
        simp only [h, decide_false, Bool.false_eq_true, if_false, bind, Except.bind]
        rw [bMulInner_encI, bRemEuclidInner_ok p_ne (Or.inl (by positivity))]
        simp only []
        rw [g4]
        congr 1
        omega

theorem bTonelliLoop_spec (x : Int) (fuelM : Nat) : ∀ (r fuel : Nat) (y b g : Int), 0 < r → r ≤ fuel → r ≤ fuelM →
    0 ≤ y → y < p → 0 ≤ b → b < p → 0 ≤ g → g < p →
    (y : ZMod p) ^ 2 = x * b → (b : ZMod p) ^ 2 ^ (r - 1) = 1 → (g : ZMod p) ^ 2 ^ (r - 1) = -1 →
    ∃ z : Int, 0 ≤ z ∧ z < p ∧ (z : ZMod p) ^ 2 = x ∧
      bTonelliLoop false (encI p) fuelM fuel (encI y) (encI b) (encI g) r = .ok (encI z) := by
  intro r
  induction r using Nat.strong_induction_on with
  | _ r ih =>
    intro fuel y b g hr hf hM hy0 hy1 hb0 hb1 hg0 hg1 hyb hbr hgr
    have hpos := hp.out.pos
    obtain ⟨f, rfl⟩ : ∃ f, fuel = f + 1 := ⟨fuel - 1, by omega⟩
    obtain ⟨m, hm, hm1, hm2, hm3⟩ := bOrderLoop_spec (r - 1) fuelM b 0 hb0 hb1 hbr (by omega)
    rw [bTonelliLoop, hm3]
    simp only [bind, Except.bind, Nat.zero_add]
    by_cases h0 : m = 0
    · subst h0
      rw [if_pos rfl]
      refine ⟨y, hy0, hy1, ?_, rfl⟩
      rw [hyb]
      simp only [pow_zero, pow_one] at hm1
      rw [hm1, mul_one]
    · rw [if_neg h0, if_neg (by omega)]
      rw [bSetBits_zero, bExp_ok _ _ p_ne]
      simp only []
      set t : Int := g ^ 2 ^ (r - m - 1) % (p : Int) with ht
      have ht0 : 0 ≤ t := Int.emod_nonneg _ p_ne
      have e3 : (⟨sqrV (encI t).nat, false⟩ : BInt) = encI (t * t) := by
        obtain ⟨k, hk⟩ := Int.eq_ofNat_of_zero_le ht0
        rw [hk, encI_ofNat, sqrV_enc, ← encI_ofNat]
        push_cast
        rfl
      rw [e3, bRemEuclidInner_ok p_ne (Or.inl (by positivity))]
      simp only []
      set g' : Int := t * t % (p : Int) with hg'
      have hg'0 : 0 ≤ g' := Int.emod_nonneg _ p_ne
      rw [bMulInner_encI, bRemEuclidInner_ok p_ne (Or.inl (by positivity))]
      simp only []
      rw [bMulInner_encI, bRemEuclidInner_ok p_ne (Or.inl (by positivity))]
      simp only []
      have ct : (t : ZMod p) = (g : ZMod p) ^ 2 ^ (r - m - 1) := by rw [ht, emod_cast]; push_cast; rfl
      have cg' : (g' : ZMod p) = (t : ZMod p) ^ 2 := by rw [hg', emod_cast]; push_cast; ring
      have hgm : (g' : ZMod p) ^ 2 ^ (m - 1) = -1 := by
        rw [cg', ct, ← pow_mul, ← pow_mul, ← pow_succ', ← pow_add]
        rw [show r - m - 1 + (m - 1 + 1) = r - 1 by omega]
        exact hgr
      have hbm : (b : ZMod p) ^ 2 ^ (m - 1) = -1 := by
        have h1 := hm2 (by omega)
        have h2 : ((b : ZMod p) ^ 2 ^ (m - 1)) ^ 2 = 1 := by
          rw [← pow_mul, ← pow_succ, show m - 1 + 1 = m by omega]; exact hm1
        rcases sq_eq_one_iff.1 h2 with h | h
        · exact absurd h h1
        · exact h
      apply ih m (by omega) f _ _ _ (by omega) (by omega) (by omega) (Int.emod_nonneg _ p_ne)
        (Int.emod_lt_of_pos _ (by omega)) (Int.emod_nonneg _ p_ne) (Int.emod_lt_of_pos _ (by omega)) hg'0
        (Int.emod_lt_of_pos _ (by omega))
      · rw [emod_cast, emod_cast]
        push_cast
        rw [mul_pow, hyb, cg']
        ring
      · rw [emod_cast]
        push_cast
        rw [mul_pow, hbm, hgm]
        ring
      · exact hgm

theorem exists_nonresidue (hp2 : p % 2 = 1) : ∃ n : Nat, n < p ∧ J((n : Int) | p) = -1 := by
  obtain ⟨a, ha⟩ := FiniteField.exists_nonsquare (F := ZMod p) (by rw [ZMod.ringChar_zmod_n]; omega)
  refine ⟨a.val, ZMod.val_lt a, ?_⟩
  rw [ZMod.nonsquare_iff_jacobiSym_eq_neg_one]
  simpa using ha

theorem bTonelli_spec {x : Int} (hp2 : p % 2 = 1) (hJ : J(x | p) = 1) (h32 : OddPartFits (p - 1))
    (hfit : ∃ n : Nat, n < 2 ^ 32 ∧ ¬ IsSquare (n : ZMod p)) :
    ∃ y : Int, 0 ≤ y ∧ y < p ∧ y ^ 2 ≡ x [ZMOD p] ∧ bTonelli false (encI x) (encI p) = .ok (encI y) := by
  classical
  have h2 := hp.out.two_le
  have hnat : (encI (p : Int)).nat = enc p := by rw [encI_ofNat]
  obtain ⟨e, s, hs, hps⟩ := Nat.exists_eq_two_pow_mul_odd (n := p - 1) (by omega)
  have hso : s % 2 = 1 := Nat.odd_iff.1 hs
  have he32 : ShiftFits (2 ^ e * s) e := hps ▸ h32 e s hps hso
  have he0 : 0 < e := by
    rcases Nat.eq_zero_or_pos e with h | h
    · subst h; simp at hps; omega
    · exact h
  have hhalf : p / 2 = s * 2 ^ (e - 1) := by
    obtain ⟨e', rfl⟩ : ∃ e', e = e' + 1 := ⟨e - 1, by omega⟩
    rw [pow_succ, mul_comm (2 ^ e') 2, mul_assoc] at hps
    rw [Nat.add_sub_cancel, mul_comm s]
    omega
  have hex : ∃ n : Nat, J((n : Int) | p) = -1 := by
    obtain ⟨n, -, h⟩ := exists_nonresidue (p := p) hp2
    exact ⟨n, h⟩
  have hN := Nat.find_spec hex
  have hmin : ∀ n : Nat, n < Nat.find hex → J((n : Int) | p) ≠ -1 := fun n h => Nat.find_min hex h
  have hNp : Nat.find hex < p := by
    obtain ⟨n, h1, h⟩ := exists_nonresidue (p := p) hp2
    exact lt_of_le_of_lt (Nat.find_min' hex h) h1
  have hN32 : Nat.find hex < 2 ^ 32 := by
    obtain ⟨n, h1, h⟩ := hfit
    refine lt_of_le_of_lt (Nat.find_min' hex ?_) h1
    rw [ZMod.nonsquare_iff_jacobiSym_eq_neg_one]
    simpa using h
  generalize Nat.find hex = N at *
  have hN2 : 2 ≤ N := by
    by_contra hc
    have : N = 0 ∨ N = 1 := by omega
    rcases this with rfl | rfl
    · rw [Nat.cast_zero, zero_left (by omega)] at hN; norm_num at hN
    · rw [Nat.cast_one, one_left] at hN; norm_num at hN
  have hns := bNonSquare_spec hp2 hN (fun n h1 h2 => twosFit_of_small (by omega) (by omega) p hp2)
    (fun n _ h => hmin n h) (p + 1) 2 le_rfl hN2 (by omega)
  have htwo : (⟨[2#32], false⟩ : BInt) = encI ((2 : Nat) : Int) := by
    rw [encI_ofNat, enc_lt (by norm_num)]
  have hpow : ∀ (z : Int) (k : Nat), 0 ≤ z ^ k % (p : Int) ∧ z ^ k % (p : Int) < p := fun z k =>
    ⟨Int.emod_nonneg _ p_ne, Int.emod_lt_of_pos _ (by omega)⟩
  have hep : e ≤ p + 1 := by
    have h1 : e < 2 ^ e := Nat.lt_two_pow_self
    have h2 : 2 ^ e ≤ 2 ^ e * s := Nat.le_mul_of_pos_right _ (by omega)
    omega
  obtain ⟨z, hz0, hz1, hz2, hz3⟩ := bTonelliLoop_spec (p := p) x (p + 1) e (e + 1) (x ^ ((s + 1) / 2) % (p : Int))
    (x ^ s % (p : Int)) ((N : Int) ^ s % (p : Int)) he0 (by omega) (by omega) (hpow _ _).1 (hpow _ _).2 (hpow _ _).1
    (hpow _ _).2 (hpow _ _).1 (hpow _ _).2
    (by
      rw [emod_cast, emod_cast]
      push_cast
      rw [← pow_mul, show (s + 1) / 2 * 2 = s + 1 by omega]
      ring)
    (by
      rw [emod_cast]
      push_cast
      rw [← pow_mul, ← hhalf]
      exact euler_one hJ)
    (by
      rw [emod_cast]
      push_cast
      rw [← pow_mul, ← hhalf]
      have := euler_neg_one hN
      simpa using this)
  refine ⟨z, hz0, hz1, sq_modEq hz2, ?_⟩
  rw [bTonelli, hnat, natSubW_odd hp2, hps, traillingZeros_eq hso, shrInner_odd_part hso he32,
    val_enc, htwo]
  simp only [bind, Except.bind]
  rw [hns]
  simp only []
  rw [natAddW_one, shrInner_enc_lt (by norm_num), ← encI_ofNat, ← encI_ofNat, pow_one, bExp_ok _ _ p_ne]
  simp only []
  rw [bExp_ok _ _ p_ne]
  simp only []
  rw [bExp_ok _ _ p_ne]
  exact hz3

theorem word0_mod (w : W) {n k : Nat} (h : w.toNat = n % 2 ^ 32) (hk : k ∣ 2 ^ 32) (hk0 : k < 2 ^ 32) :
    (w % BitVec.ofNat 32 k).toNat = n % k := by
  rw [BitVec.toNat_umod, h, BitVec.toNat_ofNat, Nat.mod_eq_of_lt hk0, Nat.mod_mod_of_dvd _ hk]

/-- the square root, or none -/
theorem bModSqrt_spec {x : Int} (hp2 : p % 2 = 1) (hx : TwosFit x p)
    (hT : p % 8 = 1 → OddPartFits (p - 1) ∧ ∃ n : Nat, n < 2 ^ 32 ∧ ¬ IsSquare (n : ZMod p)) :
    (∃ y : Int, 0 ≤ y ∧ y < p ∧ y ^ 2 ≡ x [ZMOD p] ∧ bModSqrt false (encI x) (encI p) = .ok (some (encI y))) ∨
    ((∀ y : Int, ¬ y ^ 2 ≡ x [ZMOD p]) ∧ bModSqrt false (encI x) (encI p) = .ok none) := by
  have hpos := hp.out.two_le
  have hnat : (encI (p : Int)).nat = enc p := by rw [encI_ofNat]
  rw [bModSqrt, bJacobi_spec hx hp2]
  simp only [bind, Except.bind, Option.some.injEq]
  rcases trichotomy x p with hJ | hJ | hJ
  · left
    refine ⟨0, le_rfl, by omega, ?_, ?_⟩
    · rw [eq_zero_iff] at hJ
      have : (p : Int) ∣ x := by
        by_contra hc
        apply hJ.2
        have h1 : Int.gcd (p : Int) x = 1 := by
          rw [Int.gcd_eq_natAbs, Int.natAbs_natCast]
          refine (Nat.Prime.coprime_iff_not_dvd hp.out).2 fun h => hc ?_
          exact Int.natCast_dvd.2 h
        rwa [Int.gcd_comm] at h1
      exact (Int.modEq_zero_iff_dvd.2 (by simpa using this)).symm
    · rw [hJ, if_neg (by norm_num), if_pos rfl, bZero_eq]
  · left
    rw [hJ, if_neg (by norm_num), if_neg (by norm_num), if_pos rfl, hnat]
    obtain ⟨w, hw, hwv⟩ := word0_enc p
    rw [hw]
    simp only []
    have hodd : ¬ (w &&& 1#32 ≠ 1#32) := by
      rw [not_not, ← BitVec.toNat_inj, BitVec.toNat_and, hwv]
      simp only [BitVec.toNat_ofNat, Nat.reducePow, Nat.reduceMod, Nat.and_one_is_mod]
      omega
    rw [if_neg hodd]
    have hnd : ¬ ((p : Int) ∣ x) := by
      intro hd
      rw [mod_left, Int.emod_eq_zero_of_dvd hd, zero_left (by omega)] at hJ
      norm_num at hJ
    obtain ⟨x', hx', hx0, hxp, hxJ, hxx⟩ : ∃ x' : Int,
        (if (bIsNegative (encI x) || bGe (encI x) (encI (p : Int))) = true then bRemEuclid (encI x) (encI (p : Int))
          else .ok (encI x) : Res BInt) = .ok (encI x') ∧ 0 ≤ x' ∧ x' < p ∧ J(x' | p) = 1 ∧ x' ≡ x [ZMOD p] := by
      rw [bIsNegative_encI, bGe_encI]
      by_cases hc : x < 0 ∨ (p : Int) ≤ x
      · refine ⟨x % (p : Int), ?_, Int.emod_nonneg _ p_ne, Int.emod_lt_of_pos _ (by omega), by rw [← mod_left]; exact hJ,
          Int.mod_modEq _ _⟩
        rw [if_pos (by simpa using hc), bRemEuclid_ok p_ne (Or.inr hnd)]
      · refine ⟨x, ?_, by omega, by omega, hJ, Int.ModEq.refl _⟩
        rw [if_neg (by simpa using hc)]
    rw [hx']
    simp only []
    have m4 : (w % 4#32 = 3#32) ↔ p % 4 = 3 := by
      rw [← BitVec.toNat_inj, word0_mod w hwv (by norm_num) (by norm_num)]
      simp
    have m8 : (w % 8#32 = 5#32) ↔ p % 8 = 5 := by
      rw [← BitVec.toNat_inj, word0_mod w hwv (by norm_num) (by norm_num)]
      simp
    by_cases c4 : p % 4 = 3
    · obtain ⟨y, h1, h2, h3, h4⟩ := sqrt3mod4_spec c4 hxJ
      refine ⟨y, h1, h2, h3.trans hxx, ?_⟩
      rw [if_pos (m4.2 c4), h4]
    · by_cases c8 : p % 8 = 5
      · obtain ⟨y, h1, h2, h3, h4⟩ := sqrt5mod8_spec c8 hxJ hx0
        refine ⟨y, h1, h2, h3.trans hxx, ?_⟩
        rw [if_neg (fun h => c4 (m4.1 h)), if_pos (m8.2 c8), h4]
      · obtain ⟨h32, hfit⟩ := hT (by omega)
        obtain ⟨y, h1, h2, h3, h4⟩ := bTonelli_spec hp2 hxJ h32 hfit
        refine ⟨y, h1, h2, h3.trans hxx, ?_⟩
        rw [if_neg (fun h => c4 (m4.1 h)), if_neg (fun h => c8 (m8.1 h)), h4]
  · right
    refine ⟨?_, by rw [hJ, if_pos rfl]⟩
    intro y hy
    rw [ZMod.nonsquare_iff_jacobiSym_eq_neg_one] at hJ
    apply hJ
    rw [← ZMod.intCast_eq_intCast_iff] at hy
    refine ⟨(y : ZMod p), ?_⟩
    rw [← hy]
    push_cast
    ring

end

end RMath
