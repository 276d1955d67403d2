import Verif.Props.Residue
import Verif.Model.Machine
import Mathlib.FieldTheory.Finite.Basic
import Mathlib.Data.Nat.Totient
import Mathlib.NumberTheory.LegendreSymbol.Basic

/-!
# Property C131: `exp`, `mod_inverse` and `jacobi` make the textbook schemes work

RSA, the key exchange of Diffie and Hellman, ElGamal encryption, Fermat's inverse and Euler's criterion, each as a program that calls the
methods of `BigInt`.
-/

namespace RMath

/-! ## Programs -/

/-- `let n = p * q; let d = e.mod_inverse((p - 1) * (q - 1));` -/
def rsaKeys (p q e : BInt) : Res (BInt × BInt) := do
  let one := bFromU32 1#32
  let d ← bModInverse e (bMul (bSub p one) (bSub q one))
  .ok (bMul p q, d)

/-- ElGamal: `(g.exp(k, p), m * g.exp(x, p).exp(k, p) % p)` -/
def elgamalEnc (g x k p m : BInt) : Res (BInt × BInt) := do
  let c ← bExp false g k p
  let y ← bExp false g x p
  let s ← bExp false y k p
  let d ← bRem (bMul m s) p
  .ok (c, d)

/-- ElGamal: `d * c.exp(x, p).mod_inverse(p) % p` -/
def elgamalDec (x p c d : BInt) : Res BInt := do
  let s ← bExp false c x p
  let i ← bModInverse s p
  bRem (bMul d i) p

/-! ## Proof -/

theorem fermat_step {P : Nat} (hP : P.Prime) (k : Nat) (x : ZMod P) : x ^ (1 + k * (P - 1)) = x := by
  have := Fact.mk hP
  by_cases hx : x = 0
  · subst hx
    rw [zero_pow (by omega)]
  · rw [pow_add, pow_one, mul_comm k, pow_mul, ZMod.pow_card_sub_one_eq_one hx, one_pow, mul_one]

theorem rsa_core {P Q : Nat} (hP : P.Prime) (hQ : Q.Prime) (hne : P ≠ Q) (m : Int) (k : Nat) :
    m ^ (1 + k * ((P - 1) * (Q - 1))) ≡ m [ZMOD (P * Q : Nat)] := by
  have h1 : m ^ (1 + k * ((P - 1) * (Q - 1))) ≡ m [ZMOD P] := by
    rw [← ZMod.intCast_eq_intCast_iff]
    push_cast
    rw [show k * ((P - 1) * (Q - 1)) = k * (Q - 1) * (P - 1) by ring]
    exact fermat_step hP _ _
  have h2 : m ^ (1 + k * ((P - 1) * (Q - 1))) ≡ m [ZMOD Q] := by
    rw [← ZMod.intCast_eq_intCast_iff]
    push_cast
    rw [show k * ((P - 1) * (Q - 1)) = k * (P - 1) * (Q - 1) by ring]
    exact fermat_step hQ _ _
  push_cast
  exact (Int.modEq_and_modEq_iff_modEq_mul (by simpa using (Nat.coprime_primes hP hQ).2 hne)).1 ⟨h1, h2⟩

theorem encI_of {x : BInt} (hx : CanonI x) : x = encI (ival x) := by
  obtain ⟨a, rfl⟩ := canonI_iff_encI.1 hx
  rw [ival_encI]

theorem encI_one : bFromU32 1#32 = encI 1 := by decide +kernel

/-- the exponents of RSA -/
theorem rsa_exponent {P Q : Nat} (hP : P.Prime) (hQ : Q.Prime) (hne : P ≠ Q) {e d : Int} (he : 0 ≤ e) (hd : 0 ≤ d)
    (h : e * d ≡ 1 [ZMOD (((P : Int) - 1) * (Q - 1))]) : ∃ k : Nat, e.toNat * d.toNat = 1 + k * ((P - 1) * (Q - 1)) := by
  obtain ⟨e, rfl⟩ := Int.eq_ofNat_of_zero_le he
  obtain ⟨d, rfl⟩ := Int.eq_ofNat_of_zero_le hd
  have p2 := hP.two_le
  have q2 := hQ.two_le
  obtain ⟨P', rfl⟩ : ∃ P', P = P' + 1 := ⟨P - 1, by omega⟩
  obtain ⟨Q', rfl⟩ : ∃ Q', Q = Q' + 1 := ⟨Q - 1, by omega⟩
  rw [show (((P' + 1 : Nat) : Int) - 1) * ((Q' + 1 : Nat) - 1) = ((P' * Q' : Nat) : Int) by push_cast; ring] at h
  simp only [Int.toNat_natCast, Nat.add_sub_cancel]
  have h2 : 2 ≤ P' * Q' := by
    rcases Nat.lt_or_ge P' 2 with h | h
    · have : 2 ≤ Q' := by omega
      nlinarith
    · nlinarith
  have h3 : e * d ≡ 1 [MOD P' * Q'] := by
    rw [← Int.natCast_modEq_iff]
    exact_mod_cast h
  have h4 : (e * d) % (P' * Q') = 1 := by
    rw [h3, Nat.mod_eq_of_lt (by omega)]
  refine ⟨e * d / (P' * Q'), ?_⟩
  rw [← h4, Nat.mul_comm (_ / _)]
  exact (Nat.mod_add_div _ _).symm

/-- two powers after each other -/
theorem exp_exp {checks : Bool} {m n : Int} (hn : n ≠ 0) (e d : Nat) (h : checks = true → 2 ≤ m ∧ 2 ≤ m ^ e % n) :
    bExp checks (encI m) (encI e) (encI n) = .ok (encI (m ^ e % n)) ∧
    bExp checks (encI (m ^ e % n)) (encI d) (encI n) = .ok (encI (m ^ (e * d) % n)) := by
  rw [bExp_nonneg checks m e n (fun hc hh => by have := (h hc).1; omega),
    bExp_nonneg checks _ d n (fun hc hh => by have := (h hc).2; omega), if_neg hn, if_neg hn, pow_mul]
  exact ⟨rfl, by rw [(Int.mod_modEq (m ^ e) n).pow d]⟩

theorem rsa_large {m n c : Int} {e d : Nat} (hc : c = m ^ e % n) (h : c ^ d % n = m) (hd : d ≠ 0) (hm : 2 ≤ m) (hmn : m < n) : 2 ≤ c := by
  have h0 : 0 ≤ c := by rw [hc]; exact Int.emod_nonneg _ (by omega)
  by_contra hlt
  have : c = 0 ∨ c = 1 := by omega
  rcases this with h1 | h1
  · rw [h1, zero_pow hd, Int.zero_emod] at h
    omega
  · rw [h1, one_pow, Int.emod_eq_of_lt (by omega) (by omega)] at h
    omega

/-- **C131**, RSA: for different primes `p`, `q`, an exponent `e ≥ 0` coprime to `(p-1)(q-1)`, and `0 ≤ m < pq`, decryption undoes
encryption, and encryption undoes decryption (signatures).  Neither panics in a build without overflow checks, nor in one with them if
`m ≥ 2`. -/
theorem C131_rsa (p q e m : BInt) (hp : CanonI p) (hq : CanonI q) (he : CanonI e) (hm : CanonI m) (P Q : Nat) (hpP : ival p = P)
    (hqQ : ival q = Q) (hP : P.Prime) (hQ : Q.Prime) (hne : P ≠ Q) (he0 : 0 ≤ ival e)
    (hgcd : Int.gcd (ival e) ((ival p - 1) * (ival q - 1)) = 1) (hm0 : 0 ≤ ival m) (hm1 : ival m < ival p * ival q) :
    ∃ n d, rsaKeys p q e = .ok (n, d) ∧ ∀ checks : Bool, (checks = true → 2 ≤ ival m) →
      (∃ c, bExp checks m e n = .ok c ∧ bExp checks c d n = .ok m) ∧ (∃ c, bExp checks m d n = .ok c ∧ bExp checks c e n = .ok m) := by
  rw [encI_of hp, encI_of hq, encI_of he, encI_of hm]
  simp only [ival_encI]
  generalize ival p = p at *
  generalize ival q = q at *
  generalize ival e = e at *
  generalize ival m = m at *
  subst hpP hqQ
  have p2 := hP.two_le
  have q2 := hQ.two_le
  have hphi : ((P : Int) - 1) * (Q - 1) ≠ 0 := mul_ne_zero (by omega) (by omega)
  obtain ⟨d, h1, h2, h3, h4⟩ := bModInverse_spec e hphi
  refine ⟨encI (P * Q), encI d, ?_, fun checks hchk => ?_⟩
  · unfold rsaKeys
    simp only [encI_one, bSub_encI, bMul_encI, h1, bind, Except.bind]
  obtain ⟨k, hk⟩ := rsa_exponent hP hQ hne he0 h2 (h4 hgcd)
  obtain ⟨e, rfl⟩ := Int.eq_ofNat_of_zero_le he0
  obtain ⟨d, rfl⟩ := Int.eq_ofNat_of_zero_le h2
  simp only [Int.toNat_natCast] at hk
  have hn : ((P : Int) * Q) ≠ 0 := mul_ne_zero (by omega) (by omega)
  have hmod : m ^ (e * d) % ((P : Int) * Q) = m := by
    have := rsa_core hP hQ hne m k
    rw [← hk] at this
    push_cast at this
    rw [this, Int.emod_eq_of_lt hm0 hm1]
  have hmod' : m ^ (d * e) % ((P : Int) * Q) = m := by rw [Nat.mul_comm]; exact hmod
  have he1 : e ≠ 0 := by rintro rfl; omega
  have hd1 : d ≠ 0 := by rintro rfl; omega
  constructor
  · obtain ⟨g1, g2⟩ := exp_exp (checks := checks) (m := m) hn e d (fun hc => ⟨hchk hc, rsa_large rfl
      (by rw [((Int.mod_modEq (m ^ e) _).pow d), ← pow_mul, hmod]) hd1 (hchk hc) hm1⟩)
    exact ⟨_, g1, by rw [g2, hmod]⟩
  · obtain ⟨g1, g2⟩ := exp_exp (checks := checks) (m := m) hn d e (fun hc => ⟨hchk hc, rsa_large rfl
      (by rw [((Int.mod_modEq (m ^ d) _).pow e), ← pow_mul, hmod']) he1 (hchk hc) hm1⟩)
    exact ⟨_, g1, by rw [g2, hmod']⟩

/-- The condition `p ≠ q` is needed: `p = q = 3`, `e = 3`, `m = 3` gives `0`.  So is that on the exponent, which nobody checks: for `p = 3`,
`q = 7`, `e = 3` there is a key, but `2` is decrypted as `8`. -/
theorem C131_rsa_conditions :
    (∃ n d, rsaKeys (encI 3) (encI 3) (encI 3) = .ok (n, d) ∧ ∃ c, bExp false (encI 3) (encI 3) n = .ok c ∧
      bExp false c d n = .ok (encI 0)) ∧
    (∃ n d, rsaKeys (encI 3) (encI 7) (encI 3) = .ok (n, d) ∧ ∃ c, bExp false (encI 2) (encI 3) n = .ok c ∧
      bExp false c d n = .ok (encI 8)) := by
  refine ⟨⟨encI 9, encI 3, by decide +kernel, encI 0, by decide +kernel, by decide +kernel⟩,
    encI 21, encI 1, by decide +kernel, encI 8, by decide +kernel, by decide +kernel⟩

/-- With overflow checks and `m ≤ 1`, for instance `m = 0` and `e = 2^32 + 1`, encryption panics. -/
theorem C131_rsa_checked_panics : bExp true (encI 0) (encI (2 ^ 32 + 1)) (encI 35) = .error .panic ∧
    Int.gcd (2 ^ 32 + 1) ((5 - 1) * (7 - 1)) = 1 := by
  refine ⟨by decide +kernel, by decide +kernel⟩

-- p = 61, q = 53, e = 17, m = 65
example : rsaKeys (encI 61) (encI 53) (encI 17) = .ok (encI 3233, encI 2753) ∧ bExp true (encI 65) (encI 17) (encI 3233) = .ok (encI 2790) ∧
    bExp true (encI 2790) (encI 2753) (encI 3233) = .ok (encI 65) ∧ Nat.Prime 61 ∧ Nat.Prime 53 ∧ Int.gcd 17 (60 * 52) = 1 := by
  refine ⟨by decide +kernel, by decide +kernel, by decide +kernel, by norm_num, by norm_num, by decide⟩

/-- **C131**, Diffie and Hellman: both sides compute the same number, for all numbers `g`, exponents `a, b ≥ 0` and moduli, even zero (no
modulus). -/
theorem C131_exchange (g a b p : BInt) (hg : CanonI g) (ha : CanonI a) (hb : CanonI b) (hp : CanonI p) (ha0 : 0 ≤ ival a) (hb0 : 0 ≤ ival b) :
    ∃ x y k, bExp false g a p = .ok x ∧ bExp false g b p = .ok y ∧ bExp false x b p = .ok k ∧ bExp false y a p = .ok k := by
  rw [encI_of hg, encI_of ha, encI_of hb, encI_of hp]
  generalize ival g = g at *
  generalize ival p = p at *
  obtain ⟨a, ha'⟩ := Int.eq_ofNat_of_zero_le ha0
  obtain ⟨b, hb'⟩ := Int.eq_ofNat_of_zero_le hb0
  rw [ha', hb']
  by_cases h : p = 0
  · subst h
    refine ⟨encI (g ^ a), encI (g ^ b), encI (g ^ (a * b)), ?_, ?_, ?_, ?_⟩ <;> rw [bExp_nonneg false _ _ _ (by simp), if_pos rfl]
    · rw [pow_mul]
    · rw [Nat.mul_comm, pow_mul]
  · have e1 := exp_exp (checks := false) (m := g) h a b (by simp)
    have e2 := exp_exp (checks := false) (m := g) h b a (by simp)
    refine ⟨_, _, _, e1.1, e2.1, e1.2, ?_⟩
    rw [e2.2, Nat.mul_comm]

/-- a power of a unit, for exponents of both signs -/
theorem exp_unit {g p : Int} (hg : 0 ≤ g) (hp : p ≠ 0) (u : (ZMod p.natAbs)ˣ) (hu : (u : ZMod p.natAbs) = g) (a : Int) :
    ∃ r : Int, bExp false (encI g) (encI a) (encI p) = .ok (encI r) ∧ 0 ≤ r ∧ r < |p| ∧ ((u ^ a : (ZMod p.natAbs)ˣ) : ZMod p.natAbs) = r := by
  have hcast : ∀ z : Int, ((z % p : Int) : ZMod p.natAbs) = z := by
    intro z
    rw [ZMod.intCast_eq_intCast_iff, Int.modEq_iff_dvd, Int.natAbs_dvd]
    exact ⟨z / p, by have := Int.emod_add_mul_ediv z p; linarith⟩
  rcases lt_or_ge a 0 with ha | ha
  · obtain ⟨v, h1, h2, h3, h4⟩ := bExp_neg false g ha hp (by simp)
    rw [if_neg (by omega)] at h4
    refine ⟨_, h4, Int.emod_nonneg _ hp, Int.emod_lt_abs _ hp, ?_⟩
    have hc : Int.gcd g p = 1 := by
      have := (ZMod.coe_int_isUnit_iff_isCoprime g p.natAbs).1 (hu ▸ u.isUnit)
      rw [Int.isCoprime_iff_gcd_eq_one, Int.gcd_comm] at this
      simpa [Int.gcd, Int.natAbs_abs] using this
    have hv : ((u⁻¹ : (ZMod p.natAbs)ˣ) : ZMod p.natAbs) = v := by
      apply Units.inv_eq_of_mul_eq_one_right
      rw [hu]
      have h5 := h3 hc
      rw [Int.modEq_iff_dvd, ← Int.natAbs_dvd, ← Int.modEq_iff_dvd, ← ZMod.intCast_eq_intCast_iff] at h5
      exact_mod_cast h5
    obtain ⟨b, rfl⟩ : ∃ b : ℕ, a = -(b : ℤ) := ⟨a.natAbs, by omega⟩
    rw [hcast, zpow_neg, zpow_natCast, ← inv_pow, Units.val_pow_eq_pow_val, hv]
    simp
  · obtain ⟨a, rfl⟩ := Int.eq_ofNat_of_zero_le ha
    refine ⟨_, by rw [bExp_nonneg false g a p (by simp), if_neg hp], Int.emod_nonneg _ hp, Int.emod_lt_abs _ hp, ?_⟩
    rw [hcast]
    simp [hu]

/-- a unit from coprime numbers -/
theorem unit_of {g p : Int} (h : Int.gcd g p = 1) : ∃ u : (ZMod p.natAbs)ˣ, (u : ZMod p.natAbs) = g := by
  have : IsUnit (g : ZMod p.natAbs) := by
    rw [ZMod.coe_int_isUnit_iff_isCoprime, Int.isCoprime_iff_gcd_eq_one, Int.gcd_comm]
    simpa [Int.gcd, Int.natAbs_abs] using h
  exact ⟨this.unit, rfl⟩

theorem eq_of_cast {p r s : Int} (hr : 0 ≤ r) (hr' : r < |p|) (hs : 0 ≤ s) (hs' : s < |p|) (h : (r : ZMod p.natAbs) = s) : r = s := by
  rw [ZMod.intCast_eq_intCast_iff, Int.natCast_natAbs] at h
  have h : r % |p| = s % |p| := h
  rwa [Int.emod_eq_of_lt hr hr', Int.emod_eq_of_lt hs hs'] at h

/-- **C131**, Diffie and Hellman with exponents of any sign: for `g ≥ 0` coprime to the modulus `p ≠ 0`.  *Missing:* negative `g`
(`C131_exchange_violated`). -/
theorem C131_exchange_partial (g a b p : BInt) (hg : CanonI g) (ha : CanonI a) (hb : CanonI b) (hp : CanonI p) (hg0 : 0 ≤ ival g)
    (hp0 : ival p ≠ 0) (hgp : Int.gcd (ival g) (ival p) = 1) :
    ∃ x y k, bExp false g a p = .ok x ∧ bExp false g b p = .ok y ∧ bExp false x b p = .ok k ∧ bExp false y a p = .ok k := by
  rw [encI_of hg, encI_of ha, encI_of hb, encI_of hp]
  generalize ival g = g at *
  generalize ival p = p at *
  generalize ival a = a at *
  generalize ival b = b at *
  obtain ⟨u, hu⟩ := unit_of hgp
  obtain ⟨x, x1, x2, x3, x4⟩ := exp_unit hg0 hp0 u hu a
  obtain ⟨y, y1, y2, y3, y4⟩ := exp_unit hg0 hp0 u hu b
  obtain ⟨k, k1, k2, k3, k4⟩ := exp_unit x2 hp0 (u ^ a) x4 b
  obtain ⟨l, l1, l2, l3, l4⟩ := exp_unit y2 hp0 (u ^ b) y4 a
  have : k = l := by
    apply eq_of_cast k2 k3 l2 l3
    rw [← k4, ← l4, ← zpow_mul, ← zpow_mul, mul_comm]
  subst this
  exact ⟨_, _, _, x1, y1, k1, l1⟩

/-- What is missing: modulo `7`, `(-2)^-1` is computed as `4`, and with that the other side gets another number. -/
theorem C131_exchange_violated : bExp false (encI (-2)) (encI (-1)) (encI 7) = .ok (encI 4) ∧
    bExp false (encI (-2)) (encI 3) (encI 7) = .ok (encI 6) ∧ bExp false (encI 4) (encI 3) (encI 7) = .ok (encI 1) ∧
    bExp false (encI 6) (encI (-1)) (encI 7) = .ok (encI 6) := by
  refine ⟨by decide +kernel, by decide +kernel, by decide +kernel, by decide +kernel⟩

/-- **C131**, ElGamal: for `g ≥ 0` coprime to `p > 0` and exponents of any sign, the message `0 ≤ m < p` is recovered. -/
theorem C131_elgamal (g x k p m : BInt) (hg : CanonI g) (hx : CanonI x) (hk : CanonI k) (hp : CanonI p) (hm : CanonI m)
    (hg0 : 0 ≤ ival g) (hp0 : 0 < ival p) (hgp : Int.gcd (ival g) (ival p) = 1) (hm0 : 0 ≤ ival m) (hm1 : ival m < ival p) :
    ∃ c d, elgamalEnc g x k p m = .ok (c, d) ∧ elgamalDec x p c d = .ok m := by
  rw [encI_of hg, encI_of hx, encI_of hk, encI_of hp, encI_of hm]
  generalize ival g = g at *
  generalize ival p = p at *
  generalize ival x = x at *
  generalize ival k = k at *
  generalize ival m = m at *
  obtain ⟨u, hu⟩ := unit_of hgp
  obtain ⟨c, c1, c2, c3, c4⟩ := exp_unit hg0 hp0.ne' u hu k
  obtain ⟨y, y1, y2, y3, y4⟩ := exp_unit hg0 hp0.ne' u hu x
  obtain ⟨s, s1, s2, s3, s4⟩ := exp_unit y2 hp0.ne' (u ^ x) y4 k
  obtain ⟨t, t1, t2, t3, t4⟩ := exp_unit c2 hp0.ne' (u ^ k) c4 x
  have e : t = s := by
    apply eq_of_cast t2 t3 s2 s3
    rw [← t4, ← s4, ← zpow_mul, ← zpow_mul, mul_comm]
  subst e
  obtain ⟨i, i1, i2, i3, i4⟩ := bModInverse_spec t hp0.ne'
  have hgt : Int.gcd t p = 1 := by
    have := (ZMod.coe_int_isUnit_iff_isCoprime t p.natAbs).1 (s4 ▸ Units.isUnit _)
    rw [Int.isCoprime_iff_gcd_eq_one, Int.gcd_comm] at this
    simpa [Int.gcd, Int.natAbs_abs] using this
  have i5 := i4 hgt
  have hmt : 0 ≤ m * t := mul_nonneg hm0 s2
  refine ⟨encI c, encI (m * t % p), ?_, ?_⟩
  · unfold elgamalEnc
    simp only [c1, y1, s1, bind, Except.bind, bMul_encI, bRem_nonneg hmt hp0]
  · unfold elgamalDec
    simp only [t1, i1, bind, Except.bind, bMul_encI]
    rw [bRem_nonneg (mul_nonneg (Int.emod_nonneg _ hp0.ne') i2) hp0]
    congr 2
    have : m * t % p * i ≡ m [ZMOD p] := by
      calc m * t % p * i ≡ m * t * i [ZMOD p] := (Int.mod_modEq _ _).mul_right _
        _ = m * (t * i) := by ring
        _ ≡ m * 1 [ZMOD p] := i5.mul_left _
        _ = m := by ring
    rw [this, Int.emod_eq_of_lt hm0 hm1]

example : elgamalEnc (encI 5) (encI 6) (encI 3) (encI 23) (encI 13) = .ok (encI 10, encI 9) ∧
    elgamalDec (encI 6) (encI 23) (encI 10) (encI 9) = .ok (encI 13) := by
  refine ⟨by decide +kernel, by decide +kernel⟩

/-- **C131**, Fermat's inverse: for a prime `p` that does not divide `a`, `a.exp(p - 2, p)` is `a.mod_inverse(p)`. -/
theorem C131_fermat (a p : BInt) (ha : CanonI a) (hp : CanonI p) (P : Nat) (hpP : ival p = P) (hP : P.Prime) (h : ¬ (P : Int) ∣ ival a) :
    ∃ v, bExp false a (bSub p (encI 2)) p = .ok v ∧ bModInverse a p = .ok v := by
  rw [encI_of ha, encI_of hp, hpP]
  generalize ival a = a at *
  have p2 := hP.two_le
  have hp0 : (P : Int) ≠ 0 := by omega
  obtain ⟨v, h1, h2, h3, h4⟩ := bModInverse_spec a hp0
  have hc : Int.gcd a P = 1 := by
    rw [Int.gcd_comm]
    exact Int.isCoprime_iff_gcd_eq_one.1 ((Nat.prime_iff_prime_int.1 hP).coprime_iff_not_dvd.2 h)
  refine ⟨encI v, ?_, h1⟩
  rw [bSub_encI, show (P : Int) - 2 = ((P - 2 : Nat) : Int) by omega, bExp_nonneg false a _ _ (by simp), if_neg hp0]
  congr 2
  have := Fact.mk hP
  have ha0 : (a : ZMod P) ≠ 0 := by
    rw [ne_eq, ZMod.intCast_zmod_eq_zero_iff_dvd]
    exact h
  have e : a ^ (P - 2) ≡ v [ZMOD P] := by
    rw [← ZMod.intCast_eq_intCast_iff]
    push_cast
    apply mul_left_cancel₀ ha0
    have h5 := h4 hc
    rw [← ZMod.intCast_eq_intCast_iff] at h5
    push_cast at h5
    rw [h5, ← pow_succ', show P - 2 + 1 = P - 1 by omega, ZMod.pow_card_sub_one_eq_one ha0]
  rw [e, Int.emod_eq_of_lt h2 (by rwa [abs_of_nonneg (by omega)] at h3)]

/-- **C131**, Euler's criterion: for an odd prime `p < 2^32`, `a.jacobi(p)` is `1`, `0` or `-1` exactly if `a.exp((p - 1) / 2, p)` is `1`,
`0` or `p - 1`.  *Missing:* larger primes, for which `jacobi` may not return (`C46_jacobi_hangs`). -/
theorem C131_euler_partial (a h p : BInt) (ha : CanonI a) (hh : CanonI h) (hp : CanonI p) (P : Nat) (hpP : ival p = P) (hP : P.Prime)
    (hlt : P < 2 ^ 32) (hhp : 2 * ival h + 1 = ival p) :
    ∃ s r, bJacobi a p = .ok (some s) ∧ bExp false a h p = .ok r ∧ (s = 1 ∧ ival r = 1 ∨ s = 0 ∧ ival r = 0 ∨ s = -1 ∧ ival r = ival p - 1) := by
  have hj := C46_jacobi_word_partial a p ha hp (by rw [hpP]; have := hP.pos; omega) (by omega) (by rw [hpP]; exact_mod_cast hlt)
  rw [hpP, Int.toNat_natCast] at hj
  rw [encI_of ha, encI_of hp, hpP, ival_encI] at hj
  rw [encI_of ha, encI_of hp, encI_of hh, hpP]
  rw [hpP] at hhp
  generalize ival a = a at *
  generalize ival h = h at *
  have p2 := hP.two_le
  obtain ⟨h, rfl⟩ : ∃ k : Nat, h = k := ⟨h.toNat, by omega⟩
  have hh2 : h = P / 2 := by omega
  have hp0 : (P : Int) ≠ 0 := by omega
  refine ⟨_, _, hj, by rw [bExp_nonneg false a _ _ (by simp), if_neg hp0], ?_⟩
  rw [ival_encI]
  have := Fact.mk hP
  rw [← jacobiSym.legendreSym.to_jacobiSym]
  have he := legendreSym.eq_pow P a
  rw [← hh2] at he
  have hr : a ^ h % P ≡ legendreSym P a [ZMOD P] := by
    refine (Int.mod_modEq _ _).trans ?_
    rw [← ZMod.intCast_eq_intCast_iff, he]
    push_cast
    rfl
  have hr0 := Int.emod_nonneg (a ^ h) hp0
  have hr1 := Int.emod_lt_of_pos (a ^ h) (show (0 : Int) < P by omega)
  have hr : a ^ h % P % P = legendreSym P a % P := hr
  rw [Int.emod_eq_of_lt hr0 hr1] at hr
  have h3 : 3 ≤ P := by omega
  rw [hr]
  by_cases h0 : (a : ZMod P) = 0
  · rw [(legendreSym.eq_zero_iff P a).2 h0]
    simp
  · rcases legendreSym.eq_one_or_neg_one P h0 with h1 | h1
    · rw [h1, Int.emod_eq_of_lt (by omega) (by omega)]
      simp
    · rw [h1]
      right; right
      refine ⟨rfl, ?_⟩
      rw [ival_encI, show (-1 : Int) % P = (P - 1) by rw [← Int.add_emod_right, Int.emod_eq_of_lt] <;> omega]

example : bExp false (encI 10) (encI (13 - 2)) (encI 13) = .ok (encI 4) ∧ bModInverse (encI 10) (encI 13) = .ok (encI 4) ∧
    bJacobi (encI 10) (encI 13) = .ok (some 1) ∧ bExp false (encI 10) (encI 6) (encI 13) = .ok (encI 1) ∧
    bJacobi (encI (-5)) (encI 13) = .ok (some (-1)) ∧ bExp false (encI (-5)) (encI 6) (encI 13) = .ok (encI 12) := by
  refine ⟨by decide +kernel, by decide +kernel, by decide +kernel, by decide +kernel, by decide +kernel, by decide +kernel⟩

end RMath
