import Verif.Lemmas.Liars
import Mathlib.GroupTheory.Perm.Cycle.Type

/-!
# A composite number passes the strong test to at most a quarter of the bases (Rabin, Monier)
-/

namespace RMath

/-- a proper subgroup has at most half the order -/
theorem two_mul_card_le {G : Type*} [Group G] [Finite G] {H K : Subgroup G} (hle : H ≤ K) {w : G} (hw : w ∈ K) (hn : w ∉ H) :
    2 * Nat.card H ≤ Nat.card K := by
  obtain ⟨c, hc⟩ := Subgroup.card_dvd_of_le hle
  have hpos : 0 < Nat.card K := Nat.card_pos
  have hne : c ≠ 1 := by
    rintro rfl
    rw [mul_one] at hc
    have := Subgroup.eq_of_le_of_card_ge hle hc.le
    exact hn (this ▸ hw)
  have h0 : c ≠ 0 := by rintro rfl; omega
  rw [hc, mul_comm]
  exact Nat.mul_le_mul_left _ (by omega)

theorem liars_card_le {n : Nat} [NeZero n] (H : Subgroup (ZMod n)ˣ)
    (h : ∀ a, StrongProbablePrime n a → ∃ g ∈ H, ((g : (ZMod n)ˣ) : ZMod n) = a) :
    Nat.card {a : Fin n // StrongProbablePrime n a.1} ≤ Nat.card H := by
  classical
  refine Nat.card_le_card_of_injective (fun a => ⟨(h a.1.1 a.2).choose, (h a.1.1 a.2).choose_spec.1⟩) ?_
  intro a b e
  have e1 : (h a.1.1 a.2).choose = (h b.1.1 b.2).choose := by simpa using e
  have ea := (h a.1.1 a.2).choose_spec.2
  have eb := (h b.1.1 b.2).choose_spec.2
  rw [e1, eb, ZMod.natCast_eq_natCast_iff', Nat.mod_eq_of_lt a.1.2, Nat.mod_eq_of_lt b.1.2] at ea
  exact Subtype.ext (Fin.ext ea.symm)

theorem card_units_le {n : Nat} [NeZero n] : Nat.card (ZMod n)ˣ ≤ n := by
  rw [Nat.card_eq_fintype_card, ZMod.card_units_eq_totient]
  exact Nat.totient_le n

/-- the power of which all liars have the value 1 or -1 -/
theorem liars_setup {n : Nat} (hn : 1 < n) (hodd : n % 2 = 1) : ∃ E, 2 * E ∣ n - 1 ∧
    (∀ a, StrongProbablePrime n a → ∃ g ∈ pmSubgroup n E, ((g : (ZMod n)ˣ) : ZMod n) = a) ∧
    ∃ v : (ZMod n)ˣ, v ^ E = -1 := by
  classical
  obtain ⟨t, u, hu, htu⟩ := Nat.exists_eq_two_pow_mul_odd (n := n - 1) (by omega)
  have hu1 := Nat.odd_iff.1 hu
  have ht : t ≠ 0 := by rintro rfl; simp at htu; omega
  let P : Nat → Prop := fun j => ∃ v : (ZMod n)ˣ, v ^ (2 ^ j * u) = -1
  have hP0 : P 0 := ⟨-1, by simp [hu.neg_one_pow]⟩
  set j := Nat.findGreatest P (t - 1) with hj
  have hPj : P j := Nat.findGreatest_spec (P := P) (Nat.zero_le _) hP0
  have hjle : j ≤ t - 1 := Nat.findGreatest_le _
  have hmax : ∀ i, i < t → P i → i ≤ j := fun i hi h => Nat.le_findGreatest (by omega) h
  refine ⟨2 ^ j * u, ?_, ?_, hPj⟩
  · rw [htu, ← mul_assoc, ← pow_succ']
    exact Nat.mul_dvd_mul_right (pow_dvd_pow 2 (by omega)) u
  · intro x hx
    obtain ⟨g, hg, h⟩ := liar_unit hn htu hu1 hx
    refine ⟨g, ?_, hg⟩
    rcases h with h | ⟨i, hi, h⟩
    · left
      rw [mul_comm (2 ^ j) u, pow_mul, h, one_pow]
    · have hij := hmax i hi ⟨g, h⟩
      have : 2 ^ j * u = 2 ^ i * u * 2 ^ (j - i) := by
        have : j = i + (j - i) := by omega
        conv_lhs => rw [this]
        rw [pow_add]; ring
      change g ^ (2 ^ j * u) = 1 ∨ g ^ (2 ^ j * u) = -1
      rw [this, pow_mul, h]
      rcases Nat.eq_zero_or_pos (j - i) with h0 | h0
      · right; simp [h0]
      · left
        obtain ⟨d, hd⟩ : ∃ d, j - i = d + 1 := ⟨j - i - 1, by omega⟩
        rw [hd, pow_succ', pow_mul]; simp

/-- the units whose order divides `n - 1` -/
def fermatSubgroup (n : Nat) : Subgroup (ZMod n)ˣ := (powMonoidHom (n - 1) : (ZMod n)ˣ →* (ZMod n)ˣ).ker

theorem mem_fermat {n : Nat} {g : (ZMod n)ˣ} : g ∈ fermatSubgroup n ↔ g ^ (n - 1) = 1 := by
  rw [fermatSubgroup, MonoidHom.mem_ker, powMonoidHom_apply]

theorem pm_le_fermat {n E : Nat} (h : 2 * E ∣ n - 1) : pmSubgroup n E ≤ fermatSubgroup n := by
  intro g hg
  obtain ⟨c, hc⟩ := h
  rw [mem_fermat, hc, mul_comm 2 E, pow_mul, pow_mul]
  rcases hg with hg | hg <;> rw [hg] <;> simp

/-- a prime factor of `n` does not divide the order of a unit whose order divides `n - 1` -/
theorem not_dvd_order {n p : Nat} (hp : p.Prime) (hn : n ≠ 0) (hpn : p ∣ n) {g : (ZMod n)ˣ} (hg : orderOf g = p) :
    g ∉ fermatSubgroup n := by
  intro h
  rw [mem_fermat] at h
  have h1 := orderOf_dvd_of_pow_eq_one h
  rw [hg] at h1
  have h2 := (Nat.dvd_sub hpn h1)
  rw [show n - (n - 1) = 1 by omega] at h2
  exact hp.one_lt.ne' (Nat.dvd_one.1 h2)

theorem liars_quarter_prime_pow {p e : Nat} (hp : p.Prime) (hodd : (p ^ e) % 2 = 1) (he : 2 ≤ e) :
    4 * Nat.card {a : Fin (p ^ e) // StrongProbablePrime (p ^ e) a.1} ≤ p ^ e := by
  have hn : 1 < p ^ e := Nat.one_lt_pow (by omega) hp.one_lt
  have : NeZero (p ^ e) := ⟨by omega⟩
  obtain ⟨E, hE, hS, -⟩ := liars_setup hn hodd
  have h1 := liars_card_le (fermatSubgroup (p ^ e)) fun a ha => by
    obtain ⟨g, hg, hga⟩ := hS a ha
    exact ⟨g, pm_le_fermat hE hg, hga⟩
  have hpd : ¬ p ∣ Nat.card (fermatSubgroup (p ^ e)) := by
    intro h
    have := Fact.mk hp
    obtain ⟨g, hg⟩ := exists_prime_orderOf_dvd_card' p h
    refine not_dvd_order hp (by omega) (dvd_pow_self p (by omega)) (g := (g : (ZMod (p ^ e))ˣ)) ?_ g.2
    rw [Subgroup.orderOf_coe, hg]
  have h2 : Nat.card (fermatSubgroup (p ^ e)) ∣ p ^ (e - 1) * (p - 1) := by
    have := Subgroup.card_subgroup_dvd_card (fermatSubgroup (p ^ e))
    rwa [Nat.card_eq_fintype_card (α := (ZMod (p ^ e))ˣ), ZMod.card_units_eq_totient,
      Nat.totient_prime_pow hp (by omega)] at this
  have h3 : Nat.card (fermatSubgroup (p ^ e)) ∣ p - 1 := by
    refine Nat.Coprime.dvd_of_dvd_mul_left ?_ h2
    exact Nat.Coprime.pow_right _ ((hp.coprime_iff_not_dvd).2 hpd).symm
  have hp2 := hp.two_le
  have h4 := Nat.le_of_dvd (by omega) h3
  have h5 : p ^ 2 ≤ p ^ e := Nat.pow_le_pow_right (by omega) he
  obtain ⟨q, rfl⟩ : ∃ q, p = q + 2 := ⟨p - 2, by omega⟩
  have h6 : 4 * (q + 2 - 1) ≤ (q + 2) ^ 2 := by
    rw [show q + 2 - 1 = q + 1 by omega]
    nlinarith
  omega

/-- from a unit whose power is -1, one whose power is -1 modulo `a` and 1 modulo `b` -/
theorem split_unit {a b E : Nat} (hab : a.Coprime b) {v : (ZMod (a * b))ˣ} (hv : v ^ E = -1) :
    ∃ w : (ZMod (a * b))ˣ, ZMod.chineseRemainder hab ((w ^ E : (ZMod (a * b))ˣ) : ZMod (a * b)) = (-1, 1) := by
  let f := ZMod.chineseRemainder hab
  have hfv : f (v : ZMod (a * b)) ^ E = -1 := by
    rw [← map_pow, ← Units.val_pow_eq_pow_val, hv]; simp
  have hunit : IsUnit (f.symm ((f (v : ZMod (a * b))).1, 1)) := by
    apply IsUnit.map f.symm
    rw [Prod.isUnit_iff]
    exact ⟨(Prod.isUnit_iff.1 (v.isUnit.map f)).1, isUnit_one⟩
  refine ⟨hunit.unit, ?_⟩
  change f _ = _
  rw [Units.val_pow_eq_pow_val, map_pow, IsUnit.unit_spec, RingEquiv.apply_symm_apply]
  have := congrArg Prod.fst hfv
  simp only [Prod.pow_fst, Prod.fst_neg, Prod.fst_one] at this
  rw [Prod.pow_mk, one_pow, this]

theorem split_unit_not_pm {a b E : Nat} (hab : a.Coprime b) (ha : 2 < a) (hb : 2 < b) {w : (ZMod (a * b))ˣ}
    (hw : ZMod.chineseRemainder hab ((w ^ E : (ZMod (a * b))ˣ) : ZMod (a * b)) = (-1, 1)) : w ∉ pmSubgroup (a * b) E := by
  have : Fact (2 < a) := ⟨ha⟩
  have : Fact (2 < b) := ⟨hb⟩
  rintro (h | h)
  · rw [h] at hw
    simp only [Units.val_one, map_one] at hw
    exact ZMod.neg_one_ne_one (congrArg Prod.fst hw).symm
  · rw [h] at hw
    simp only [Units.val_neg, Units.val_one, map_neg, map_one] at hw
    exact ZMod.neg_one_ne_one (congrArg Prod.snd hw)

/-- products of two coprime numbers that are no Carmichael numbers -/
theorem liars_quarter_coprime {a b : Nat} (hab : a.Coprime b) (ha : 2 < a) (hb : 2 < b) (hodd : (a * b) % 2 = 1)
    (hJ : fermatSubgroup (a * b) ≠ ⊤) :
    4 * Nat.card {x : Fin (a * b) // StrongProbablePrime (a * b) x.1} ≤ a * b := by
  have hn : 1 < a * b := by nlinarith
  have : NeZero (a * b) := ⟨by omega⟩
  obtain ⟨E, hE, hS, v, hv⟩ := liars_setup hn hodd
  obtain ⟨w, hw⟩ := split_unit hab hv
  have hnot := split_unit_not_pm hab ha hb hw
  have hmem : w ∈ fermatSubgroup (a * b) := by
    obtain ⟨c, hc⟩ := hE
    rw [mem_fermat, hc, mul_comm 2 E, mul_assoc, pow_mul, pow_mul]
    have h2 : (w ^ E) ^ 2 = 1 := by
      ext
      apply (ZMod.chineseRemainder hab).injective
      rw [Units.val_pow_eq_pow_val, map_pow, hw]
      simp
    rw [h2, one_pow]
  have h1 := liars_card_le _ hS
  have h2 := two_mul_card_le (pm_le_fermat hE) hmem hnot
  obtain ⟨y, hy⟩ : ∃ y, y ∉ fermatSubgroup (a * b) := by
    by_contra hc
    push Not at hc
    exact hJ ((Subgroup.eq_top_iff' _).2 hc)
  have h3 := two_mul_card_le (le_top (a := fermatSubgroup (a * b))) (Subgroup.mem_top y) hy
  rw [Subgroup.card_top] at h3
  have h4 := card_units_le (n := a * b)
  omega

/-- products of three coprime numbers -/
theorem liars_quarter_three {a b c : Nat} (hab : a.Coprime b) (hc : (a * b).Coprime c) (ha : 2 < a) (hb : 2 < b) (hc2 : 2 < c)
    (hodd : (a * b * c) % 2 = 1) :
    4 * Nat.card {x : Fin (a * b * c) // StrongProbablePrime (a * b * c) x.1} ≤ a * b * c := by
  have hab2 : 2 < a * b := by nlinarith
  have hn : 1 < a * b * c := by nlinarith
  have : NeZero (a * b * c) := ⟨by omega⟩
  have : Fact (2 < a * b) := ⟨hab2⟩
  have : Fact (2 < c) := ⟨hc2⟩
  obtain ⟨E, hE, hS, v, hv⟩ := liars_setup hn hodd
  let f := ZMod.chineseRemainder hc
  let K : Subgroup (ZMod (a * b * c))ˣ :=
    (pmSubgroup (a * b) E).comap (Units.map ((RingHom.fst _ _).comp f.toRingHom : ZMod (a * b * c) →+* ZMod (a * b)))
  have hK : ∀ w : (ZMod (a * b * c))ˣ, (∃ z : (ZMod (a * b))ˣ, (z : ZMod (a * b)) = (f (w : ZMod (a * b * c))).1 ∧
      z ∈ pmSubgroup (a * b) E) ↔ w ∈ K := by
    intro w
    rw [Subgroup.mem_comap]
    constructor
    · rintro ⟨z, hz, hm⟩
      have : z = Units.map ((RingHom.fst _ _).comp f.toRingHom : ZMod (a * b * c) →+* ZMod (a * b)) w := by
        ext
        rw [hz]; rfl
      rwa [← this]
    · intro h
      exact ⟨_, rfl, h⟩
  have hle : pmSubgroup (a * b * c) E ≤ K := by
    intro g hg
    rw [Subgroup.mem_comap]
    rcases hg with hg | hg
    · left
      rw [← map_pow, hg, map_one]
    · right
      rw [← map_pow, hg]
      ext
      simp
  -- modulo `a b` the power is -1, modulo `c` it is 1
  obtain ⟨w, hw⟩ := split_unit hc hv
  have hwn := split_unit_not_pm hc hab2 hc2 hw
  have hwK : w ∈ K := by
    rw [Subgroup.mem_comap]
    right
    rw [← map_pow]
    ext
    have := congrArg Prod.fst hw
    simpa using this
  -- an element outside `K`
  have hvab : ∃ v' : (ZMod (a * b))ˣ, v' ^ E = -1 := by
    refine ⟨Units.map ((RingHom.fst _ _).comp f.toRingHom : ZMod (a * b * c) →+* ZMod (a * b)) v, ?_⟩
    rw [← map_pow, hv]
    ext
    simp
  obtain ⟨v', hv'⟩ := hvab
  obtain ⟨w', hw'⟩ := split_unit hab hv'
  have hw'n := split_unit_not_pm hab ha hb hw'
  have hunit : IsUnit (f.symm ((w' : ZMod (a * b)), 1)) := by
    apply IsUnit.map f.symm
    rw [Prod.isUnit_iff]
    exact ⟨w'.isUnit, isUnit_one⟩
  have hyK : hunit.unit ∉ K := by
    rw [← hK]
    rintro ⟨z, hz, hm⟩
    rw [IsUnit.unit_spec, RingEquiv.apply_symm_apply] at hz
    have : z = w' := Units.ext hz
    exact hw'n (this ▸ hm)
  have h1 := liars_card_le _ hS
  have h2 := two_mul_card_le hle hwK hwn
  have h3 := two_mul_card_le (le_top (a := K)) (Subgroup.mem_top _) hyK
  rw [Subgroup.card_top] at h3
  have h4 := card_units_le (n := a * b * c)
  omega

/-- Carmichael numbers are squarefree -/
theorem sq_not_dvd_of_fermat {n p : Nat} (hn : n ≠ 0) (hJ : fermatSubgroup n = ⊤) (hp : p.Prime) : ¬ p * p ∣ n := by
  intro h
  have : NeZero n := ⟨hn⟩
  have := Fact.mk hp
  have hd : p ∣ Nat.card (ZMod n)ˣ := by
    rw [Nat.card_eq_fintype_card, ZMod.card_units_eq_totient]
    refine dvd_trans ?_ (Nat.totient_dvd_of_dvd h)
    rw [← sq, Nat.totient_prime_pow hp (by norm_num)]
    simp
  obtain ⟨g, hg⟩ := exists_prime_orderOf_dvd_card' p hd
  exact not_dvd_order hp hn (dvd_trans (dvd_mul_right p p) h) hg (hJ ▸ Subgroup.mem_top g)

/-- Korselt: `p - 1` divides `n - 1` -/
theorem pred_dvd_of_fermat {n p : Nat} (hn : n ≠ 0) (hJ : fermatSubgroup n = ⊤) (hp : p.Prime) (hpn : p ∣ n) :
    p - 1 ∣ n - 1 := by
  have : NeZero n := ⟨hn⟩
  have := Fact.mk hp
  obtain ⟨g, hg⟩ := IsCyclic.exists_generator (α := (ZMod p)ˣ)
  have ho : orderOf g = p - 1 := by
    rw [orderOf_eq_card_of_forall_mem_zpowers hg, Nat.card_eq_fintype_card, ZMod.card_units_eq_totient,
      Nat.totient_prime hp]
  obtain ⟨y, hy⟩ := ZMod.unitsMap_surjective hpn g
  have h1 : y ^ (n - 1) = 1 := mem_fermat.1 (hJ ▸ Subgroup.mem_top y)
  rw [← ho]
  apply orderOf_dvd_of_pow_eq_one
  rw [← hy, ← map_pow, h1, map_one]

/-- An odd composite number passes the strong test to at most a quarter of the bases. -/
theorem liars_quarter {n : Nat} (hodd : n % 2 = 1) (h1 : n ≠ 1) (hc : ¬ n.Prime) :
    4 * Nat.card {a : Fin n // StrongProbablePrime n a.1} ≤ n := by
  have hn0 : n ≠ 0 := by omega
  have hodd3 : ∀ d, d ∣ n → d ≠ 1 → 2 < d := by
    intro d hd hd1
    have h0 : d ≠ 0 := by rintro rfl; exact hn0 (Nat.zero_dvd.1 hd)
    have h2 : d ≠ 2 := by rintro rfl; omega
    omega
  have hp := Nat.minFac_prime h1
  have hpn := Nat.minFac_dvd n
  generalize n.minFac = p at hp hpn
  obtain ⟨e, m, hm, hnm⟩ := Nat.exists_eq_pow_mul_and_not_dvd (n := n) hn0 p hp.ne_one
  have he : e ≠ 0 := by
    rintro rfl
    apply hm
    rw [pow_zero, one_mul] at hnm
    rwa [← hnm]
  by_cases hm1 : m = 1
  · rw [hm1, mul_one] at hnm
    have he2 : 2 ≤ e := by
      by_contra h
      have : e = 1 := by omega
      rw [this, pow_one] at hnm
      exact hc (hnm ▸ hp)
    subst hnm
    exact liars_quarter_prime_pow hp hodd he2
  have hcop : (p ^ e).Coprime m := Nat.Coprime.pow_left _ ((hp.coprime_iff_not_dvd).2 hm)
  have hp3 : 2 < p := hodd3 p hpn hp.ne_one
  have hm3 : 2 < m := hodd3 m (hnm ▸ dvd_mul_left _ _) hm1
  have hpe3 : 2 < p ^ e := lt_of_lt_of_le hp3 (Nat.le_self_pow he p)
  by_cases hJ : fermatSubgroup n = ⊤
  · -- a Carmichael number
    have he1 : e = 1 := by
      by_contra hne
      apply sq_not_dvd_of_fermat hn0 hJ hp
      rw [hnm, ← sq]
      exact Dvd.dvd.mul_right (pow_dvd_pow p (by omega)) m
    rw [he1, pow_one] at hnm hcop
    have hq := Nat.minFac_prime hm1
    obtain ⟨r, hr⟩ := Nat.minFac_dvd m
    generalize m.minFac = q at hq hr
    have hqn : q ∣ n := by rw [hnm, hr]; exact Dvd.dvd.mul_left (dvd_mul_right q r) p
    have hr1 : r ≠ 1 := by
      rintro rfl
      rw [mul_one] at hr
      subst hr
      have d1 := pred_dvd_of_fermat hn0 hJ hp hpn
      have d2 := pred_dvd_of_fermat hn0 hJ hq hqn
      have e1 : n - 1 = (p - 1) * m + (m - 1) := by
        rw [hnm]
        obtain ⟨p', rfl⟩ : ∃ p', p = p' + 1 := ⟨p - 1, by omega⟩
        rw [Nat.add_sub_cancel, Nat.succ_mul]
        omega
      have e2 : n - 1 = (m - 1) * p + (p - 1) := by
        rw [hnm, mul_comm p m]
        obtain ⟨m', rfl⟩ : ∃ m', m = m' + 1 := ⟨m - 1, by omega⟩
        rw [Nat.add_sub_cancel, Nat.succ_mul]
        omega
      rw [e1] at d1
      rw [e2] at d2
      have d3 := Nat.dvd_antisymm ((Nat.dvd_add_right (dvd_mul_right _ _)).1 d1) ((Nat.dvd_add_right (dvd_mul_right _ _)).1 d2)
      have : p = m := by omega
      exact hm (this ▸ dvd_refl _)
    have hqr : ¬ q ∣ r := by
      intro h
      apply sq_not_dvd_of_fermat hn0 hJ hq
      rw [hnm, hr]
      exact Dvd.dvd.mul_left (Nat.mul_dvd_mul_left q h) p
    have hrn : r ∣ n := by rw [hnm, hr]; exact Dvd.dvd.mul_left (dvd_mul_left r q) p
    have hcqr : q.Coprime r := (hq.coprime_iff_not_dvd).2 hqr
    rw [hr] at hcop
    have hpq := Nat.Coprime.coprime_mul_right_right hcop
    have hpr := Nat.Coprime.coprime_mul_left_right hcop
    have hq3 := hodd3 q hqn hq.ne_one
    have hr3 := hodd3 r hrn hr1
    have hnr : n = p * q * r := by rw [hnm, hr, mul_assoc]
    subst hnr
    exact liars_quarter_three hpq (Nat.Coprime.mul_left hpr hcqr) hp3 hq3 hr3 hodd
  · subst hnm
    exact liars_quarter_coprime hcop hpe3 hm3 hodd hJ

end RMath
