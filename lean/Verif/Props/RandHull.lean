import Verif.Props.RandCarry
import Mathlib.NumberTheory.Multiplicity
import Mathlib.Algebra.Ring.GeomSum
import Mathlib.Data.Nat.Factorization.Basic
import Mathlib.Tactic.LinearCombination

/-!
# Property C138: which linear congruential generators run through all words below their modulus

The theorem of Hull and Dobell for the generator of `linear_congruential_rand.rs`: with modulus `m` the words have the period `m`, whatever the
seed, exactly if `c` is prime to `m`, every prime factor of `m` divides `a - 1`, and 4 does if it divides `m`.
-/

namespace RMath

/-- the conditions of Hull and Dobell for multiplier `a`, increment `c` and modulus `m` -/
def HullDobell (a c m : ℕ) : Prop :=
  Nat.Coprime c m ∧ (∀ p, p.Prime → p ∣ m → a % p = 1) ∧ (4 ∣ m → a % 4 = 1)

/-- every number below `m` occurs exactly once among any `m` words in a row -/
def RunsThroughAll (m : ℕ) (Y : ℕ → ℕ) : Prop :=
  ∀ k v, v < m → ∃! i, i < m ∧ Y (k + i) = v

/-! ## Proof -/

theorem geom_emult {p : ℕ} (hp : p.Prime) {a : ℤ} (h1 : (p : ℤ) ∣ a - 1) (h4 : p = 2 → (4 : ℤ) ∣ a - 1) (d : ℕ) :
    emultiplicity (p : ℤ) (∑ i ∈ Finset.range d, a ^ i) = emultiplicity (p : ℤ) (d : ℤ) := by
  by_cases ha : a = 1
  · subst ha; simp
  have hpi : Prime (p : ℤ) := Nat.prime_iff_prime_int.1 hp
  have hpa : ¬ (p : ℤ) ∣ a := fun h => hpi.not_dvd_one (by simpa using dvd_sub h h1)
  have e1 : emultiplicity (p : ℤ) (a ^ d - 1 ^ d) = emultiplicity (p : ℤ) (a - 1) + emultiplicity (p : ℤ) (d : ℤ) := by
    rcases hp.eq_two_or_odd' with rfl | hodd
    · exact Int.two_pow_sub_pow' d (h4 rfl) hpa
    · rw [Int.emultiplicity_pow_sub_pow hp hodd h1 hpa d, Int.natCast_emultiplicity]
  rw [one_pow, ← geom_sum_mul, mul_comm, emultiplicity_mul hpi] at e1
  have hf : FiniteMultiplicity (p : ℤ) (a - 1) :=
    Int.finiteMultiplicity_iff.2 ⟨by simpa using hp.ne_one, sub_ne_zero.2 ha⟩
  exact ENat.add_right_injective_of_ne_top (finiteMultiplicity_iff_emultiplicity_ne_top.1 hf) e1

theorem geom_dvd {a m : ℕ} (h1 : ∀ p, p.Prime → p ∣ m → a % p = 1) (h4 : 4 ∣ m → a % 4 = 1) (d : ℕ) :
    m ∣ (∑ i ∈ Finset.range d, a ^ i) ↔ m ∣ d := by
  have key : ∀ p k : ℕ, p.Prime → p ^ k ∣ m → (p ^ k ∣ (∑ i ∈ Finset.range d, a ^ i) ↔ p ^ k ∣ d) := by
    intro p k hp hk
    rcases Nat.eq_zero_or_pos k with rfl | hk0
    · simp
    have hpm : p ∣ m := (dvd_pow_self p hk0.ne').trans hk
    have hap : (p : ℤ) ∣ (a : ℤ) - 1 := by
      have := h1 p hp hpm
      exact (Int.modEq_iff_dvd.1 (by
        show (1 : ℤ) % p = (a : ℤ) % p
        rw [← Int.natCast_mod, this]
        exact_mod_cast Nat.mod_eq_of_lt hp.one_lt))
    by_cases hs : p = 2 → 4 ∣ m
    · have := geom_emult hp hap (fun h2 => by
        have := h4 (hs h2)
        omega) d
      have e : ∀ n : ℕ, p ^ k ∣ n ↔ (k : ℕ∞) ≤ emultiplicity (p : ℤ) (n : ℤ) := fun n => by
        rw [← pow_dvd_iff_le_emultiplicity]; exact_mod_cast Iff.rfl
      rw [e, e, ← this]
      push_cast
      rfl
    · push Not at hs
      have hk1 : k = 1 := by
        by_contra hne
        apply hs.2
        have : p ^ 2 ∣ m := (pow_dvd_pow p (by omega)).trans hk
        rwa [hs.1] at this
      subst hk1
      rw [pow_one]
      have hm : (∑ i ∈ Finset.range d, a ^ i) ≡ d [MOD p] := by
        rw [← ZMod.natCast_eq_natCast_iff]
        have ha : (a : ZMod p) = 1 := by
          have := (ZMod.intCast_zmod_eq_zero_iff_dvd ((a : ℤ) - 1) p).2 hap
          push_cast at this
          exact sub_eq_zero.1 this
        push_cast
        rw [ha]
        simp
      exact hm.dvd_iff dvd_rfl
  rw [Nat.dvd_iff_prime_pow_dvd_dvd, Nat.dvd_iff_prime_pow_dvd_dvd d m]
  exact ⟨fun h p k hp hk => (key p k hp hk).1 (h p k hp hk), fun h p k hp hk => (key p k hp hk).2 (h p k hp hk)⟩

section
variable {a c m : ℕ} {Y : ℕ → ℕ}

theorem lcg_diff (hY : ∀ k, Y (k + 1) = (a * Y k + c) % m) (j d : ℕ) :
    (Y (j + d) : ZMod m) - Y j = a ^ j * ((∑ i ∈ Finset.range d, a ^ i : ℕ) * ((a - 1) * Y 0 + c)) := by
  have hz : ∀ k, (Y (k + 1) : ZMod m) = a * Y k + c := fun k => by
    rw [hY, ZMod.natCast_mod]; push_cast; rfl
  induction j with
  | zero =>
    rw [Nat.zero_add, pow_zero, one_mul]
    induction d with
    | zero => simp
    | succ d ih =>
      rw [hz, Finset.sum_range_succ']
      push_cast at ih ⊢
      have e : ∑ i ∈ Finset.range d, (a : ZMod m) ^ (i + 1) = a * ∑ i ∈ Finset.range d, (a : ZMod m) ^ i := by
        rw [Finset.mul_sum]; exact Finset.sum_congr rfl fun i _ => pow_succ' _ _
      rw [e]
      linear_combination (a : ZMod m) * ih
  | succ j ih =>
    rw [show j + 1 + d = j + d + 1 by omega, hz, hz, pow_succ']
    linear_combination (a : ZMod m) * ih

theorem lcg_small (hm : 0 < m) (h0 : Y 0 < m) (hY : ∀ k, Y (k + 1) = (a * Y k + c) % m) (k : ℕ) : Y k < m := by
  cases k with
  | zero => exact h0
  | succ k => rw [hY]; exact Nat.mod_lt _ hm

theorem zmod_inj {x y : ℕ} (hx : x < m) (hy : y < m) : x = y ↔ ((x : ZMod m) - y = 0) := by
  rw [sub_eq_zero, ZMod.natCast_eq_natCast_iff]
  exact ⟨fun h => h ▸ rfl, fun h => Nat.ModEq.eq_of_lt_of_lt h hx hy⟩

theorem lcg_repeat (hm : 0 < m) (h0 : Y 0 < m) (hY : ∀ k, Y (k + 1) = (a * Y k + c) % m) (h : HullDobell a c m) (j d : ℕ) :
    Y (j + d) = Y j ↔ m ∣ d := by
  obtain ⟨h1, h2, h3⟩ := h
  have hs := lcg_small hm h0 hY
  rw [zmod_inj (hs _) (hs _), lcg_diff hY]
  have ca : IsUnit (a : ZMod m) := by
    rw [ZMod.isUnit_iff_coprime]
    refine Nat.coprime_of_dvd fun p hp ha hpm => ?_
    have := h2 p hp hpm
    rw [Nat.mod_eq_zero_of_dvd ha] at this
    exact absurd this (by norm_num)
  have cc : IsUnit (((a : ZMod m) - 1) * Y 0 + c) := by
    have e : ((a : ZMod m) - 1) * Y 0 + c = ((a + (m - 1)) * Y 0 + c : ℕ) := by
      push_cast [Nat.cast_sub (show 1 ≤ m from hm)]
      rw [ZMod.natCast_self]
      ring
    rw [e, ZMod.isUnit_iff_coprime]
    refine Nat.coprime_of_dvd fun p hp hq hpm => ?_
    have ha := h2 p hp hpm
    have hz : p ∣ a + (m - 1) := by
      have e1 : a + (m - 1) + 1 = a + m := by omega
      have : (a + (m - 1) + 1) % p = (0 + 1) % p := by
        rw [e1, Nat.add_mod, ha, Nat.mod_eq_zero_of_dvd hpm]
      exact (Nat.modEq_zero_iff_dvd).1 (Nat.ModEq.add_right_cancel' 1 this)
    have hpc : p ∣ c := (Nat.dvd_add_right (hz.mul_right _)).1 hq
    exact hp.not_dvd_one (h1 ▸ Nat.dvd_gcd hpc hpm)
  rw [IsUnit.mul_right_eq_zero (ca.pow j), IsUnit.mul_left_eq_zero cc, ZMod.natCast_eq_zero_iff, geom_dvd h2 h3]

theorem all_of_inj (hs : ∀ k, Y k < m) (hi : ∀ i j, Y i = Y j → i ≡ j [MOD m]) : RunsThroughAll m Y := by
  intro k v hv
  let f : Fin m → Fin m := fun i => ⟨Y (k + i), hs _⟩
  have hf : Function.Injective f := by
    intro i j h
    have h1 := hi _ _ (Fin.mk.inj h)
    exact Fin.ext (Nat.ModEq.eq_of_lt_of_lt (Nat.ModEq.add_left_cancel' k h1) i.2 j.2)
  obtain ⟨i, hi'⟩ := (Finite.injective_iff_surjective.1 hf) ⟨v, hv⟩
  refine ⟨i, ⟨i.2, congrArg Fin.val hi'⟩, fun j ⟨hj, e⟩ => ?_⟩
  have : f ⟨j, hj⟩ = f i := by rw [hi']; exact Fin.ext e
  exact congrArg Fin.val (hf this)

/-- the conditions are enough -/
theorem hull_enough (hm : 0 < m) (h0 : Y 0 < m) (hY : ∀ k, Y (k + 1) = (a * Y k + c) % m) (h : HullDobell a c m) :
    ExactPeriod m Y ∧ RunsThroughAll m Y := by
  have hr := lcg_repeat hm h0 hY h
  refine ⟨⟨hm, fun k => (hr k m).2 dvd_rfl, fun j ⟨K, hK⟩ => (hr K j).1 (hK K le_rfl)⟩, all_of_inj (lcg_small hm h0 hY) fun i j e => ?_⟩
  rcases le_total i j with hij | hij
  · obtain ⟨d, rfl⟩ := Nat.exists_eq_add_of_le hij
    have := (hr i d).1 e.symm
    exact ((Nat.modEq_zero_iff_dvd.2 this).symm.add_left i)
  · obtain ⟨d, rfl⟩ := Nat.exists_eq_add_of_le hij
    have := (hr j d).1 e
    exact ((Nat.modEq_zero_iff_dvd.2 this).add_left j)

/-- words that have the period `m` run through all numbers below `m` -/
theorem exact_all (hm : 0 < m) (h0 : Y 0 < m) (hY : ∀ k, Y (k + 1) = (a * Y k + c) % m) (h : ExactPeriod m Y) : RunsThroughAll m Y := by
  have hrep : ∀ i d, Y (i + d) = Y i → m ∣ d := by
    intro i d e
    refine h.2.2 d ⟨i, fun k hk => ?_⟩
    obtain ⟨t, rfl⟩ := Nat.exists_eq_add_of_le hk
    induction t with
    | zero => exact e
    | succ t ih =>
      rw [show i + (t + 1) + d = i + t + d + 1 by omega, show i + (t + 1) = i + t + 1 by omega, hY, hY, ih (by omega)]
  refine all_of_inj (lcg_small hm h0 hY) fun i j e => ?_
  rcases le_total i j with hij | hij
  · obtain ⟨d, rfl⟩ := Nat.exists_eq_add_of_le hij
    exact ((Nat.modEq_zero_iff_dvd.2 (hrep i d e.symm)).symm.add_left i)
  · obtain ⟨d, rfl⟩ := Nat.exists_eq_add_of_le hij
    exact ((Nat.modEq_zero_iff_dvd.2 (hrep j d e)).add_left j)

/-- a property of the words that lasts holds for all numbers below `m` if it holds for one of them -/
theorem RunsThroughAll.lasting (h : RunsThroughAll m Y) {Q : ℕ → Prop} (hQ : ∀ k, Q (Y k) → Q (Y (k + 1))) {v : ℕ} (hv : v < m) (h1 : Q v) :
    ∀ u < m, Q u := by
  intro u hu
  obtain ⟨i, ⟨-, hi⟩, -⟩ := h 0 v hv
  obtain ⟨j, ⟨-, hj⟩, -⟩ := h (0 + i) u hu
  rw [← hj]
  clear hj
  induction j with
  | zero => rw [Nat.add_zero, hi]; exact h1
  | succ j ih => exact hQ _ ih

/-- the conditions are needed -/
theorem hull_needed (hY : ∀ k, Y (k + 1) = (a * Y k + c) % m) (h : RunsThroughAll m Y) (hm : 0 < m) : HullDobell a c m := by
  have hprime : ∀ p, p.Prime → p ∣ m → a % p = 1 := by
    intro p hp hpm
    by_contra hne
    have := Fact.mk hp
    have hz : ∀ k, (Y (k + 1) : ZMod p) = a * Y k + c := fun k => by
      rw [hY, (ZMod.natCast_eq_natCast_iff _ _ _).2 ((Nat.mod_modEq _ m).of_dvd hpm)]
      push_cast
      rfl
    have ha : (1 : ZMod p) - a ≠ 0 := by
      intro h0
      apply hne
      have h1 : ((1 : ℕ) : ZMod p) = (a : ℕ) := by push_cast; exact sub_eq_zero.1 h0
      have h2 := (ZMod.natCast_eq_natCast_iff _ _ _).1 h1
      rw [show a % p = 1 % p from h2.symm]
      exact Nat.mod_eq_of_lt hp.one_lt
    have hl := h.lasting (Q := fun u => (u : ZMod p) = c / (1 - a)) (fun k hk => by
      rw [hz, hk]
      field_simp
      ring) (v := (c / (1 - a) : ZMod p).val)
      (lt_of_lt_of_le (ZMod.val_lt _) (Nat.le_of_dvd hm hpm)) (by simp)
    have h0 := hl 0 hm
    have h1 := hl 1 (lt_of_lt_of_le hp.one_lt (Nat.le_of_dvd hm hpm))
    rw [← h0] at h1
    push_cast at h1
    exact one_ne_zero h1
  refine ⟨?_, hprime, ?_⟩
  · -- once 0 has come up, every word is a multiple of the greatest common divisor
    have hl := h.lasting (Q := fun u => Nat.gcd c m ∣ u) (fun k hk => by
      rw [hY]
      exact (Nat.dvd_mod_iff (Nat.gcd_dvd_right c m)).2 (dvd_add (hk.mul_left a) (Nat.gcd_dvd_left c m))) hm (dvd_zero _)
    rcases Nat.lt_or_ge 1 m with h1 | h1
    · exact Nat.dvd_one.1 (hl 1 h1)
    · have : m = 1 := by omega
      subst this
      exact Nat.gcd_one_right c
  · intro h4
    have h2 := hprime 2 Nat.prime_two ((by norm_num : (2 : ℕ) ∣ 4).trans h4)
    by_contra hne
    have ha3 : a % 4 = 3 := by omega
    have hstep : ∀ k, Y (k + 1) % 4 = (3 * (Y k % 4) + c % 4) % 4 := fun k => by
      rw [hY, Nat.mod_mod_of_dvd _ h4, Nat.add_mod, Nat.mul_mod, ha3]
      omega
    have hm4 : 4 ≤ m := Nat.le_of_dvd hm h4
    -- the words modulo 4 take two values in turn
    obtain ⟨i, ⟨-, hi⟩, -⟩ := h 0 0 hm
    have hmem : ∀ k, Y (0 + i + k) % 4 = 0 ∨ Y (0 + i + k) % 4 = c % 4 := by
      have : ∀ k, (Y (0 + i + k) % 4 = 0 ∧ k % 2 = 0) ∨ (Y (0 + i + k) % 4 = c % 4 ∧ k % 2 = 1) := by
        intro k
        induction k with
        | zero => left; rw [Nat.add_zero, hi]; simp
        | succ k ih =>
          have := hstep (0 + i + k)
          rw [show 0 + i + (k + 1) = 0 + i + k + 1 by omega]
          omega
      intro k
      rcases this k with ⟨h, -⟩ | ⟨h, -⟩
      · exact Or.inl h
      · exact Or.inr h
    have hv : ∀ v < 4, v % 4 = 0 ∨ v % 4 = c % 4 := fun v hv => by
      obtain ⟨j, ⟨-, hj⟩, -⟩ := h (0 + i) v (by omega)
      rw [← hj]
      exact hmem j
    have := hv 1 (by norm_num)
    have := hv 2 (by norm_num)
    omega
end

/-! ## Theorems -/

/-- what C138 says of a generator -/
def HullClaim (b : Nat) (a c m : ℕ) (g : Lcg b) : Prop :=
  ∃ Y, Delivers (lcgSource b) g Y ∧ (ExactPeriod m Y ↔ HullDobell a c m) ∧ (RunsThroughAll m Y ↔ HullDobell a c m)

theorem hull_claim {b : Nat} {a c m seed : BitVec b} {g : Lcg b} (hnew : lcgNew (.ok seed) a c m = .ok g) {X : ℕ → ℕ}
    (hX : ∀ k, X (k + 1) = (a.toNat * X k + c.toNat) % m.toNat)
    (hd : Delivers (lcgSource b) g fun k => X (k + 1)) : HullClaim b a.toNat c.toNat m.toNat g := by
  obtain ⟨hm, -⟩ := ite_err (show (if m = 0#b then Except.error RandErr.divisorIsZero else
    (Except.ok seed).map fun x => (⟨a, c, m, x⟩ : Lcg b)) = .ok g from hnew)
  have hm0 := toNat_ne_zero hm
  have h0 : X (0 + 1) < m.toNat := by rw [hX]; exact Nat.mod_lt _ hm0
  refine ⟨_, hd, ⟨fun h => ?_, fun h => ?_⟩, ⟨fun h => ?_, fun h => ?_⟩⟩
  · exact hull_needed (fun k => hX (k + 1)) (exact_all hm0 h0 (fun k => hX (k + 1)) h) hm0
  · exact (hull_enough hm0 h0 (fun k => hX (k + 1)) h).1
  · exact hull_needed (fun k => hX (k + 1)) h hm0
  · exact (hull_enough hm0 h0 (fun k => hX (k + 1)) h).2

/-- the recurrence -/
def lcgX (a c m x : ℕ) : ℕ → ℕ
  | 0 => x
  | k + 1 => (a * lcgX a c m x k + c) % m

/-- **C138** for a modulus that is a power of two: no overflow does any harm. -/
theorem C138_power_of_two {b : Nat} {a c m seed : BitVec b} {g : Lcg b} (hnew : lcgNew (.ok seed) a c m = .ok g) {e : ℕ}
    (hm : m.toNat = 2 ^ e) : HullClaim b a.toNat c.toNat m.toNat g := by
  have hdvd : m.toNat ∣ 2 ^ b := by
    have h1 := m.isLt
    rw [hm] at h1 ⊢
    exact pow_dvd_pow 2 ((Nat.pow_lt_pow_iff_right (by norm_num)).1 h1).le
  exact hull_claim hnew (X := lcgX a.toNat c.toNat m.toNat seed.toNat) (fun _ => rfl) fun N =>
    C63_lcg_wrapping hnew rfl (fun k => by rw [Nat.mod_mod_of_dvd _ hdvd]; rfl) N

/-- **C138** for any modulus if the product with the largest word does not overflow, nor that with the seed. -/
theorem C138_no_overflow {b : Nat} {a c m seed : BitVec b} {g : Lcg b} (hnew : lcgNew (.ok seed) a c m = .ok g)
    (h1 : a.toNat * seed.toNat + c.toNat < 2 ^ b) (h2 : a.toNat * (m.toNat - 1) + c.toNat < 2 ^ b) :
    HullClaim b a.toNat c.toNat m.toNat g :=
  hull_claim hnew (X := lcgX a.toNat c.toNat m.toNat seed.toNat) (fun _ => rfl) fun N =>
    C63_lcg_partial hnew ⟨rfl, fun _ => rfl⟩ h1 h2 N

/-- **C138**: a power of two from 4 on: the period is the modulus exactly if `c` is odd and `a` is 1 modulo 4. -/
theorem C138_power_of_two_iff (a c : ℕ) {e : ℕ} (he : 2 ≤ e) : HullDobell a c (2 ^ e) ↔ c % 2 = 1 ∧ a % 4 = 1 := by
  constructor
  · rintro ⟨h1, -, h3⟩
    refine ⟨?_, h3 (pow_dvd_pow 2 he)⟩
    have := Nat.Coprime.coprime_dvd_right (dvd_pow_self 2 (by omega : e ≠ 0)) h1
    exact Nat.odd_iff.1 (Nat.coprime_two_right.1 this)
  · rintro ⟨h1, h2⟩
    refine ⟨Nat.Coprime.pow_right e (Nat.coprime_two_right.2 (Nat.odd_iff.2 h1)), fun p hp hpm => ?_, fun _ => h2⟩
    have : p = 2 := (Nat.prime_dvd_prime_iff_eq hp Nat.prime_two).1 (hp.dvd_of_dvd_pow hpm)
    subst this
    omega

theorem HullDobell.of_dvd {a c m d : ℕ} (h : HullDobell a c m) (hd : d ∣ m) : HullDobell a c d :=
  ⟨h.1.coprime_dvd_right hd, fun p hp h' => h.2.1 p hp (h'.trans hd), fun h' => h.2.2 (h'.trans hd)⟩

/-- **C138**: the weakness that comes with a full period: with a power of two as modulus the last `j` bits of the words repeat
after `2^j` words already. -/
theorem C138_low_digits {b : Nat} {a c m seed : BitVec b} {g : Lcg b} (hnew : lcgNew (.ok seed) a c m = .ok g) {e : ℕ} (hm : m.toNat = 2 ^ e)
    (hc : HullDobell a.toNat c.toNat m.toNat) : ∃ Y, Delivers (lcgSource b) g Y ∧
      ∀ j ≤ e, ExactPeriod (2 ^ j) (fun k => Y k % 2 ^ j) ∧ RunsThroughAll (2 ^ j) (fun k => Y k % 2 ^ j) := by
  have hdvd : m.toNat ∣ 2 ^ b := by
    have h1 := m.isLt
    rw [hm] at h1 ⊢
    exact pow_dvd_pow 2 ((Nat.pow_lt_pow_iff_right (by norm_num)).1 h1).le
  refine ⟨fun k => lcgX a.toNat c.toNat m.toNat seed.toNat (k + 1), fun N =>
    C63_lcg_wrapping hnew rfl (fun k => by rw [Nat.mod_mod_of_dvd _ hdvd]; rfl) N, fun j hj => ?_⟩
  have hjm : 2 ^ j ∣ m.toNat := hm ▸ pow_dvd_pow 2 hj
  refine hull_enough (by positivity) (Nat.mod_lt _ (by positivity)) (fun k => ?_) (hc.of_dvd hjm)
  have h1 : lcgX a.toNat c.toNat m.toNat seed.toNat (k + 1 + 1) = (a.toNat * lcgX a.toNat c.toNat m.toNat seed.toNat (k + 1) + c.toNat) % m.toNat := rfl
  simp only [h1]
  rw [Nat.mod_mod_of_dvd _ hjm]
  simp [Nat.add_mod, Nat.mul_mod]

example : ∃ g, lcgNew (.ok 7#64) 6364136223846793005#64 1442695040888963407#64 (BitVec.ofNat 64 (2 ^ 63)) = .ok g ∧
    ∃ Y, Delivers (lcgSource 64) g Y ∧ ExactPeriod (2 ^ 63) Y := by
  obtain ⟨g, hg⟩ : ∃ g, lcgNew (.ok 7#64) 6364136223846793005#64 1442695040888963407#64 (BitVec.ofNat 64 (2 ^ 63)) = .ok g := ⟨_, rfl⟩
  obtain ⟨Y, h1, h2, -⟩ := C138_power_of_two (e := 63) hg (by decide)
  have hh : HullDobell 6364136223846793005 1442695040888963407 (2 ^ 63) := (C138_power_of_two_iff _ _ (by norm_num)).2 (by decide)
  exact ⟨g, hg, Y, h1, h2.2 hh⟩

end RMath
