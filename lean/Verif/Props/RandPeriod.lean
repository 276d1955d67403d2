import Verif.Props.Rand
import Mathlib.FieldTheory.Finite.Basic
import Mathlib.GroupTheory.OrderOfElement
import Mathlib.GroupTheory.SpecificGroups.Cyclic.Basic
import Mathlib.NumberTheory.LucasPrimality
import Mathlib.Tactic.ReduceModChar
import Mathlib.Tactic.IntervalCases
import Mathlib.Tactic.FinCases
import Mathlib.Tactic.NormNum.Prime
import Mathlib.Dynamics.PeriodicPts.Defs

/-!
# Property C133: the period of the linear congruential generators

A multiplicative generator whose multiplier is a primitive root of the prime modulus runs through all numbers from 1 to `m - 1` before it
repeats one; so do the "minimal standard" generators that `minstd_rand0!` and `minstd_rand!` are named after.
-/

namespace RMath

/-- the words that a generator delivers when it is asked again and again are `Y 0`, `Y 1`, … -/
def Delivers {b : Nat} {σ : Type} (src : Source b σ) (g : σ) (Y : ℕ → ℕ) : Prop :=
  ∀ N, ∃ out g', runCalls src g (List.replicate N .gen) = .ok (out, g') ∧ out.map BitVec.toNat = (List.range N).map Y

/-- `Y` has the period `m - 1` and every number from 1 to `m - 1` occurs exactly once in it -/
def FullPeriod (m : ℕ) (Y : ℕ → ℕ) : Prop :=
  (∀ k, Y (k + (m - 1)) = Y k) ∧ ∀ v, 0 < v → v < m → ∃! k, k < m - 1 ∧ Y k = v

/-! ## Proof -/

/-- **C133** if no product overflows: a prime modulus, a multiplier that is a primitive root, and a seed that is no multiple of the modulus.
*Missing:* products that overflow, as those of both presets do (`C133_violated`). -/
theorem C133_period_partial {b : Nat} {a m seed : BitVec b} {g : Lcg b} (hnew : lcgNew (.ok seed) a 0#b m = .ok g) (hp : m.toNat.Prime)
    (ha : orderOf (a.toNat : ZMod m.toNat) = m.toNat - 1) (hfit : a.toNat * (m.toNat - 1) < 2 ^ b)
    (hfit' : a.toNat * seed.toNat < 2 ^ b) (h0 : ¬ m.toNat ∣ seed.toNat) :
    ∃ Y, Delivers (lcgSource b) g Y ∧ FullPeriod m.toNat Y := by
  have hX : LcgSeq a.toNat (0#b).toNat m.toNat seed.toNat
      (fun k => if k = 0 then seed.toNat else a.toNat ^ k * seed.toNat % m.toNat) := by
    refine ⟨rfl, fun k => ?_⟩
    rcases k with _ | k
    · simp
    · simp only [BitVec.toNat_zero, Nat.add_zero, Nat.succ_ne_zero, if_false]
      rw [Nat.mul_mod_mod, pow_succ' _ (k + 1)]
      congr 1
      ring
  refine ⟨fun k => a.toNat ^ (k + 1) * seed.toNat % m.toNat, fun N => C63_lcg_partial hnew hX (by simpa using hfit') (by simpa using hfit) N, ?_⟩
  have := Fact.mk hp
  have hp2 := hp.two_le
  generalize m.toNat = p at *
  generalize a.toNat = a at *
  generalize seed.toNat = s at *
  have hper : (a : ZMod p) ^ (p - 1) = 1 := ha ▸ pow_orderOf_eq_one _
  have ha0 : (a : ZMod p) ≠ 0 := by
    intro h
    rw [h, zero_pow (by omega)] at hper
    exact zero_ne_one hper
  have hs0 : (s : ZMod p) ≠ 0 := by
    rwa [ne_eq, ZMod.natCast_eq_zero_iff]
  have hcast : ∀ k v, v < p → (a ^ (k + 1) * s % p = v ↔ (a : ZMod p) ^ (k + 1) * s = v) := by
    intro k v hv
    conv_lhs => rw [← Nat.mod_eq_of_lt hv]
    rw [← Nat.ModEq.eq_1, ← ZMod.natCast_eq_natCast_iff]
    push_cast
    rfl
  constructor
  · intro k
    show a ^ (k + (p - 1) + 1) * s ≡ a ^ (k + 1) * s [MOD p]
    rw [← ZMod.natCast_eq_natCast_iff]
    push_cast
    rw [show k + (p - 1) + 1 = (k + 1) + (p - 1) by omega, pow_add, hper, mul_one]
  · intro v hv0 hv1
    have hv : (v : ZMod p) ≠ 0 := by
      rw [ne_eq, ZMod.natCast_eq_zero_iff]
      exact fun h => absurd (Nat.le_of_dvd hv0 h) (by omega)
    -- the powers are all units
    let u : (ZMod p)ˣ := Units.mk0 _ ha0
    have hu : orderOf u = Fintype.card (ZMod p)ˣ := by
      rw [← orderOf_units, ZMod.card_units_eq_totient, Nat.totient_prime hp]
      exact ha
    have htop : Subgroup.zpowers u = ⊤ := Subgroup.eq_top_of_card_eq _ (by rw [Nat.card_zpowers, hu, Nat.card_eq_fintype_card])
    have hmem : Units.mk0 _ (mul_ne_zero hv (inv_ne_zero (mul_ne_zero ha0 hs0))) ∈ Submonoid.powers u := by
      rw [mem_powers_iff_mem_zpowers, htop]
      exact Subgroup.mem_top _
    obtain ⟨k, hk⟩ := hmem
    have hk : (a : ZMod p) ^ k = (v : ZMod p) * ((a : ZMod p) * s)⁻¹ := by
      have := congrArg Units.val hk
      simpa [u] using this
    have hk' : (a : ZMod p) ^ (k % (p - 1)) = (v : ZMod p) * ((a : ZMod p) * s)⁻¹ := by
      rw [← hk, ← ha, pow_mod_orderOf]
    refine ⟨k % (p - 1), ⟨Nat.mod_lt _ (by omega), ?_⟩, ?_⟩
    · rw [hcast _ _ hv1, pow_succ, mul_assoc, hk', inv_mul_cancel_right₀ (mul_ne_zero ha0 hs0)]
    · rintro j ⟨hj, hj'⟩
      rw [hcast _ _ hv1, pow_succ, mul_assoc, ← eq_mul_inv_iff_mul_eq₀ (mul_ne_zero ha0 hs0), ← hk'] at hj'
      exact pow_injOn_Iio_orderOf (by rw [Set.mem_Iio, ha]; exact hj) (by rw [Set.mem_Iio, ha]; exact Nat.mod_lt _ (by omega)) hj'

/-- the prime divisors of `2^31 - 2` -/
theorem prim_root {a : ZMod 2147483647} (h : ∀ q ∈ [2, 3, 7, 11, 31, 151, 331], a ^ (2147483646 / q) ≠ 1) :
    ∀ q : ℕ, q.Prime → q ∣ 2147483647 - 1 → a ^ ((2147483647 - 1) / q) ≠ 1 := by
  intro q hq hd
  apply h
  have e : (2147483647 - 1 : ℕ) = 2 * 3 * 3 * 7 * 11 * 31 * 151 * 331 := by norm_num
  rw [e] at hd
  have hpr : ∀ {r : ℕ}, r.Prime → (q ∣ r ↔ q = r) := fun hr => Nat.prime_dvd_prime_iff_eq hq hr
  simp only [hq.dvd_mul, hpr (show Nat.Prime 2 by norm_num), hpr (show Nat.Prime 3 by norm_num), hpr (show Nat.Prime 7 by norm_num),
    hpr (show Nat.Prime 11 by norm_num), hpr (show Nat.Prime 31 by norm_num), hpr (show Nat.Prime 151 by norm_num),
    hpr (show Nat.Prime 331 by norm_num)] at hd
  simp only [List.mem_cons, List.not_mem_nil, or_false]
  tauto

/-- the multipliers of the presets are primitive roots -/
theorem root16807 : ∀ q : ℕ, q.Prime → q ∣ 2147483647 - 1 → (16807 : ZMod 2147483647) ^ ((2147483647 - 1) / q) ≠ 1 := by
  apply prim_root
  simp only [List.forall_mem_cons, List.not_mem_nil, false_imp_iff, implies_true, and_true, Nat.reduceDiv]
  refine ⟨?_, ?_, ?_, ?_, ?_, ?_, ?_⟩ <;> (reduce_mod_char; decide)

theorem root48271 : ∀ q : ℕ, q.Prime → q ∣ 2147483647 - 1 → (48271 : ZMod 2147483647) ^ ((2147483647 - 1) / q) ≠ 1 := by
  apply prim_root
  simp only [List.forall_mem_cons, List.not_mem_nil, false_imp_iff, implies_true, and_true, Nat.reduceDiv]
  refine ⟨?_, ?_, ?_, ?_, ?_, ?_, ?_⟩ <;> (reduce_mod_char; decide)

theorem fermat16807 : (16807 : ZMod 2147483647) ^ (2147483647 - 1) = 1 := by
  rw [show 2147483647 - 1 = 2147483646 by norm_num]
  reduce_mod_char
theorem fermat48271 : (48271 : ZMod 2147483647) ^ (2147483647 - 1) = 1 := by
  rw [show 2147483647 - 1 = 2147483646 by norm_num]
  reduce_mod_char

theorem prime31 : Nat.Prime 2147483647 := lucas_primality _ _ fermat16807 root16807

theorem order16807 : orderOf ((16807 : ℕ) : ZMod 2147483647) = 2147483647 - 1 :=
  orderOf_eq_of_pow_and_pow_div_prime (by norm_num) fermat16807 root16807
theorem order48271 : orderOf ((48271 : ℕ) : ZMod 2147483647) = 2147483647 - 1 :=
  orderOf_eq_of_pow_and_pow_div_prime (by norm_num) fermat48271 root48271

/-- With words of 64 bits the two minimal standard generators have the full period, for each seed of 32 bits but the multiples of the modulus
(0, `2^31 - 1` and `2^32 - 2`). -/
theorem C133_words_of_64_bits_partial {a seed : BitVec 64} {g : Lcg 64} (ha : a = 16807#64 ∨ a = 48271#64)
    (hnew : lcgNew (.ok seed) a 0#64 2147483647#64 = .ok g) (hs : seed.toNat < 2 ^ 32) (h0 : ¬ 2147483647 ∣ seed.toNat) :
    ∃ Y, Delivers (lcgSource 64) g Y ∧ FullPeriod (2 ^ 31 - 1) Y := by
  rcases ha with rfl | rfl
  · exact C133_period_partial hnew prime31 order16807 (by decide) (show 16807 * seed.toNat < 2 ^ 64 by omega) h0
  · exact C133_period_partial hnew prime31 order48271 (by decide) (show 48271 * seed.toNat < 2 ^ 64 by omega) h0

example : ∃ g, lcgNew (.ok 1#64) 16807#64 0#64 2147483647#64 = .ok g := ⟨_, rfl⟩

/-! ## The presets, with words of 32 bits -/

/-- one step of the presets: the product wraps before it is reduced -/
def wrapStep (a x : ℕ) : ℕ := a * x % 4294967296 % 2147483647

/-- `n` steps, evaluated one after the other -/
def forceIter (f : ℕ → ℕ) (n : ℕ) : ℕ → ℕ :=
  Nat.rec (fun x => x) (fun _ ih x => Nat.rec (ih 0) (fun y _ => ih (y + 1)) (f x)) n

theorem forceIter_eq (f : ℕ → ℕ) : ∀ n x, forceIter f n x = f^[n] x
  | 0, _ => rfl
  | n + 1, x => by
    rw [Function.iterate_succ_apply, ← forceIter_eq f n]
    show (Nat.rec (forceIter f n 0) (fun y _ => forceIter f n (y + 1)) (f x) : ℕ) = _
    cases f x <;> rfl

/-- `n` steps in blocks of 1024 and 32, so that the evaluation is never deep -/
def wrapIter (a n x : ℕ) : ℕ :=
  forceIter (wrapStep a) (n % 32) (forceIter (forceIter (wrapStep a) 32) (n / 32 % 32)
    (forceIter (forceIter (forceIter (wrapStep a) 32) 32) (n / 1024) x))

theorem wrapIter_eq (a n x : ℕ) : wrapIter a n x = (wrapStep a)^[n] x := by
  have e : ∀ f n, forceIter f n = f^[n] := fun f n => funext (forceIter_eq f n)
  simp only [wrapIter, e]
  rw [← Function.iterate_mul, ← Function.iterate_mul, ← Function.iterate_mul, ← Function.iterate_add_apply, ← Function.iterate_add_apply]
  congr 1
  omega

/-- a preset delivers the iterates of `wrapStep` -/
theorem delivers_minstd0 {seed : W} {g : Lcg 32} (hnew : minstdRand0 (.ok seed) = .ok g) :
    Delivers (lcgSource 32) g (fun k => (wrapStep 16807)^[k + 1] seed.toNat) :=
  C63_minstd0_wrapping hnew (X := fun k => (wrapStep 16807)^[k] seed.toNat) rfl (fun _ => Function.iterate_succ_apply' _ _ _)

theorem delivers_minstd {seed : W} {g : Lcg 32} (hnew : minstdRand (.ok seed) = .ok g) :
    Delivers (lcgSource 32) g (fun k => (wrapStep 48271)^[k + 1] seed.toNat) :=
  C63_minstd_wrapping hnew (X := fun k => (wrapStep 48271)^[k] seed.toNat) rfl (fun _ => Function.iterate_succ_apply' _ _ _)

/-- what is delivered is determined -/
theorem Delivers.unique {b : Nat} {σ : Type} {src : Source b σ} {g : σ} {Y Z : ℕ → ℕ} (hY : Delivers src g Y) (hZ : Delivers src g Z) :
    Y = Z := by
  funext k
  obtain ⟨o, g', h, ho⟩ := hY (k + 1)
  obtain ⟨o2, g2, h', ho'⟩ := hZ (k + 1)
  rw [h] at h'
  cases h'
  rw [ho] at ho'
  have := congrArg (fun l : List ℕ => l[k]?) ho'
  simpa using this

/-- a repeated value makes the iterates periodic -/
theorem iterate_period {f : ℕ → ℕ} {x s p : ℕ} (h : f^[s + p] x = f^[s] x) {k : ℕ} (hk : s ≤ k) : f^[k + p] x = f^[k] x := by
  obtain ⟨d, rfl⟩ := Nat.exists_eq_add_of_le hk
  rw [show s + d + p = d + (s + p) by omega, Function.iterate_add_apply, h, ← Function.iterate_add_apply, Nat.add_comm d s]

/-- the least period, from its prime divisors -/
theorem least_period {f : ℕ → ℕ} {y p : ℕ} (hp : 0 < p) (h : f^[p] y = y) (hq : ∀ q : ℕ, q.Prime → q ∣ p → f^[p / q] y ≠ y) {d : ℕ}
    (hd : f^[d] y = y) : p ∣ d := by
  have hm : Function.minimalPeriod f y ∣ p := Function.IsPeriodicPt.minimalPeriod_dvd h
  have : Function.minimalPeriod f y = p := by
    by_contra hne
    obtain ⟨c, hc⟩ := hm
    have hc1 : c ≠ 1 := by rintro rfl; exact hne (by rw [← mul_one (Function.minimalPeriod f y)]; exact hc.symm)
    obtain ⟨q, hqp, e, rfl⟩ := Nat.exists_prime_and_dvd hc1
    refine hq q hqp ⟨Function.minimalPeriod f y * e, by rw [hc]; ring⟩ ?_
    have : p / q = Function.minimalPeriod f y * e := by
      rw [hc]
      exact Nat.div_eq_of_eq_mul_left hqp.pos (by ring)
    rw [this]
    exact (Function.isPeriodicPt_minimalPeriod f y).mul_const e
  exact this ▸ Function.IsPeriodicPt.minimalPeriod_dvd hd

/-- iterates that enter a cycle of the least length `p` after `s + 1` steps: those before the first repetition are different -/
theorem iterate_distinct {f : ℕ → ℕ} {x s p : ℕ} (h : f^[s + 1 + p] x = f^[s + 1] x) (hp : 0 < p)
    (hq : ∀ q : ℕ, q.Prime → q ∣ p → f^[s + 1 + p / q] x ≠ f^[s + 1] x) (hs : f^[s + p] x ≠ f^[s] x) {i j : ℕ} (hij : i < j)
    (hj : j < s + 1 + p) : f^[i] x ≠ f^[j] x := by
  intro he
  have hd : ∀ n, i ≤ n → f^[n + (j - i)] x = f^[n] x := fun n hn => iterate_period (by rw [Nat.add_sub_cancel' hij.le, he]) hn
  have hy : ∀ n, f^[s + 1 + n] x = f^[n] (f^[s + 1] x) := fun n => by rw [Nat.add_comm (s + 1), Function.iterate_add_apply]
  -- at the end of the common tail
  have hdp : p ∣ j - i := by
    refine least_period (f := f) (y := f^[s + 1] x) hp (by rw [← hy]; exact h) (fun q h1 h2 => by rw [← hy]; exact hq q h1 h2) ?_
    rw [← hy]
    -- go round until past i
    have hround : ∀ n, s + 1 ≤ n → ∀ c, f^[n + c * p] x = f^[n] x := by
      intro n hn c
      induction c with
      | zero => simp
      | succ c ih => rw [Nat.succ_mul, ← Nat.add_assoc, iterate_period h (by omega), ih]
    have h1 := hd (s + 1 + i * p) (by nlinarith [Nat.zero_le s])
    rwa [hround _ le_rfl, Nat.add_right_comm, hround _ (by omega)] at h1
  obtain ⟨c, hc⟩ := hdp
  have hc0 : 0 < c := by rcases Nat.eq_zero_or_pos c with rfl | h; · omega
                         · exact h
  have hpd : p ≤ j - i := by rw [hc]; exact Nat.le_mul_of_pos_right _ hc0
  have his : i ≤ s := by omega
  refine hs ?_
  rw [← hd s his, hc]
  obtain ⟨c, rfl⟩ : ∃ c', c = c' + 1 := ⟨c - 1, by omega⟩
  clear hc hc0
  induction c with
  | zero => rw [Nat.zero_add, Nat.mul_one]
  | succ c ih => rw [ih, Nat.mul_succ p (c + 1), ← Nat.add_assoc, iterate_period h (by nlinarith)]

/-- `Y` repeats itself from the place `s` on with the period `p`, and the first `s + p` numbers are all different: there are no others -/
def ShortCycle (s p : ℕ) (Y : ℕ → ℕ) : Prop :=
  (∀ k, s ≤ k → Y (k + p) = Y k) ∧ (∀ i j, i < j → j < s + p → Y i ≠ Y j) ∧ ∀ k, ∃ j, j < s + p ∧ Y k = Y j

theorem shortCycle {f : ℕ → ℕ} {x s p : ℕ} (h : f^[s + 1 + p] x = f^[s + 1] x) (hp : 0 < p)
    (hq : ∀ q : ℕ, q.Prime → q ∣ p → f^[s + 1 + p / q] x ≠ f^[s + 1] x) (hs : f^[s + p] x ≠ f^[s] x) :
    ShortCycle s p (fun k => f^[k + 1] x) := by
  have hper : ∀ k, s ≤ k → f^[k + p + 1] x = f^[k + 1] x := fun k hk => by
    rw [show k + p + 1 = k + 1 + p by omega, iterate_period h (by omega)]
  refine ⟨hper, fun i j hij hj => iterate_distinct h hp hq hs (by omega) (by omega), fun k => ?_⟩
  induction k using Nat.strong_induction_on with
  | _ k ih =>
    by_cases hk : k < s + p
    · exact ⟨k, hk, rfl⟩
    · obtain ⟨j, hj, e⟩ := ih (k - p) (by omega)
      refine ⟨j, hj, ?_⟩
      rw [← e]
      have := hper (k - p) (by omega)
      rwa [Nat.sub_add_cancel (by omega)] at this

/-- fewer than `m - 1` different numbers are no full period -/
theorem ShortCycle.not_full {s p m : ℕ} {Y : ℕ → ℕ} (h : ShortCycle s p Y) (hm : s + p < m - 1) : ¬ FullPeriod m Y := by
  rintro ⟨hper, hall⟩
  obtain ⟨j, hj, e⟩ := h.2.2 (s + p)
  obtain ⟨k, hk⟩ : ∃ k, k < m - 1 := ⟨_, hm⟩
  -- the words at the places s + p and j < s + p are equal and both in the first period
  by_cases hz : 0 < Y j ∧ Y j < m
  · obtain ⟨_, _, hu⟩ := hall (Y j) hz.1 hz.2
    have h1 := hu j ⟨by omega, rfl⟩
    have h2 := hu (s + p) ⟨hm, e⟩
    omega
  · -- m - 1 numbers at m - 1 places: no place is left
    have hinj : ∀ v, v < m - 1 → ∃ k, k < m - 1 ∧ Y k = v + 1 := fun v hv => by
      obtain ⟨k, hk, _⟩ := hall (v + 1) (by omega) (by omega)
      exact ⟨k, hk⟩
    choose! F hF using hinj
    have himg : (Finset.range (m - 1)).image F ⊆ (Finset.range (m - 1)).erase j := by
      intro x hx
      obtain ⟨v, hv, rfl⟩ := Finset.mem_image.1 hx
      have := hF v (Finset.mem_range.1 hv)
      refine Finset.mem_erase.2 ⟨fun hj' => hz ?_, Finset.mem_range.2 this.1⟩
      have hv := Finset.mem_range.1 hv
      rw [← hj', this.2]
      omega
    have hcard := Finset.card_le_card himg
    rw [Finset.card_image_of_injOn, Finset.card_erase_of_mem (Finset.mem_range.2 (by omega)), Finset.card_range] at hcard
    · omega
    · intro u hu v hv huv
      have h1 := (hF u (Finset.mem_range.1 hu)).2
      have h2 := (hF v (Finset.mem_range.1 hv)).2
      rw [huv] at h1
      omega

theorem cycle16807 : ShortCycle 16312 21729 (fun k => (wrapStep 16807)^[k + 1] 1) := by
  refine shortCycle ?_ (by norm_num) (fun q hq hd => ?_) ?_
  · rw [← wrapIter_eq, ← wrapIter_eq]
    decide +kernel
  · rw [show 21729 = 3 * 7243 by norm_num, hq.dvd_mul, Nat.prime_dvd_prime_iff_eq hq (by norm_num),
      Nat.prime_dvd_prime_iff_eq hq (by norm_num)] at hd
    rw [← wrapIter_eq, ← wrapIter_eq]
    rcases hd with rfl | rfl <;> decide +kernel
  · rw [← wrapIter_eq, ← wrapIter_eq]
    decide +kernel

theorem cycle48271 : ShortCycle 43634 31396 (fun k => (wrapStep 48271)^[k + 1] 1) := by
  refine shortCycle ?_ (by norm_num) (fun q hq hd => ?_) ?_
  · rw [← wrapIter_eq, ← wrapIter_eq]
    decide +kernel
  · rw [show 31396 = 2 * 2 * 47 * 167 by norm_num, hq.dvd_mul, hq.dvd_mul, hq.dvd_mul, Nat.prime_dvd_prime_iff_eq hq (by norm_num),
      Nat.prime_dvd_prime_iff_eq hq (by norm_num), Nat.prime_dvd_prime_iff_eq hq (by norm_num)] at hd
    rw [← wrapIter_eq, ← wrapIter_eq]
    rcases hd with ((rfl | rfl) | rfl) | rfl <;> decide +kernel
  · rw [← wrapIter_eq, ← wrapIter_eq]
    decide +kernel

/-- **C133 is violated** by both presets, of which `minstd_rand0!` with the seed 1 delivers no more than 38041 different words: after 16312
words it goes round in a cycle of 21729.  `minstd_rand!` goes round in a cycle of 31396 after 43634 words. -/
theorem C133_violated :
    (∃ g Y, minstdRand0 (.ok 1#32) = .ok g ∧ Delivers (lcgSource 32) g Y ∧ ShortCycle 16312 21729 Y ∧ ¬ FullPeriod (2 ^ 31 - 1) Y) ∧
    ∃ g Y, minstdRand (.ok 1#32) = .ok g ∧ Delivers (lcgSource 32) g Y ∧ ShortCycle 43634 31396 Y ∧ ¬ FullPeriod (2 ^ 31 - 1) Y :=
  ⟨⟨_, _, rfl, delivers_minstd0 rfl, cycle16807, cycle16807.not_full (by norm_num)⟩,
   ⟨_, _, rfl, delivers_minstd rfl, cycle48271, cycle48271.not_full (by norm_num)⟩⟩

theorem wrapStep_zero (a n : ℕ) : (wrapStep a)^[n] 0 = 0 := by
  induction n with
  | zero => rfl
  | succ n ih => rw [Function.iterate_succ_apply', ih]; rfl

theorem stuck (a x : ℕ) {k : ℕ} (h : (wrapStep a)^[k + 1] x = 0) {j : ℕ} (hj : k ≤ j) : (wrapStep a)^[j + 1] x = 0 := by
  obtain ⟨d, rfl⟩ := Nat.exists_eq_add_of_le hj
  rw [show k + d + 1 = d + (k + 1) by omega, Function.iterate_add_apply, h, wrapStep_zero]

theorem wrapStep_lt (a x k : ℕ) : (wrapStep a)^[k + 1] x < 2147483647 := by
  rw [Function.iterate_succ_apply']
  exact Nat.mod_lt _ (by norm_num)

theorem rem_cases {r x : ℕ} (h : r < 4294967296) (e : r % 2147483647 = x) (hx : x < 2147483647) :
    r = x ∨ r = x + 2147483647 ∨ (r = x + 4294967294 ∧ x < 2) := by omega

theorem first_zero16807 {x : ℕ} (hx : x < 2 ^ 32) (h : wrapStep 16807 x = 0) : x = 0 ∨ x = 868985321 ∨ x = 1737970642 := by
  have hr := rem_cases (Nat.mod_lt (16807 * x) (by norm_num)) h (by norm_num)
  have hd : x = 1278498327 * (16807 * x % 4294967296) % 4294967296 := by
    rw [Nat.mul_mod_mod, ← Nat.mul_assoc, Nat.mul_mod]
    norm_num
    exact (Nat.mod_eq_of_lt hx).symm
  rcases hr with hr | hr | ⟨hr, -⟩ <;> rw [hr] at hd <;> revert hd <;> norm_num <;> intro hd <;> simp [hd]

theorem fixed16807 {x : ℕ} (hx : x < 2147483647) (h : wrapStep 16807 x = x) : x = 0 := by
  have hr := rem_cases (Nat.mod_lt (16807 * x) (by norm_num)) h hx
  have hd := Nat.div_add_mod (16807 * x) 4294967296
  generalize 16807 * x / 4294967296 = t at hd
  rcases hr with hr | hr | ⟨hr, h2⟩ <;> rw [hr] at hd <;> clear hr h <;> omega

theorem first_zero48271 {x : ℕ} (hx : x < 2 ^ 32) (h : wrapStep 48271 x = 0) : x = 0 ∨ x = 1622613393 ∨ x = 3245226786 := by
  have hr := rem_cases (Nat.mod_lt (48271 * x) (by norm_num)) h (by norm_num)
  have hd : x = 524870255 * (48271 * x % 4294967296) % 4294967296 := by
    rw [Nat.mul_mod_mod, ← Nat.mul_assoc, Nat.mul_mod]
    norm_num
    exact (Nat.mod_eq_of_lt hx).symm
  rcases hr with hr | hr | ⟨hr, -⟩ <;> rw [hr] at hd <;> revert hd <;> norm_num <;> intro hd <;> simp [hd]

theorem fixed48271 {x : ℕ} (hx : x < 2147483647) (h : wrapStep 48271 x = x) : x = 0 := by
  have hr := rem_cases (Nat.mod_lt (48271 * x) (by norm_num)) h hx
  have hd := Nat.div_add_mod (48271 * x) 4294967296
  generalize 48271 * x / 4294967296 = t at hd
  rcases hr with hr | hr | ⟨hr, h2⟩ <;> rw [hr] at hd <;> clear hr h <;> omega

/-- What a preset delivers for any seed: once a word is 0 all others are; the first is 0 for three seeds only, two of which are no multiples
of the modulus; and no word but 0 comes twice in a row. -/
theorem C133_stuck {seed : W} {g : Lcg 32} (hnew : minstdRand0 (.ok seed) = .ok g) : ∃ Y, Delivers (lcgSource 32) g Y ∧
    (∀ k j, k ≤ j → Y k = 0 → Y j = 0) ∧ (Y 0 = 0 ↔ seed.toNat = 0 ∨ seed.toNat = 868985321 ∨ seed.toNat = 1737970642) ∧
    ∀ k, Y (k + 1) = Y k → Y k = 0 := by
  refine ⟨_, delivers_minstd0 hnew, fun k j hj h => stuck _ _ h hj, ?_, fun k h => ?_⟩
  · have := seed.isLt
    simp only [Nat.zero_add, Function.iterate_one]
    constructor
    · intro h
      exact first_zero16807 this h
    · rintro (h | h | h) <;> rw [h] <;> rfl
  · have hlt := wrapStep_lt 16807 seed.toNat k
    simp only [Function.iterate_succ_apply' _ (k + 1)] at h
    generalize (wrapStep 16807)^[k + 1] seed.toNat = x at h hlt ⊢
    exact fixed16807 hlt h

theorem C133_stuck_minstd {seed : W} {g : Lcg 32} (hnew : minstdRand (.ok seed) = .ok g) : ∃ Y, Delivers (lcgSource 32) g Y ∧
    (∀ k j, k ≤ j → Y k = 0 → Y j = 0) ∧ (Y 0 = 0 ↔ seed.toNat = 0 ∨ seed.toNat = 1622613393 ∨ seed.toNat = 3245226786) ∧
    ∀ k, Y (k + 1) = Y k → Y k = 0 := by
  refine ⟨_, delivers_minstd hnew, fun k j hj h => stuck _ _ h hj, ?_, fun k h => ?_⟩
  · have := seed.isLt
    simp only [Nat.zero_add, Function.iterate_one]
    constructor
    · intro h
      exact first_zero48271 this h
    · rintro (h | h | h) <;> rw [h] <;> rfl
  · have hlt := wrapStep_lt 48271 seed.toNat k
    simp only [Function.iterate_succ_apply' _ (k + 1)] at h
    generalize (wrapStep 48271)^[k + 1] seed.toNat = x at h hlt ⊢
    exact fixed48271 hlt h

example : ¬ 2147483647 ∣ 868985321 ∧ ∃ g, minstdRand0 (.ok 868985321#32) = .ok g := ⟨by norm_num, _, rfl⟩

end RMath
