import Verif.Props.RandPeriod
import Verif.Lemmas.Ranlux
import Mathlib.Algebra.BigOperators.Intervals
import Mathlib.Algebra.Order.BigOperators.Ring.Finset
import Mathlib.Tactic.LinearCombination

/-!
# Property C135: subtract with carry is a linear congruential generator in disguise

The words of a subtract-with-carry generator with words of `w` bits and lags `s < r` are the last digits, in base `2^w`, of the numbers of a
multiplicative congruential generator whose modulus is `2^(w r) - 2^(w s) + 1`.  This gives the period, and with the modulus of
`ranlux24_base!` and `ranlux48_base!`, which is a prime, the exact length of the period of both for every seed.
-/

namespace RMath

/-- the modulus of the generator behind a subtract-with-carry generator -/
def swcModulus (w s r : ℕ) : ℕ := 2 ^ (w * r) - 2 ^ (w * s) + 1

/-- its multiplier -/
def swcMultiplier (w s r : ℕ) : ℕ := swcModulus w s r - (2 ^ (w * (r - 1)) - 2 ^ (w * (s - 1)))

/-- `Y` are the words that the congruential sequence `U` stands behind -/
def Behind (w s r : ℕ) (U Y : ℕ → ℕ) : Prop :=
  (0 < U 0 ∧ U 0 < swcModulus w s r) ∧ LcgSeq (swcMultiplier w s r) 0 (swcModulus w s r) (U 0) U ∧ ∀ k, Y k = (U k - 1) % 2 ^ w

/-- the number with the digits `X k`, …, `X (k + n - 1)`, least significant first -/
def digits (B : ℤ) (X : ℕ → ℕ) (k n : ℕ) : ℤ := ∑ i ∈ Finset.range n, (X (k + i) : ℤ) * B ^ i

/-- the stream `Y` has the period `n`, from its first word on, and no period but the multiples of `n`, not even from some later word on -/
def ExactPeriod (n : ℕ) (Y : ℕ → ℕ) : Prop :=
  0 < n ∧ (∀ k, Y (k + n) = Y k) ∧ ∀ j, (∃ k₀, ∀ k, k₀ ≤ k → Y (k + j) = Y k) → n ∣ j

/-! ## Proof -/

theorem digits_step (B : ℤ) (X : ℕ → ℕ) (k n : ℕ) : B * digits B X (k + 1) n = digits B X k n - X k + X (k + n) * B ^ n := by
  have h1 := Finset.sum_range_succ (fun i => (X (k + i) : ℤ) * B ^ i) n
  have h2 := Finset.sum_range_succ' (fun i => (X (k + i) : ℤ) * B ^ i) n
  rw [h1] at h2
  have h3 : B * digits B X (k + 1) n = ∑ i ∈ Finset.range n, (X (k + (i + 1)) : ℤ) * B ^ (i + 1) := by
    unfold digits
    rw [Finset.mul_sum]
    refine Finset.sum_congr rfl fun i _ => ?_
    rw [show k + 1 + i = k + (i + 1) by omega]
    ring
  rw [h3]
  unfold digits
  simp only [Nat.add_zero, pow_zero, mul_one] at h2
  linarith

theorem digits_append (B : ℤ) (X : ℕ → ℕ) (k m n : ℕ) : digits B X k (m + n) = digits B X k m + B ^ m * digits B X (k + m) n := by
  unfold digits
  rw [Finset.sum_range_add, Finset.mul_sum]
  congr 1
  refine Finset.sum_congr rfl fun i _ => ?_
  rw [pow_add, Nat.add_assoc]
  ring

theorem digits_bounds {B : ℤ} (hB : 0 < B) {X : ℕ → ℕ} (hX : ∀ i, (X i : ℤ) < B) (k n : ℕ) : 0 ≤ digits B X k n ∧ digits B X k n < B ^ n := by
  induction n with
  | zero => simp [digits]
  | succ n ih =>
    have e : digits B X k (n + 1) = digits B X k n + X (k + n) * B ^ n := Finset.sum_range_succ _ _
    have hp : 0 < B ^ n := by positivity
    have h0 : (0 : ℤ) ≤ X (k + n) := by positivity
    have h1 := hX (k + n)
    rw [e, pow_succ]
    constructor
    · nlinarith
    · nlinarith

section
variable {w s r : ℕ}

theorem swcModulus_cast (hsr : s < r) : ((swcModulus w s r : ℕ) : ℤ) = ((2 : ℤ) ^ w) ^ r - ((2 : ℤ) ^ w) ^ s + 1 := by
  have h : 2 ^ (w * s) ≤ 2 ^ (w * r) := Nat.pow_le_pow_right (by decide) (Nat.mul_le_mul_left _ hsr.le)
  unfold swcModulus
  push_cast [Nat.cast_sub h]
  rw [pow_mul, pow_mul]

theorem swcMultiplier_cast (hs : 0 < s) (hsr : s < r) :
    ((swcMultiplier w s r : ℕ) : ℤ) = swcModulus w s r - ((2 : ℤ) ^ w) ^ (r - 1) + ((2 : ℤ) ^ w) ^ (s - 1) := by
  have h : 2 ^ (w * (s - 1)) ≤ 2 ^ (w * (r - 1)) := Nat.pow_le_pow_right (by decide) (Nat.mul_le_mul_left _ (by omega))
  have h' : 2 ^ (w * (r - 1)) - 2 ^ (w * (s - 1)) ≤ swcModulus w s r := by
    unfold swcModulus
    obtain ⟨s, rfl⟩ : ∃ t, s = t + 1 := ⟨s - 1, by omega⟩
    obtain ⟨r, rfl⟩ : ∃ t, r = t + 1 := ⟨r - 1, by omega⟩
    simp only [Nat.add_sub_cancel, Nat.mul_add, Nat.mul_one, Nat.pow_add] at *
    have hw : 1 ≤ 2 ^ w := Nat.one_le_two_pow
    rw [← Nat.sub_mul]
    have := Nat.le_mul_of_pos_right (2 ^ (w * r) - 2 ^ (w * s)) hw
    omega
  unfold swcMultiplier
  push_cast [Nat.cast_sub h', Nat.cast_sub h]
  rw [pow_mul, pow_mul]
  ring

/-- the multiplier is the inverse of `2^w` -/
theorem swc_inverse (hs : 0 < s) (hsr : s < r) :
    ((swcMultiplier w s r : ℕ) : ℤ) * 2 ^ w = 1 + swcModulus w s r * (2 ^ w - 1) := by
  rw [swcMultiplier_cast hs hsr]
  have e1 : ((2 : ℤ) ^ w) ^ r = (2 ^ w) ^ (r - 1) * 2 ^ w := by rw [← pow_succ, Nat.sub_add_cancel (by omega)]
  have e2 : ((2 : ℤ) ^ w) ^ s = (2 ^ w) ^ (s - 1) * 2 ^ w := by rw [← pow_succ, Nat.sub_add_cancel (by omega)]
  have := swcModulus_cast (w := w) hsr
  linear_combination this + e1 - e2

theorem swcModulus_pos : 0 < swcModulus w s r := Nat.succ_pos _

theorem swcModulus_mod (hs : 0 < s) (hsr : s < r) : ∃ c : ℤ, ((swcModulus w s r : ℕ) : ℤ) = 1 + 2 ^ w * c := by
  refine ⟨((2 : ℤ) ^ w) ^ (r - 1) - (2 ^ w) ^ (s - 1), ?_⟩
  have e1 : ((2 : ℤ) ^ w) ^ r = (2 ^ w) ^ (r - 1) * 2 ^ w := by rw [← pow_succ, Nat.sub_add_cancel (by omega)]
  have e2 : ((2 : ℤ) ^ w) ^ s = (2 ^ w) ^ (s - 1) * 2 ^ w := by rw [← pow_succ, Nat.sub_add_cancel (by omega)]
  rw [swcModulus_cast hsr, e1, e2]
  ring

theorem swcModulus_le (hw : 0 < w) (hs : 0 < s) (hsr : s < r) : ((swcModulus w s r : ℕ) : ℤ) < (2 ^ w) ^ r := by
  rw [swcModulus_cast hsr]
  have : (1 : ℤ) < (2 ^ w) ^ s := by
    rw [← pow_mul]
    exact one_lt_pow₀ (by norm_num) (by positivity)
  linarith

/-! ### The sequence behind -/

variable {init X C : ℕ → ℕ}

/-- the number that the state stands for -/
def swcZ (w s r : ℕ) (X C : ℕ → ℕ) (k : ℕ) : ℤ := digits (2 ^ w) X k r - digits (2 ^ w) X (k + (r - s)) s + C k

theorem swcZ_step (hsr : s < r) (h : SwcSeq w s r init X C) (k : ℕ) (hX : ∀ i, (X i : ℤ) < 2 ^ w) (hC : ∀ k, C k ≤ 1) :
    2 ^ w * swcZ w s r X C (k + 1) = swcZ w s r X C k + X (k + r) * swcModulus w s r := by
  have e1 := digits_step (2 ^ w) X k r
  have e2 := digits_step (2 ^ w) X (k + (r - s)) s
  rw [show k + (r - s) + 1 = k + 1 + (r - s) by omega, show k + (r - s) + s = k + r by omega] at e2
  obtain ⟨h1, h2⟩ := h.2.2 k
  rw [show k + r - s = k + (r - s) by omega] at h1 h2
  have e3 : (X (k + r) : ℤ) = X (k + (r - s)) - X k - C k + 2 ^ w * C (k + 1) := by
    have b1 := hX (k + (r - s))
    have b2 := hX k
    have b3 := hC k
    have b4 : (0 : ℤ) < 2 ^ w := by positivity
    rw [h1, h2]
    split
    · rename_i hn
      rw [← Int.add_mul_emod_self_left _ (2 ^ w) 1, Int.emod_eq_of_lt (by omega) (by omega)]
      push_cast
      ring
    · rename_i hn
      rw [Int.emod_eq_of_lt (by omega) (by omega)]
      push_cast
      ring
  rw [swcModulus_cast hsr]
  unfold swcZ
  linear_combination e1 - e2 - e3

theorem swcZ_bounds (hw : 0 < w) (hs : 0 < s) (hsr : s < r) (k : ℕ) (hX : ∀ i, (X i : ℤ) < 2 ^ w) (hC : ∀ k, C k ≤ 1) :
    0 ≤ swcZ w s r X C k ∧ swcZ w s r X C k ≤ swcModulus w s r ∧
    (swcZ w s r X C k = 0 → (X (k + (r - 1)) : ℤ) = 0 ∧ C k = 0) ∧
    (swcZ w s r X C k = swcModulus w s r → (X (k + (r - 1)) : ℤ) = 2 ^ w - 1 ∧ C k = 1) := by
  have hB : (0 : ℤ) < 2 ^ w := by positivity
  have e := digits_append (2 ^ w) X k (r - s) s
  rw [Nat.sub_add_cancel hsr.le] at e
  obtain ⟨l0, l1⟩ := digits_bounds hB hX k (r - s)
  obtain ⟨t0, t1⟩ := digits_bounds hB hX (k + (r - s)) s
  have ht : digits (2 ^ w) X (k + (r - s)) s = digits (2 ^ w) X (k + (r - s)) (s - 1) + (2 ^ w) ^ (s - 1) * X (k + (r - 1)) := by
    have := digits_append (2 ^ w) X (k + (r - s)) (s - 1) 1
    rw [Nat.sub_add_cancel hs] at this
    rw [this, show digits (2 ^ w) X (k + (r - s) + (s - 1)) 1 = X (k + (r - 1)) by
      unfold digits
      simp only [Finset.range_one, Finset.sum_singleton, pow_zero, mul_one, Nat.add_zero]
      rw [show k + (r - s) + (s - 1) = k + (r - 1) by omega]]
  obtain ⟨u0, u1⟩ := digits_bounds hB hX (k + (r - s)) (s - 1)
  have hx := hX (k + (r - 1))
  have hx0 : (0 : ℤ) ≤ X (k + (r - 1)) := by positivity
  have hc := hC k
  have hq : (0 : ℤ) < (2 ^ w) ^ (s - 1) := by positivity
  have hQ : (1 : ℤ) < (2 ^ w) ^ (r - s) := by
    rw [← pow_mul]
    exact one_lt_pow₀ (by norm_num) (Nat.mul_ne_zero (by omega) (by omega))
  have es : ((2 : ℤ) ^ w) ^ s = (2 ^ w) ^ (s - 1) * 2 ^ w := by rw [← pow_succ, Nat.sub_add_cancel (by omega)]
  have er : ((2 : ℤ) ^ w) ^ r = (2 ^ w) ^ (r - s) * (2 ^ w) ^ s := by rw [← pow_add, Nat.sub_add_cancel hsr.le]
  have hm := swcModulus_cast (w := w) hsr
  unfold swcZ
  rw [hm, e, er]
  generalize digits (2 ^ w) X k (r - s) = lo at *
  generalize digits (2 ^ w) X (k + (r - s)) s = hi at *
  generalize digits (2 ^ w) X (k + (r - s)) (s - 1) = hl at *
  generalize ((2 : ℤ) ^ w) ^ (r - s) = Q at *
  generalize ((2 : ℤ) ^ w) ^ (s - 1) = q at *
  generalize ((2 : ℤ) ^ w) ^ s = P at *
  generalize ((2 : ℤ) ^ w) = B at *
  generalize (X (k + (r - 1)) : ℤ) = x at *
  have hc0 : (0 : ℤ) ≤ C k := by positivity
  have hc1 : (C k : ℤ) ≤ 1 := by exact_mod_cast hc
  have p1 : 0 ≤ (Q - 1) * hi := mul_nonneg (by omega) t0
  have p2 : 0 ≤ (Q - 1) * (P - 1 - hi) := mul_nonneg (by omega) (by omega)
  refine ⟨by linarith, by nlinarith, fun hz => ?_, fun hz => ?_⟩
  · have h1 : (Q - 1) * hi = 0 := by linarith
    have h2 : hi = 0 := by
      rcases mul_eq_zero.1 h1 with h | h
      · omega
      · exact h
    have h3 : q * x = 0 := by
      have := mul_nonneg hq.le hx0
      linarith
    rcases mul_eq_zero.1 h3 with h | h
    · omega
    · refine ⟨h, ?_⟩
      have : (C k : ℤ) = 0 := by linarith
      exact_mod_cast this
  · have h1 : (Q - 1) * (P - 1 - hi) = 0 := by nlinarith
    have h2 : hi = P - 1 := by
      rcases mul_eq_zero.1 h1 with h | h
      · omega
      · omega
    refine ⟨?_, ?_⟩
    · by_contra hne
      have hx' : x + 1 ≤ B - 1 := by omega
      nlinarith
    · have : (C k : ℤ) = 1 := by nlinarith
      exact_mod_cast this

theorem swcZ_inside (hw : 0 < w) (hs : 0 < s) (hsr : s < r) (h : SwcSeq w s r init X C) (hX : ∀ i, (X i : ℤ) < 2 ^ w) (hC : ∀ k, C k ≤ 1) (k : ℕ) :
    0 < swcZ w s r X C k ∧ swcZ w s r X C k < swcModulus w s r := by
  have hB : (1 : ℤ) < 2 ^ w := one_lt_pow₀ (by norm_num) (by omega)
  induction k with
  | zero =>
    obtain ⟨b0, b1, b2, b3⟩ := swcZ_bounds hw hs hsr 0 hX hC
    rw [Nat.zero_add] at b2 b3
    have hc := h.2.1
    refine ⟨lt_of_le_of_ne b0 fun e => ?_, lt_of_le_of_ne b1 fun e => ?_⟩
    · obtain ⟨x0, c0⟩ := b2 e.symm
      rw [if_pos (by exact_mod_cast x0)] at hc
      omega
    · obtain ⟨x0, c0⟩ := b3 e
      rw [if_neg (by omega)] at hc
      omega
  | succ k ih =>
    obtain ⟨ih0, ih1⟩ := ih
    obtain ⟨b0, b1, _, _⟩ := swcZ_bounds hw hs hsr (k + 1) hX hC
    have e := swcZ_step hsr h k hX hC
    have hm : (0 : ℤ) < swcModulus w s r := by exact_mod_cast swcModulus_pos
    have hx0 : (0 : ℤ) ≤ X (k + r) := by positivity
    have hx := hX (k + r)
    refine ⟨lt_of_le_of_ne b0 fun e' => ?_, lt_of_le_of_ne b1 fun e' => ?_⟩
    · rw [← e'] at e
      have := mul_nonneg hx0 hm.le
      linarith
    · rw [e'] at e
      have := mul_nonneg (show (0 : ℤ) ≤ 2 ^ w - X (k + r) - 1 by linarith) hm.le
      nlinarith

theorem swc_behind (hw : 0 < w) (hs : 0 < s) (hsr : s < r) (h : SwcSeq w s r init X C) (hX : ∀ i, (X i : ℤ) < 2 ^ w) (hC : ∀ k, C k ≤ 1) :
    Behind w s r (fun k => (swcModulus w s r - swcZ w s r X C k).toNat) (fun k => X (k + r)) := by
  have hin := swcZ_inside hw hs hsr h hX hC
  refine ⟨?_, ⟨rfl, fun k => ?_⟩, fun k => ?_⟩
  · have := hin 0
    show 0 < Int.toNat _ ∧ Int.toNat _ < _
    omega
  · have e := swcZ_step hsr h k hX hC
    have hi := swc_inverse (w := w) hs hsr
    obtain ⟨a0, a1⟩ := hin k
    obtain ⟨c0, c1⟩ := hin (k + 1)
    zify
    rw [Int.toNat_of_nonneg (by omega), Int.toNat_of_nonneg (by omega), add_zero]
    have : (swcMultiplier w s r : ℤ) * (swcModulus w s r - swcZ w s r X C k) = (swcModulus w s r - swcZ w s r X C (k + 1)) +
        swcModulus w s r * (swcMultiplier w s r - 1 - (2 ^ w - 1) * swcZ w s r X C (k + 1) + swcMultiplier w s r * X (k + r)) := by
      linear_combination (swcMultiplier w s r : ℤ) * e - swcZ w s r X C (k + 1) * hi
    rw [this, Int.add_mul_emod_self_left, Int.emod_eq_of_lt (by omega) (by omega)]
  · have e := swcZ_step hsr h k hX hC
    obtain ⟨c, hc⟩ := swcModulus_mod (w := w) hs hsr
    obtain ⟨a0, a1⟩ := hin k
    zify
    rw [Nat.cast_sub (by omega), Int.toNat_of_nonneg (by omega)]
    push_cast
    have : (swcModulus w s r : ℤ) - swcZ w s r X C k - 1 = X (k + r) + 2 ^ w * (c - swcZ w s r X C (k + 1) + X (k + r) * c) := by
      linear_combination e + (1 + X (k + r)) * hc
    rw [this, Int.add_mul_emod_self_left, Int.emod_eq_of_lt (by positivity) (hX _)]

/-! ### What the sequence behind tells -/

variable {U Y U' Y' : ℕ → ℕ}

theorem behind_inside (hs : 0 < s) (hsr : s < r) (h : Behind w s r U Y) (k : ℕ) : 0 < U k ∧ U k < swcModulus w s r := by
  induction k with
  | zero => exact h.1
  | succ k ih =>
    have e := h.2.1.2 k
    refine ⟨?_, by rw [e]; exact Nat.mod_lt _ swcModulus_pos⟩
    rw [Nat.pos_iff_ne_zero]
    intro h0
    rw [h0, Nat.add_zero] at e
    have hd : swcModulus w s r ∣ swcMultiplier w s r * U k := Nat.dvd_of_mod_eq_zero e.symm
    have hd' : (swcModulus w s r : ℤ) ∣ U k := by
      obtain ⟨t, ht⟩ := hd
      have ht' : (swcMultiplier w s r : ℤ) * U k = swcModulus w s r * t := by exact_mod_cast ht
      refine ⟨2 ^ w * t - (2 ^ w - 1) * U k, ?_⟩
      linear_combination 2 ^ w * ht' - U k * swc_inverse (w := w) hs hsr
    have := Nat.le_of_dvd ih.1 (by exact_mod_cast hd')
    omega

/-- how a number of the sequence and the next one hang together -/
theorem behind_step (hs : 0 < s) (hsr : s < r) (h : Behind w s r U Y) (k : ℕ) :
    2 ^ w * (U (k + 1) : ℤ) = U k + (2 ^ w - 1 - Y k) * swcModulus w s r := by
  have e : U (k + 1) = swcMultiplier w s r * U k % swcModulus w s r := h.2.1.2 k
  obtain ⟨a0, a1⟩ := behind_inside hs hsr h k
  obtain ⟨c0, c1⟩ := behind_inside hs hsr h (k + 1)
  have hB : (0 : ℤ) < 2 ^ w := by positivity
  have hm : (0 : ℤ) < swcModulus w s r := by exact_mod_cast swcModulus_pos
  -- the difference is a multiple of the modulus
  obtain ⟨t, ht⟩ : ∃ t : ℤ, 2 ^ w * (U (k + 1) : ℤ) = U k + t * swcModulus w s r := by
    have hd := Nat.div_add_mod (swcMultiplier w s r * U k) (swcModulus w s r)
    rw [← e] at hd
    have hd' : (swcModulus w s r : ℤ) * ((swcMultiplier w s r * U k / swcModulus w s r : ℕ) : ℤ) + U (k + 1) = swcMultiplier w s r * U k := by
      exact_mod_cast hd
    refine ⟨(2 ^ w - 1) * U k - 2 ^ w * ((swcMultiplier w s r * U k / swcModulus w s r : ℕ) : ℤ), ?_⟩
    linear_combination 2 ^ w * hd' + U k * swc_inverse (w := w) hs hsr
  rw [ht]
  have hy : (Y k : ℤ) = (U k - 1) % 2 ^ w := by
    rw [h.2.2 k]
    push_cast [Nat.cast_sub a0]
    rfl
  obtain ⟨c, hc⟩ := swcModulus_mod (w := w) hs hsr
  -- the quotient is a digit
  have t0 : 0 ≤ t := by
    by_contra hn
    have : t * swcModulus w s r ≤ -1 * swcModulus w s r := mul_le_mul_of_nonneg_right (by omega) hm.le
    have : 0 ≤ (2 : ℤ) ^ w * U (k + 1) := by positivity
    omega
  have t1 : t < 2 ^ w := by
    by_contra hn
    have h1 : 2 ^ w * (swcModulus w s r : ℤ) ≤ t * swcModulus w s r := mul_le_mul_of_nonneg_right (by omega) hm.le
    have h2 : (2 : ℤ) ^ w * U (k + 1) < 2 ^ w * swcModulus w s r := mul_lt_mul_of_pos_left (by exact_mod_cast c1) hB
    omega
  have hy' : (Y k : ℤ) = 2 ^ w - 1 - t := by
    rw [hy, show (U k : ℤ) - 1 = (2 ^ w - 1 - t) + 2 ^ w * (U (k + 1) - 1 - t * c) by linear_combination (-1 : ℤ) * ht - t * hc,
      Int.add_mul_emod_self_left, Int.emod_eq_of_lt (by omega) (by omega)]
  rw [hy']
  ring

/-- sequences whose words agree `n` times agree modulo `2^(w n)` -/
theorem behind_agree (hs : 0 < s) (hsr : s < r) (h : Behind w s r U Y) (h' : Behind w s r U' Y') (n : ℕ) :
    ∀ k k', (∀ i, i < n → Y (k + i) = Y' (k' + i)) → ((2 : ℤ) ^ w) ^ n ∣ (U k : ℤ) - U' k' := by
  induction n with
  | zero => intro k k' _; simp
  | succ n ih =>
    intro k k' hy
    have e := behind_step hs hsr h k
    have e' := behind_step hs hsr h' k'
    have h0 := hy 0 (by omega)
    rw [Nat.add_zero, Nat.add_zero] at h0
    rw [← h0] at e'
    obtain ⟨t, ht⟩ := ih (k + 1) (k' + 1) fun i hi => by
      have := hy (i + 1) (by omega)
      rwa [show k + 1 + i = k + (i + 1) by omega, show k' + 1 + i = k' + (i + 1) by omega]
    refine ⟨t, ?_⟩
    rw [pow_succ]
    linear_combination e' - e + 2 ^ w * ht

/-- `r` words tell the number behind them -/
theorem behind_window (hw : 0 < w) (hs : 0 < s) (hsr : s < r) (h : Behind w s r U Y) (h' : Behind w s r U' Y') {k k' : ℕ}
    (hy : ∀ i, i < r → Y (k + i) = Y' (k' + i)) : U k = U' k' := by
  have hd := behind_agree hs hsr h h' r k k' hy
  obtain ⟨a0, a1⟩ := behind_inside hs hsr h k
  obtain ⟨c0, c1⟩ := behind_inside hs hsr h' k'
  have hm := swcModulus_le hw hs hsr
  have := Int.eq_zero_of_abs_lt_dvd hd (by rw [abs_lt]; omega)
  omega

theorem behind_forth (h : Behind w s r U Y) (h' : Behind w s r U' Y') {k k' : ℕ} (e : U k = U' k') (j : ℕ) : U (k + j) = U' (k' + j) := by
  induction j with
  | zero => exact e
  | succ j ih => rw [← Nat.add_assoc, ← Nat.add_assoc, h.2.1.2, h'.2.1.2, ih]

/-- the sequence can be run backwards -/
theorem behind_back_one (hs : 0 < s) (hsr : s < r) (h : Behind w s r U Y) (h' : Behind w s r U' Y') {k k' : ℕ}
    (e : U (k + 1) = U' (k' + 1)) : U k = U' k' := by
  have e1 := behind_step hs hsr h k
  have e2 := behind_step hs hsr h' k'
  rw [e, e2] at e1
  obtain ⟨a0, a1⟩ := behind_inside hs hsr h k
  obtain ⟨c0, c1⟩ := behind_inside hs hsr h' k'
  have hd : (swcModulus w s r : ℤ) ∣ (U k : ℤ) - U' k' := ⟨Y k - Y' k', by linear_combination -e1⟩
  have := Int.eq_zero_of_abs_lt_dvd hd (by rw [abs_lt]; omega)
  omega

theorem behind_back (hs : 0 < s) (hsr : s < r) (h : Behind w s r U Y) (h' : Behind w s r U' Y') (j : ℕ) :
    ∀ {k k' : ℕ}, U (k + j) = U' (k' + j) → U k = U' k' := by
  induction j with
  | zero => exact fun e => e
  | succ j ih => exact fun e => ih (behind_back_one hs hsr h h' e)

/-- powers of `2^w` lead back -/
theorem behind_pow (hs : 0 < s) (hsr : s < r) (h : Behind w s r U Y) (k j : ℕ) :
    (swcModulus w s r : ℤ) ∣ ((2 : ℤ) ^ w) ^ j * U (k + j) - U k := by
  induction j with
  | zero => simp
  | succ j ih =>
    obtain ⟨t, ht⟩ := ih
    refine ⟨t + ((2 : ℤ) ^ w) ^ j * (2 ^ w - 1 - Y (k + j)), ?_⟩
    rw [← Nat.add_assoc, pow_succ]
    linear_combination ht + ((2 : ℤ) ^ w) ^ j * behind_step hs hsr h (k + j)

/-- the periods are the numbers `j` for which `2^(w j)` fixes the number behind -/
theorem behind_period (hw : 0 < w) (hs : 0 < s) (hsr : s < r) (h : Behind w s r U Y) (j : ℕ) :
    ((swcModulus w s r : ℤ) ∣ (((2 : ℤ) ^ w) ^ j - 1) * U 0 → ∀ k, Y (k + j) = Y k) ∧
    ((∃ k₀, ∀ k, k₀ ≤ k → Y (k + j) = Y k) → (swcModulus w s r : ℤ) ∣ (((2 : ℤ) ^ w) ^ j - 1) * U 0) := by
  constructor
  · intro hd
    have hp := behind_pow hs hsr h 0 j
    rw [Nat.zero_add] at hp
    obtain ⟨a0, a1⟩ := behind_inside hs hsr h j
    obtain ⟨c0, c1⟩ := behind_inside hs hsr h 0
    have h1 : (swcModulus w s r : ℤ) ∣ ((2 : ℤ) ^ w) ^ j * ((U j : ℤ) - U 0) := by
      have := dvd_sub hp hd
      rwa [show ((2 : ℤ) ^ w) ^ j * U j - U 0 - (((2 : ℤ) ^ w) ^ j - 1) * U 0 = ((2 : ℤ) ^ w) ^ j * ((U j : ℤ) - U 0) by ring] at this
    have hco : IsCoprime (swcModulus w s r : ℤ) (((2 : ℤ) ^ w) ^ j) := by
      apply IsCoprime.pow_right
      exact ⟨1 - 2 ^ w, swcMultiplier w s r, by linear_combination swc_inverse (w := w) hs hsr⟩
    have h2 := hco.dvd_of_dvd_mul_left h1
    have h3 := Int.eq_zero_of_abs_lt_dvd h2 (by rw [abs_lt]; omega)
    intro k
    have h4 := behind_forth h h (k := 0 + j) (k' := 0) (by rw [Nat.zero_add]; omega) k
    rw [h.2.2, h.2.2 k, show k + j = 0 + j + k by omega, h4, Nat.zero_add]
  · rintro ⟨k₀, hk⟩
    have h1 : U (k₀ + j) = U k₀ := behind_window hw hs hsr h h fun i _ => by
      rw [show k₀ + j + i = k₀ + i + j by omega]
      exact hk _ (by omega)
    have h2 : U (0 + j) = U 0 := by
      refine behind_back hs hsr h h k₀ ?_
      rw [show 0 + j + k₀ = k₀ + j by omega, h1, Nat.zero_add]
    have hp := behind_pow hs hsr h 0 j
    rw [h2] at hp
    rwa [sub_one_mul]

/-- if the modulus is a prime, the period is the order of `2^w` -/
theorem behind_prime (hw : 0 < w) (hs : 0 < s) (hsr : s < r) (hp : (swcModulus w s r).Prime) (h : Behind w s r U Y) :
    ExactPeriod (orderOf ((2 ^ w : ℕ) : ZMod (swcModulus w s r))) Y := by
  have := Fact.mk hp
  have hu : ((U 0 : ℤ) : ZMod (swcModulus w s r)) ≠ 0 := by
    rw [ne_eq, ZMod.intCast_zmod_eq_zero_iff_dvd]
    intro hd
    have := Nat.le_of_dvd h.1.1 (by exact_mod_cast hd)
    have := h.1.2
    omega
  have key : ∀ j, (swcModulus w s r : ℤ) ∣ (((2 : ℤ) ^ w) ^ j - 1) * U 0 ↔ ((2 ^ w : ℕ) : ZMod (swcModulus w s r)) ^ j = 1 := by
    intro j
    rw [← ZMod.intCast_zmod_eq_zero_iff_dvd, Int.cast_mul, mul_eq_zero, or_iff_left hu]
    push_cast
    exact sub_eq_zero
  refine ⟨?_, ?_, ?_⟩
  · rw [orderOf_pos_iff, isOfFinOrder_iff_pow_eq_one]
    have h0 : ((2 ^ w : ℕ) : ZMod (swcModulus w s r)) ≠ 0 := by
      intro h0
      have e := congrArg (Int.cast (R := ZMod (swcModulus w s r))) (swc_inverse (w := w) hs hsr)
      push_cast at e h0
      rw [h0] at e
      simp at e
    exact ⟨swcModulus w s r - 1, by have := hp.two_le; omega, ZMod.pow_card_sub_one_eq_one h0⟩
  · exact (behind_period hw hs hsr h _).1 ((key _).2 (pow_orderOf_eq_one _))
  · intro j hj
    exact orderOf_dvd_of_pow_eq_one ((key j).1 ((behind_period hw hs hsr h j).2 hj))

end

/-! ## The property -/

/-- **C135, part**: the words of a subtract-with-carry generator are the last digits of a multiplicative congruential sequence, which starts with
a number between 0 and the modulus that the first words and the carry determine.  *Missing:* words as long as the type, where the code loses
carries (`C66_full_size`, `C135_violated`). -/
theorem C135_congruential_partial {b : Nat} (hb : b = 32 ∨ b = 64) {checks : Bool} {seed w s r : BitVec b} {g : Lfr b}
    (hnew : lfrNew (.ok seed) w s r = .ok g) (hw : w.toNat < b) (hc : checks = true → r.toNat + s.toNat ≤ 2 ^ b) :
    ∃ U Y L, Delivers (lfrSource b checks) g Y ∧ Behind w.toNat s.toNat r.toNat U Y ∧
      L 0 = seed.toNat ∧ (∀ k, L (k + 1) = 40014 * L k % 2 ^ b % 2147483563) ∧
      (U 0 : ℤ) + digits (2 ^ w.toNat) (swcInit w.toNat L) 0 r.toNat + (if swcInit w.toNat L (r.toNat - 1) = 0 then 1 else 0) =
        swcModulus w.toNat s.toNat r.toNat + digits (2 ^ w.toNat) (swcInit w.toNat L) (r.toNat - s.toNat) s.toNat := by
  obtain ⟨hp, -⟩ := (lfrNew_ok hb (x := 0#b)).2 _ g hnew
  obtain ⟨X, C, hX⟩ := swc_exists w.toNat s.toNat r.toNat hp.sr hp.s0 (swcInit w.toNat (lfrL b seed.toNat))
  obtain ⟨bX, bC⟩ := swc_bounds hp.sr hX
  have bX' : ∀ i, (X i : ℤ) < 2 ^ w.toNat := fun i => by exact_mod_cast bX i
  refine ⟨_, _, lfrL b seed.toNat, fun N => C66_lfr_partial hb hnew hw hc rfl (fun _ => rfl) hX N,
    swc_behind hp.w0 hp.s0 hp.sr hX bX' bC, rfl, fun _ => rfl, ?_⟩
  have hin := swcZ_inside hp.w0 hp.s0 hp.sr hX bX' bC 0
  have d1 : digits (2 ^ w.toNat) X 0 r.toNat = digits (2 ^ w.toNat) (swcInit w.toNat (lfrL b seed.toNat)) 0 r.toNat :=
    Finset.sum_congr rfl fun i hi => by rw [Nat.zero_add, hX.1 i (Finset.mem_range.1 hi)]
  have d2 : digits (2 ^ w.toNat) X (0 + (r.toNat - s.toNat)) s.toNat =
      digits (2 ^ w.toNat) (swcInit w.toNat (lfrL b seed.toNat)) (r.toNat - s.toNat) s.toNat :=
    Finset.sum_congr rfl fun i hi => by
      have := Finset.mem_range.1 hi
      rw [Nat.zero_add, hX.1 (r.toNat - s.toNat + i) (by have := hp.sr; omega)]
  have d3 := hX.2.1
  rw [hX.1 _ (by have := hp.sr; omega)] at d3
  rw [Int.toNat_of_nonneg (by omega), ← d1, ← d2]
  unfold swcZ
  rw [d3]
  push_cast
  ring

/-- **C135, the words of two generators, part**: `r` words in succession tell all words before and after, for generators with the same
parameters and any seeds; two streams that agree in `r` words agree in all. -/
theorem C135_window_partial {b : Nat} (hb : b = 32 ∨ b = 64) {checks : Bool} {sd sd' w s r : BitVec b} {g g' : Lfr b}
    (hnew : lfrNew (.ok sd) w s r = .ok g) (hnew' : lfrNew (.ok sd') w s r = .ok g') (hw : w.toNat < b)
    (hc : checks = true → r.toNat + s.toNat ≤ 2 ^ b) {Y Y' : ℕ → ℕ} (hY : Delivers (lfrSource b checks) g Y)
    (hY' : Delivers (lfrSource b checks) g' Y') {k k' : ℕ} (h : ∀ i, i < r.toNat → Y (k + i) = Y' (k' + i)) :
    (∀ j, Y (k + j) = Y' (k' + j)) ∧ ∀ j, j ≤ k → j ≤ k' → Y (k - j) = Y' (k' - j) := by
  obtain ⟨hp, -⟩ := (lfrNew_ok hb (x := 0#b)).2 _ g hnew
  obtain ⟨U, Z, -, hZ, hU, -⟩ := C135_congruential_partial hb hnew hw hc
  obtain ⟨U', Z', -, hZ', hU', -⟩ := C135_congruential_partial hb hnew' hw hc
  obtain rfl := hY.unique hZ
  obtain rfl := hY'.unique hZ'
  have e := behind_window hp.w0 hp.s0 hp.sr hU hU' h
  refine ⟨fun j => ?_, fun j hj hj' => ?_⟩
  · rw [hU.2.2, hU'.2.2, behind_forth hU hU' e]
  · have := behind_back hp.s0 hp.sr hU hU' j (k := k - j) (k' := k' - j) (by rwa [Nat.sub_add_cancel hj, Nat.sub_add_cancel hj'])
    rw [hU.2.2, hU'.2.2, this]

/-- **C135, the period, part**: the periods of the stream, or of its rest from some word on, are the numbers `j` such that the modulus divides
`(2^(w j) - 1) u`, where `u` is the first number of the sequence behind. -/
theorem C135_period_partial {b : Nat} (hb : b = 32 ∨ b = 64) {checks : Bool} {seed w s r : BitVec b} {g : Lfr b}
    (hnew : lfrNew (.ok seed) w s r = .ok g) (hw : w.toNat < b) (hc : checks = true → r.toNat + s.toNat ≤ 2 ^ b) :
    ∃ U Y, Delivers (lfrSource b checks) g Y ∧ Behind w.toNat s.toNat r.toNat U Y ∧ ∀ j,
      ((∀ k, Y (k + j) = Y k) ↔ swcModulus w.toNat s.toNat r.toNat ∣ (2 ^ (w.toNat * j) - 1) * U 0) ∧
      ((∃ k₀, ∀ k, k₀ ≤ k → Y (k + j) = Y k) → ∀ k, Y (k + j) = Y k) := by
  obtain ⟨hp, -⟩ := (lfrNew_ok hb (x := 0#b)).2 _ g hnew
  obtain ⟨U, Y, -, hY, hU, -⟩ := C135_congruential_partial hb hnew hw hc
  refine ⟨U, Y, hY, hU, fun j => ?_⟩
  obtain ⟨h1, h2⟩ := behind_period hp.w0 hp.s0 hp.sr hU j
  have hcast : ((swcModulus w.toNat s.toNat r.toNat : ℕ) : ℤ) ∣ (((2 : ℤ) ^ w.toNat) ^ j - 1) * U 0 ↔
      swcModulus w.toNat s.toNat r.toNat ∣ (2 ^ (w.toNat * j) - 1) * U 0 := by
    rw [← Int.natCast_dvd_natCast, Nat.cast_mul, Nat.cast_sub Nat.one_le_two_pow]
    push_cast
    rw [pow_mul]
  rw [← hcast]
  exact ⟨⟨fun h => h2 ⟨0, fun k _ => h k⟩, h1⟩, fun h => h1 (h2 h)⟩

/-- **C135 for a prime modulus, part**: the period is the order of `2^w`, for every seed -/
theorem C135_prime_partial {b : Nat} (hb : b = 32 ∨ b = 64) {checks : Bool} {seed w s r : BitVec b} {g : Lfr b}
    (hnew : lfrNew (.ok seed) w s r = .ok g) (hw : w.toNat < b) (hc : checks = true → r.toNat + s.toNat ≤ 2 ^ b)
    (hp : (swcModulus w.toNat s.toNat r.toNat).Prime) :
    ∃ Y, Delivers (lfrSource b checks) g Y ∧ ExactPeriod (orderOf ((2 ^ w.toNat : ℕ) : ZMod (swcModulus w.toNat s.toNat r.toNat))) Y := by
  obtain ⟨hpar, -⟩ := (lfrNew_ok hb (x := 0#b)).2 _ g hnew
  obtain ⟨U, Y, -, hY, hU, -⟩ := C135_congruential_partial hb hnew hw hc
  exact ⟨Y, hY, behind_prime hpar.w0 hpar.s0 hpar.sr hp hU⟩

/-- **C135 for `ranlux24_base!`**: the period is `(2^576 - 2^240) / 48`, about `5.2 * 10^171`, for every seed, with words of 32 and of 64 bits. -/
theorem C135_ranlux24 {b : Nat} (hb : b = 32 ∨ b = 64) {checks : Bool} {seed : BitVec b} {g : Lfr b} (hnew : ranlux24Base (.ok seed) = .ok g) :
    ∃ Y, Delivers (lfrSource b checks) g Y ∧ ExactPeriod ((2 ^ 576 - 2 ^ 240) / 48) Y := by
  have hm : swcModulus (24#b).toNat (10#b).toNat (24#b).toNat = ranluxM := by rcases hb with rfl | rfl <;> decide +kernel
  have h := C135_prime_partial hb (checks := checks) hnew (by rcases hb with rfl | rfl <;> decide) (fun _ => by rcases hb with rfl | rfl <;> decide)
    (by rw [hm]; exact ranlux_prime)
  rw [show (24#b).toNat = 24 by rcases hb with rfl | rfl <;> rfl, show (10#b).toNat = 10 by rcases hb with rfl | rfl <;> rfl] at h hm
  rwa [ranlux24_order hm, show (ranluxM - 1) / 48 = (2 ^ 576 - 2 ^ 240) / 48 by decide +kernel] at h

/-- **C135 for `ranlux48_base!`**, whose words need a type of 64 bits: the period is `(2^576 - 2^240) / 96` for every seed. -/
theorem C135_ranlux48 {checks : Bool} {seed : BitVec 64} {g : Lfr 64} (hnew : ranlux48Base (.ok seed) = .ok g) :
    ∃ Y, Delivers (lfrSource 64 checks) g Y ∧ ExactPeriod ((2 ^ 576 - 2 ^ 240) / 96) Y := by
  have hm : swcModulus (48#64).toNat (5#64).toNat (12#64).toNat = ranluxM := by decide +kernel
  have h := C135_prime_partial (Or.inr rfl) (checks := checks) hnew (by decide) (fun _ => by decide) (by rw [hm]; exact ranlux_prime)
  rw [show (48#64).toNat = 48 from rfl, show (5#64).toNat = 5 from rfl, show (12#64).toNat = 12 from rfl] at h hm
  rwa [ranlux48_order hm, show (ranluxM - 1) / 96 = (2 ^ 576 - 2 ^ 240) / 96 by decide +kernel] at h

/-- **C135 fails** for words as long as the type: no congruential sequence is behind the words of the generator with words of 32 bits, lags 1
and 3 and seed 0, because the carry is lost in the seventh draw. -/
theorem C135_violated : ∃ g Y, lfrNew (.ok 0#32) 32#32 1#32 3#32 = .ok g ∧ Delivers (lfrSource 32 false) g Y ∧ ¬ ∃ U, Behind 32 1 3 U Y := by
  obtain ⟨X, C, hX⟩ := lossy_exists 32 1 3 (by decide) (by decide) (swcInit 32 (lfrL 32 0))
  have hD : Delivers (lfrSource 32 false) (⟨32#32, 1#32, 3#32, 0#32, false, 0#32, 0#32, []⟩ : Lfr 32) (fun k => X (k + 3)) :=
    fun N => C66_full_size (Or.inl rfl) (seed := 0#32) (w := 32#32) (s := 1#32) (r := 3#32) rfl rfl rfl (fun _ => rfl) hX N
  refine ⟨_, _, rfl, hD, ?_⟩
  rintro ⟨U, hU⟩
  obtain ⟨out, g', e, hw⟩ := hD 8
  have hout : (runCalls (lfrSource 32 false) (⟨32#32, 1#32, 3#32, 0#32, false, 0#32, 0#32, []⟩ : Lfr 32) (List.replicate 8 .gen)).map Prod.fst =
      .ok [4294967295#32, 4294967294#32, 4294967294#32, 4294967295#32, 0#32, 2#32, 2#32, 2#32] := by decide +kernel
  rw [e] at hout
  obtain rfl : out = [4294967295#32, 4294967294#32, 4294967294#32, 4294967295#32, 0#32, 2#32, 2#32, 2#32] := by
    simpa [Except.map] using hout
  have hw' : [4294967295, 4294967294, 4294967294, 4294967295, 0, 2, 2, 2] = [X 3, X 4, X 5, X 6, X 7, X 8, X 9, X 10] := hw
  simp only [List.cons.injEq, and_true] at hw'
  obtain ⟨y0, y1, y2, y3, y4, y5, y6, y7⟩ := hw'
  have st := behind_step (by decide) (by decide) hU
  have bd := behind_inside (by decide) (by decide) hU
  have hm : (swcModulus 32 1 3 : ℤ) = 79228162514264337589248983041 := by decide +kernel
  have hm' : swcModulus 32 1 3 = 79228162514264337589248983041 := by decide +kernel
  have s0 := st 0
  have s1 := st 1
  have s2 := st 2
  have s3 := st 3
  have s4 := st 4
  have s5 := st 5
  have s6 := st 6
  have s7 := st 7
  simp only [Nat.zero_add, Nat.reduceAdd, hm, ← y0, ← y1, ← y2, ← y3, ← y4, ← y5, ← y6, ← y7] at s0 s1 s2 s3 s4 s5 s6 s7
  have b0 := bd 0
  have b8 := bd 8
  rw [hm'] at b0 b8
  norm_num at s0 s1 s2 s3 s4 s5 s6 s7
  omega

example : ∃ g, ranlux24Base (.ok 1#32) = .ok g := ⟨_, rfl⟩
example : ∃ g, ranlux48Base (.ok 1#64) = .ok g := ⟨_, rfl⟩
example : ∃ g, lfrNew (.ok 7#32) 3#32 1#32 2#32 = .ok g ∧ (swcModulus 3 1 2) = 57 := ⟨_, rfl, rfl⟩
example : ExactPeriod 3 (fun k => k % 3) := by
  refine ⟨by norm_num, fun k => by simp, ?_⟩
  rintro j ⟨k, h⟩
  have := h k le_rfl
  simp only at this
  omega

end RMath
