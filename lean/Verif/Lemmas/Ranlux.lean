import Mathlib.NumberTheory.LucasPrimality
import Mathlib.Tactic.NormNum.Prime
import Mathlib.Data.List.Prime

/-!
# The modulus behind the RANLUX generators

`2^576 - 2^240 + 1` is a prime, and `2^24` and `2^48` have the orders `(2^576 - 2^240) / 48` and `(2^576 - 2^240) / 96` modulo it.  The
certificates are those of Lucas and Pratt.
-/

namespace RMath

/-- `a ^ e mod m` for an exponent of `n` bits -/
def powm (m : ℕ) : ℕ → ℕ → ℕ → ℕ
  | 0, _, _ => 1 % m
  | n + 1, a, e => if e % 2 = 1 then a * powm m n (a * a % m) (e / 2) % m else powm m n (a * a % m) (e / 2)

theorem powm_eq (m n : ℕ) : ∀ a e, e < 2 ^ n → powm m n a e = a ^ e % m := by
  induction n with
  | zero =>
    intro a e he
    obtain rfl : e = 0 := by omega
    simp [powm]
  | succ n ih =>
    intro a e he
    have he2 : e / 2 < 2 ^ n := by omega
    have hp : (a * a % m) ^ (e / 2) % m = a ^ (2 * (e / 2)) % m := by rw [← Nat.pow_mod, ← pow_two, ← pow_mul]
    rw [powm, ih _ _ he2]
    split
    · rename_i h
      rw [hp, Nat.mul_mod_mod, ← pow_succ', show 2 * (e / 2) + 1 = e by omega]
    · rename_i h
      rw [hp, show 2 * (e / 2) = e by omega]

theorem powm_one {p : ℕ} (hp : 1 < p) {n a e : ℕ} (he : e < 2 ^ n) : ((a : ZMod p) ^ e = 1) ↔ powm p n a e = 1 := by
  rw [powm_eq p n a e he, ← Nat.cast_pow, ← Nat.cast_one (R := ZMod p), ZMod.natCast_eq_natCast_iff', Nat.mod_eq_of_lt hp]

/-- a prime divisor of a product of primes is one of them -/
theorem mem_of_dvd_prod {q : ℕ} (hq : q.Prime) {l : List ℕ} (hl : ∀ p ∈ l, p.Prime) (h : q ∣ l.prod) : q ∈ l := by
  obtain ⟨a, ha, hd⟩ := (Prime.dvd_prod_iff hq.prime).1 h
  rwa [(Nat.prime_dvd_prime_iff_eq hq (hl a ha)).1 hd]

theorem lucas_list {p : ℕ} (hp : 1 < p) (n a : ℕ) (l : List ℕ) (c : ℕ) (hl : ∀ q ∈ l, q.Prime) (hpr : p - 1 ∣ l.prod ^ c) (hn : p < 2 ^ n)
    (h1 : powm p n a (p - 1) = 1) (h2 : ∀ q ∈ l, powm p n a ((p - 1) / q) ≠ 1) : p.Prime := by
  refine lucas_primality p a ((powm_one hp (by omega)).2 h1) fun q hq hd h => ?_
  rw [powm_one hp (n := n) (lt_of_le_of_lt (Nat.div_le_self _ _) (by omega))] at h
  exact h2 q (mem_of_dvd_prod hq hl (hq.dvd_of_dvd_pow (hd.trans hpr))) h

theorem order_list {p : ℕ} (hp : 1 < p) (n a e : ℕ) (he0 : 0 < e) (l : List ℕ) (c : ℕ) (hl : ∀ q ∈ l, q.Prime) (hpr : e ∣ l.prod ^ c) (hn : e < 2 ^ n)
    (h1 : powm p n a e = 1) (h2 : ∀ q ∈ l, powm p n a (e / q) ≠ 1) : orderOf (a : ZMod p) = e := by
  refine orderOf_eq_of_pow_and_pow_div_prime he0 ((powm_one hp hn).2 h1) fun q hq hd h => ?_
  rw [powm_one hp (n := n) (lt_of_le_of_lt (Nat.div_le_self _ _) hn)] at h
  exact h2 q (mem_of_dvd_prod hq hl (hq.dvd_of_dvd_pow (hd.trans hpr))) h

theorem prime_a : Nat.Prime 25629623713 :=
  lucas_list (by norm_num) 40 5 [2, 3, 7, 11, 29, 3623] 5 (by
    simp only [List.forall_mem_cons, List.not_mem_nil, false_imp_iff, implies_true, and_true]; norm_num) (by decide +kernel) (by norm_num)
    (by decide +kernel) (by decide +kernel)

theorem prime_b : Nat.Prime 54410972897 :=
  lucas_list (by norm_num) 40 3 [2, 7, 242906129] 5 (by
    simp only [List.forall_mem_cons, List.not_mem_nil, false_imp_iff, implies_true, and_true]; norm_num) (by decide +kernel) (by norm_num)
    (by decide +kernel) (by decide +kernel)

theorem prime_c : Nat.Prime 88959882481 :=
  lucas_list (by norm_num) 40 26 [2, 3, 5, 7, 67, 790333] 4 (by
    simp only [List.forall_mem_cons, List.not_mem_nil, false_imp_iff, implies_true, and_true]; norm_num) (by decide +kernel) (by norm_num)
    (by decide +kernel) (by decide +kernel)

theorem prime_d : Nat.Prime 1538595959564161 :=
  lucas_list (by norm_num) 60 23 [2, 3, 5, 7, 839, 2179, 20873] 7 (by
    simp only [List.forall_mem_cons, List.not_mem_nil, false_imp_iff, implies_true, and_true]; norm_num) (by decide +kernel) (by norm_num)
    (by decide +kernel) (by decide +kernel)

/-- the prime divisors of `2^576 - 2^240` -/
def ranluxFactors : List ℕ := [2, 3, 5, 7, 13, 17, 29, 43, 97, 113, 127, 241, 257, 337, 673, 1429, 2017, 3361, 5153, 5419, 14449, 15790321,
  25629623713, 54410972897, 88959882481, 1538595959564161]

theorem ranluxFactors_prime : ∀ q ∈ ranluxFactors, q.Prime := by
  simp only [ranluxFactors, List.forall_mem_cons, List.not_mem_nil, false_imp_iff, implies_true, and_true]
  refine ⟨?_, ?_, ?_, ?_, ?_, ?_, ?_, ?_, ?_, ?_, ?_, ?_, ?_, ?_, ?_, ?_, ?_, ?_, ?_, ?_, ?_, ?_, prime_a, prime_b, prime_c, prime_d⟩ <;> norm_num

/-- the modulus -/
def ranluxM : ℕ := 2 ^ 576 - 2 ^ 240 + 1

theorem ranluxM_gt : 1 < ranluxM := by decide +kernel

theorem ranlux_prime : ranluxM.Prime :=
  lucas_list ranluxM_gt 577 19 ranluxFactors 240 ranluxFactors_prime (by decide +kernel) (by decide +kernel) (by decide +kernel)
    (by decide +kernel)

theorem ranlux24_one : powm ranluxM 577 (2 ^ 24) ((ranluxM - 1) / 48) = 1 := by decide +kernel
theorem ranlux24_ne : ∀ q ∈ ranluxFactors, powm ranluxM 577 (2 ^ 24) ((ranluxM - 1) / 48 / q) ≠ 1 := by decide +kernel

theorem ranlux24_order {p : ℕ} (hp : p = ranluxM) : orderOf ((2 ^ 24 : ℕ) : ZMod p) = (ranluxM - 1) / 48 :=
  order_list (by rw [hp]; exact ranluxM_gt) 577 (2 ^ 24) ((ranluxM - 1) / 48) (by decide +kernel) ranluxFactors 240 ranluxFactors_prime
    (by decide +kernel) (by decide +kernel) (by rw [hp]; exact ranlux24_one) (by rw [hp]; exact ranlux24_ne)

theorem ranlux48_one : powm ranluxM 577 (2 ^ 48) ((ranluxM - 1) / 96) = 1 := by decide +kernel
theorem ranlux48_ne : ∀ q ∈ ranluxFactors, powm ranluxM 577 (2 ^ 48) ((ranluxM - 1) / 96 / q) ≠ 1 := by decide +kernel

theorem ranlux48_order {p : ℕ} (hp : p = ranluxM) : orderOf ((2 ^ 48 : ℕ) : ZMod p) = (ranluxM - 1) / 96 :=
  order_list (by rw [hp]; exact ranluxM_gt) 577 (2 ^ 48) ((ranluxM - 1) / 96) (by decide +kernel) ranluxFactors 240 ranluxFactors_prime
    (by decide +kernel) (by decide +kernel) (by rw [hp]; exact ranlux48_one) (by rw [hp]; exact ranlux48_ne)

end RMath
