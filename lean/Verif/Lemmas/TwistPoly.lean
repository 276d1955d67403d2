import Mathlib.Algebra.CharP.Two
import Mathlib.Data.ZMod.Basic
import Mathlib.Algebra.BigOperators.Intervals
import Mathlib.Data.Nat.Bitwise
import Mathlib.Tactic.Ring
import Mathlib.Tactic.Linarith
import Mathlib.Tactic.ReduceModChar

/-!
# Polynomials over the field with two elements that act on sequences of bits

A number stands for the polynomial whose coefficients are its bits, and acts on a sequence as a polynomial in the shift.  The definitions are
written so that the kernel computes with them quickly: `force` evaluates a number before it is used.
-/

namespace RMath

/-- `f x`; the kernel evaluates `x` first -/
def force {α : Type} (x : ℕ) (f : ℕ → α) : α := Nat.rec (f 0) (fun n _ => f (Nat.succ n)) x

theorem force_eq {α : Type} (x : ℕ) (f : ℕ → α) : force x f = f x := by cases x <;> rfl

/-- the bits of `x` moved apart, step by step -/
def spreadL : List (ℕ × ℕ) → ℕ → ℕ
  | [], x => x
  | (s, m) :: l, x => force (Nat.land (Nat.lor x (Nat.shiftLeft x s)) m) (spreadL l)

/-- `R` times a power of `x^k + x^l`, adding `q` where the list says so -/
def mulL (q k l : ℕ) : List Bool → ℕ → ℕ
  | [], R => R
  | true :: t, R => force (Nat.xor (Nat.xor (Nat.shiftLeft R k) (Nat.shiftLeft R l)) q) (mulL q k l t)
  | false :: t, R => mulL q k l t (Nat.xor (Nat.shiftLeft R k) (Nat.shiftLeft R l))

/-- a combination, with `q` once -/
def combT (q q1 q2 q3 : ℕ) : Bool → Bool → Bool → ℕ
  | false, false, false => q
  | false, false, true => q1
  | false, true, false => q2
  | false, true, true => Nat.xor (Nat.xor q2 q1) q
  | true, false, false => q3
  | true, false, true => Nat.xor (Nat.xor q3 q1) q
  | true, true, false => Nat.xor (Nat.xor q3 q2) q
  | true, true, true => Nat.xor (Nat.xor q3 q2) q1

/-- a combination, without `q` -/
def combF (q q1 q2 q3 : ℕ) : Bool → Bool → Bool → ℕ
  | false, false, false => 0
  | false, false, true => Nat.xor q1 q
  | false, true, false => Nat.xor q2 q
  | false, true, true => Nat.xor q2 q1
  | true, false, false => Nat.xor q3 q
  | true, false, true => Nat.xor q3 q1
  | true, true, false => Nat.xor q3 q2
  | true, true, true => Nat.xor (Nat.xor (Nat.xor q3 q2) q1) q

/-- four steps of `mulL` at a time -/
def mulG (q q1 q2 q3 k l : ℕ) : List (Bool × Bool × Bool × Bool) → ℕ → ℕ
  | [], R => R
  | (a0, a1, a2, true) :: t, R =>
    force (Nat.xor (Nat.xor (Nat.shiftLeft R k) (Nat.shiftLeft R l)) (combT q q1 q2 q3 a0 a1 a2)) (mulG q q1 q2 q3 k l t)
  | (a0, a1, a2, false) :: t, R =>
    mulG q q1 q2 q3 k l t (Nat.xor (Nat.xor (Nat.shiftLeft R k) (Nat.shiftLeft R l)) (combF q q1 q2 q3 a0 a1 a2))

/-- three small multiples of `q`, each with `q` added -/
def withSmall (q k l k2 l2 : ℕ) (f : ℕ → ℕ → ℕ → ℕ) : ℕ :=
  force (Nat.xor (Nat.xor (Nat.shiftLeft q k) (Nat.shiftLeft q l)) q) fun q1 =>
  force (Nat.xor (Nat.xor (Nat.shiftLeft q k2) (Nat.shiftLeft q l2)) q) fun q2 =>
  force (Nat.xor (Nat.xor (Nat.shiftLeft (Nat.xor q1 q) k2) (Nat.shiftLeft (Nat.xor q1 q) l2)) q) fun q3 => f q1 q2 q3

/-- `2^n` blocks of `s` ones and `s` zeros each -/
def maskN (s : ℕ) : ℕ → ℕ
  | 0 => Nat.sub (Nat.shiftLeft 1 s) 1
  | n + 1 => force (maskN s n) fun x => Nat.lor x (Nat.shiftLeft x (Nat.mul s (Nat.shiftLeft 2 n)))

/-- the masks for numbers of up to `2^K` bits -/
def withMasks {α : Type} (K : ℕ) : ℕ → ℕ → List (ℕ × ℕ) → (List (ℕ × ℕ) → α) → α
  | 0, _, acc, f => f acc
  | n + 1, e, acc, f => force (maskN (2 ^ e) (K - e)) fun m => withMasks K n (e + 1) ((2 ^ e, m) :: acc) f

/-- a combination of four numbers -/
def comb4 (x0 x1 x2 x3 : ℕ) : Bool → Bool → Bool → Bool → ℕ
  | false, false, false, false => 0
  | false, false, false, true => x3
  | false, false, true, false => x2
  | false, false, true, true => Nat.xor x2 x3
  | false, true, false, false => x1
  | false, true, false, true => Nat.xor x1 x3
  | false, true, true, false => Nat.xor x1 x2
  | false, true, true, true => Nat.xor (Nat.xor x1 x2) x3
  | true, false, false, false => x0
  | true, false, false, true => Nat.xor x0 x3
  | true, false, true, false => Nat.xor x0 x2
  | true, false, true, true => Nat.xor (Nat.xor x0 x2) x3
  | true, true, false, false => Nat.xor x0 x1
  | true, true, false, true => Nat.xor (Nat.xor x0 x1) x3
  | true, true, true, false => Nat.xor (Nat.xor x0 x1) x2
  | true, true, true, true => Nat.xor (Nat.xor (Nat.xor x0 x1) x2) x3

/-- an attempt at dividing: `S` times a power of `1 + x^(-c)`, with multiples of four numbers -/
def quoG (x0 x1 x2 x3 c d : ℕ) : List (Bool × Bool × Bool × Bool) → ℕ → ℕ → ℕ
  | [], _, S => S
  | (a0, a1, a2, a3) :: t, e, S =>
    force (Nat.xor (Nat.xor S (Nat.shiftRight S c)) (Nat.shiftRight (comb4 x0 x1 x2 x3 a0 a1 a2 a3) e)) (quoG x0 x1 x2 x3 c d t (Nat.add e d))

/-- four numbers for `quoG` -/
def withQuo (h c c2 d d2 d3 : ℕ) (f : ℕ → ℕ → ℕ → ℕ → ℕ) : ℕ :=
  force (Nat.xor h (Nat.shiftRight h c)) fun h1 =>
  force (Nat.shiftRight (Nat.xor h (Nat.shiftRight h c2)) d) fun x1 =>
  force (Nat.xor h1 (Nat.shiftRight h1 c2)) fun x0 =>
  force (Nat.shiftRight h1 d2) fun x2 =>
  force (Nat.shiftRight h d3) fun x3 => f x0 x1 x2 x3

/-- `N` reduced by a multiple of a polynomial of degree `p`; the quotient need not be right -/
def redStep (p : ℕ) (quo mul : ℕ → ℕ) (N : ℕ) : ℕ :=
  force (Nat.shiftRight N p) fun h => force (quo h) fun q => force (mul q) fun R => Nat.xor N R

/-- `n` squarings lead from `g` to `g'`, and all numbers on the way are below `bound` -/
def sqIter (bound : ℕ) (sp : List (ℕ × ℕ)) (red : ℕ → ℕ) (g' : ℕ) : ℕ → ℕ → Bool
  | 0, g => Nat.beq g g'
  | n + 1, g => cond (Nat.blt g bound) (force (spreadL sp g) fun N => force (red N) (sqIter bound sp red g' n)) false

/-- `n` squarings lead from `g` to `g'` -/
def sqCheck (K : ℕ) (red : ℕ → ℕ) (n g g' : ℕ) : Bool :=
  withMasks K K 0 [] fun sp => force (Nat.shiftLeft 1 (2 ^ K)) fun bound => sqIter bound sp red g' n g

/-! ## The action -/

/-- `g`, as a polynomial in the shift, applied to the sequence `b` -/
def act (g : ℕ) (b : ℕ → ZMod 2) (k : ℕ) : ZMod 2 := ∑ i ∈ Finset.range g, if g.testBit i then b (k + i) else 0

theorem sum_bits_eq {N M g : ℕ} (h : g < 2 ^ N) (hNM : N ≤ M) (f : ℕ → ZMod 2) :
    ∑ i ∈ Finset.range M, (if g.testBit i then f i else 0) = ∑ i ∈ Finset.range N, (if g.testBit i then f i else 0) := by
  symm
  apply Finset.sum_subset (by intro i; simp only [Finset.mem_range]; omega)
  intro i _ hi
  rw [if_neg]
  rw [Nat.testBit_lt_two_pow (lt_of_lt_of_le h (Nat.pow_le_pow_right (by norm_num) (by simpa using hi)))]
  simp

theorem act_eq {N g : ℕ} (h : g < 2 ^ N) (b : ℕ → ZMod 2) (k : ℕ) :
    act g b k = ∑ i ∈ Finset.range N, if g.testBit i then b (k + i) else 0 := by
  unfold act
  rcases Nat.le_total N g with hN | hN
  · exact sum_bits_eq h hN _
  · exact (sum_bits_eq Nat.lt_two_pow_self hN _).symm

theorem act_xor (g h : ℕ) (b : ℕ → ZMod 2) (k : ℕ) : act (g ^^^ h) b k = act g b k + act h b k := by
  obtain ⟨N, hg, hh⟩ : ∃ N, g < 2 ^ N ∧ h < 2 ^ N :=
    ⟨max g h, lt_of_le_of_lt (le_max_left ..) Nat.lt_two_pow_self, lt_of_le_of_lt (le_max_right ..) Nat.lt_two_pow_self⟩
  rw [act_eq (Nat.xor_lt_two_pow hg hh), act_eq hg, act_eq hh, ← Finset.sum_add_distrib]
  refine Finset.sum_congr rfl fun i _ => ?_
  rw [Nat.testBit_xor]
  cases g.testBit i <;> cases h.testBit i <;> simp [CharTwo.add_self_eq_zero]

theorem act_shiftLeft (g c : ℕ) (b : ℕ → ZMod 2) (k : ℕ) : act (g <<< c) b k = act g b (k + c) := by
  have h1 : g <<< c < 2 ^ (c + g) := by
    rw [Nat.shiftLeft_eq, Nat.pow_add, Nat.mul_comm]
    exact Nat.mul_lt_mul_of_pos_left Nat.lt_two_pow_self (Nat.two_pow_pos c)
  rw [act_eq h1, Finset.sum_range_add, Finset.sum_eq_zero, zero_add]
  · unfold act
    refine Finset.sum_congr rfl fun i _ => ?_
    rw [Nat.testBit_shiftLeft, show c + i - c = i by omega, show k + (c + i) = k + c + i by omega]
    simp
  · intro i hi
    rw [Finset.mem_range] at hi
    rw [Nat.testBit_shiftLeft]
    simp [show ¬ c ≤ i by omega]

theorem act_xor' (g h : ℕ) (b : ℕ → ZMod 2) (k : ℕ) : act (Nat.xor g h) b k = act g b k + act h b k := act_xor g h b k

theorem act_shiftLeft' (g c : ℕ) (b : ℕ → ZMod 2) (k : ℕ) : act (Nat.shiftLeft g c) b k = act g b (k + c) := act_shiftLeft g c b k

theorem act_zero' (b : ℕ → ZMod 2) (k : ℕ) : act 0 b k = 0 := by simp [act]

theorem act_zero (g : ℕ) (k : ℕ) : act g (fun _ => 0) k = 0 := by simp [act]

theorem act_add (g : ℕ) (b c : ℕ → ZMod 2) (k : ℕ) : act g (fun j => b j + c j) k = act g b k + act g c k := by
  unfold act
  rw [← Finset.sum_add_distrib]
  refine Finset.sum_congr rfl fun i _ => ?_
  split <;> simp

theorem act_shift (g : ℕ) (b : ℕ → ZMod 2) (d k : ℕ) : act g (fun j => b (j + d)) k = act g b (k + d) := by
  unfold act
  refine Finset.sum_congr rfl fun i _ => ?_
  show (if g.testBit i = true then b (k + i + d) else 0) = _
  rw [show k + i + d = k + d + i by omega]

theorem act_two (b : ℕ → ZMod 2) (k : ℕ) : act 2 b k = b (k + 1) := by
  simp [act, Finset.sum_range_succ, show Nat.testBit 2 0 = false from rfl, show Nat.testBit 2 1 = true from rfl]

/-- in characteristic two the mixed terms of a square cancel -/
theorem act_act_sum (g : ℕ) (b : ℕ → ZMod 2) (k N : ℕ) :
    ∑ i ∈ Finset.range N, (if g.testBit i then ∑ j ∈ Finset.range N, (if g.testBit j then b (k + i + j) else 0) else 0) =
      ∑ i ∈ Finset.range N, if g.testBit i then b (k + 2 * i) else 0 := by
  induction N with
  | zero => simp
  | succ N ih =>
    rw [Finset.sum_range_succ, Finset.sum_range_succ (fun i => if g.testBit i = true then b (k + 2 * i) else 0), ← ih]
    have e : ∀ i ∈ Finset.range N,
        (if g.testBit i then ∑ j ∈ Finset.range (N + 1), (if g.testBit j then b (k + i + j) else 0) else 0) =
        (if g.testBit i then ∑ j ∈ Finset.range N, (if g.testBit j then b (k + i + j) else 0) else 0) +
        (if g.testBit N then (if g.testBit i then b (k + N + i) else 0) else 0) := by
      intro i _
      rw [Finset.sum_range_succ, show k + N + i = k + i + N by omega]
      split <;> split <;> simp
    rw [Finset.sum_congr rfl e, Finset.sum_add_distrib]
    by_cases hN : g.testBit N
    · simp only [hN, if_true]
      rw [Finset.sum_range_succ (fun j => if g.testBit j = true then b (k + N + j) else 0)]
      simp only [hN, if_true]
      rw [show k + 2 * N = k + N + N by omega]
      have := CharTwo.add_self_eq_zero (∑ i ∈ Finset.range N, if g.testBit i = true then b (k + N + i) else 0)
      rw [add_assoc, ← add_assoc (∑ i ∈ Finset.range N, if g.testBit i = true then b (k + N + i) else 0), this, zero_add]
    · simp [hN]

theorem act_act (g : ℕ) (b : ℕ → ZMod 2) (k : ℕ) :
    act g (act g b) k = ∑ i ∈ Finset.range g, if g.testBit i then b (k + 2 * i) else 0 := by
  rw [← act_act_sum]
  rfl

/-! ## Moving the bits apart -/

/-- blocks of `s` bits of `g`, blocks of `s` zeros between them -/
def Level (g s x : ℕ) : Prop := ∀ i, x.testBit i = (decide (i % (2 * s) < s) && g.testBit (i / (2 * s) * s + i % (2 * s)))

theorem level_step {g s x m L : ℕ} (hs : 0 < s) (hg : g < 2 ^ L) (h : Level g (2 * s) x) (hL : 2 * s ∣ 2 * L)
    (hm : ∀ i, m.testBit i = (decide (i < 2 * L) && decide (i % (2 * s) < s))) :
    Level g s (Nat.land (Nat.lor x (Nat.shiftLeft x s)) m) := by
  intro i
  have hx : ∀ i, x.testBit i = (decide (i % (4 * s) < 2 * s) && g.testBit (i / (4 * s) * (2 * s) + i % (4 * s))) := by
    intro i
    rw [h i, ← Nat.mul_assoc]
  show ((x ||| x <<< s) &&& m).testBit i = _
  rw [Nat.testBit_and, Nat.testBit_or, Nat.testBit_shiftLeft, hm]
  by_cases hlow : i % (2 * s) < s
  swap
  · simp [hlow]
  simp only [hlow, decide_true, Bool.and_true, Bool.true_and]
  have hdm := Nat.div_add_mod i (4 * s)
  have hml := Nat.mod_lt i (show 0 < 4 * s by omega)
  have hmm : i % (2 * s) = i % (4 * s) % (2 * s) := (Nat.mod_mod_of_dvd _ ⟨2, by ring⟩).symm
  have hdd : i / (2 * s) = 2 * (i / (4 * s)) + i % (4 * s) / (2 * s) := by
    have e : i = 2 * s * (2 * (i / (4 * s))) + i % (4 * s) := by
      rw [← Nat.mul_assoc, show 2 * s * 2 = 4 * s by ring, hdm]
    conv_lhs => rw [e]
    rw [Nat.mul_add_div (by omega)]
  have hbig : ¬ i < 2 * L → g.testBit (i / (2 * s) * s + i % (2 * s)) = false := by
    intro hi
    apply Nat.testBit_lt_two_pow (lt_of_lt_of_le hg (Nat.pow_le_pow_right (by norm_num) _))
    obtain ⟨t, ht⟩ := hL
    have : t ≤ i / (2 * s) := (Nat.le_div_iff_mul_le (by omega)).2 (by rw [Nat.mul_comm]; omega)
    have := Nat.mul_le_mul_right s this
    have : L = t * s := by nlinarith
    omega
  generalize hA : i / (4 * s) = A at *
  generalize hR : i % (4 * s) = R at *
  by_cases hc : R < 2 * s
  · -- the first half
    rw [Nat.mod_eq_of_lt hc] at hmm
    rw [Nat.div_eq_of_lt hc, Nat.add_zero] at hdd
    have e1 : x.testBit i = g.testBit (i / (2 * s) * s + i % (2 * s)) := by
      rw [hx, hA, hR, hmm, hdd]
      simp only [hc, decide_true, Bool.true_and]
      congr 1
      ring
    have e2 : (decide (s ≤ i) && x.testBit (i - s)) = false := by
      by_cases hsi : s ≤ i
      · rw [hx]
        have hA0 : 0 < A := by
          rcases Nat.eq_zero_or_pos A with h0 | h0
          · rw [h0] at hdm; omega
          · exact h0
        obtain ⟨B, rfl⟩ : ∃ B, A = B + 1 := ⟨A - 1, by omega⟩
        have e3 : i - s = 4 * s * B + (3 * s + R) := by
          rw [Nat.mul_add] at hdm
          omega
        rw [e3, Nat.mul_add_mod, Nat.mod_eq_of_lt (by omega)]
        simp [show ¬ 3 * s + R < 2 * s by omega]
      · simp [hsi]
    rw [e1, e2, Bool.or_false]
    by_cases hi : i < 2 * L
    · simp [hi]
    · rw [hbig hi]; simp
  · -- the second half
    have hR3 : R % (2 * s) = R - 2 * s := by
      rw [Nat.mod_eq_sub_mod (by omega), Nat.mod_eq_of_lt (by omega)]
    have hR4 : R / (2 * s) = 1 := Nat.div_eq_of_lt_le (by omega) (by omega)
    rw [hR3] at hmm
    rw [hR4] at hdd
    have e1 : x.testBit i = false := by
      rw [hx, hA, hR]
      simp [hc]
    have e2 : (decide (s ≤ i) && x.testBit (i - s)) = g.testBit (i / (2 * s) * s + i % (2 * s)) := by
      have hsi : s ≤ i := by omega
      have e3 : i - s = 4 * s * A + (R - s) := by omega
      rw [hx, e3, Nat.mul_add_mod, Nat.mod_eq_of_lt (by omega), Nat.mul_add_div (by omega), Nat.div_eq_of_lt (by omega), hmm, hdd]
      simp only [hsi, decide_true, Bool.true_and, show R - s < 2 * s by omega]
      congr 1
      have : (2 * A + 1) * s = A * (2 * s) + s := by ring
      rw [this, Nat.add_zero]
      omega
    rw [e1, e2, Bool.false_or]
    by_cases hi : i < 2 * L
    · simp [hi]
    · rw [hbig hi]; simp

/-- the masks that take numbers of `2^K` bits from level `2^e` to level 1 -/
def GoodMasks (K : ℕ) : ℕ → List (ℕ × ℕ) → Prop
  | 0, [] => True
  | e + 1, (s, m) :: l => s = 2 ^ e ∧ (∀ i, m.testBit i = (decide (i < 2 * 2 ^ K) && decide (i % (2 * 2 ^ e) < 2 ^ e))) ∧ GoodMasks K e l
  | _, _ => False

theorem spreadL_level {K g : ℕ} (hg : g < 2 ^ 2 ^ K) : ∀ (e : ℕ) (l : List (ℕ × ℕ)) (x : ℕ), e ≤ K → GoodMasks K e l → Level g (2 ^ e) x →
    Level g 1 (spreadL l x)
  | 0, [], x, _, _, h => h
  | 0, _ :: _, _, _, hl, _ => hl.elim
  | e + 1, [], _, _, hl, _ => hl.elim
  | e + 1, (s, m) :: l, x, he, hl, h => by
    obtain ⟨rfl, hm, hl⟩ := hl
    rw [spreadL, force_eq]
    apply spreadL_level hg e l _ (by omega) hl
    rw [Nat.pow_succ, Nat.mul_comm] at h
    exact level_step (Nat.two_pow_pos e) hg h (Nat.mul_dvd_mul_left 2 (Nat.pow_dvd_pow 2 (by omega))) hm

theorem act_spread {K g : ℕ} (hg : g < 2 ^ 2 ^ K) {l : List (ℕ × ℕ)} (hl : GoodMasks K K l) (b : ℕ → ZMod 2) (k : ℕ) :
    act (spreadL l g) b k = act g (act g b) k := by
  have h0 : Level g (2 ^ K) g := by
    intro i
    by_cases hi : i < 2 ^ K
    · rw [Nat.mod_eq_of_lt (by omega), Nat.div_eq_of_lt (by omega)]
      simp [hi]
    · rw [Nat.testBit_lt_two_pow (lt_of_lt_of_le hg (Nat.pow_le_pow_right (by norm_num) (by omega)))]
      symm
      rw [Bool.and_eq_false_iff]
      by_cases h1 : i % (2 * 2 ^ K) < 2 ^ K
      · right
        refine Nat.testBit_lt_two_pow (lt_of_lt_of_le hg (Nat.pow_le_pow_right (by norm_num) ?_))
        have : 1 ≤ i / (2 * 2 ^ K) := by
          by_contra hc
          have : i < 2 * 2 ^ K := by
            rcases Nat.div_eq_zero_iff.1 (Nat.eq_zero_of_not_pos hc) with h | h
            · have := Nat.two_pow_pos K; omega
            · exact h
          rw [Nat.mod_eq_of_lt this] at h1
          omega
        have := Nat.mul_le_mul_right (2 ^ K) this
        exact le_trans (by omega) (Nat.le_add_right _ _)
      · left
        simp [h1]
  have h1 := spreadL_level hg K l g le_rfl hl h0
  have hbit : ∀ i, (spreadL l g).testBit (2 * i) = g.testBit i := by
    intro i
    rw [h1]
    simp
  have hodd : ∀ i, (spreadL l g).testBit (2 * i + 1) = false := by
    intro i
    rw [h1]
    simp [Nat.add_mod]
  have hb : spreadL l g < 2 ^ (2 * (g + spreadL l g)) :=
    lt_of_lt_of_le Nat.lt_two_pow_self (Nat.pow_le_pow_right (by norm_num) (by omega))
  rw [act_eq hb, act_act, ← sum_bits_eq (N := g) (M := g + spreadL l g) Nat.lt_two_pow_self (by omega) (fun i => b (k + 2 * i))]
  generalize g + spreadL l g = M
  induction M with
  | zero => simp
  | succ M ih =>
    rw [Nat.mul_succ, Finset.sum_range_succ, Finset.sum_range_succ, ih, Finset.sum_range_succ _ M, hbit, hodd]
    simp

theorem testBit_maskN {s : ℕ} (hs : 0 < s) (n i : ℕ) : (maskN s n).testBit i = (decide (i < 2 * s * 2 ^ n) && decide (i % (2 * s) < s)) := by
  induction n generalizing i with
  | zero =>
    show (1 <<< s - 1).testBit i = _
    rw [Nat.shiftLeft_eq, Nat.one_mul, Nat.testBit_two_pow_sub_one, Nat.pow_zero, Nat.mul_one]
    by_cases h : i < 2 * s
    · rw [Nat.mod_eq_of_lt h]; simp [h]
    · simp [h]; omega
  | succ n ih =>
    rw [maskN, force_eq]
    show (maskN s n ||| maskN s n <<< (s * (2 <<< n))).testBit i = _
    have e : s * (2 <<< n) = 2 * s * 2 ^ n := by rw [Nat.shiftLeft_eq]; ring
    rw [e, Nat.testBit_or, Nat.testBit_shiftLeft, ih, ih, Nat.pow_succ]
    generalize hW : 2 * s * 2 ^ n = W
    have e2 : 2 * s * (2 ^ n * 2) = W + W := by rw [← hW]; ring
    rw [e2]
    by_cases h1 : i < W
    · have : ¬ W ≤ i := by omega
      have : i < W + W := by omega
      simp [*]
    · have h2 : W ≤ i := by omega
      have h3 : (i - W) % (2 * s) = i % (2 * s) := by
        conv_rhs => rw [← Nat.sub_add_cancel h2, ← hW, Nat.add_mul_mod_self_left]
        rw [hW]
      rw [h3]
      have h4 : i - W < W ↔ i < W + W := by omega
      simp [h1, h2, h4]

theorem withMasks_eq {α : Type} (K : ℕ) (n : ℕ) : ∀ e acc, e + n = K → GoodMasks K e acc →
    ∃ l, GoodMasks K K l ∧ ∀ f : List (ℕ × ℕ) → α, withMasks K n e acc f = f l := by
  induction n with
  | zero =>
    intro e acc he h
    obtain rfl : e = K := by omega
    exact ⟨acc, h, fun f => rfl⟩
  | succ n ih =>
    intro e acc he h
    obtain ⟨l, hl, hf⟩ := ih (e + 1) ((2 ^ e, maskN (2 ^ e) (K - e)) :: acc) (by omega) ⟨rfl, fun i => by
      rw [testBit_maskN (Nat.two_pow_pos e), Nat.mul_assoc, ← Nat.pow_add, show e + (K - e) = K by omega], h⟩
    exact ⟨l, hl, fun f => by rw [withMasks, force_eq, hf]⟩

/-! ## The products -/

/-- what `mulL` does, on the side of the sequences -/
def hornL (b : ℕ → ZMod 2) (k l : ℕ) : List Bool → (ℕ → ZMod 2) → ℕ → ZMod 2
  | [], c => c
  | a :: t, c => hornL b k l t fun j => c (j + k) + c (j + l) + if a then b j else 0

theorem act_mulL (q k l : ℕ) (b : ℕ → ZMod 2) : ∀ (t : List Bool) (R : ℕ) (c : ℕ → ZMod 2), (∀ j, act R b j = act q c j) →
    ∀ j, act (mulL q k l t R) b j = act q (hornL b k l t c) j
  | [], _, _, h, j => h j
  | true :: t, R, c, h, j => by
    rw [mulL, force_eq, hornL]
    refine act_mulL q k l b t _ _ (fun i => ?_) j
    show act (R <<< k ^^^ R <<< l ^^^ q) b i = _
    rw [act_xor, act_xor, act_shiftLeft, act_shiftLeft, h, h]
    simp only [if_true]
    rw [act_add, act_add, act_shift, act_shift]
  | false :: t, R, c, h, j => by
    rw [mulL, hornL]
    refine act_mulL q k l b t _ _ (fun i => ?_) j
    show act (R <<< k ^^^ R <<< l) b i = _
    rw [act_xor, act_shiftLeft, act_shiftLeft, h, h]
    simp only [Bool.false_eq_true, if_false, add_zero]
    rw [act_add, act_shift, act_shift]

/-- the groups, one after the other -/
def flat : List (Bool × Bool × Bool × Bool) → List Bool
  | [] => []
  | (a0, a1, a2, a3) :: t => a0 :: a1 :: a2 :: a3 :: flat t

theorem hornL_append (b : ℕ → ZMod 2) (k l : ℕ) : ∀ (s t : List Bool) (c : ℕ → ZMod 2), hornL b k l (s ++ t) c = hornL b k l t (hornL b k l s c)
  | [], _, _ => rfl
  | _ :: s, t, _ => hornL_append b k l s t _

theorem hornL_four (b : ℕ → ZMod 2) (k l : ℕ) (a0 a1 a2 a3 : Bool) (t : List Bool) (c : ℕ → ZMod 2) :
    hornL b k l (a0 :: a1 :: a2 :: a3 :: t) c = hornL b k l t fun j => c (j + 4 * k) + c (j + 4 * l) +
      (if a0 then (b (j + (2 * k + k)) + b (j + (2 * k + l))) + (b (j + (2 * l + k)) + b (j + (2 * l + l))) else 0) +
      (if a1 then b (j + 2 * k) + b (j + 2 * l) else 0) + (if a2 then b (j + k) + b (j + l) else 0) + (if a3 then b j else 0) := by
  rw [hornL, hornL, hornL, hornL]
  congr 1
  funext j
  cases a0 <;> cases a1 <;> cases a2 <;> cases a3 <;> simp only [if_true, Bool.false_eq_true, if_false] <;> ring_nf <;> reduce_mod_char

theorem act_mulG {q q1 q2 q3 k l : ℕ} {b : ℕ → ZMod 2} (h1 : ∀ j, act q1 b j = act q b (j + k) + act q b (j + l) + act q b j)
    (h2 : ∀ j, act q2 b j = act q b (j + 2 * k) + act q b (j + 2 * l) + act q b j)
    (h3 : ∀ j, act q3 b j = (act q b (j + (2 * k + k)) + act q b (j + (2 * k + l))) + (act q b (j + (2 * l + k)) + act q b (j + (2 * l + l))) + act q b j) :
    ∀ (t : List (Bool × Bool × Bool × Bool)) (R : ℕ) (c : ℕ → ZMod 2), (∀ j, act R b j = act q c j) →
    ∀ j, act (mulG q q1 q2 q3 (4 * k) (4 * l) t R) b j = act q (hornL b k l (flat t) c) j
  | [], _, _, h, j => h j
  | (a0, a1, a2, true) :: t, R, c, h, j => by
    rw [mulG, force_eq, flat, hornL_four]
    refine act_mulG h1 h2 h3 t _ _ (fun i => ?_) j
    show act (R <<< (4 * k) ^^^ R <<< (4 * l) ^^^ combT q q1 q2 q3 a0 a1 a2) b i = _
    rw [act_xor, act_xor, act_shiftLeft, act_shiftLeft, h, h, act_add, act_add, act_add, act_add, act_add, act_shift, act_shift,
      add_assoc (_ + _), add_assoc (_ + _), add_assoc (_ + _)]
    congr 1
    cases a0 <;> cases a1 <;> cases a2 <;>
      simp only [combT, if_true, Bool.false_eq_true, if_false, act_zero, act_xor', act_add, act_shift, h1, h2, h3] <;>
      ring_nf <;> reduce_mod_char
  | (a0, a1, a2, false) :: t, R, c, h, j => by
    rw [mulG, flat, hornL_four]
    refine act_mulG h1 h2 h3 t _ _ (fun i => ?_) j
    show act (R <<< (4 * k) ^^^ R <<< (4 * l) ^^^ combF q q1 q2 q3 a0 a1 a2) b i = _
    rw [act_xor, act_xor, act_shiftLeft, act_shiftLeft, h, h, act_add, act_add, act_add, act_add, act_add, act_shift, act_shift,
      add_assoc (_ + _), add_assoc (_ + _), add_assoc (_ + _)]
    congr 1
    cases a0 <;> cases a1 <;> cases a2 <;>
      simp only [combF, if_true, Bool.false_eq_true, if_false, act_zero, act_zero', act_xor', act_add, act_shift, h1, h2, h3] <;>
      ring_nf <;> reduce_mod_char

theorem act_withSmall {q k l : ℕ} {b : ℕ → ZMod 2} (t : List (Bool × Bool × Bool × Bool)) (R : ℕ) (c : ℕ → ZMod 2) (h : ∀ j, act R b j = act q c j) (j : ℕ) :
    act (withSmall q k l (2 * k) (2 * l) fun q1 q2 q3 => mulG q q1 q2 q3 (4 * k) (4 * l) t R) b j = act q (hornL b k l (flat t) c) j := by
  unfold withSmall
  rw [force_eq, force_eq, force_eq]
  refine act_mulG (fun i => ?_) (fun i => ?_) (fun i => ?_) t R c h j
  · rw [act_xor', act_xor', act_shiftLeft', act_shiftLeft']
  · rw [act_xor', act_xor', act_shiftLeft', act_shiftLeft']
  · rw [act_xor', act_xor', act_shiftLeft', act_shiftLeft', act_xor', act_xor', act_xor', act_xor', act_shiftLeft', act_shiftLeft', act_xor', act_xor',
      act_shiftLeft', act_shiftLeft']
    ring_nf
    reduce_mod_char

/-! ## The squarings -/

theorem act_redStep {p : ℕ} {quo mul : ℕ → ℕ} {b : ℕ → ZMod 2} (hmul : ∀ q k, act (mul q) b k = 0) (N k : ℕ) :
    act (redStep p quo mul N) b k = act N b k := by
  unfold redStep
  rw [force_eq, force_eq, force_eq]
  show act (N ^^^ mul _) b k = _
  rw [act_xor, hmul, add_zero]

theorem sqIter_sound {K : ℕ} {sp : List (ℕ × ℕ)} (hsp : GoodMasks K K sp) {red : ℕ → ℕ} {b : ℕ → ZMod 2}
    (hred : ∀ N k, act (red N) b k = act N b k) (g' n : ℕ) : ∀ g j, sqIter (2 ^ 2 ^ K) sp red g' n g = true →
    (∀ k, b (k + 2 ^ j) = act g b k) → ∀ k, b (k + 2 ^ (j + n)) = act g' b k := by
  induction n with
  | zero =>
    intro g j h hb
    rw [sqIter, Nat.beq_eq] at h
    rw [← h]
    exact hb
  | succ n ih =>
    intro g j h hb
    rw [sqIter] at h
    cases hlt : Nat.blt g (2 ^ 2 ^ K) with
    | false => rw [hlt] at h; exact absurd h (by simp)
    | true =>
      rw [hlt, cond_true, force_eq, force_eq] at h
      have hg : g < 2 ^ 2 ^ K := by rwa [Nat.blt_eq] at hlt
      rw [show j + (n + 1) = j + 1 + n by omega]
      refine ih _ (j + 1) h fun k => ?_
      rw [hred, act_spread hg hsp, Nat.pow_succ, Nat.mul_two, ← Nat.add_assoc, hb]
      unfold act
      refine Finset.sum_congr rfl fun i _ => ?_
      rw [show k + 2 ^ j + i = k + i + 2 ^ j by omega, hb]
      rfl

theorem sqCheck_sound {K : ℕ} {red : ℕ → ℕ} {n g g' : ℕ} (h : sqCheck K red n g g' = true) {b : ℕ → ZMod 2}
    (hred : ∀ N k, act (red N) b k = act N b k) {j : ℕ} (hb : ∀ k, b (k + 2 ^ j) = act g b k) (k : ℕ) : b (k + 2 ^ (j + n)) = act g' b k := by
  unfold sqCheck at h
  obtain ⟨l, hl, hf⟩ := withMasks_eq (α := Bool) K K 0 [] (by omega) trivial
  rw [hf, force_eq] at h
  refine sqIter_sound (red := red) hl hred g' n g j ?_ hb k
  have e : Nat.shiftLeft 1 (2 ^ K) = 2 ^ 2 ^ K := by
    show 1 <<< (2 ^ K) = _
    rw [Nat.shiftLeft_eq, Nat.one_mul]
  rwa [e] at h

/-- `2^j` steps ahead in the sequence is what `g` does -/
def ShiftsAt (b : ℕ → ZMod 2) (j g : ℕ) : Prop := ∀ k, b (k + 2 ^ j) = act g b k

theorem ShiftsAt.step {b : ℕ → ZMod 2} {red : ℕ → ℕ} (hred : ∀ N k, act (red N) b k = act N b k) {j j' n g g' : ℕ} (hb : ShiftsAt b j g)
    (h : sqCheck 15 red n g g' = true) (hj : j + n = j') : ShiftsAt b j' g' := fun k => by
  rw [← hj]
  exact sqCheck_sound h hred hb k

end RMath
