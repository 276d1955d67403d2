import Verif.Lemmas.TwistShift
import Verif.Props.RandTwist

/-!
# The bits of a twisted sequence

Bit 0 of the words of a twisted sequence is annihilated by the characteristic polynomial, and what bit 0 does the other bits do as well.
-/

namespace RMath

/-- a bit as an element of the field -/
def bitZ (x i : ℕ) : ZMod 2 := if x.testBit i then 1 else 0

theorem bitZ_xor (x y i : ℕ) : bitZ (x ^^^ y) i = bitZ x i + bitZ y i := by
  unfold bitZ
  rw [Nat.testBit_xor]
  cases x.testBit i <;> cases y.testBit i <;> simp [CharTwo.add_self_eq_zero]

theorem bitZ_ext {x y : ℕ} (h : ∀ i, bitZ x i = bitZ y i) : x = y := by
  refine Nat.eq_of_testBit_eq fun i => ?_
  have := h i
  unfold bitZ at this
  cases hx : x.testBit i <;> cases hy : y.testBit i <;> simp_all

/-- one bit of the recurrence -/
theorem Twisted.bit {w n m r a : ℕ} {X : ℕ → ℕ} (h : Twisted w n m r a X) (i k : ℕ) :
    (if i + 1 < r then bitZ (X (k + 1)) (i + 1) else bitZ (X k) (i + 1)) =
      bitZ (X (k + n)) i + bitZ (X (k + m)) i + if a.testBit i then bitZ (X (k + 1)) 0 else 0 := by
  have e1 : bitZ ((X k / 2 ^ r * 2 ^ r + X (k + 1) % 2 ^ r) / 2) i = if i + 1 < r then bitZ (X (k + 1)) (i + 1) else bitZ (X k) (i + 1) := by
    unfold bitZ
    rw [Nat.testBit_div_two, joined_bit]
    split <;> rfl
  have e2 : bitZ (if X (k + 1) % 2 = 1 then a else 0) i = if a.testBit i then bitZ (X (k + 1)) 0 else 0 := by
    unfold bitZ
    rw [Nat.testBit_zero]
    by_cases h1 : X (k + 1) % 2 = 1 <;> by_cases h2 : a.testBit i <;> simp [h1, h2]
  have e3 := congrArg (fun x => bitZ x i) (h.rec' k)
  simp only [bitZ_xor] at e3
  rw [e1, e2] at e3
  rw [e3]
  generalize (if i + 1 < r then bitZ (X (k + 1)) (i + 1) else bitZ (X k) (i + 1)) = u
  generalize (if a.testBit i then bitZ (X (k + 1)) 0 else 0) = v
  generalize bitZ (X (k + m)) i = z
  ring_nf
  reduce_mod_char

/-- a repetition of the lowest bits is one of the words -/
theorem Twisted.repeats {w n m r a : ℕ} {X : ℕ → ℕ} (h : Twisted w n m r a X) (hm : 0 < m) (hmn : m < n) {T : ℕ}
    (hb : ∀ k, bitZ (X (k + 1 + T)) 0 = bitZ (X (k + 2)) 0) (k : ℕ) (hk : 1 ≤ k) : X (k + T) = X (k + 1) := by
  refine bitZ_ext fun i => ?_
  induction i generalizing k with
  | zero =>
    have := hb (k - 1)
    rwa [show k - 1 + 1 + T = k + T by omega, show k - 1 + 2 = k + 1 by omega] at this
  | succ i ih =>
    have h0 : ∀ k, 1 ≤ k → bitZ (X (k + T)) 0 = bitZ (X (k + 1)) 0 := by
      intro k hk
      have := hb (k - 1)
      rwa [show k - 1 + 1 + T = k + T by omega, show k - 1 + 2 = k + 1 by omega] at this
    by_cases hi : i + 1 < r
    · have e1 := h.bit i (k - 1 + T)
      have e2 := h.bit i k
      rw [if_pos hi, show k - 1 + T + 1 = k + T by omega, show k - 1 + T + n = k - 1 + n + T by omega, show k - 1 + T + m = k - 1 + m + T by omega,
        ih _ (by omega), ih _ (by omega), h0 k hk, show k - 1 + n + 1 = k + n by omega, show k - 1 + m + 1 = k + m by omega] at e1
      rw [if_pos hi] at e2
      rw [e1, e2]
    · have e1 := h.bit i (k + T)
      have e2 := h.bit i (k + 1)
      rw [if_neg hi, show k + T + 1 = k + 1 + T by omega, show k + T + n = k + n + T by omega, show k + T + m = k + m + T by omega,
        ih _ (by omega), ih _ (by omega), h0 (k + 1) (by omega)] at e1
      rw [if_neg hi, show k + 1 + n = k + n + 1 by omega, show k + 1 + m = k + m + 1 by omega] at e2
      rw [e1, e2]

theorem Twisted.horn_low {w n m r a k l : ℕ} {X : ℕ → ℕ} (h : Twisted w n m r a X) (hk : k + 1 = n) (hl : l + 1 = m) (i : ℕ) (hi : i < r) :
    hornL (fun j => bitZ (X (j + 1)) 0) k l ((List.range i).map a.testBit) (fun j => bitZ (X (j + 1)) 0) = fun j => bitZ (X (j + 1)) i := by
  induction i with
  | zero => rfl
  | succ i ih =>
    rw [List.range_succ, List.map_append, hornL_append, ih (by omega), List.map_singleton, hornL, hornL]
    funext j
    have := h.bit i j
    rw [if_pos hi] at this
    rw [this, show j + k + 1 = j + n by omega, show j + l + 1 = j + m by omega]

theorem Twisted.horn_mid {w n m r a k l : ℕ} {X : ℕ → ℕ} (h : Twisted w n m r a X) (hk : k + 1 = n) (hl : l + 1 = m) (hr : 0 < r) :
    hornL (fun j => bitZ (X (j + 1)) 0) k l ((List.range r).map a.testBit) (fun j => bitZ (X (j + 1)) 0) = fun j => bitZ (X j) r := by
  obtain ⟨i, rfl⟩ : ∃ i, r = i + 1 := ⟨r - 1, by omega⟩
  rw [List.range_succ, List.map_append, hornL_append, h.horn_low hk hl i (by omega), List.map_singleton, hornL, hornL]
  funext j
  have := h.bit i j
  rw [if_neg (by omega)] at this
  rw [this, show j + k + 1 = j + n by omega, show j + l + 1 = j + m by omega]

theorem Twisted.horn_high {w n m r a : ℕ} {X : ℕ → ℕ} (h : Twisted w n m r a X) (i : ℕ) :
    hornL (fun j => bitZ (X (j + 1)) 0) n m ((List.range i).map fun t => a.testBit (r + t)) (fun j => bitZ (X j) r) =
      fun j => bitZ (X j) (r + i) := by
  induction i with
  | zero => rfl
  | succ i ih =>
    rw [List.range_succ, List.map_append, hornL_append, ih, List.map_singleton, hornL, hornL]
    funext j
    have := h.bit (r + i) j
    rw [if_neg (by omega)] at this
    rw [← Nat.add_assoc, this]

theorem Twisted.top {w n m r a : ℕ} {X : ℕ → ℕ} (h : Twisted w n m r a X) : (fun j => bitZ (X j) w) = fun _ => 0 := by
  funext j
  unfold bitZ
  rw [Nat.testBit_lt_two_pow (h.lt j)]
  simp

/-- sequences twisted as in `mt19937!` repeat -/
theorem Twisted.repeats32 {X : ℕ → ℕ} (h : Twisted 32 624 397 31 0x9908b0df X) {T : ℕ} (hT : T = 2 ^ 19937) (k : ℕ) (hk : 1 ≤ k) :
    X (k + T) = X (k + 1) := by
  refine h.repeats (by norm_num) (by norm_num) (fun k => ?_) k hk
  have hmul : ∀ q k, act (mtMul32 q) (fun j => bitZ (X (j + 1)) 0) k = 0 := by
    intro q k
    rw [mtMul32_act, mtLow32_eq, h.horn_mid rfl rfl (by norm_num),
      show [true] = (List.range 1).map (fun t => Nat.testBit 0x9908b0df (31 + t)) by decide +kernel, h.horn_high 1, h.top, act_zero]
  have := (mtShift32 hmul).finish k
  rw [← hT] at this
  rw [show k + 1 + T = k + T + 1 by omega]
  exact this

/-- sequences twisted as in `mt19937_64!` repeat -/
theorem Twisted.repeats64 {X : ℕ → ℕ} (h : Twisted 64 312 156 31 0xb5026f5aa96619e9 X) {T : ℕ} (hT : T = 2 ^ 19937) (k : ℕ) (hk : 1 ≤ k) :
    X (k + T) = X (k + 1) := by
  refine h.repeats (by norm_num) (by norm_num) (fun k => ?_) k hk
  have hmul : ∀ q k, act (mtMul64 q) (fun j => bitZ (X (j + 1)) 0) k = 0 := by
    intro q k
    rw [mtMul64_act, mtLow64_eq, h.horn_mid rfl rfl (by norm_num), mtHigh64_eq, h.horn_high 33, h.top, act_zero]
  have := (mtShift64 hmul).finish k
  rw [← hT] at this
  rw [show k + 1 + T = k + T + 1 by omega]
  exact this

end RMath
