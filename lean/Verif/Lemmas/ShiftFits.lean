import Verif.SpecFun
import Verif.Lemmas.BigInt

/-!
# Right shifts that remove the factors of two
-/

namespace RMath

theorem shiftFits_lt {n s : Nat} (h : s < 32) : ShiftFits n s := Or.inl h

theorem enc_length_log2 {n : Nat} (hn : n ≠ 0) : (enc n).length = n.log2 / 32 + 1 := by
  have h1 : 2 ^ n.log2 ≤ n := Nat.log2_self_le hn
  have h2 : n < 2 ^ (n.log2 + 1) := Nat.lt_log2_self
  have hc := canon_enc n
  have hlt := val_lt (enc n)
  rw [val_enc] at hlt
  have hpos : 0 < (enc n).length := List.length_pos_iff.2 (enc_ne_nil n)
  have a1 : n.log2 < 32 * (enc n).length := by
    by_contra hc
    have := Nat.pow_le_pow_right (n := 2) (by norm_num) (not_lt.1 hc)
    omega
  have a2 : 32 * ((enc n).length - 1) ≤ n.log2 := by
    by_cases hl : (enc n).length = 1
    · omega
    · have hle := hc.le_val (by omega)
      rw [val_enc] at hle
      by_contra hc
      have := Nat.pow_le_pow_right (n := 2) (by norm_num) (not_le.1 hc)
      have e : n.log2.succ = n.log2 + 1 := rfl
      rw [e] at this
      omega
  omega

theorem shrInner_fits {n s : Nat} (hn : n ≠ 0) (hs : s ≤ n.log2) (h : ShiftFits n s) :
    shrInner (enc n) s = enc (n / 2 ^ s) := by
  rcases h with h | ⟨h0, h1⟩
  · exact shrInner_enc_lt h
  · have hlen := enc_length_log2 hn
    have hle : 2 ^ (32 * ((enc n).length - 1) + s % 32) ≤ val (enc n) := by
      rw [val_enc, hlen]
      refine le_trans (Nat.pow_le_pow_right (by norm_num) ?_) (Nat.log2_self_le hn)
      omega
    have := shrInner_carry (v := enc n) (s := s) (by omega) (by omega) (top_shift (enc_ne_nil n) _ hle)
    exact enc_eq_iff.2 ⟨this.2, by rw [this.1, val_enc]⟩

theorem le_log2_two_pow_mul {s q : Nat} (hq : q ≠ 0) : s ≤ (2 ^ s * q).log2 := by
  rw [Nat.le_log2 (by positivity)]
  exact Nat.le_mul_of_pos_right _ (by omega)

theorem shrInner_odd_part {s q : Nat} (hq : q % 2 = 1) (h : ShiftFits (2 ^ s * q) s) :
    shrInner (enc (2 ^ s * q)) s = enc q := by
  have hq0 : q ≠ 0 := by omega
  rw [shrInner_fits (by positivity) (le_log2_two_pow_mul hq0) h, Nat.mul_div_cancel_left _ (Nat.two_pow_pos s)]

theorem oddPartFits_of_not_dvd {n : Nat} (h : ¬ 2 ^ 32 ∣ n) : OddPartFits n := by
  intro s q hn hq
  left
  by_contra hc
  exact h (hn ▸ Dvd.dvd.mul_right (pow_dvd_pow 2 (by omega)) q)

theorem oddPartFits_two_pow {k : Nat} (h : k % 32 ≠ 0) : OddPartFits (2 ^ k) := by
  intro s q hn hq
  have hq1 : q ∣ 2 ^ k := hn ▸ Dvd.intro_left _ rfl
  obtain ⟨j, -, rfl⟩ := (Nat.dvd_prime_pow Nat.prime_two).1 hq1
  have hj : j = 0 := by
    rcases j with _ | j
    · rfl
    · rw [pow_succ] at hq; omega
  subst hj
  rw [pow_zero, mul_one] at hn
  have := Nat.pow_right_injective (le_refl 2) hn
  subst this
  right
  rw [Nat.log2_two_pow]
  exact ⟨h, le_rfl⟩

/-- powers of `2^32` are not of this kind, except one -/
theorem not_oddPartFits {k : Nat} (h : k ≠ 0) : ¬ OddPartFits (2 ^ (32 * k)) := by
  intro hf
  rcases hf (32 * k) 1 (by ring) rfl with h1 | ⟨h1, -⟩
  · omega
  · omega

end RMath
