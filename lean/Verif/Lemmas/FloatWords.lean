import Verif.Model.Float
import Verif.Lemmas.NatFun
import Verif.Lemmas.NatSqr
import Verif.Lemmas.NatShift
import Verif.Lemmas.NatWord

/-! # Word-level facts for float.rs: normalisation, shifts, cutting -/

namespace RMath

/-- `m` fills exactly `L` words. -/
structure Norm (m L : Nat) : Prop where
  pos : 1 ≤ L
  lo : 2 ^ (32 * L - 1) ≤ m
  hi : m < 2 ^ (32 * L)

theorem Norm.ne_zero {m L : Nat} (h : Norm m L) : m ≠ 0 := by
  have := h.lo
  have h2 : 0 < 2 ^ (32 * L - 1) := by positivity
  omega

theorem Norm.bitLen {m L : Nat} (h : Norm m L) : bitLen m = 32 * L := by
  have hp := h.pos
  have h1 := lt_pow_bitLen m
  have h2 := pow_bitLen_le h.ne_zero
  have h3 := bitLen_pos m
  have a : 32 * L - 1 < RMath.bitLen m := by
    by_contra hc
    have := Nat.pow_le_pow_right (n := 2) (by norm_num) (by omega : RMath.bitLen m ≤ 32 * L - 1)
    have := h.lo; omega
  have b : RMath.bitLen m - 1 < 32 * L := by
    by_contra hc
    have := Nat.pow_le_pow_right (n := 2) (by norm_num) (by omega : 32 * L ≤ RMath.bitLen m - 1)
    have := h.hi; omega
  omega

theorem Norm.length {m L : Nat} (h : Norm m L) : (enc m).length = L := by
  have h1 := canon_bitLen (canon_enc m)
  rw [val_enc, h.bitLen] at h1
  have := (canon_enc m).length_pos
  omega

theorem Norm.of_words {x : Words} (h0 : x ≠ []) (h : 2 ^ (32 * x.length - 1) ≤ val x) :
    x = enc (val x) ∧ Norm (val x) x.length := by
  have hp := List.length_pos_iff.2 h0
  have hn : Norm (val x) x.length := ⟨hp, h, val_lt x⟩
  refine ⟨canon_eq_enc (canon_of_le_val h0 ?_), hn⟩
  intro h1
  exact le_trans (Nat.pow_le_pow_right (by norm_num) (by omega)) h

theorem shlVuLoop_eq (s : Nat) (pre : W) (x : Words) :
    shlVuLoop s (32 - s) pre x = (shlLoop s (pre >>> (32 - s)) x).1 := by
  induction x generalizing pre with
  | nil => rfl
  | cons a as ih => simp only [shlVuLoop, shlLoop, ih]

theorem shlLoop_carry (s : Nat) (pre : W) {x : Words} (hx : x ≠ []) :
    (shlLoop s pre x).2 = x.getLastD 0#32 >>> (32 - s) := by
  induction x generalizing pre with
  | nil => exact absurd rfl hx
  | cons a as ih =>
    by_cases has : as = []
    · subst has; rfl
    · rw [shlLoop]
      simp only
      rw [ih _ has]
      congr 1
      rw [List.getLastD_eq_getLast?, List.getLastD_eq_getLast?, List.getLast?_cons_of_ne_nil has]

theorem shlVu_eq {s : Nat} (h0 : 0 < s) (hs : s < 32) {x : Words} (hx : x ≠ []) :
    shlVu x s = shlLoop s 0#32 x := by
  unfold shlVu
  rw [if_neg (by simp [hx]; omega)]
  simp only
  rw [Nat.mod_eq_of_lt hs, Nat.mod_eq_of_lt (by omega : 32 - s < 32), shlVuLoop_eq, ← shlLoop_carry s 0#32 hx]
  simp

/-- The number of zero bits above the number in its words. -/
def lzw (a : Nat) : Nat := 32 * (enc a).length - bitLen a

theorem lzw_lt (a : Nat) : lzw a < 32 := by
  have h1 := canon_bitLen (canon_enc a)
  rw [val_enc] at h1
  unfold lzw; omega

theorem lzw_norm {a : Nat} (ha : a ≠ 0) : Norm (a * 2 ^ lzw a) (enc a).length := by
  have h1 := canon_bitLen (canon_enc a)
  rw [val_enc] at h1
  have h2 := lt_pow_bitLen a
  have h3 := pow_bitLen_le ha
  have h4 := bitLen_pos a
  have h5 := (canon_enc a).length_pos
  refine ⟨h5, ?_, ?_⟩
  · have : 2 ^ (32 * (enc a).length - 1) = 2 ^ (bitLen a - 1) * 2 ^ lzw a := by
      rw [← Nat.pow_add]; congr 1; unfold lzw; omega
    rw [this]; exact Nat.mul_le_mul_right _ h3
  · have : 2 ^ (32 * (enc a).length) = 2 ^ (bitLen a) * 2 ^ lzw a := by
      rw [← Nat.pow_add]; congr 1; unfold lzw; omega
    rw [this]; exact Nat.mul_lt_mul_of_pos_right h2 (by positivity)

theorem leadingZeros_last {a : Nat} (ha : a ≠ 0) : leadingZeros ((enc a).getLastD 0#32) = lzw a := by
  have h := bitsLen_enc a
  have hl := (canon_enc a).length_pos
  have hne := enc_ne_nil a
  have hlast : (enc a).getLast hne ≠ 0#32 := by
    obtain ⟨h0, h1 | h1⟩ := canon_enc a
    · intro hz
      apply ha
      obtain ⟨w, hw⟩ := List.length_eq_one_iff.1 h1
      have hv := val_enc a
      simp only [hw, List.getLast_singleton] at hz
      rw [hw, hz] at hv
      simpa using hv.symm
    · exact h1
  unfold bitsLen at h
  unfold lzw
  rw [List.getLastD_eq_getLast?]
  rw [List.getLast?_eq_some_getLast hne] at h ⊢
  simp only [if_neg hlast] at h
  simp only [Option.getD_some]
  have : leadingZeros ((enc a).getLast hne) ≤ 31 := by
    unfold leadingZeros; rw [if_neg hlast]; omega
  omega

theorem fnorm_enc {a : Nat} (ha : a ≠ 0) : fnorm (enc a) = .ok (enc (a * 2 ^ lzw a), lzw a) := by
  unfold fnorm
  rw [isNan_enc]
  simp only [Bool.false_eq_true, if_false]
  rw [leadingZeros_last ha]
  by_cases h0 : 0 < lzw a
  · rw [if_pos h0, shlVu_eq h0 (lzw_lt a) (enc_ne_nil a)]
    have hv := shlLoop_val (lzw_lt a) 0#32 (enc a) (by simp)
    have hl := shlLoop_length (lzw a) 0#32 (enc a)
    have hn := lzw_norm ha
    rw [val_enc] at hv
    simp only [BitVec.toNat_ofNat, Nat.zero_mod, Nat.add_zero] at hv
    have hc : (shlLoop (lzw a) 0#32 (enc a)).2 = 0#32 := by
      apply BitVec.eq_of_toNat_eq
      by_contra hne
      simp only [BitVec.toNat_ofNat, Nat.zero_mod] at hne
      have := Nat.mul_le_mul_left (2 ^ (32 * (enc a).length)) (Nat.one_le_iff_ne_zero.2 hne)
      have := hn.hi
      omega
    rw [if_pos hc]
    rw [hc] at hv
    simp only [BitVec.toNat_ofNat, Nat.zero_mod, Nat.mul_zero, Nat.add_zero] at hv
    have hw := Norm.of_words (x := (shlLoop (lzw a) 0#32 (enc a)).1)
      (by intro h; rw [h] at hl; simp at hl; exact enc_ne_nil a (List.length_eq_zero_iff.1 hl.symm))
      (by rw [hl, hv]; exact hn.lo)
    rw [hw.1, hv]
  · rw [if_neg h0]
    have : lzw a = 0 := by omega
    rw [this]; simp

theorem fnorm_zero : fnorm (enc 0) = .ok (enc 0, 32) := by
  rw [enc_zero]; rfl

end RMath
