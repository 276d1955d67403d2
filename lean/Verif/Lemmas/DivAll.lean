import Verif.Lemmas.NatDiv
import Verif.Lemmas.PrimeAll

/-!
Division by a vector with leading zero words.
-/

namespace RMath

/-- at least two words, the top one zero -/
def Padded (y : Words) : Prop := 2 ≤ y.length ∧ y.getLast? = some 0#32

theorem not_canon_iff_padded {y : Words} (hy : y ≠ []) : ¬ Canon y ↔ Padded y := by
  have hpos : 0 < y.length := List.length_pos_iff.2 hy
  unfold Padded
  rw [List.getLast?_eq_some_getLast hy]
  constructor
  · intro h
    refine ⟨?_, ?_⟩
    · by_contra h2
      exact h ⟨hy, .inl (by omega)⟩
    · by_contra h2
      exact h ⟨hy, .inr fun h3 => h2 (by rw [h3]; rfl)⟩
  · rintro ⟨h1, h2⟩ ⟨h3, h4 | h4⟩
    · omega
    · exact h4 (by simpa using h2)

theorem bitsLen_padded {y : Words} (hy : Padded y) : bitsLen y = (y.length - 1) * 32 := by
  unfold bitsLen
  rw [hy.2]
  simp only [if_true]
  rw [if_neg (by have := hy.1; omega)]

/-- the words a number below a power of the base needs, and conversely -/
theorem enc_length_iff (a : Nat) {l : Nat} (hl : 1 ≤ l) : (enc a).length ≤ l ↔ a < 2 ^ (32 * l) := by
  refine ⟨fun h => ?_, fun h => enc_length_le hl h⟩
  have h1 := val_lt (enc a)
  rw [val_enc] at h1
  exact h1.trans_le (Nat.pow_le_pow_right (by norm_num) (by omega))

theorem shrInner_one_length {v : Words} (hv : v ≠ []) :
    (shrInner v 1).length ≤ v.length ∧ (Padded v → (shrInner v 1).length = v.length - 1) := by
  obtain ⟨x, xs, rfl⟩ : ∃ x xs, v = x :: xs := by
    cases v with
    | nil => exact absurd rfl hv
    | cons x xs => exact ⟨x, xs, rfl⟩
  have hsnd := shrLoop_snd (by omega : 0 < 1) (by omega) x xs
  have hsl := shrLoop_length 1 (x >>> 1) xs
  have hres : shrInner (x :: xs) 1 =
      if (shrLoop 1 (x >>> 1) xs).2 ≠ 0#32 then
        (((shrLoop 1 (x >>> 1) xs).1 ++ (x :: xs).drop (shrLoop 1 (x >>> 1) xs).1.length).take (x :: xs).length).dropLast ++
          [(shrLoop 1 (x >>> 1) xs).2]
      else if (((shrLoop 1 (x >>> 1) xs).1 ++ (x :: xs).drop (shrLoop 1 (x >>> 1) xs).1.length).take
          (x :: xs).length).dropLast = [] then [0#32] else
        (((shrLoop 1 (x >>> 1) xs).1 ++ (x :: xs).drop (shrLoop 1 (x >>> 1) xs).1.length).take (x :: xs).length).dropLast := by
    rw [shrInner, if_neg (by simp)]
    rfl
  have hlen : (((shrLoop 1 (x >>> 1) xs).1 ++ (x :: xs).drop (shrLoop 1 (x >>> 1) xs).1.length).take
      (x :: xs).length).dropLast.length = xs.length := by
    simp only [List.length_dropLast, List.length_take, List.length_append, List.length_drop, List.length_cons, hsl]
    omega
  generalize (((shrLoop 1 (x >>> 1) xs).1 ++ (x :: xs).drop (shrLoop 1 (x >>> 1) xs).1.length).take
      (x :: xs).length).dropLast = u at *
  rw [hres]
  refine ⟨?_, fun hp => ?_⟩
  · split_ifs
    · simp [hlen]
    · simp
    · simp [hlen]
  · have hz : (shrLoop 1 (x >>> 1) xs).2 = 0#32 := by
      rw [hsnd]
      have := hp.2
      rw [List.getLast?_eq_some_getLast hv] at this
      simp only [Option.some.injEq] at this
      rw [this]
      decide
    have hu : u ≠ [] := by
      rintro rfl
      have := hp.1
      simp at hlen this
      omega
    rw [if_neg (by simp [hz]), if_neg hu, hlen]
    simp

/-- subtraction of a vector that is neither longer nor greater -/
theorem subInner_of_le {a : Nat} {den : Words} (hd : den ≠ []) (hl : den.length ≤ (enc a).length) (h : val den ≤ a) :
    subInner (enc a) den = enc (a - val den) := by
  have hge : geOp (enc a) den = true := by
    rcases Nat.lt_or_eq_of_le hl with hl | hl
    · unfold geOp partialCmp cmpInner
      have : isNan den = false := by rw [Bool.eq_false_iff]; intro hn; exact hd (isNan_iff.1 hn)
      rw [isNan_enc, this]
      simp only [Bool.or_self, Bool.false_eq_true, if_false]
      rw [if_neg (by omega), if_pos hl]
    · rw [geOp_of_length_eq (enc_ne_nil a) hl.symm]; simpa using h
  have hlo : (sbbZip true false (enc a) den).1.length = den.length := by
    rw [sbbZip_length]; omega
  unfold subInner subInnerWithSign
  simp only [hge, if_true, hlo, Bool.true_and]
  have hv := sub_ge_val hl (by rw [val_enc]; exact h)
  rw [val_enc] at hv
  rw [trim_eq_enc, hv]
  intro h0
  have h1 := congrArg List.length h0
  rw [List.length_append, hlo] at h1
  have := List.length_pos_iff.2 hd
  rw [List.length_nil] at h1
  omega

theorem cmpInner_length_lt {x y : Words} (h : x.length < y.length) : cmpInner x y = .lt ∧ cmpInner y x = .gt := by
  unfold cmpInner
  rw [if_pos h, if_neg (by omega), if_pos h]
  exact ⟨rfl, rfl⟩

theorem Padded.val_lt {y : Words} (hy : Padded y) : val y < 2 ^ (32 * (y.length - 1)) := by
  have hne : y ≠ [] := by rintro rfl; simp [Padded] at hy
  have h1 := val_dropLast_getLast hne
  have h2 := hy.2
  rw [List.getLast?_eq_some_getLast hne, Option.some.injEq] at h2
  rw [h2] at h1
  have h3 := RMath.val_lt y.dropLast
  rw [List.length_dropLast] at h3
  simp at h1
  omega

theorem shlInner_padded {y : Words} (hy : Padded y) (s : Nat) : (shlInner y s).length = y.length + s / 32 := by
  have hx : (if s % 32 > 0 then (shlLoop (s % 32) 0#32 y).1 ++
      (if (shlLoop (s % 32) 0#32 y).2 ≠ 0#32 then [(shlLoop (s % 32) 0#32 y).2] else []) else y).length = y.length := by
    split
    · have hlt : s % 32 < 32 := Nat.mod_lt _ (by norm_num)
      have h1 := shlLoop_val hlt 0#32 y (by simp)
      have h2 := hy.val_lt
      have h3 : val y * 2 ^ (s % 32) < 2 ^ (32 * y.length) := by
        have : 2 ^ (32 * y.length) = 2 ^ (32 * (y.length - 1)) * 2 ^ 32 := by
          rw [← Nat.pow_add]; congr 1; have := hy.1; omega
        rw [this]
        calc val y * 2 ^ (s % 32) ≤ val y * 2 ^ 32 := Nat.mul_le_mul_left _ (Nat.pow_le_pow_right (by norm_num) (by omega))
          _ < _ := Nat.mul_lt_mul_of_pos_right h2 (by norm_num)
      have h4 : (shlLoop (s % 32) 0#32 y).2 = 0#32 := by
        by_contra h5
        have h6 : 1 ≤ (shlLoop (s % 32) 0#32 y).2.toNat := by
          rcases Nat.eq_zero_or_pos (shlLoop (s % 32) 0#32 y).2.toNat with h | h
          · exact absurd (BitVec.eq_of_toNat_eq (by simpa using h)) h5
          · exact h
        have h7 : 2 ^ (32 * y.length) ≤ 2 ^ (32 * y.length) * (shlLoop (s % 32) 0#32 y).2.toNat :=
          Nat.le_mul_of_pos_right _ h6
        simp at h1
        omega
      rw [List.length_append, shlLoop_length, h4]
      simp
    · rfl
  rw [shlInner]
  split
  · rw [List.length_append, List.length_replicate, hx]; omega
  · rw [hx]; omega

/-- one round of both loops with a divisor that has leading zero words -/
theorem div_round {y : Words} (hy : Padded y) {a : Nat} (h : y.length ≤ (enc a).length) :
    bitsLen y < bitsLen (enc a) ∧ ∃ den s,
      (if cmpInner (enc a) (shlInner y (bitsLen (enc a) - bitsLen y)) = .lt then
        shrInner (shlInner y (bitsLen (enc a) - bitsLen y)) 1 else shlInner y (bitsLen (enc a) - bitsLen y)) = den ∧
      divAdjust (bitsLen (enc a) - bitsLen y + 2) (shlInner y (bitsLen (enc a) - bitsLen y)) (enc a)
        (bitsLen (enc a) - bitsLen y) = .ok (den, s) ∧
      val den = val y * 2 ^ s ∧ val den ≤ a ∧ subInner (enc a) den = enc (a - val den) := by
  have hl2 := hy.1
  have hane := enc_ne_nil a
  have hyne : y ≠ [] := by rintro rfl; simp at hl2
  have hca := canon_enc a
  have hb1 : bitsLen (enc a) ≤ 32 * (enc a).length := bitsLen_le_length hane
  have ha0 : a ≠ 0 := by rintro rfl; rw [enc_zero] at h; simp at h; omega
  have hlow := pow_bitLen_le ha0
  rw [← bitsLen_enc] at hlow
  have hb2 : 32 * ((enc a).length - 1) < bitsLen (enc a) := by
    have h1 := lt_pow_bitLen a
    rw [← bitsLen_enc] at h1
    by_contra hc
    have h2 : a < 2 ^ (32 * ((enc a).length - 1)) :=
      h1.trans_le (Nat.pow_le_pow_right (by norm_num) (by omega))
    have h3 := (enc_length_iff a (by omega)).2 h2
    omega
  rw [bitsLen_padded hy]
  refine ⟨by omega, ?_⟩
  obtain ⟨sh, hsh⟩ : ∃ sh, bitsLen (enc a) - (y.length - 1) * 32 = sh + 1 := ⟨bitsLen (enc a) - (y.length - 1) * 32 - 1, by omega⟩
  rw [hsh]
  have hv := shlInner_val y (sh + 1)
  have hlen := shlInner_padded hy (sh + 1)
  have hdne : shlInner y (sh + 1) ≠ [] := by
    intro h0; rw [h0] at hlen; simp at hlen; omega
  -- half of the shifted divisor is not greater
  have hhalf : val y * 2 ^ sh ≤ a := by
    have h1 := hy.val_lt
    have h2 : val y * 2 ^ sh ≤ 2 ^ (32 * (y.length - 1)) * 2 ^ sh := Nat.mul_le_mul_right _ h1.le
    rw [← Nat.pow_add, show 32 * (y.length - 1) + sh = bitsLen (enc a) - 1 by omega] at h2
    omega
  have hv1 : val (shrInner (shlInner y (sh + 1)) 1) = val y * 2 ^ sh := by
    rw [(shrInner_small hdne (by norm_num)).1, hv, Nat.pow_succ, ← Nat.mul_assoc, Nat.pow_one,
      Nat.mul_div_cancel _ (by norm_num)]
  have hs1 := shrInner_one_length hdne
  have hne1 : shrInner (shlInner y (sh + 1)) 1 ≠ [] := shrInner_ne_nil hdne 1
  by_cases hgt : cmpInner (shlInner y (sh + 1)) (enc a) = .gt
  · -- it has to be halved
    have hlt : cmpInner (enc a) (shlInner y (sh + 1)) = .lt := by
      rcases Nat.lt_trichotomy (enc a).length (shlInner y (sh + 1)).length with hc | hc | hc
      · exact (cmpInner_length_lt hc).1
      · rw [cmpInner_of_length_eq hc.symm] at hgt
        rw [cmpInner_of_length_eq hc]
        exact Nat.compare_eq_lt.2 (Nat.compare_eq_gt.1 hgt)
      · rw [(cmpInner_length_lt hc).1] at hgt; cases hgt
    have hle1 : (shrInner (shlInner y (sh + 1)) 1).length ≤ (enc a).length := by
      by_cases hc : (shlInner y (sh + 1)).length ≤ (enc a).length
      · exact hs1.1.trans hc
      · have h32 : (sh + 1) % 32 = 0 ∧ y.length + (sh + 1) / 32 = (enc a).length + 1 := by omega
        have hp : Padded (shlInner y (sh + 1)) := by
          refine ⟨by omega, ?_⟩
          rw [shlInner]
          simp only [h32.1, gt_iff_lt, Nat.lt_irrefl, if_false]
          rw [if_pos (by omega), List.getLast?_append, hy.2]
          rfl
        have := hs1.2 hp
        omega
    refine ⟨_, sh, by rw [if_pos hlt], ?_, hv1, by rw [hv1]; exact hhalf, ?_⟩
    · rw [divAdjust.eq_def]
      simp only [hgt, if_true]
      rw [divAdjust.eq_def]
      simp only
      rw [if_neg]
      rcases Nat.lt_or_eq_of_le hle1 with hc | hc
      · rw [(cmpInner_length_lt hc).1]; decide
      · rw [cmpInner_of_length_eq hc, hv1, val_enc, Nat.compare_eq_gt]; omega
    · exact subInner_of_le hne1 hle1 (by rw [hv1]; exact hhalf)
  · have hle : (shlInner y (sh + 1)).length ≤ (enc a).length := by
      by_contra hc
      exact hgt (cmpInner_length_lt (by omega)).2
    have hle2 : val (shlInner y (sh + 1)) ≤ a := by
      rcases Nat.lt_or_eq_of_le hle with hc | hc
      · have h1 := val_lt (shlInner y (sh + 1))
        have h2 : a < 2 ^ (32 * (shlInner y (sh + 1)).length) → False := fun h3 => by
          have := (enc_length_iff a (by omega)).2 h3
          omega
        by_contra h4
        exact h2 (by omega)
      · rw [cmpInner_of_length_eq hc, val_enc, Nat.compare_eq_gt] at hgt
        omega
    have hnlt : ¬ cmpInner (enc a) (shlInner y (sh + 1)) = .lt := by
      rcases Nat.lt_or_eq_of_le hle with hc | hc
      · rw [(cmpInner_length_lt hc).2]; decide
      · rw [cmpInner_of_length_eq hc.symm, val_enc, Nat.compare_eq_lt]; omega
    refine ⟨_, sh + 1, by rw [if_neg hnlt], ?_, hv, hle2, subInner_of_le hdne hle hle2⟩
    rw [divAdjust.eq_def]
    simp only [hgt, if_false]

/-- Both loops with a divisor that has leading zero words, but is not zero, end with a quotient and a remainder that
satisfy the equation of division; only the bound on the remainder is that of the words of the divisor. -/
theorem loops_padded {y : Words} (hy : Padded y) (h0 : val y ≠ 0) (fuel : Nat) : ∀ a, a < fuel →
    ∃ q r, remLoop y fuel (enc a) = .ok (enc r) ∧ (∀ acc, divLoop y fuel (enc a) (enc acc) = .ok (enc (acc + q))) ∧
      a = q * val y + r ∧ r < 2 ^ (32 * (y.length - 1)) := by
  have hl2 := hy.1
  induction fuel with
  | zero => intro a h; omega
  | succ fuel ih =>
    intro a ha
    by_cases h : y.length ≤ (enc a).length
    · obtain ⟨h1, den, s, h2, h3, h4, h5, h6⟩ := div_round hy h
      have hge : ¬ cmpInner (enc a) y = .lt := by
        rcases Nat.lt_or_eq_of_le h with hc | hc
        · rw [(cmpInner_length_lt hc).2]; decide
        · rw [cmpInner_of_length_eq hc.symm, val_enc, Nat.compare_eq_lt]
          have h7 := hy.val_lt
          have h8 : a < 2 ^ (32 * (y.length - 1)) → False := fun h9 => by
            have := (enc_length_iff a (by omega)).2 h9
            omega
          exact fun h10 => h8 (h10.trans h7)
      have hpos : 0 < val den := by
        rw [h4]; exact Nat.mul_pos (by omega) (by positivity)
      obtain ⟨q, r, i1, i2, i3, i4⟩ := ih (a - val den) (by omega)
      refine ⟨q + 2 ^ s, r, ?_, fun acc => ?_, ?_, i4⟩
      · rw [remLoop, if_neg hge, if_neg (by omega)]
        simp only [h2, h6]
        exact i1
      · rw [divLoop, if_neg hge, if_neg (by omega)]
        simp only [h3, h6, u32Shl_one, addInner_enc]
        rw [i2]
        congr 2
        omega
      · rw [Nat.add_mul, Nat.mul_comm (2 ^ s), ← h4]
        omega
    · have hlt : cmpInner (enc a) y = .lt := (cmpInner_length_lt (by omega)).1
      refine ⟨0, a, ?_, fun acc => ?_, by simp, (enc_length_iff a (by omega)).1 (by omega)⟩
      · rw [remLoop, if_pos hlt]
      · rw [divLoop, if_pos hlt, Nat.add_zero]

end RMath
