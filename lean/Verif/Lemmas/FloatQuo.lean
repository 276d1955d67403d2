import Verif.Lemmas.FloatDiv

/-! # Division of floats: what the quotient is -/

namespace RMath

theorem FloatResult.of_inf {mode : RoundingMode} {p : Nat} {q : ℚ} {z : FloatV} (hz : z.form = .inf) (w : Words)
    (h : FloatResult mode p q z) : FloatResult mode p q { z with mant := w } := by
  obtain ⟨h1, h2, h3, h4, h5⟩ := h
  refine ⟨h1, h2, fun hf => ?_, h4, ?_⟩
  · exact absurd (hz.symm.trans hf) (by simp)
  · rw [hz] at h5
    simp only [hz]
    exact h5

/-- A sticky bit acts like one more word with the value one. -/
theorem fRound_sticky {x : FloatV} {m L : Nat} (hf : x.form = .finite) (hm : x.mant = enc m) (hN : Norm m L)
    (hp : 1 ≤ x.prec) (hlt : x.prec < 32 * L) (h1 : minExp ≤ x.exp) (h2 : x.exp ≤ maxExp) :
    ∃ z, fRound x 1 = .ok z ∧ FloatResult x.mode x.prec (sgn x.neg * (((m * 2 ^ 32 + 1 : Nat) : ℚ) * 2 ^ (x.exp - 32 * (L + 1 : Nat)))) z := by
  have hN' : Norm (m * 2 ^ 32 + 1) (L + 1) := by
    have hL := hN.pos
    have h1 := hN.lo
    have h2 := hN.hi
    refine ⟨by omega, ?_, ?_⟩
    · rw [show 32 * (L + 1) - 1 = 32 * L - 1 + 32 by omega, Nat.pow_add]; omega
    · rw [show 32 * (L + 1) = 32 * L + 32 by omega, Nat.pow_add]; omega
  obtain ⟨z2, e2, r2⟩ := fRound_result (x := { x with mant := enc (m * 2 ^ 32 + 1) }) hf rfl hN' hp h1 h2
  obtain ⟨w1, s1⟩ := fRound_spec (sbit := 1) hf hm hN hp hlt (by omega)
  obtain ⟨w2, s2⟩ := fRound_spec (x := { x with mant := enc (m * 2 ^ 32 + 1) }) (sbit := 0) hf rfl hN' hp (by simp only; omega) (by omega)
  rw [e2] at s2
  simp only at s1 s2 r2
  have hB : 32 * (L + 1) - x.prec = (32 * L - x.prec - 1) + 1 + 32 := by omega
  have hB0 : 32 * L - x.prec = (32 * L - x.prec - 1) + 1 := by omega
  rw [hB] at s2
  generalize 32 * L - x.prec - 1 = B at *
  rw [hB0] at s1
  have hm32 : (m * 2 ^ 32 + 1) / 2 ^ 32 = m := by omega
  have hk : (m * 2 ^ 32 + 1) / 2 ^ (B + 1 + 32) = m / 2 ^ (B + 1) := by
    rw [Nat.pow_add 2 (B + 1) 32, Nat.mul_comm (2 ^ (B + 1)), ← Nat.div_div_eq_div_mul, hm32]
  have hrb : (m * 2 ^ 32 + 1).testBit (B + 1 + 32 - 1) = m.testBit B := by
    rw [Nat.testBit_eq_decide_div_mod_eq, Nat.testBit_eq_decide_div_mod_eq, show B + 1 + 32 - 1 = B + 32 by omega,
      Nat.pow_add 2 B 32, Nat.mul_comm (2 ^ B), ← Nat.div_div_eq_div_mul, hm32]
  have hst : (m * 2 ^ 32 + 1) % 2 ^ (B + 1 + 32 - 1) ≠ 0 := by
    intro h0
    have hd := Nat.dvd_of_mod_eq_zero h0
    have : (2 : Nat) ∣ m * 2 ^ 32 + 1 := dvd_trans (dvd_pow_self 2 (by omega)) hd
    omega
  rw [hk, hrb] at s2
  simp only [hst, not_false_eq_true, true_or, decide_true, ne_eq] at s2
  simp only [or_true, decide_true, Nat.add_sub_cancel] at s1
  refine ⟨_, s1, ?_⟩
  have s2' := Except.ok.inj s2
  clear s1 s2
  split at s2'
  · rename_i hc
    rw [if_pos hc]
    split at s2'
    · rename_i hc2
      rw [if_pos hc2]
      have := FloatResult.of_inf (z := z2) (by rw [s2']) w1 r2
      rw [s2'] at this
      exact this
    · rename_i hc2
      rw [if_neg hc2]
      rw [s2'] at r2
      exact r2
  · rename_i hc
    rw [if_neg hc]
    rw [s2'] at r2
    exact r2

theorem fSetExpAndRound_sticky {x : FloatV} {m L : Nat} (hm : x.mant = enc m) (hN : Norm m L) (hp : 1 ≤ x.prec)
    (hlt : x.prec < 32 * L) (e : ℤ) :
    ∃ z, fSetExpAndRound x e 1 = .ok z ∧
      FloatResult x.mode x.prec (sgn x.neg * (((m * 2 ^ 32 + 1 : Nat) : ℚ) * 2 ^ (e - 32 * (L + 1 : Nat)))) z := by
  have hN' : Norm (m * 2 ^ 32 + 1) (L + 1) := by
    have hL := hN.pos
    have h1 := hN.lo
    have h2 := hN.hi
    refine ⟨by omega, ?_, ?_⟩
    · rw [show 32 * (L + 1) - 1 = 32 * L - 1 + 32 by omega, Nat.pow_add]; omega
    · rw [show 32 * (L + 1) = 32 * L + 32 by omega, Nat.pow_add]; omega
  obtain ⟨z, e1, e2⟩ := fSetExpAndRound_result (x := { x with mant := enc (m * 2 ^ 32 + 1) }) rfl hN' hp e
  unfold fSetExpAndRound at e1 ⊢
  by_cases h1 : e < minExp
  · rw [if_pos h1] at e1 ⊢
    cases e1
    refine ⟨_, rfl, ?_⟩
    obtain ⟨g1, g2, g3, g4, g5⟩ := e2
    exact ⟨g1, g2, fun hf => by simp at hf, g4, g5⟩
  · rw [if_neg h1] at e1 ⊢
    by_cases h2 : e > maxExp
    · rw [if_pos h2] at e1 ⊢
      cases e1
      refine ⟨_, rfl, ?_⟩
      obtain ⟨g1, g2, g3, g4, g5⟩ := e2
      exact ⟨g1, g2, fun hf => by simp at hf, g4, g5⟩
    · rw [if_neg h2]
      exact fRound_sticky (x := { x with form := .finite, exp := e }) rfl hm hN hp hlt (not_lt.1 h1) (not_lt.1 h2)

/-- no rounding if the mantissa fits, whatever the sticky bit -/
theorem fSetExpAndRound_fits {x : FloatV} {m L : Nat} (hm : x.mant = enc m) (hN : Norm m L)
    (hle : 32 * L ≤ x.prec) (e : ℤ) (s : Nat) : fSetExpAndRound x e s = fSetExpAndRound x e 0 := by
  unfold fSetExpAndRound
  have hr : ∀ t, fRound { x with form := .finite, exp := e } t = .ok { x with form := .finite, exp := e, acc := .exact } := by
    intro t
    unfold fRound
    simp only [hm, hN.length, ne_eq, not_true_eq_false, if_false]
    rw [if_pos (by omega)]
  rw [hr, hr]

/-- the part of a unit by which the sticky bit raises the quotient -/
def quoTail (p a b : Nat) : ℚ :=
  if a % b = 0 ∨ 32 * (enc (a / b)).length ≤ p then 0 else 2 ^ (-(32 + lzw (a / b) : ℤ))

theorem fUquo_result {x y : FloatV} {a b La Lb : Nat} (hx : IsFin x a La) (hy : IsFin y b Lb) (hq : a / b ≠ 0) :
    ∃ z, fUquo x y = .ok z ∧ FloatResult x.mode x.prec
      (sgn x.neg * (((a / b : Nat) + quoTail x.prec a b) * 2 ^ (x.exp - y.exp - 32 * (x.prec / 32 + 1 : Nat)))) z := by
  have hLa := hx.norm.pos
  have hLb := hy.norm.pos
  have hw := hx.words
  obtain ⟨n, hn⟩ : ∃ n : Nat, n = x.prec / 32 + 1 := ⟨_, rfl⟩
  have hnL : La ≤ n := by omega
  unfold fUquo
  simp only [hx.len, hy.len]
  have hd : ((x.prec / 32 : Nat) : ℤ) + 1 - (La : ℤ) + (Lb : ℤ) > 0 := by omega
  have hlen : (La + (((x.prec / 32 : Nat) : ℤ) + 1 - (La : ℤ) + (Lb : ℤ))).toNat = n + Lb := by omega
  rw [if_pos hd, hx.mant, deepClone_enc, hlen]
  have hle : (enc a).length ≤ n + Lb := by rw [hx.norm.length]; omega
  rw [resize_length, hy.mant]
  have hnan : isNan (resize (enc a) (n + Lb)) = false := by
    rw [Bool.eq_false_iff, Ne, isNan_iff]
    intro h0
    have := resize_length (enc a) (n + Lb)
    rw [h0] at this
    simp at this
    omega
  have hdiv : natDiv (resize (enc a) (n + Lb)) (enc b) = .ok (enc (a / b)) := by
    unfold natDiv opNatR
    rw [hnan, isNan_enc, deepClone_resize hle, divInner_enc hy.norm.ne_zero]; rfl
  have hrem : natRem (resize (enc a) (n + Lb)) (enc b) = .ok (enc (a % b)) := by
    unfold natRem opNatR
    rw [hnan, isNan_enc, deepClone_resize hle, remInner_enc hy.norm.ne_zero]; rfl
  rw [hdiv, hrem]
  simp only [bind, Except.bind]
  rw [fnorm_enc hq]
  simp only [isNan_enc, Bool.false_or]
  have hnorm := lzw_norm hq
  have heq0 : eqv (enc (a % b)) [0#32] = decide (a % b = 0) := by
    rw [← enc_zero, eqv_enc]
  rw [heq0]
  obtain ⟨l, hl⟩ : ∃ l : Nat, l = (enc (a / b)).length := ⟨_, rfl⟩
  rw [← hl] at hnorm ⊢
  have key : ∀ c : ℚ, (c * 2 ^ lzw (a / b)) * 2 ^ (x.exp - y.exp - (((n + Lb : Nat) : ℤ) - Lb - l) * 32 - lzw (a / b) - 32 * l) =
      c * 2 ^ (x.exp - y.exp - 32 * (x.prec / 32 + 1 : Nat)) := by
    intro c
    rw [mul_assoc, ← zpow_natCast (2 : ℚ) (lzw (a / b)), ← zpow_add₀ (by norm_num)]
    congr 2
    push_cast
    omega
  by_cases hr : a % b = 0
  · obtain ⟨z, e1, e2⟩ := fSetExpAndRound_result (x := { x with mant := enc (a / b * 2 ^ lzw (a / b)) }) rfl hnorm hx.prec
      (x.exp - y.exp - (((n + Lb : Nat) : ℤ) - Lb - l) * 32 - lzw (a / b))
    simp only [hr, decide_true, if_true]
    refine ⟨z, e1, ?_⟩
    have := key ((a / b : Nat) : ℚ)
    push_cast at e2 this
    rw [this] at e2
    rw [quoTail, if_pos (Or.inl hr), add_zero]
    push_cast
    exact e2
  · simp only [hr, decide_false, Bool.false_eq_true, if_false]
    by_cases hfit : 32 * l ≤ x.prec
    · obtain ⟨z, e1, e2⟩ := fSetExpAndRound_result (x := { x with mant := enc (a / b * 2 ^ lzw (a / b)) }) rfl hnorm hx.prec
        (x.exp - y.exp - (((n + Lb : Nat) : ℤ) - Lb - l) * 32 - lzw (a / b))
      rw [fSetExpAndRound_fits (x := { x with mant := enc (a / b * 2 ^ lzw (a / b)) }) rfl hnorm hfit]
      refine ⟨z, e1, ?_⟩
      have := key ((a / b : Nat) : ℚ)
      push_cast at e2 this
      rw [this] at e2
      rw [quoTail, if_pos (Or.inr (by rw [← hl]; exact hfit)), add_zero]
      push_cast
      exact e2
    · obtain ⟨z, e1, e2⟩ := fSetExpAndRound_sticky (x := { x with mant := enc (a / b * 2 ^ lzw (a / b)) }) rfl hnorm hx.prec
        (by simp only; omega) (x.exp - y.exp - (((n + Lb : Nat) : ℤ) - Lb - l) * 32 - lzw (a / b))
      refine ⟨z, e1, ?_⟩
      rw [quoTail, if_neg (by rw [not_or]; exact ⟨hr, by rw [← hl]; exact hfit⟩)]
      have := key ((a / b : Nat) + 2 ^ (-(32 + lzw (a / b) : ℤ)))
      rw [← this]
      convert e2 using 2
      have e32 : (2 : ℚ) ^ (-(32 + lzw (a / b) : ℤ)) * 2 ^ lzw (a / b) * 2 ^ 32 = 1 := by
        rw [← zpow_natCast (2 : ℚ) (lzw (a / b)), ← zpow_natCast (2 : ℚ) 32, ← zpow_add₀ (by norm_num), ← zpow_add₀ (by norm_num)]
        rw [show -(32 + (lzw (a / b) : ℤ)) + (lzw (a / b) : ℤ) + (32 : ℕ) = 0 by push_cast; ring, zpow_zero]
      have e33 : (2 : ℚ) ^ (x.exp - y.exp - (((n + Lb : Nat) : ℤ) - Lb - l) * 32 - lzw (a / b) - 32 * l) =
          2 ^ 32 * 2 ^ (x.exp - y.exp - (((n + Lb : Nat) : ℤ) - Lb - l) * 32 - lzw (a / b) - 32 * (l + 1 : Nat)) := by
        rw [← zpow_natCast (2 : ℚ) 32, ← zpow_add₀ (by norm_num)]
        congr 1; push_cast; ring
      rw [e33]
      push_cast
      generalize (2 : ℚ) ^ (-(32 + lzw (a / b) : ℤ)) = t at *
      generalize (2 : ℚ) ^ lzw (a / b) = s at *
      generalize (2 : ℚ) ^ (_ : ℤ) = u
      have : (((a / b : Nat) : ℚ) + t) * s * (2 ^ 32 * u) = ((a / b : Nat) : ℚ) * s * 2 ^ 32 * u + (t * s * 2 ^ 32) * u := by ring
      push_cast at this e32
      rw [this, e32]; ring

/-- the integer quotient is zero -/
theorem fUquo_small {x y : FloatV} {a b La Lb : Nat} (hx : IsFin x a La) (hy : IsFin y b Lb) (hq : a / b = 0) :
    ∃ e s, fUquo x y = fSetExpAndRound { x with mant := enc 0 } e s := by
  have hLa := hx.norm.pos
  have hLb := hy.norm.pos
  have hw := hx.words
  obtain ⟨n, hn⟩ : ∃ n : Nat, n = x.prec / 32 + 1 := ⟨_, rfl⟩
  have hnL : La ≤ n := by omega
  unfold fUquo
  simp only [hx.len, hy.len]
  have hd : ((x.prec / 32 : Nat) : ℤ) + 1 - (La : ℤ) + (Lb : ℤ) > 0 := by omega
  have hlen : (La + (((x.prec / 32 : Nat) : ℤ) + 1 - (La : ℤ) + (Lb : ℤ))).toNat = n + Lb := by omega
  rw [if_pos hd, hx.mant, deepClone_enc, hlen]
  have hle : (enc a).length ≤ n + Lb := by rw [hx.norm.length]; omega
  rw [resize_length, hy.mant]
  have hnan : isNan (resize (enc a) (n + Lb)) = false := by
    rw [Bool.eq_false_iff, Ne, isNan_iff]
    intro h0
    have := resize_length (enc a) (n + Lb)
    rw [h0] at this
    simp at this
    omega
  have hdiv : natDiv (resize (enc a) (n + Lb)) (enc b) = .ok (enc (a / b)) := by
    unfold natDiv opNatR
    rw [hnan, isNan_enc, deepClone_resize hle, divInner_enc hy.norm.ne_zero]; rfl
  have hrem : natRem (resize (enc a) (n + Lb)) (enc b) = .ok (enc (a % b)) := by
    unfold natRem opNatR
    rw [hnan, isNan_enc, deepClone_resize hle, remInner_enc hy.norm.ne_zero]; rfl
  rw [hdiv, hrem]
  simp only [bind, Except.bind]
  rw [hq, fnorm_zero]
  exact ⟨_, _, rfl⟩

end RMath
