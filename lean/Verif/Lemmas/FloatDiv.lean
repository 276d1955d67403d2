import Verif.Lemmas.FloatConv

/-! # Division of floats: the quotient is too small -/

namespace RMath

/-- Whatever the mantissa, the magnitude is below `2^exp`. -/
theorem fval_lt_exp (z : FloatV) : |fval z| < 2 ^ z.exp := by
  unfold fval
  split
  · rw [show (if z.neg = true then (-1 : ℚ) else 1) = sgn z.neg from rfl]
    have hp : (0 : ℚ) < 2 ^ (32 * z.mant.length) := by positivity
    have he := two_zpow_pos z.exp
    rw [sgn_abs _ _ (by positivity)]
    have hv : (val z.mant : ℚ) < 2 ^ (32 * z.mant.length) := by exact_mod_cast val_lt z.mant
    have : (val z.mant : ℚ) / 2 ^ (32 * z.mant.length) < 1 := by rwa [div_lt_one hp]
    nlinarith
  · rw [abs_zero]; exact two_zpow_pos _

theorem fRound_exp {x z : FloatV} {s : Nat} (h : fRound x s = .ok z) : z.exp ≤ x.exp + 1 := by
  unfold fRound at h
  simp only [bind, Except.bind] at h
  generalize (if x.mant.length > (x.prec + 31) / 32 then (x.mant.rotateLeft (x.mant.length - (x.prec + 31) / 32)).take ((x.prec + 31) / 32)
    else x.mant) = w at h
  generalize adcBasic false _ w = a at h
  repeat' (split at h)
  all_goals first
    | (simp at h; done)
    | (simp only [Except.ok.injEq] at h; subst h; simp only; omega)

theorem fSetExpAndRound_exp {x z : FloatV} {e : ℤ} {s : Nat} (h : fSetExpAndRound x e s = .ok z) (hf : z.form = .finite) :
    z.exp ≤ e + 1 := by
  unfold fSetExpAndRound at h
  split at h
  · simp only [Except.ok.injEq] at h; subst h; simp at hf
  split at h
  · simp only [Except.ok.injEq] at h; subst h; simp at hf
  · exact fRound_exp h

theorem deepClone_resize {m n : Nat} (hn : (enc m).length ≤ n) : deepClone (resize (enc m) n) = enc m := by
  unfold deepClone resize
  rw [List.take_of_length_le hn, trim_eq_enc (by simp [enc_ne_nil]), val_append]
  have : val (List.replicate (n - (enc m).length) 0#32) = 0 := by
    generalize n - (enc m).length = k
    induction k with
    | zero => rfl
    | succ k ih => rw [List.replicate_succ, val_cons, ih]; simp
  rw [this, val_enc, Nat.mul_zero, Nat.add_zero]

/-- The exponent of a quotient of finite numbers comes out at least 29 too small. -/
theorem fUquo_exp {x y z : FloatV} {a b La Lb : Nat} (hx : IsFin x a La) (hy : IsFin y b Lb)
    (h : fUquo x y = .ok z) (hf : z.form = .finite) : z.exp ≤ x.exp - y.exp - 30 := by
  have hLa := hx.norm.pos
  have hLb := hy.norm.pos
  have hw := hx.words
  obtain ⟨n, hn⟩ : ∃ n : Nat, n = x.prec / 32 + 1 := ⟨_, rfl⟩
  have hnL : La ≤ n := by omega
  unfold fUquo at h
  simp only [hx.len, hy.len] at h
  have hd : ((x.prec / 32 : Nat) : ℤ) + 1 - (La : ℤ) + (Lb : ℤ) > 0 := by omega
  have hlen : (La + (((x.prec / 32 : Nat) : ℤ) + 1 - (La : ℤ) + (Lb : ℤ))).toNat = n + Lb := by omega
  rw [if_pos hd, hx.mant, deepClone_enc, hlen] at h
  have hle : (enc a).length ≤ n + Lb := by rw [hx.norm.length]; omega
  rw [resize_length, hy.mant] at h
  have hnan : isNan (resize (enc a) (n + Lb)) = false := by
    rw [Bool.eq_false_iff, Ne, isNan_iff]
    intro h0
    have := resize_length (enc a) (n + Lb)
    rw [h0] at this
    simp at this
    omega
  have hdiv : natDiv (resize (enc a) (n + Lb)) (enc b) = .ok (enc (a / b)) := by
    unfold natDiv opNatR
    rw [hnan, isNan_enc, deepClone_resize hle, divInner_enc hy.norm.ne_zero]; rfl
  have hrem : natRem (resize (enc a) (n + Lb)) (enc b) = .ok (enc (a % b)) := by
    unfold natRem opNatR
    rw [hnan, isNan_enc, deepClone_resize hle, remInner_enc hy.norm.ne_zero]; rfl
  rw [hdiv, hrem] at h
  simp only [bind, Except.bind] at h
  by_cases hq : a / b = 0
  · rw [hq, fnorm_zero] at h
    have := fSetExpAndRound_exp h hf
    rw [enc_zero] at this
    simp only [List.length_cons, List.length_nil] at this
    push_cast at this
    omega
  · rw [fnorm_enc hq] at h
    have := fSetExpAndRound_exp h hf
    have hb := canon_bitLen (canon_enc (a / b))
    rw [val_enc] at hb
    have hl : lzw (a / b) + bitLen (a / b) = 32 * (enc (a / b)).length := by unfold lzw; omega
    have hbl : bitLen (a / b) ≤ 32 * (La - Lb) + 1 := by
      apply bitLen_le_of_lt (by omega)
      rw [Nat.div_lt_iff_lt_mul (by have := hy.norm.ne_zero; omega)]
      refine lt_of_lt_of_le hx.norm.hi ?_
      calc 2 ^ (32 * La) ≤ 2 ^ (32 * (La - Lb) + 1 + (32 * Lb - 1)) := Nat.pow_le_pow_right (by norm_num) (by omega)
        _ = 2 ^ (32 * (La - Lb) + 1) * 2 ^ (32 * Lb - 1) := Nat.pow_add _ _ _
        _ ≤ _ := Nat.mul_le_mul_left _ hy.norm.lo
    push_cast at this
    omega

end RMath
