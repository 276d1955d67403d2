import Verif.Lemmas.DecText

/-! Lemmas about the decimal text of every finite floating point number, with the defects of the conversion:
src/bigint/decimal.rs. -/

namespace RMath

/-! ## the digits kept -/

theorem zeroDigits_lt {N : Nat} (h0 : N ≠ 0) : zeroDigits N < (Nat.digits 10 N).length := by
  have h1 : zeroDigits N ≤ (Nat.digits 10 N).length := List.count_le_length
  rcases Nat.lt_or_ge (zeroDigits N) (Nat.digits 10 N).length with h | h
  · exact h
  · exfalso
    have h2 : zeroDigits N = (Nat.digits 10 N).length := le_antisymm h1 h
    have h3 := List.count_eq_length.1 h2
    exact Nat.getLast_digit_ne_zero 10 h0 (h3 _ (List.getLast_mem (Nat.digits_ne_nil_iff_ne_zero.2 h0))).symm

theorem DecPre.mod_ten {d : Dec} (h : DecPre d) : digVal d.mant % 10 = d.mant.getLastD 0 := by
  have hk := (List.dropLast_append_getLast h.ne).symm
  rw [List.getLastD_eq_getLast?, List.getLast?_eq_getLast_of_ne_nil h.ne, Option.getD_some]
  have hlt := h.lt _ (List.getLast_mem h.ne)
  conv_lhs => rw [hk, digVal_concat]
  omega

/-- the digits kept of any numeral -/
theorem decDigits_total {N : Nat} (h0 : N ≠ 0) {t : List Char} (ht : t = (decRev N).reverse) :
    DecPre ⟨decDigits t, t.length⟩ ∧ decVal ⟨decDigits t, t.length⟩ = blanked N ∧
      (decDigits t).getLastD 0 = N / 10 ^ zeroDigits N % 10 ∧ (decDigits t).length ≤ t.length := by
  have hlt : ∀ d ∈ Nat.digits 10 N, d < 10 := fun d hd => Nat.digits_lt_base (by norm_num) hd
  have hz := zeroDigits_lt h0
  have htt : t = (Nat.digits 10 N).reverse.map digChr := by rw [ht, decRev_digits, List.map_reverse]
  have hlen : t.length = (Nat.digits 10 N).length := by rw [htt]; simp
  have hcount : t.countP (· ≠ '0') = (Nat.digits 10 N).length - zeroDigits N := by
    have h1 : t.countP (· ≠ '0') = (Nat.digits 10 N).countP (fun d => decide (d ≠ 0)) := by
      rw [htt, List.countP_map, List.countP_reverse]
      apply List.countP_congr
      intro d hd
      have := (digChr_eq (hlt d hd)).2.2.2
      simp [this]
    have h2 := List.length_eq_countP_add_countP (fun d : Nat => d == 0) (l := Nat.digits 10 N)
    have h3 : (Nat.digits 10 N).countP (fun d => decide (¬ (d == 0) = true)) = (Nat.digits 10 N).countP (fun d => decide (d ≠ 0)) := by
      apply List.countP_congr
      intro d _
      simp
    rw [h3] at h2
    rw [h1, zeroDigits, List.count]
    omega
  have hdig : decDigits t = ((Nat.digits 10 N).drop (zeroDigits N)).reverse := by
    rw [decDigits, hcount, htt, ← List.map_take, List.map_map, List.take_reverse]
    rw [show (Nat.digits 10 N).length - ((Nat.digits 10 N).length - zeroDigits N) = zeroDigits N by omega]
    conv_rhs => rw [← List.map_id ((Nat.digits 10 N).drop (zeroDigits N)).reverse]
    apply List.map_congr_left
    intro d hd
    rw [List.mem_reverse] at hd
    exact (digChr_eq (hlt d (List.mem_of_mem_drop hd))).2.2.1
  have hval : digVal (decDigits t) = N / 10 ^ zeroDigits N := by
    rw [hdig, digVal_reverse, Nat.self_div_pow_eq_ofDigits_drop _ _ (by norm_num)]
  have hdl : (decDigits t).length = (Nat.digits 10 N).length - zeroDigits N := by rw [hdig]; simp
  have hne : (Nat.digits 10 N).drop (zeroDigits N) ≠ [] := by
    intro h
    have := congrArg List.length h
    simp only [List.length_drop, List.length_nil] at this
    omega
  have hpre : DecPre ⟨decDigits t, t.length⟩ := by
    constructor
    · simp only [hdig]
      intro x hx
      rw [List.mem_reverse] at hx
      exact hlt x (List.mem_of_mem_drop hx)
    · simp only [hdig]
      rw [List.headD_eq_head?_getD, List.head?_reverse, List.getLast?_eq_getLast_of_ne_nil hne, Option.getD_some, List.getLast_drop hne]
      exact Nat.getLast_digit_ne_zero 10 h0
  refine ⟨hpre, ?_, ?_, by omega⟩
  · simp only [decVal, hval, hdl, hlen, blanked]
    push_cast [Nat.cast_sub hz.le]
    rw [show ((Nat.digits 10 N).length : ℤ) - ((Nat.digits 10 N).length - zeroDigits N) = zeroDigits N by ring, zpow_natCast]
  · have := hpre.mod_ten
    simp only at this
    rw [← this, hval]

/-! ## rounding digits that end with a zero -/

theorem decShouldRoundUp_zero {d : Dec} (h : DecPre d) (hl : d.mant.getLastD 0 = 0) {n : Nat} (hn : n < d.mant.length) :
    decShouldRoundUp d n = true ↔ 10 ^ (d.mant.length - n) ≤ 2 * digVal (d.mant.drop n) := by
  obtain ⟨m, e⟩ := d
  have hne := h.ne
  simp only at hn hl hne ⊢
  have hc : m.drop n = m[n] :: m.drop (n + 1) := List.drop_eq_getElem_cons hn
  have hget : m.getD n 0 = m[n] := by simp [List.getD_eq_getElem?_getD, hn]
  have hrest : digVal (m.drop (n + 1)) < 10 ^ (m.drop (n + 1)).length :=
    digVal_lt fun x hx => h.lt x (List.mem_of_mem_drop hx)
  have hL : m.length - n = (m.drop (n + 1)).length + 1 := by rw [List.length_drop]; omega
  rw [decShouldRoundUp, hc, digVal_cons, hL, pow_succ]
  simp only [hget]
  have htie : ¬ (m[n] = 5 ∧ n + 1 = m.length) := by
    rintro ⟨h5, hlen⟩
    rw [List.getLastD_eq_getLast?, List.getLast?_eq_getLast_of_ne_nil hne, Option.getD_some, List.getLast_eq_getElem] at hl
    have : m[m.length - 1]'(by omega) = m[n] := by congr 1; omega
    omega
  rw [if_neg htie, decide_eq_true_eq]
  generalize digVal (m.drop (n + 1)) = R at *
  generalize (m.drop (n + 1)).length = L at *
  constructor
  · intro h5
    have : 5 * 10 ^ L ≤ m[n] * 10 ^ L := Nat.mul_le_mul_right _ h5
    omega
  · intro h7
    by_contra h8
    have : m[n] * 10 ^ L ≤ 4 * 10 ^ L := Nat.mul_le_mul_right _ (by omega)
    omega

theorem decRound_long {d : Dec} {n : Nat} (hn : d.mant.length ≤ n) : decRound d n = d := by
  rw [decRound, if_neg (by omega)]

/-- rounding to `n` digits if the last digit is a zero: a tie is never recognised -/
theorem decRound_zero {d : Dec} (h : DecPre d) (hl : d.mant.getLastD 0 = 0) {n : Nat} (h0 : 0 < n) :
    ∃ k : Nat, decVal (decRound d n) = k * 10 ^ (d.exp - n) ∧ RoundsTo .toNearestAway (decVal d / 10 ^ (d.exp - n)) k ∧
      DecPre (decRound d n) ∧ (decRound d n).mant.length ≤ n ∧ (n < d.mant.length → DecOk (decRound d n)) := by
  have hX : (10 : ℚ) ^ (d.exp - n) ≠ 0 := zpow_ne_zero _ (by norm_num)
  by_cases hn : n < d.mant.length
  · rw [decRound, if_pos hn]
    have hs := decVal_split (d := d) hn.le
    have hq : decVal d / 10 ^ (d.exp - n) = digVal (d.mant.take n) + digVal (d.mant.drop n) / 10 ^ (d.mant.length - n) := by
      rw [hs, mul_div_assoc, div_self hX, mul_one]
    rw [hq]
    have hP : (0 : ℚ) < 10 ^ (d.mant.length - n) := by positivity
    have hB : digVal (d.mant.drop n) < 10 ^ (d.mant.length - n) := by
      have := digVal_lt (ds := d.mant.drop n) fun x hx => h.lt x (List.mem_of_mem_drop hx)
      rwa [List.length_drop] at this
    have hBq : (digVal (d.mant.drop n) : ℚ) < 10 ^ (d.mant.length - n) := by exact_mod_cast hB
    have hB0 : (0 : ℚ) ≤ digVal (d.mant.drop n) := Nat.cast_nonneg _
    have hiff := decShouldRoundUp_zero h hl hn
    by_cases hr : decShouldRoundUp d n = true
    · rw [if_pos hr]
      obtain ⟨h1, h2, h3⟩ := decRoundUp_spec h hn
      refine ⟨_, h2, ?_, h1.pre, by omega, fun _ => h1⟩
      have hr' := hiff.1 hr
      rw [RoundsTo]
      generalize digVal (d.mant.take n) = A at *
      generalize digVal (d.mant.drop n) = B at *
      generalize d.mant.length - n = L at *
      have hge : (10 : ℚ) ^ L ≤ 2 * B := by exact_mod_cast hr'
      have hle1 : (B : ℚ) / 10 ^ L ≤ 1 := by rw [div_le_one hP]; linarith
      have hge0 : 0 ≤ (B : ℚ) / 10 ^ L := div_nonneg hB0 hP.le
      have hA0 : (0 : ℚ) ≤ A := Nat.cast_nonneg _
      have habs : |(A : ℚ) + B / 10 ^ L - ((A + 1 : Nat) : ℤ)| = 1 - B / 10 ^ L := by
        rw [abs_of_nonpos]
        · push_cast; ring
        · push_cast; linarith
      simp only [habs]
      have hhalf : (1 : ℚ) / 2 ≤ B / 10 ^ L := by rw [le_div_iff₀ hP]; linarith
      refine ⟨by linarith, ?_⟩
      intro _
      rw [abs_of_nonneg (by linarith), abs_of_nonneg (by push_cast; linarith)]
      push_cast; linarith
    · rw [if_neg hr]
      have hr' : ¬ _ := fun hh => hr (hiff.2 hh)
      rw [decRoundDown]
      have hall : ∀ x ∈ d.mant.take n, x < 10 := fun x hx => h.lt x (List.mem_of_mem_take hx)
      have hround : RoundsTo .toNearestAway (digVal (d.mant.take n) + digVal (d.mant.drop n) / 10 ^ (d.mant.length - n))
          (digVal (d.mant.take n) : Nat) := by
        rw [RoundsTo]
        generalize digVal (d.mant.take n) = A at *
        generalize digVal (d.mant.drop n) = B at *
        generalize d.mant.length - n = L at *
        have hge : (2 : ℚ) * B < 10 ^ L := by
          have : 2 * B < 10 ^ L := by omega
          exact_mod_cast this
        have habs : |(A : ℚ) + B / 10 ^ L - (A : ℤ)| = B / 10 ^ L := by
          rw [abs_of_nonneg]
          · push_cast; ring
          · push_cast
            have : 0 ≤ (B : ℚ) / 10 ^ L := div_nonneg hB0 hP.le
            linarith
        simp only [habs]
        have hlt : (B : ℚ) / 10 ^ L < 1 / 2 := by rw [div_lt_iff₀ hP]; linarith
        exact ⟨hlt.le, fun hh => absurd hh hlt.ne⟩
      have hval : decVal ⟨d.mant.take n, d.exp⟩ = (digVal (d.mant.take n) : Nat) * 10 ^ (d.exp - n) := by
        simp only [decVal, List.length_take, min_eq_left hn.le]
      obtain ⟨t1, t2, t3, -⟩ := decTrim_spec (d := ⟨d.mant.take n, d.exp⟩) hall (by
        simp only; rw [headD_take h0]; exact h.head)
      refine ⟨_, t2.trans hval, hround, t1.pre, ?_, fun _ => t1⟩
      refine t3.trans ?_
      simp
  · rw [decRound_long (by omega)]
    have hv : decVal d = (digVal d.mant * 10 ^ (n - d.mant.length) : Nat) * 10 ^ (d.exp - n) := by
      simp only [decVal]
      obtain ⟨j, hj⟩ : ∃ j, n = d.mant.length + j := ⟨n - d.mant.length, by omega⟩
      rw [hj, show d.mant.length + j - d.mant.length = j by omega, show d.exp - ((d.mant.length + j : Nat) : ℤ) = (d.exp - d.mant.length) - j by push_cast; ring,
        zpow_sub₀ (by norm_num) (d.exp - d.mant.length : ℤ), zpow_natCast]
      generalize (10 : ℚ) ^ (d.exp - d.mant.length : ℤ) = X
      have : (10 : ℚ) ^ j ≠ 0 := by positivity
      push_cast
      field_simp
    refine ⟨_, hv, ?_, h, by omega, fun hh => absurd hh hn⟩
    have : decVal d / 10 ^ (d.exp - n) = (digVal d.mant * 10 ^ (n - d.mant.length) : Nat) := by
      rw [div_eq_iff hX]; exact hv
    rw [this, RoundsTo]
    simp

theorem RoundsTo.awayQ {x : ℚ} {k : ℤ} (h : RoundsTo .toNearestAway x k) (neg : Bool) :
    RoundsTo .toNearestAway (RMath.signQ neg * x) (if neg then -k else k) := by
  cases neg
  · simpa [RMath.signQ] using h
  · obtain ⟨h1, h2⟩ := h
    have e : |-x - ((-k : ℤ) : ℚ)| = |x - k| := by
      rw [← abs_neg]; push_cast; congr 1; ring
    simp only [RMath.signQ, if_true, neg_mul, one_mul]
    refine ⟨by rw [e]; exact h1, fun hh => ?_⟩
    rw [e] at hh
    push_cast
    rw [abs_neg, abs_neg]
    exact h2 hh

theorem awayDigits_dec {d : Dec} (h : DecPre d) (hl : d.mant.getLastD 0 = 0) {n : Nat} (h0 : 0 < n) (neg : Bool) :
    AwayDigits n (signQ neg * decVal d) (signQ neg * decVal (decRound d n)) := by
  obtain ⟨k, h1, h2, -⟩ := decRound_zero h hl h0
  refine ⟨d.exp, if neg then -(k : ℤ) else k, ?_, ?_, ?_, ?_⟩
  · rw [signQ_abs, abs_of_pos h.pos]; exact h.bounds.1
  · rw [signQ_abs, abs_of_pos h.pos]; exact h.bounds.2
  · rw [signQ_cast, h1]; ring
  · rw [mul_div_assoc]; exact h2.awayQ neg

/-! ## the conversion of every number -/

theorem natDisplay_words {w : Words} (h : w ≠ []) : natDisplay w = natDisplay (enc (val w)) := by
  have h1 : isNan w = false := by cases w <;> simp_all [isNan]
  unfold natDisplay
  simp only [h1, isNan_enc, Bool.false_eq_true, if_false, val_enc, deepClone_enc]
  rw [deepClone, trim_eq_enc h]

/-- the shift that makes the mantissa odd, when it is a whole number of words: the low words stay -/
theorem shr_mant_words {M L j : Nat} (hn : Norm M L) (hj : j < L) :
    natDisplay (assignPrim shrInner (enc M) (32 * j)) = natDisplay (enc (M % 2 ^ (32 * (L - j)))) := by
  have hl := hn.length
  rw [assignPrim, isNan_enc]
  simp only [Bool.false_eq_true, if_false]
  rw [shrInner_words (by omega), hl]
  rw [natDisplay_words]
  · congr 2
    have h1 := val_take_add_drop (enc M) (L - j) (by omega)
    rw [val_enc] at h1
    have h2 := val_lt ((enc M).take (L - j))
    rw [List.length_take, hl, min_eq_left (by omega)] at h2
    conv_rhs => rw [h1, Nat.add_mul_mod_self_left, Nat.mod_eq_of_lt h2]
  · intro h
    have := congrArg List.length h
    simp only [List.length_take, hl, List.length_nil] at this
    omega

theorem decShrs_nil : ∀ (fuel k : Nat) (e : ℤ), k < 28 * fuel + 1 → 0 < fuel → decShrs fuel k ⟨[], e⟩ = .ok ⟨[], e⟩ := by
  have h1 : ∀ s e, decShr ⟨[], e⟩ s = .ok ⟨[], e⟩ := by intro s e; simp [decShr, decLead]
  intro fuel
  induction fuel with
  | zero => intro k e _ h; omega
  | succ fuel ih =>
    intro k e hk _
    rw [decShrs]
    by_cases h : k > 28
    · rw [if_pos h, h1]
      simp only [bind, Except.bind]
      exact ih (k - 28) e (by omega) (by omega)
    · rw [if_neg h, h1]

/-- what the conversion of a text to decimal gives -/
def DecOf (d : Dec) (E k : Nat) : Prop :=
  if E = 0 then d = ⟨[], 1⟩
  else DecPre d ∧ decVal d = blanked E / 2 ^ k ∧
    if k = 0 ∧ 10 ∣ E / 10 ^ zeroDigits E then d.mant.getLastD 0 = 0 ∧ (d.mant.length : ℤ) ≤ d.exp else DecOk d

/-- the first rounding -/
theorem decOf_round {d : Dec} {E k : Nat} (h : DecOf d E k) (hE : E ≠ 0) {n : Nat} (hn : 0 < n) (neg : Bool) :
    DecPre (decRound d n) ∧ (decRound d n).mant.length ≤ n ∧
      DigitsFor E k n (signQ neg * (blanked E / 2 ^ k)) (signQ neg * decVal (decRound d n)) ∧
      (DecOk (decRound d n) ∨ ((decRound d n).mant.length : ℤ) ≤ (decRound d n).exp) := by
  rw [DecOf, if_neg hE] at h
  obtain ⟨d1, d2, d4⟩ := h
  rw [← d2, DigitsFor]
  by_cases hc : k = 0 ∧ 10 ∣ E / 10 ^ zeroDigits E
  · rw [if_pos hc] at d4 ⊢
    obtain ⟨-, -, -, h3, h4, h5⟩ := decRound_zero d1 d4.1 hn
    refine ⟨h3, h4, awayDigits_dec d1 d4.1 hn _, ?_⟩
    by_cases hl : n < d.mant.length
    · exact Or.inl (h5 hl)
    · rw [decRound_long (by omega)]; exact Or.inr d4.2
  · rw [if_neg hc] at d4 ⊢
    obtain ⟨-, -, -, h3, h4, -⟩ := decRound_spec d4 n
    exact ⟨(h3 hn).pre, by omega, nearestDigits_dec d4 _ _, Or.inl (h3 hn)⟩

theorem decOf_text {E k : Nat} {t : List Char} (ht : natDisplay (enc E) = .ok t) :
    ∃ d, (if 0 < k then decShrs (k + 1) k ⟨decDigits t, t.length⟩ else .ok ⟨decDigits t, t.length⟩) = .ok d ∧ DecOf d E k := by
  rw [natDisplay_enc] at ht
  injection ht with ht
  by_cases hE : E = 0
  · rw [if_pos hE] at ht
    subst ht
    have h1 : decDigits ['0'] = [] := by decide
    have h2 : ((['0'].length : Nat) : ℤ) = 1 := rfl
    refine ⟨⟨[], 1⟩, ?_, by rw [DecOf, if_pos hE]⟩
    rw [h1, h2]
    split
    · exact decShrs_nil _ _ _ (by omega) (by omega)
    · rfl
  · rw [if_neg hE] at ht
    obtain ⟨h1, h2, h3, h4⟩ := decDigits_total hE ht.symm
    by_cases hk : 0 < k
    · rw [if_pos hk]
      obtain ⟨z, e1, e2, e3⟩ := decShrs_spec (k + 1) k _ h1 (by omega) (by omega)
      refine ⟨z, e1, ?_⟩
      rw [DecOf, if_neg hE, if_neg (by omega), e3, h2]
      exact ⟨e2.pre, rfl, e2⟩
    · rw [if_neg hk]
      refine ⟨_, rfl, ?_⟩
      rw [DecOf, if_neg hE]
      have hk0 : k = 0 := by omega
      refine ⟨h1, by rw [h2, hk0]; simp, ?_⟩
      by_cases hd : 10 ∣ E / 10 ^ zeroDigits E
      · rw [if_pos ⟨hk0, hd⟩]
        refine ⟨?_, by simp only; exact_mod_cast h4⟩
        simp only
        rw [h3]; omega
      · rw [if_neg (by tauto)]
        refine h1.ok ?_
        simp only
        rw [h3]; omega

/-- `{}` without any digit -/
theorem fmtForDisplay_blank {p : Nat} (hp : 0 < p) (checks neg : Bool) :
    ∃ t, ((do let t ← fmtForDisplay checks ⟨[], 1⟩ p
              .ok (signText neg ++ t) : Res (List Char)) = .ok t) ∧ PointText p t 0 := by
  have f1 : (List.range p).mapM (decAt checks ⟨[], 1⟩) = .ok ((List.replicate p 0).map digChr) := by
    rw [mapM_ok _ (fun _ => digChr 0)]
    · simp
    · intro i _
      simp [decAt]
  rw [fmtForDisplay]
  simp only [hp, if_true, f1, bind, Except.bind]
  refine ⟨_, rfl, neg, ['0'], (List.replicate p 0).map digChr, digVal ([0] ++ List.replicate p 0), ?_, by simp, by simp, by simp, ?_, ?_⟩
  · rw [if_neg (by omega : p ≠ 0), List.append_assoc]; simp
  · rw [show ['0'] = [0].map digChr from rfl, ← List.map_append]
    apply numeral_digs (by simp)
    intro x hx
    rcases List.mem_append.1 hx with hx | hx
    · simp at hx; omega
    · rw [(List.mem_replicate.1 hx).2]; norm_num
  · rw [digVal_append, digVal_zeros]
    simp [digVal]

/-- the decimal form of every magnitude -/
theorem decNew_total {M L : Nat} (hn : Norm M L) {sh : ℤ} {N k : Nat} (hq : (M : ℚ) * 2 ^ sh = N / 2 ^ k)
    (hk : k = 0 ∨ N % 2 = 1) : N ≠ 0 ∧ ∃ d, decNew (enc M) sh = .ok d ∧ DecOf d (lowWords L N) k := by
  have hM0 := hn.ne_zero
  have hMq : (0 : ℚ) < M := by exact_mod_cast Nat.pos_of_ne_zero hM0
  have hN0 : N ≠ 0 := by
    rintro rfl
    have : (0 : ℚ) < (M : ℚ) * 2 ^ sh := by positivity
    rw [hq] at this; simp at this
  refine ⟨hN0, ?_⟩
  have hbM := hn.bitLen
  have hlog : N.log2 + 1 = bitLen N := by rw [bitLen, if_neg hN0]
  have hbN : ∀ c, M = N * 2 ^ c → bitLen N + c = 32 * L := by
    intro c hc
    have h1 := lt_pow_bitLen N
    have h2 := pow_bitLen_le hN0
    have h3 := bitLen_pos N
    have h4 : N * 2 ^ c < 2 ^ (bitLen N + c) := by rw [Nat.pow_add]; exact Nat.mul_lt_mul_of_pos_right h1 (by positivity)
    have h5 : 2 ^ (bitLen N - 1 + c) ≤ N * 2 ^ c := by rw [Nat.pow_add]; exact Nat.mul_le_mul_right _ h2
    rw [← hc] at h4 h5
    have h6 := hn.lo
    have h7 := hn.hi
    have h8 : 32 * L - 1 < bitLen N + c := (Nat.pow_lt_pow_iff_right (by norm_num : 1 < 2)).1 (lt_of_le_of_lt h6 h4)
    have h9 : bitLen N - 1 + c < 32 * L := (Nat.pow_lt_pow_iff_right (by norm_num : 1 < 2)).1 (lt_of_le_of_lt h5 h7)
    omega
  rw [decNew, isNan_enc, ← enc_zero, eqv_enc]
  simp only [hM0, decide_false, Bool.or_self, Bool.false_eq_true, if_false, deepClone_enc]
  by_cases hsh : sh < 0
  · simp only [hsh, if_true]
    obtain ⟨a, ha⟩ : ∃ a : Nat, sh = -(a : ℤ) := ⟨(-sh).toNat, by omega⟩
    subst ha
    have hMN : M * 2 ^ k = N * 2 ^ a := by
      rw [zpow_neg, zpow_natCast] at hq
      field_simp at hq
      rw [Nat.mul_comm N]
      exact_mod_cast hq
    have hka : k ≤ a := by
      rcases hk with rfl | hk
      · omega
      · by_contra hc
        have : 2 ∣ N := by
          have h1 : M * 2 ^ (k - a) = N := by
            have : M * 2 ^ (k - a) * 2 ^ a = N * 2 ^ a := by
              rw [mul_assoc, ← Nat.pow_add, show k - a + a = k by omega, hMN]
            exact Nat.eq_of_mul_eq_mul_right (by positivity) this
          rw [← h1, show k - a = (k - a - 1) + 1 by omega, pow_succ]
          exact ⟨M * 2 ^ (k - a - 1), by ring⟩
        omega
    have hM : M = N * 2 ^ (a - k) := by
      have : M * 2 ^ k = N * 2 ^ (a - k) * 2 ^ k := by
        rw [mul_assoc, ← Nat.pow_add, show a - k + k = a by omega, hMN]
      exact Nat.eq_of_mul_eq_mul_right (by positivity) this
    have hs1 : min (-(-(a : ℤ))).toNat (traillingZeros (enc M)) = a - k := by
      rw [neg_neg, Int.toNat_natCast]
      rcases hk with rfl | hk
      · simp only [Nat.sub_zero] at hM ⊢
        rw [min_eq_left]
        by_contra hc
        have h0 : val (enc M) ≠ 0 := by rwa [val_enc]
        obtain ⟨h1, -⟩ := traillingZeros_spec _ h0
        rw [val_enc, hM, mul_comm, Nat.testBit_two_pow_mul] at h1
        simp at h1
        rw [← Nat.mul_comm, ← hM] at h1
        omega
      · have := traillingZeros_eq (s := a - k) hk
        rw [mul_comm, ← hM] at this
        rw [this]; omega
    rw [hs1]
    have hbl := hbN _ hM
    have hbp := bitLen_pos N
    rw [if_neg (by omega : ¬ (-(a : ℤ) + ((a - k : Nat) : ℤ) > 0))]
    have htxt : natDisplay (assignPrim shrInner (enc M) (a - k)) = natDisplay (enc (lowWords L N)) := by
      rw [lowWords]
      simp only [hlog]
      by_cases hc : bitLen N < 32 * L ∧ 32 ∣ bitLen N
      · rw [if_pos hc]
        obtain ⟨⟨w, hw⟩, -⟩ := hc.2, hc.1
        have e1 : a - k = 32 * (L - w) := by omega
        rw [e1, shr_mant_words hn (by omega)]
        congr 3
        · rw [hM]; congr 2; omega
        · congr 1; omega
      · rw [if_neg hc, shr_mant hn (by omega) (by
          by_cases h0 : a - k = 0
          · exact Or.inl h0
          · right; intro hd; apply hc; omega)]
        rw [show M / 2 ^ (a - k) = N by rw [hM]; exact Nat.mul_div_cancel _ (by positivity)]
    obtain ⟨d, e1, e2⟩ := decOf_text (E := lowWords L N) (k := k) (natDisplay_enc _)
    rw [htxt, natDisplay_enc]
    simp only [bind, Except.bind]
    rw [show (-(-(a : ℤ) + ((a - k : Nat) : ℤ))).toNat = k by omega]
    refine ⟨d, ?_, e2⟩
    rw [← e1]
    by_cases hk0 : 0 < k
    · rw [if_pos hk0, if_pos (by omega)]
    · rw [if_neg hk0, if_neg (by omega)]
  · simp only [hsh, if_false, Nat.cast_zero, add_zero]
    obtain ⟨a, rfl⟩ : ∃ a : Nat, sh = (a : ℤ) := ⟨sh.toNat, by omega⟩
    have hMN : M * 2 ^ a * 2 ^ k = N := by
      rw [zpow_natCast] at hq
      field_simp at hq
      exact_mod_cast hq
    have hk0 : k = 0 := by
      rcases hk with hk | hk
      · exact hk
      · by_contra hc
        rw [show k = (k - 1) + 1 by omega, pow_succ, ← mul_assoc] at hMN
        omega
    subst hk0
    rw [pow_zero, mul_one] at hMN
    have hm : (if (a : ℤ) > 0 then assignPrim shlInner (enc M) (a : ℤ).toNat else enc M) = enc N := by
      by_cases ha : (a : ℤ) > 0
      · rw [if_pos ha, assignPrim, isNan_enc, Int.toNat_natCast]
        simp only [Bool.false_eq_true, if_false]
        rw [shlInner_enc hM0, hMN]
      · rw [if_neg ha, ← hMN, show a = 0 by omega, pow_zero, mul_one]
    have hlow : lowWords L N = N := by
      rw [lowWords]
      simp only [hlog]
      rw [if_neg]
      rintro ⟨h1, -⟩
      have h2 := lt_pow_bitLen N
      have h3 : 2 ^ (32 * L - 1) ≤ N := by
        rw [← hMN]
        exact le_trans hn.lo (Nat.le_mul_of_pos_right _ (by positivity))
      have := (Nat.pow_lt_pow_iff_right (by norm_num : 1 < 2)).1 (lt_of_le_of_lt h3 h2)
      omega
    obtain ⟨d, e1, e2⟩ := decOf_text (E := lowWords L N) (k := 0) (natDisplay_enc _)
    rw [if_neg (by omega)] at e1
    refine ⟨d, ?_, e2⟩
    rw [← e1, hlow]
    simp only [hm, natDisplay_enc, bind, Except.bind]

end RMath
