import Verif.Lemmas.PrimeTest

/-! The numbers that `generate_prime` tries. -/

namespace RMath

/-! ## the unread draws are a suffix -/

theorem randomLoop_suffix {self : Words} {num : Nat} {mask : W} (fuel : Nat) : ∀ {ds r rest},
    randomLoop self num mask fuel ds = some (r, rest) → rest <:+ ds := by
  induction fuel with
  | zero => intro ds r rest h; simp [randomLoop] at h
  | succ fuel ih =>
    intro ds r rest h
    rw [randomLoop] at h
    rcases hd : drawWords num ds with _ | ⟨v, ds'⟩
    · rw [hd] at h; simp at h
    · obtain ⟨-, pre, hpre, -⟩ := drawWords_some hd
      have hs : ds' <:+ ds := ⟨pre, hpre.symm⟩
      rw [hd] at h
      simp only at h
      split at h
      · simp only [Option.some.injEq, Prod.mk.injEq] at h
        rw [← h.2]; exact hs
      · exact (ih h).trans hs

theorem mrRounds_suffix {checks : Bool} {self nm1 u : Words} {t : Nat} (s : Nat) : ∀ {ds b rest},
    mrRounds checks self nm1 u t s ds = .ok (some (b, rest)) → rest <:+ ds := by
  induction s with
  | zero => intro ds b rest h; simp [mrRounds] at h; rw [h.2]
  | succ s ih =>
    intro ds b rest h
    rw [mrRounds] at h
    rcases hd : randomLoop self self.length (randomMask self) (ds.length + 1) ds with _ | ⟨a, ds'⟩
    · rw [hd] at h; simp at h
    have hs := randomLoop_suffix _ hd
    rw [hd] at h
    simp only [bind, Except.bind] at h
    split at h
    · simp at h
    split at h
    · simp at h
    split at h
    · simp only [Except.ok.injEq, Option.some.injEq, Prod.mk.injEq] at h
      rw [← h.2]; exact hs
    · exact (ih h).trans hs

theorem ppt_suffix {checks : Bool} {self : Words} {k : Nat} {ds rest : List (Option W)} {b : Bool}
    (h : probablyPrimeTest checks self k ds = .ok (some (b, rest))) : rest <:+ ds := by
  unfold probablyPrimeTest at h
  split at h
  · simp at h; rw [h.2]
  simp only [bind, Except.bind] at h
  split at h
  · simp at h
  split at h
  · simp at h; rw [h.2]
  split at h
  · simp at h; rw [h.2]
  split at h
  · simp at h; rw [h.2]
  split at h
  · simp at h
  rename_i r hr
  unfold millerRabin at hr
  rcases r with _ | ⟨c, ds'⟩
  · simp at h
  have hs := mrRounds_suffix _ hr
  cases c with
  | false => simp at h; rw [← h.2]; exact hs
  | true =>
    simp only at h
    split at h
    · simp at h
    · simp at h; rw [← h.2]; exact hs

theorem takeDraws_some {n : Nat} {ds : List (Option W)} {v : Words} {rest : List (Option W)}
    (h : takeDraws n ds = some (v, rest)) : v.length ≤ n ∧ rest <:+ ds ∧ (0 < n → rest.length < ds.length) := by
  induction ds generalizing n v with
  | nil =>
    cases n with
    | zero => simp [takeDraws] at h; simp [← h.1, ← h.2]
    | succ n => simp [takeDraws] at h
  | cons d ds ih =>
    cases n with
    | zero => simp [takeDraws] at h; simp [← h.1, ← h.2]
    | succ n =>
      cases d with
      | none =>
        simp only [takeDraws, Option.some.injEq, Prod.mk.injEq] at h
        rw [← h.1, ← h.2]
        exact ⟨by simp, List.suffix_cons _ _, by simp⟩
      | some x =>
        rw [takeDraws, Option.map_eq_some_iff] at h
        obtain ⟨⟨v', r'⟩, h1, h2⟩ := h
        simp only [Prod.mk.injEq] at h2
        obtain ⟨rfl, rfl⟩ := h2
        obtain ⟨h3, h4, h5⟩ := ih h1
        refine ⟨by simp; omega, h4.trans (List.suffix_cons _ _), fun _ => ?_⟩
        have := h4.length_le
        simp; omega

/-! ## the shape of a candidate -/

theorem or_one (w : W) : (w ||| 1#32).toNat % 2 = 1 ∧ w.toNat ≤ (w ||| 1#32).toNat := by
  constructor
  · rw [BitVec.toNat_or]
    simp [Nat.or_mod_two_eq_one]
  · rw [BitVec.toNat_or]
    exact Nat.left_le_or

theorem or_lt {w : W} {b : Nat} (x : W) (hw : w.toNat < 2 ^ b) (hx : x.toNat < 2 ^ b) : (w ||| x).toNat < 2 ^ b := by
  rw [BitVec.toNat_or]
  exact Nat.or_lt_two_pow hw hx

theorem three_shift {b : Nat} (h2 : 2 ≤ b) (h32 : b ≤ 32) : (3#32 <<< (b - 2)).toNat = 3 * 2 ^ (b - 2) := by
  rw [BitVec.toNat_shiftLeft, Nat.shiftLeft_eq]
  simp only [BitVec.toNat_ofNat]
  rw [Nat.mod_eq_of_lt]
  have : 2 ^ (b - 2) ≤ 2 ^ 30 := Nat.pow_le_pow_right (by norm_num) (by omega)
  norm_num at this ⊢
  omega

theorem mask_lt {w : W} {b : Nat} (h1 : 1 ≤ b) (hb : b < 32) : (w &&& ((1#32 <<< b) - 1#32)).toNat < 2 ^ b := by
  have : ((1#32 <<< b) - 1#32).toNat = 2 ^ b - 1 := by
    have hlt : 2 ^ b < 2 ^ 32 := Nat.pow_lt_pow_right (by norm_num) hb
    have h2 : 2 ≤ 2 ^ b := by
      calc 2 = 2 ^ 1 := rfl
        _ ≤ 2 ^ b := Nat.pow_le_pow_right (by norm_num) h1
    rw [BitVec.toNat_sub, BitVec.toNat_shiftLeft, Nat.shiftLeft_eq]
    simp only [BitVec.toNat_ofNat]
    rw [Nat.one_mod, Nat.one_mul, Nat.mod_eq_of_lt hlt]
    omega
  rw [BitVec.toNat_and, this]
  have := Nat.and_le_right (n := w.toNat) (m := 2 ^ b - 1)
  have := Nat.two_pow_pos b
  omega

theorem val_concat (xs : Words) (w : W) : val (xs ++ [w]) = val xs + 2 ^ (32 * xs.length) * w.toNat := by
  rw [val_append]; simp

theorem concat_lt {xs : Words} {w : W} {b : Nat} (hw : w.toNat < 2 ^ b) : val (xs ++ [w]) < 2 ^ (32 * xs.length + b) := by
  rw [val_concat, pow_add]
  have := val_lt xs
  have : 2 ^ (32 * xs.length) * (w.toNat + 1) ≤ 2 ^ (32 * xs.length) * 2 ^ b := Nat.mul_le_mul_left _ hw
  rw [Nat.mul_add, Nat.mul_one] at this
  omega

theorem canon_concat {xs : Words} {w : W} (hw : w ≠ 0#32) : Canon (xs ++ [w]) :=
  ⟨by simp, Or.inr (fun h => hw (by simpa using h))⟩

theorem setTop_spec {b : Nat} (h1 : 1 ≤ b) (h32 : b ≤ 32) {init : Words} {w : W} (hw : w.toNat < 2 ^ b) :
    ∃ init2 w2, (if 2 ≤ b then onLast (fun w => w ||| (3#32 <<< (b - 2))) (init ++ [w])
        else .ok (topTwoSplit (init ++ [w])) : Res Words) = .ok (init2 ++ [w2]) ∧
      init2.length = init.length ∧ 1 ≤ w2.toNat ∧ w2.toNat < 2 ^ b ∧
      (2 ≤ b ∨ init ≠ [] → 3 * 2 ^ (32 * init.length + b) ≤ 4 * val (init2 ++ [w2])) := by
  by_cases hb : 2 ≤ b
  · rw [if_pos hb]
    have h3 := three_shift hb h32
    have hlt : (3#32 <<< (b - 2)).toNat < 2 ^ b := by
      rw [h3, show b = b - 2 + 2 by omega, pow_add]
      have := Nat.two_pow_pos (b - 2)
      simp only [Nat.add_sub_cancel]
      omega
    have hge : 3 * 2 ^ (b - 2) ≤ (w ||| (3#32 <<< (b - 2))).toNat := by
      rw [← h3, BitVec.toNat_or]; exact Nat.right_le_or
    have hpos := Nat.two_pow_pos (b - 2)
    refine ⟨init, w ||| (3#32 <<< (b - 2)), by simp [onLast], rfl, by omega, or_lt _ hw hlt, fun _ => ?_⟩
    rw [val_concat, show 32 * init.length + b = 32 * init.length + (b - 2) + 2 by omega, pow_add, pow_add]
    have := Nat.mul_le_mul_left (2 ^ (32 * init.length)) hge
    rw [Nat.mul_left_comm] at this
    omega
  · have hb1 : b = 1 := by omega
    subst hb1
    rw [if_neg hb]
    have hor := or_one w
    have hlt : (w ||| 1#32).toNat < 2 ^ 1 := or_lt _ hw (by decide)
    rcases List.eq_nil_or_concat' init with rfl | ⟨rest, w', rfl⟩
    · refine ⟨[], w ||| 1#32, by simp [topTwoSplit], rfl, by omega, hlt, by simp⟩
    · refine ⟨rest ++ [w' ||| 0x80000000#32], w ||| 1#32, by simp [topTwoSplit], by simp, by omega, hlt, fun _ => ?_⟩
      have h8 : 2 ^ 31 ≤ (w' ||| 0x80000000#32).toNat := by
        rw [BitVec.toNat_or]
        exact Nat.right_le_or
      rw [val_concat, val_concat]
      simp only [List.length_append, List.length_singleton]
      rw [show (w ||| 1#32).toNat = 1 by omega, Nat.mul_one, Nat.mul_add, pow_add, pow_add]
      have := Nat.mul_le_mul_left (2 ^ (32 * rest.length)) h8
      generalize 2 ^ (32 * rest.length) * (w' ||| 0x80000000#32).toNat = X at *
      generalize 2 ^ (32 * rest.length) = Y at *
      omega

/-- what the shaping leaves of the drawn words -/
theorem shapePrime_spec {b : Nat} (h1 : 1 ≤ b) (h32 : b ≤ 32) {v p : Words} (h : shapePrime b v = .ok p) :
    v ≠ [] ∧ p.length = v.length ∧ Canon p ∧ val p % 2 = 1 ∧ val p < 2 ^ (32 * (v.length - 1) + b) ∧
    (2 ≤ b ∨ 2 ≤ v.length → 3 * 2 ^ (32 * (v.length - 1) + b) ≤ 4 * val p) := by
  rcases List.eq_nil_or_concat' v with rfl | ⟨init, w, rfl⟩
  · exfalso
    unfold shapePrime onLast at h
    by_cases hb : b = 32
    · subst hb; simp [bind, Except.bind] at h
    · simp [hb, bind, Except.bind] at h
  refine ⟨by simp, ?_⟩
  have hmask : ∃ w1 : W, (if b ≠ 32 then onLast (fun w => w &&& ((1#32 <<< b) - 1#32)) (init ++ [w])
      else .ok (init ++ [w]) : Res Words) = .ok (init ++ [w1]) ∧ w1.toNat < 2 ^ b := by
    by_cases hb : b = 32
    · subst hb
      exact ⟨w, by simp, w.isLt⟩
    · refine ⟨w &&& ((1#32 <<< b) - 1#32), by simp [hb, onLast], mask_lt h1 (by omega)⟩
  obtain ⟨w1, hw1, hw1b⟩ := hmask
  obtain ⟨init2, w2, hw2, hlen, hge, hlt, h3⟩ := setTop_spec h1 h32 (init := init) hw1b
  unfold shapePrime at h
  rw [hw1] at h
  simp only [bind, Except.bind] at h
  rw [hw2] at h
  simp only at h
  rw [show (init ++ [w]).length - 1 = init.length by simp, ← hlen]
  have h3' : 2 ≤ b ∨ 2 ≤ (init ++ [w]).length → 3 * 2 ^ (32 * init.length + b) ≤ 4 * val (init2 ++ [w2]) := by
    rintro (h | h)
    · exact h3 (Or.inl h)
    · exact h3 (Or.inr (by rintro rfl; simp at h))
  rw [← hlen] at h3'
  have hlenp : (init2 ++ [w2]).length = (init ++ [w]).length := by simp [hlen]
  cases init2 with
  | nil =>
    simp only [List.nil_append, Except.ok.injEq] at h
    subst h
    obtain ⟨ho1, ho2⟩ := or_one w2
    have hb1 : (1#32).toNat < 2 ^ b := by
      simp only [BitVec.toNat_ofNat, Nat.one_mod]
      exact Nat.one_lt_two_pow (by omega)
    refine ⟨by simpa using hlenp, ?_, by simpa using ho1, ?_, ?_⟩
    · apply canon_concat (xs := [])
      intro hc
      rw [hc] at ho1
      simp at ho1
    · exact concat_lt (xs := []) (or_lt _ hlt hb1)
    · intro hh
      have := h3' hh
      simp only [List.nil_append, val_cons, val_nil] at this ⊢
      omega
  | cons x xs =>
    simp only [List.cons_append, Except.ok.injEq] at h
    subst h
    obtain ⟨ho1, ho2⟩ := or_one x
    refine ⟨by simpa using hlenp, ?_, ?_, ?_, ?_⟩
    · apply canon_concat (xs := (x ||| 1#32) :: xs)
      rintro rfl
      simp at hge
    · rw [val_cons]; omega
    · have := concat_lt (xs := (x ||| 1#32) :: xs) hlt
      simpa using this
    · intro hh
      have := h3' hh
      simp only [List.cons_append, val_cons] at this ⊢
      omega

/-! ## the step to a candidate without small factors -/

theorem findDelta_some {bits m : Nat} (cnt : Nat) : ∀ {d d' : Nat}, findDelta bits m cnt d = some d' →
    d ≤ d' ∧ d' < d + 2 * cnt ∧ d' % 2 = d % 2 := by
  induction cnt with
  | zero => intro d d' h; simp [findDelta] at h
  | succ cnt ih =>
    intro d d' h
    rw [findDelta] at h
    split at h
    · have := ih h; omega
    · simp only [Option.some.injEq] at h
      omega

theorem bumpPrime_spec (bits : Nat) {p : Words} (hp : Canon p) :
    ∃ d, d % 2 = 0 ∧ d < 2 ^ 20 ∧ val (bumpPrime bits p) = val p + d ∧ Canon (bumpPrime bits p) := by
  unfold bumpPrime
  rcases hd : findDelta bits (remInnerU64 p 16294579238595022365#64).toNat (2 ^ 19) 0 with _ | d
  · exact ⟨0, by norm_num, by norm_num, rfl, hp⟩
  · obtain ⟨-, h2, h3⟩ := findDelta_some _ hd
    simp only
    by_cases h0 : d > 0
    · rw [if_pos h0]
      obtain ⟨n, rfl⟩ := canon_iff_enc.1 hp
      simp only [assignPrim, isNan_enc, Bool.false_eq_true, if_false, addInnerBasic_enc]
      refine ⟨d, by omega, by omega, ?_, canon_enc _⟩
      rw [val_enc, val_enc]
      congr 1
      rw [BitVec.toNat_ofNat, Nat.mod_eq_of_lt (by omega)]
    · rw [if_neg h0]
      exact ⟨0, by norm_num, by norm_num, rfl, hp⟩

theorem bitsLen_iff {p : Words} (hp : Canon p) {k : Nat} (hk : 2 ≤ k) (h : bitsLen p = k) :
    2 ^ (k - 1) ≤ val p ∧ val p < 2 ^ k := by
  rw [bitsLen_canon hp] at h
  have h1 := lt_pow_bitLen (val p)
  have h0 : val p ≠ 0 := by
    intro h0; rw [h0] at h; simp [bitLen] at h; omega
  have h2 := pow_bitLen_le h0
  rw [h] at h1 h2
  exact ⟨h2, h1⟩

/-! ## the loop -/

theorem genPrimeLoop_spec {checks : Bool} {bits rounds b len : Nat} (hb1 : 1 ≤ b) (hb32 : b ≤ 32) (hlen : 1 ≤ len)
    (hbits : bits = 32 * (len - 1) + b) (h2 : 2 ≤ bits) (fuel : Nat) : ∀ {ds p rest},
    genPrimeLoop checks bits rounds b len fuel ds = .ok (some (p, rest)) →
    Canon p ∧ bitsLen p = bits ∧ val p % 2 = 1 ∧ 3 * 2 ^ (bits - 2) ≤ val p ∧ val p < 2 ^ bits ∧
    ∃ ds', ds' <:+ ds ∧ probablyPrimeTest checks p rounds ds' = .ok (some (true, rest)) := by
  induction fuel with
  | zero => intro ds p rest h; simp [genPrimeLoop] at h
  | succ fuel ih =>
    intro ds p rest h
    rw [genPrimeLoop] at h
    rcases ht : takeDraws len ds with _ | ⟨v, ds1⟩
    · rw [ht] at h; simp at h
    obtain ⟨hv1, hv2, -⟩ := takeDraws_some ht
    rw [ht] at h
    simp only [bind, Except.bind] at h
    rcases hs : shapePrime b v with e | q
    · rw [hs] at h; simp at h
    rw [hs] at h
    simp only at h
    obtain ⟨hvne, hql, hqc, hqo, hqlt, hqge⟩ := shapePrime_spec hb1 hb32 hs
    obtain ⟨d, hd2, hd20, hdv, hdc⟩ := bumpPrime_spec bits hqc
    by_cases hbl : bitsLen (bumpPrime bits q) = bits
    · rw [if_pos hbl] at h
      rcases hp : probablyPrimeTest checks (bumpPrime bits q) rounds ds1 with e | _ | ⟨c, ds2⟩
      · rw [hp] at h; simp at h
      · rw [hp] at h; simp at h
      · rw [hp] at h
        cases c with
        | false =>
          simp only at h
          obtain ⟨r1, r2, r3, r4, r5, ds', r6, r7⟩ := ih h
          exact ⟨r1, r2, r3, r4, r5, ds', r6.trans ((ppt_suffix hp).trans hv2), r7⟩
        | true =>
          simp only [Except.ok.injEq, Option.some.injEq, Prod.mk.injEq] at h
          obtain ⟨rfl, rfl⟩ := h
          obtain ⟨hlo, hhi⟩ := bitsLen_iff hdc h2 hbl
          have hvlen : v.length = len := by
            by_contra hne
            have hvpos : 0 < v.length := List.length_pos_iff.2 hvne
            have hle : 2 ^ (32 * (v.length - 1) + b) ≤ 2 ^ (bits - 2) :=
              Nat.pow_le_pow_right (by norm_num) (by omega)
            have hle2 : 2 ^ 20 ≤ 2 ^ (bits - 2) := Nat.pow_le_pow_right (by norm_num) (by omega)
            have : 2 ^ (bits - 1) = 2 * 2 ^ (bits - 2) := by
              rw [show bits - 1 = bits - 2 + 1 by omega, pow_succ]; ring
            omega
          have h3 := hqge (by rw [hvlen]; omega)
          rw [hvlen, ← hbits, show 2 ^ bits = 4 * 2 ^ (bits - 2) by
            conv_lhs => rw [show bits = bits - 2 + 2 by omega, pow_add]
            ring] at h3
          exact ⟨hdc, hbl, by omega, by omega, hhi, ds1, hv2, hp⟩
    · rw [if_neg hbl] at h
      obtain ⟨r1, r2, r3, r4, r5, ds', r6, r7⟩ := ih h
      exact ⟨r1, r2, r3, r4, r5, ds', r6.trans hv2, r7⟩

/-- The bound on the rounds is never reached: it is the number of draws plus one. -/
theorem genPrimeLoop_fuel {checks : Bool} {bits rounds b len : Nat} (hlen : 1 ≤ len) (fuel : Nat) : ∀ {ds},
    ds.length < fuel → genPrimeLoop checks bits rounds b len (fuel + 1) ds =
      genPrimeLoop checks bits rounds b len fuel ds := by
  induction fuel with
  | zero => intro ds h; omega
  | succ fuel ih =>
    intro ds h
    rw [genPrimeLoop, genPrimeLoop]
    rcases ht : takeDraws len ds with _ | ⟨v, ds1⟩
    · rfl
    obtain ⟨-, -, hv3⟩ := takeDraws_some ht
    have hl := hv3 (by omega)
    simp only [bind, Except.bind]
    rcases hs : shapePrime b v with e | q
    · rfl
    simp only
    by_cases hbl : bitsLen (bumpPrime bits q) = bits
    · rw [if_pos hbl, if_pos hbl]
      rcases hp : probablyPrimeTest checks (bumpPrime bits q) rounds ds1 with e | _ | ⟨_ | _, ds2⟩
      · rfl
      · rfl
      · have := (ppt_suffix hp).length_le
        exact ih (by omega)
      · rfl
    · rw [if_neg hbl, if_neg hbl]
      exact ih (by omega)

end RMath
