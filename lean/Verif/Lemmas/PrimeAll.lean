import Verif.SpecPrime
import Verif.Lemmas.LucasReject

/-! The primality test on all numbers, including those for which the right shift of the code is wrong. -/

namespace RMath

open NumberTheorySymbols jacobiSym

/-! ## The exponents are only read -/

theorem expMontgomery_words (a : Nat) (y : Words) {n : Nat} (hodd : n % 2 = 1) :
    expMontgomery (enc a) y (enc n) = .ok (enc (a ^ val y % n)) := by
  have hn0 : n ≠ 0 := by omega
  unfold expMontgomery
  simp only
  generalize hnw : (enc n).length = nw
  have hnwpos : 0 < nw := by rw [← hnw]; exact List.length_pos_iff.2 (enc_ne_nil n)
  have hnlt : n < 2 ^ (32 * nw) := by rw [← hnw]; simpa using val_lt (enc n)
  have hco : Nat.Coprime n (2 ^ (32 * nw)) := by
    apply Nat.Coprime.pow_right
    rw [Nat.coprime_comm]
    unfold Nat.Coprime
    rw [Nat.gcd_rec, hodd]
    norm_num
  generalize hk0 : negInv ((enc n).headD 0#32) = k
  have hk : (n * k.toNat + 1) % 2 ^ 32 = 0 := by
    have := negInv_toNat (m := (enc n).headD 0#32) (by rw [enc_head]; omega)
    rw [hk0, enc_head] at this
    rw [← this]
    conv_lhs => rw [Nat.add_mod, Nat.mul_mod]
    conv_rhs => rw [Nat.add_mod, Nat.mul_mod, Nat.mod_mod]
  -- the base
  obtain ⟨x0, hx0, hx0l, hx0v⟩ : ∃ x0 : Words, (if (enc a).length > nw then natRem (enc a) (enc n)
      else .ok (deepClone (enc a))) = .ok x0 ∧ x0.length ≤ nw ∧ val x0 ≡ a [MOD n] := by
    by_cases h : (enc a).length > nw
    · refine ⟨enc (a % n), by rw [if_pos h, natRem_enc hn0], ?_, ?_⟩
      · apply enc_length_le hnwpos
        exact lt_trans (Nat.mod_lt _ (by omega)) hnlt
      · rw [val_enc]; exact Nat.mod_modEq a n
    · refine ⟨enc a, by rw [if_neg h, deepClone_enc], by omega, by rw [val_enc]⟩
  rw [hx0]
  obtain ⟨hxl, hxv⟩ := resize_len_val hx0l
  simp only [bind, Except.bind]
  generalize (if x0.length < nw then resize x0 nw else x0) = x at hxl hxv
  -- 2^(64 nw) mod n
  have hrr : assignNatR remInner (assignPrim shlInner [1#32] (nw * 64)) (enc n) = .ok (enc (2 ^ (nw * 64) % n)) := by
    rw [← enc_one]
    simp only [assignPrim, isNan_enc, Bool.false_eq_true, if_false]
    rw [shlInner_enc (by norm_num), Nat.one_mul, assignRem_enc hn0]
  rw [hrr]
  simp only
  have hrl : (enc (2 ^ (nw * 64) % n)).length ≤ nw :=
    enc_length_le hnwpos (lt_trans (Nat.mod_lt _ (by omega)) hnlt)
  obtain ⟨hrl', hrv⟩ := resize_len_val hrl
  generalize (if (enc (2 ^ (nw * 64) % n)).length < nw then resize (enc (2 ^ (nw * 64) % n)) nw
    else enc (2 ^ (nw * 64) % n)) = rr at hrl' hrv
  rw [val_enc] at hrv
  have hrm : val rr ≡ 2 ^ (32 * nw) * 2 ^ (32 * nw) [MOD n] := by
    rw [hrv, ← Nat.pow_add, show 32 * nw + 32 * nw = nw * 64 by ring]
    exact Nat.mod_modEq _ _
  have honel : (resize [1#32] nw).length = nw := resize_length _ _
  have honev : val (resize [1#32] nw) = 1 := by rw [resize_val (by rw [List.length_singleton]; exact hnwpos)]; simp
  generalize resize [1#32] nw = one at honel honev
  have hv : val (enc n) = n := val_enc n
  -- powers 0 and 1
  obtain ⟨p0, e0, l0, c0⟩ := montgomery_spec (k := k) honel hrl' hnw hnwpos (by rw [hv]; exact hk)
  obtain ⟨p1, e1, l1, c1⟩ := montgomery_spec (k := k) hxl hrl' hnw hnwpos (by rw [hv]; exact hk)
  rw [hv] at c0 c1
  have r0 : MontRep nw n a 0 p0 := by
    refine ⟨l0, ?_⟩
    apply Nat.ModEq.cancel_right_of_coprime hco (c := 2 ^ (32 * nw))
    refine c0.trans ?_
    rw [honev, Nat.one_mul, Nat.pow_zero, Nat.one_mul]
    exact hrm
  have r1 : MontRep nw n a 1 p1 := by
    refine ⟨l1, ?_⟩
    apply Nat.ModEq.cancel_right_of_coprime hco (c := 2 ^ (32 * nw))
    refine c1.trans ?_
    rw [hxv, Nat.pow_one, Nat.mul_assoc]
    exact hx0v.mul hrm
  rw [e0, e1]
  simp only
  obtain ⟨ps, eps, hps⟩ := montPowers_spec hnw hv hnwpos hk hco r1 14 1 p1 r1
  rw [eps]
  simp only
  have hpow : ∀ j, j < 16 → MontRep nw n a j ((p0 :: p1 :: ps).getD j []) := by
    intro j hj
    match j with
    | 0 => simpa using r0
    | 1 => simpa using r1
    | j + 2 =>
      rw [List.getD_cons_succ, List.getD_cons_succ]
      have := hps j (by omega)
      convert this using 1
      omega
  obtain ⟨z, ez, hz⟩ := nibLoop_spec (montStep_spec hnw hv hnwpos hk hco hpow) y.reverse true 0 p0
    (by simp) r0
  rw [ez]
  simp only
  rw [Nat.zero_mul, Nat.zero_add, List.reverse_reverse] at hz
  obtain ⟨zz, ezz, lzz, czz⟩ := montgomery_spec (k := k) hz.1 honel hnw hnwpos (by rw [hv]; exact hk)
  rw [ezz]
  simp only
  rw [hv, honev, Nat.mul_one] at czz
  have hzzv : val zz ≡ a ^ val y [MOD n] := Nat.ModEq.cancel_right_of_coprime hco (czz.trans hz.2)
  have hzne : zz ≠ [] := by rw [← List.length_pos_iff, lzz]; exact hnwpos
  rw [geOp_of_length_eq hzne (by rw [lzz, hnw]), hv]
  by_cases hge : n ≤ val zz
  · rw [if_pos (by simpa using hge)]
    have hcan : Canon zz := by
      apply canon_of_le_val hzne
      intro h
      have := (canon_enc n).le_val (by rw [hnw, ← lzz]; exact h)
      rw [hv, hnw] at this
      rw [lzz]
      omega
    obtain ⟨v, rfl⟩ := canon_iff_enc.1 hcan
    rw [val_enc] at hge hzzv
    have hsub : assignNat subInner (enc v) (enc n) = enc (v - n) := by
      simp [assignNat, subInner_enc_of_le hge]
    rw [hsub, geOp_enc]
    have hvn : v - n ≡ a ^ val y [MOD n] := by
      refine Nat.ModEq.trans ?_ hzzv
      unfold Nat.ModEq
      conv_rhs => rw [← Nat.sub_add_cancel hge, Nat.add_mod_right]
    by_cases hge2 : n ≤ v - n
    · rw [if_pos (by simpa using hge2), assignRem_enc hn0]
      simp only
      rw [trim_enc]
      rw [hvn]
    · rw [if_neg (by simpa using hge2)]
      simp only
      rw [trim_enc]
      congr 2
      rw [← hvn, Nat.mod_eq_of_lt (by omega)]
  · rw [if_neg (by simpa using hge)]
    simp only
    rw [trim_eq_enc hzne]
    congr 2
    rw [← hzzv, Nat.mod_eq_of_lt (by omega)]
theorem natExp_words (checks : Bool) {v y : Words} {n : Nat} (hy : y ≠ []) (hyn : y.length ≤ 1 → val y < n)
    (hn : 2 < n) (hodd : n % 2 = 1) (hylen : y.length ≤ (enc n).length) (hlen : v.length = (enc n).length) :
    natExp checks v y (enc n) = .ok (enc (val v ^ val y % n)) := by
  have hv : v ≠ [] := by rw [← List.length_pos_iff, hlen, List.length_pos_iff]; exact enc_ne_nil n
  have hvn : isNan v = false := by simpa [isNan] using hv
  have hyn' : isNan y = false := by simpa [isNan] using hy
  by_cases h1 : y.length ≤ 1
  · have h1' : y.length = 1 := by
      have := List.length_pos_iff.2 hy
      omega
    have hye : y = enc (val y) := enc_eq_iff.2 ⟨⟨hy, Or.inl h1'⟩, rfl⟩
    by_cases h0 : val y = 0
    · rw [hye, h0]
      unfold natExp
      simp only [isNan_enc, Bool.or_false, hvn, Bool.false_eq_true, if_false]
      rw [if_neg (mt (len1_eq n 1#32).1 (by simp; omega)), if_pos ((len1_eq 0 0#32).2 rfl), val_enc, pow_zero,
        Nat.mod_eq_of_lt (by omega), enc_one]
    · rw [hye, natExp_raw checks h0 (hyn h1) hodd hlen, val_enc]
  · unfold natExp
    simp only [isNan_enc, Bool.or_false, hvn, hyn', Bool.false_eq_true, if_false]
    rw [if_neg (mt (len1_eq n 1#32).1 (by simp; omega)), if_neg (by omega), if_neg (by omega),
      if_pos ⟨Or.inl (by omega), by omega, Or.inl (by omega)⟩, if_pos]
    · rw [← expMontgomery_words (val v) y hodd]
      have hl2 : (enc (val v)).length ≤ (enc n).length := by
        apply enc_length_le (List.length_pos_iff.2 (enc_ne_nil n))
        exact lt_of_lt_of_le (val_lt v) (Nat.pow_le_pow_right (by norm_num) (by omega))
      have hc : deepClone v = enc (val v) := trim_eq_enc hv
      unfold expMontgomery
      simp only [if_neg (show ¬ v.length > (enc n).length by omega),
        if_neg (show ¬ (enc (val v)).length > (enc n).length by omega), deepClone_enc, hc]
    · rw [and_one_eq, enc_head]; omega

theorem shrInner_length_le {v : Words} (hv : v ≠ []) (s : Nat) : (shrInner v s).length ≤ v.length := by
  have hpos : 0 < v.length := List.length_pos_iff.2 hv
  unfold shrInner
  simp only
  split_ifs
  all_goals simp [List.length_dropLast, List.length_take]
  all_goals omega

theorem val_lt_bitsLen {s : Words} (hs : s ≠ []) : val s < 2 ^ bitsLen s := by
  have hd := val_dropLast_getLast hs
  have hl := val_lt s.dropLast
  rw [List.length_dropLast] at hl
  have hpos : 0 < s.length := List.length_pos_iff.2 hs
  by_cases hz : s.getLast hs = 0#32
  · unfold bitsLen
    rw [List.getLast?_eq_some_getLast hs]
    simp only
    rw [if_pos hz]
    rw [hz] at hd
    simp only [Nat.mul_zero, Nat.add_zero, BitVec.toNat_ofNat, Nat.zero_mod] at hd
    split
    · rename_i h1
      rw [h1] at hl
      simp at hl
      rw [hd, hl]; norm_num
    · rw [hd, Nat.mul_comm]; exact hl
  · have hc : Canon s := ⟨hs, Or.inr hz⟩
    rw [bitsLen_canon hc]
    exact lt_pow_bitLen _

theorem bitsLen_le_length {s : Words} (hs : s ≠ []) : bitsLen s ≤ 32 * s.length := by
  have hpos : 0 < s.length := List.length_pos_iff.2 hs
  unfold bitsLen
  rw [List.getLast?_eq_some_getLast hs]
  simp only
  split_ifs <;> omega

/-- a bit of a number that need not be stored in its shortest form -/
theorem isSetBit_words {s : Words} (hs : s ≠ []) (i : Nat) :
    ∃ o, isSetBit s i = .ok o ∧ (o = some true ↔ val s / 2 ^ i % 2 = 1) := by
  have hlt := val_lt_bitsLen hs
  have hle := bitsLen_le_length hs
  unfold isSetBit
  by_cases h : i < bitsLen s
  · rw [if_neg (by omega), isSetBit__val (by omega)]
    refine ⟨_, rfl, ?_⟩
    rw [Nat.testBit_eq_decide_div_mod_eq]
    simp
  · rw [if_pos (by omega)]
    refine ⟨none, rfl, ?_⟩
    have : val s / 2 ^ i = 0 :=
      Nat.div_eq_of_lt (lt_of_lt_of_le hlt (Nat.pow_le_pow_right (by norm_num) (by omega)))
    simp [this]

theorem addInner_enc_ne_nil (a : Nat) (y : Words) : addInner (enc a) y ≠ [] := by
  have hz := adcZip_length false (enc a) y
  have hpos : 0 < (enc a).length := List.length_pos_iff.2 (enc_ne_nil a)
  unfold addInner
  simp only
  intro h
  have hl := congrArg List.length h
  simp only [List.length_append, List.length_nil] at hl
  by_cases hc : y.length ≤ (enc a).length
  · rw [if_pos hc, adcTail_length, List.length_drop] at hl
    omega
  · rw [if_neg hc, adcTail_length, List.length_drop] at hl
    omega

/-! ## Miller-Rabin -/

section
variable {n t : Nat} {y : Words} (hn : 2 < n) (hodd : n % 2 = 1) (hy : y ≠ []) (hyn : y.length ≤ 1 → val y < n)
  (hylen : y.length ≤ (enc n).length)
include hn hodd hy hyn hylen

theorem mrRounds_words (checks : Bool) (s : Nat) : ∀ ds, ∃ r,
    mrRounds checks (enc n) (enc (n - 1)) y t s ds = .ok r ∧
    (∀ rest, r = some (true, rest) ↔
      ∃ as, drawMany (enc n) s ds = some (as, rest) ∧ ∀ a ∈ as,
        (val a ^ val y % n = 1 ∨ ∃ i, i < t ∧ val a ^ (2 ^ i * val y) % n = n - 1)) ∧
    (r = none → drawMany (enc n) s ds = none) := by
  induction s with
  | zero =>
    intro ds
    refine ⟨_, rfl, ?_, by simp⟩
    intro rest
    simp [drawMany]
  | succ s ih =>
    intro ds
    rw [mrRounds, drawMany, natRandom_enc (by omega)]
    rcases hd : randomLoop (enc n) (enc n).length (randomMask (enc n)) (ds.length + 1) ds with _ | ⟨a, ds'⟩
    · exact ⟨none, rfl, by simp, by simp⟩
    · obtain ⟨hl, -, -⟩ := randomLoop_some _ hd
      obtain ⟨w, hw, hiff⟩ := mrWitness_spec hn t (val a ^ val y % n) (Nat.mod_lt _ (by omega))
      have hpow : ∀ i, (val a ^ val y % n) ^ 2 ^ i % n = val a ^ (2 ^ i * val y) % n := by
        intro i
        rw [← Nat.pow_mod, ← pow_mul, mul_comm]
      simp only [hpow] at hiff
      simp only
      rw [natExp_words checks hy hyn hn hodd hylen hl]
      simp only [bind, Except.bind]
      rw [hw]
      simp only
      obtain ⟨r, hr, h1, h2⟩ := ih ds'
      cases w with
      | true =>
        refine ⟨some (false, ds'), rfl, ?_, by simp⟩
        intro rest
        simp only [Option.some.injEq, Prod.mk.injEq, Bool.false_eq_true, false_and, Option.map_eq_some_iff,
          Prod.exists, false_iff, not_exists, not_and]
        rintro as ⟨as', r', -, rfl, -⟩ hall
        have := hiff.2 (hall a (by simp))
        simp at this
      | false =>
        refine ⟨r, hr, ?_, ?_⟩
        · intro rest
          rw [h1]
          constructor
          · rintro ⟨as, h, hall⟩
            refine ⟨a :: as, by rw [h]; rfl, ?_⟩
            intro b hb
            rcases List.mem_cons.1 hb with rfl | hb
            · exact hiff.1 rfl
            · exact hall b hb
          · rintro ⟨as, h, hall⟩
            rw [Option.map_eq_some_iff] at h
            obtain ⟨⟨as', r'⟩, h3, h4⟩ := h
            simp only [Prod.mk.injEq] at h4
            obtain ⟨rfl, rfl⟩ := h4
            exact ⟨as', h3, fun b hb => hall b (by simp [hb])⟩
        · intro hnone
          rw [h2 hnone]; rfl

end

theorem shiftedOut_val {m : Nat} (hm : m ≠ 0) (t : Nat) : val (shrInner (enc m) t) = shiftedOut m t := by
  rw [val_shrInner (enc_ne_nil m), val_enc, enc_length_log2 hm, shiftedOut]

theorem shiftedOut_fits {t u : Nat} (hu : u % 2 = 1) (h : ShiftFits (2 ^ t * u) t) : shiftedOut (2 ^ t * u) t = u := by
  have hu0 : u ≠ 0 := by omega
  rw [← shiftedOut_val (by positivity), shrInner_odd_part hu h, val_enc]

theorem strongAsShifted_with {n a t u : Nat} (h : n - 1 = 2 ^ t * u) (hu : u % 2 = 1) : StrongAsShifted n a ↔
    (a ^ shiftedOut (n - 1) t % n = 1 ∨ ∃ i, i < t ∧ a ^ (2 ^ i * shiftedOut (n - 1) t) % n = n - 1) := by
  constructor
  · rintro ⟨t', u', h', hu', h2⟩
    obtain ⟨rfl, rfl⟩ := two_pow_odd_inj (h.symm.trans h') hu hu'
    exact h2
  · intro h2
    exact ⟨t, u, h, hu, h2⟩

theorem millerRabin_words {n : Nat} (hn : 2 < n) (hodd : n % 2 = 1) (checks : Bool)
    (s : Nat) (ds : List (Option W)) : ∃ r, millerRabin checks (enc n) s ds = .ok r ∧
    (∀ rest, r = some (true, rest) ↔
      ∃ as, drawMany (enc n) s ds = some (as, rest) ∧ ∀ a ∈ as, StrongAsShifted n (val a)) ∧
    (r = none → drawMany (enc n) s ds = none) := by
  obtain ⟨t, u, hu, htu⟩ := Nat.exists_eq_two_pow_mul_odd (n := n - 1) (by omega)
  have hu1 := Nat.odd_iff.1 hu
  unfold millerRabin
  simp only [natSubW_odd hodd]
  have ht2 : traillingZeros (enc (n - 1)) = t := by rw [htu]; exact traillingZeros_eq hu1
  have hshr : natShr (enc (n - 1)) t = shrInner (enc (n - 1)) t := by
    simp only [natShr, opPrim, isNan_enc, Bool.false_eq_true, if_false, deepClone_enc]
  rw [ht2, hshr]
  have hval := shiftedOut_val (m := n - 1) (by omega) t
  have hlen : (shrInner (enc (n - 1)) t).length ≤ (enc n).length := by
    refine (shrInner_length_le (enc_ne_nil _) t).trans ?_
    apply enc_length_le (List.length_pos_iff.2 (enc_ne_nil n))
    have := val_lt (enc n)
    rw [val_enc] at this
    omega
  have hlt : (shrInner (enc (n - 1)) t).length ≤ 1 → val (shrInner (enc (n - 1)) t) < n := by
    intro h1
    by_cases h32 : n < 2 ^ 32
    · have ht : t < 32 := by
        by_contra hc
        have := Nat.pow_le_pow_right (n := 2) (by norm_num) (not_lt.1 hc)
        have : 2 ^ t * 1 ≤ 2 ^ t * u := Nat.mul_le_mul_left _ (by omega)
        omega
      rw [hval, htu, shiftedOut_fits hu1 (Or.inl ht)]
      have : 1 * u ≤ 2 ^ t * u := Nat.mul_le_mul_right _ Nat.one_le_two_pow
      omega
    · have := val_lt (shrInner (enc (n - 1)) t)
      have h2 : 2 ^ (32 * (shrInner (enc (n - 1)) t).length) ≤ 2 ^ 32 := Nat.pow_le_pow_right (by norm_num) (by omega)
      omega
  obtain ⟨r, hr, h1, h2⟩ := mrRounds_words (t := t) hn hodd (shrInner_ne_nil (enc_ne_nil _) t) hlt hlen checks s ds
  refine ⟨r, hr, fun rest => ?_, h2⟩
  rw [h1]
  simp only [hval, strongAsShifted_with htu hu1]

/-! ## Lucas -/

variable {n : Nat}

theorem natSubW_two_words (hn : 2 < n) (hodd : n % 2 = 1) : ∃ m : Words, natSubW (enc n) 2#32 = m ∧ m ≠ [] ∧
    val m = n - 2 ∧ ∀ a, eqv (enc a) m = true ↔ a = n - 2 ∧ ∀ k, 1 ≤ k → n ≠ 2 ^ (32 * k) + 1 := by
  have hval : val (subInnerBasic (enc n) 2#32) = n - 2 := by
    rw [subInnerBasic_val (canon_enc _), val_enc]
    simp only [BitVec.toNat_ofNat]
    omega
  have hne : subInnerBasic (enc n) 2#32 ≠ [] := subInnerBasic_ne_nil (enc_ne_nil _) _
  have hlen : (subInnerBasic (enc n) 2#32).length = (enc n).length := subInnerBasic_length _ _
  have hsub : natSubW (enc n) 2#32 = subInnerBasic (enc n) 2#32 := by
    simp only [natSubW, opPrim, isNan_enc, Bool.false_eq_true, if_false, deepClone_enc]
  refine ⟨_, hsub, hne, hval, fun a => ?_⟩
  have heq : eqv (enc a) (subInnerBasic (enc n) 2#32) = true ↔ enc a = subInnerBasic (enc n) 2#32 := by
    unfold eqv
    rw [isNan_enc]
    simp
  rw [heq]
  by_cases hk : ∃ k, 1 ≤ k ∧ n = 2 ^ (32 * k) + 1
  · obtain ⟨k, hk1, hk⟩ := hk
    constructor
    · intro h
      exfalso
      have hle : 2 ^ (32 * k) < 2 ^ (32 * (enc n).length) := by
        have := val_lt (enc n)
        rw [val_enc] at this
        omega
      have hkl : k < (enc n).length := by
        by_contra hc
        have := Nat.pow_le_pow_right (n := 2) (by norm_num) (show 32 * (enc n).length ≤ 32 * k by omega)
        omega
      have ha : a = n - 2 := by rw [← val_enc a, h, hval]
      have hle2 : (enc a).length ≤ k := by
        apply enc_length_le (by omega)
        omega
      rw [h, hlen] at hle2
      omega
    · rintro ⟨-, h⟩
      exact absurd hk (h k hk1)
  · have hk' : ∀ k, 1 ≤ k → n ≠ 2 ^ (32 * k) + 1 := fun k h1 h2 => hk ⟨k, h1, h2⟩
    have hc : subInnerBasic (enc n) 2#32 = enc (n - 2) := by
      refine enc_eq_iff.2 ⟨?_, hval⟩
      apply canon_of_le_val hne
      rw [hlen, hval]
      intro hlen
      have hle := (canon_enc n).le_val hlen
      rw [val_enc] at hle
      have hX := hk' ((enc n).length - 1) (by omega)
      obtain ⟨k, hk⟩ : ∃ k, (enc n).length - 1 = k + 1 := ⟨(enc n).length - 2, by omega⟩
      rw [hk] at hle hX ⊢
      have hX2 : 2 ^ (32 * (k + 1)) % 2 = 0 := by rw [mul_add, pow_add, Nat.mul_mod]; norm_num
      generalize 2 ^ (32 * (k + 1)) = X at *
      omega
    rw [hc]
    constructor
    · intro h
      refine ⟨?_, hk'⟩
      have := congrArg val h
      simpa using this
    · rintro ⟨rfl, -⟩
      rfl

theorem lucasChain_words {P : Nat} (hPn : P < n) (h2n : 2 < n) {m : Words} (hmv : val m = n - 2) {s : Words}
    (hs : s ≠ []) (i : Nat) : ∀ vk vk1 : Nat,
    lucasChain (enc n) m (enc P) s i (enc vk) (enc vk1) =
      lucasChain (enc n) (enc (n - 2)) (enc P) (enc (val s)) i (enc vk) (enc vk1) := by
  have hn0 : n ≠ 0 := by omega
  induction i with
  | zero => intro vk vk1; rfl
  | succ i ih =>
    intro vk vk1
    obtain ⟨o, ho, hiff⟩ := isSetBit_words hs i
    obtain ⟨o', ho', hiff'⟩ := isSetBit_words (enc_ne_nil (val s)) i
    rw [val_enc] at hiff'
    have hsq : ∀ v, natRem (addInner (sqrV (enc v)) m) (enc n) = natRem (addInner (sqrV (enc v)) (enc (n - 2))) (enc n) := by
      intro v
      rw [sqrV_enc, natRem_raw (addInner_enc_ne_nil _ _) hn0, natRem_raw (addInner_enc_ne_nil _ _) hn0, addInner_val,
        addInner_val, hmv, val_enc (n - 2)]
    have hsq' : ∀ v, natRem (addInner (sqrV (enc v)) (enc (n - 2))) (enc n) = .ok (enc ((v * v + (n - 2)) % n)) := by
      intro v
      rw [sqrV_enc, addInner_enc, natRem_enc hn0]
    have ht : natRem (subInner (addInner (mulKara (enc vk) (enc vk1)) (enc n)) (enc P)) (enc n) =
        .ok (enc ((vk * vk1 + n - P) % n)) := by
      rw [mulKara_enc, addInner_enc, subInner_enc_of_le (by omega), natRem_enc hn0]
    rw [lucasChain, lucasChain, ho, ho']
    simp only [bind, Except.bind]
    rw [hsq, hsq, hsq', hsq', ht]
    simp only
    rw [ih, ih]
    by_cases hb : val s / 2 ^ i % 2 = 1
    · rw [if_pos (hiff.2 hb), if_pos (hiff'.2 hb)]
    · rw [if_neg (mt hiff.1 hb), if_neg (mt hiff'.1 hb)]

theorem lucasCheck_words {P : Nat} (hodd : n % 2 = 1) (h5 : 5 ≤ n) (hPn : P < n) (hP : P < 2 ^ 32) :
    ∃ w, lucasCheck (enc n) P = .ok w ∧ (w = true ↔ LucasAsShifted n P) := by
  have hn0 : n ≠ 0 := by omega
  obtain ⟨r, s', hs', hrs⟩ := Nat.exists_eq_two_pow_mul_odd (n := n + 1) (by omega)
  have hs1 := Nat.odd_iff.1 hs'
  obtain ⟨m, hm, hmne, hmv, hmeq⟩ := natSubW_two_words (by omega : 2 < n) hodd
  unfold lucasCheck
  simp only [natAddW_one, hm]
  have htz : traillingZeros (enc (n + 1)) = r := by rw [hrs]; exact traillingZeros_eq hs1
  have hval := shiftedOut_val (m := n + 1) (by omega) r
  have hsne := shrInner_ne_nil (enc_ne_nil (n + 1)) r
  have hPe : ([BitVec.ofNat 32 P] : Words) = enc P := by rw [enc_lt hP]
  have h2e : ([2#32] : Words) = enc 2 := by rw [enc_lt (by norm_num)]
  have hblt := val_lt_bitsLen hsne
  rw [htz, hPe, h2e, lucasChain_words hPn (by omega) hmv hsne]
  generalize bitsLen (shrInner (enc (n + 1)) r) = bl at hblt
  rw [hval] at hblt ⊢
  generalize hs : shiftedOut (n + 1) r = s at hblt
  have hs0 : s / 2 ^ (bl + 1) = 0 := by
    apply Nat.div_eq_of_lt
    exact lt_of_lt_of_le hblt (Nat.pow_le_pow_right (by norm_num) (by omega))
  obtain ⟨a, b, hab, ha, hb, haV, hbV⟩ := lucasChain_exact (n := n) hPn (by omega) s (bl + 1) 2 P
    (by omega) hPn (by rw [hs0]; simp [lucasSeq]) (by rw [hs0]; simp [lucasSeq])
  rw [hab]
  simp only [bind, Except.bind, eqv_enc]
  -- the specification for this `r` and `s`
  have hspec : LucasAsShifted n P ↔
      (((lucasSeq P s ≡ 2 [ZMOD n] ∨ (lucasSeq P s ≡ -2 [ZMOD n] ∧ ∀ k, 1 ≤ k → n ≠ 2 ^ (32 * k) + 1)) ∧ P * lucasSeq P s ≡ 2 * lucasSeq P (s + 1) [ZMOD n]) ∨
      ∃ t, t < r - 1 ∧ lucasSeq P (2 ^ t * s) ≡ 0 [ZMOD n]) := by
    constructor
    · rintro ⟨r', s'', h, hs'', h'⟩
      obtain ⟨rfl, rfl⟩ := two_pow_odd_inj (hrs.symm.trans h) hs1 hs''
      rwa [hs] at h'
    · intro h
      exact ⟨r, s', hrs, hs1, by rwa [hs]⟩
  rw [hspec]
  have hcn : ((n : Nat) : ZMod n) = 0 := by simp
  have hA : (a = 2 ∨ (a = n - 2 ∧ ∀ k, 1 ≤ k → n ≠ 2 ^ (32 * k) + 1)) ↔
      (lucasSeq P s ≡ 2 [ZMOD n] ∨ (lucasSeq P s ≡ -2 [ZMOD n] ∧ ∀ k, 1 ≤ k → n ≠ 2 ^ (32 * k) + 1)) := by
    rw [← cast_modEq, ← cast_modEq, ← haV, ← zmod_eq ha (by omega : 2 < n), ← zmod_eq ha (by omega : n - 2 < n),
      Nat.cast_sub (by omega), hcn]
    push_cast
    rw [zero_sub]
  obtain ⟨w, hw, hwiff⟩ := lucasTail_exact (n := n) (by omega) (r - 1) a
    (fun t => ((lucasSeq P (2 ^ t * s) : Int) : ZMod n)) ha (by simp [haV]) (by
      intro t
      rw [pow_succ, mul_comm (2 ^ t) 2, mul_assoc, (lucasSeq_double P _).1]
      push_cast; ring)
  have hwiff' : w = true ↔ ∃ t, t < r - 1 ∧ lucasSeq P (2 ^ t * s) ≡ 0 [ZMOD n] := by
    rw [hwiff]
    constructor
    · rintro ⟨t, ht, h⟩
      exact ⟨t, ht, (cast_modEq _ _).1 (by rw [h]; simp)⟩
    · rintro ⟨t, ht, h⟩
      exact ⟨t, ht, by have := (cast_modEq (n := n) _ _).2 h; simpa using this⟩
  have hshl : natShl (enc b) 1 = enc (b * 2 ^ 1) := by
    simp only [natShl, opPrim, isNan_enc, Bool.false_eq_true, if_false, deepClone_enc]
    rw [shlInner_enc_lt (by norm_num)]
  have hB : ((a * P - b * 2 ^ 1 + (b * 2 ^ 1 - a * P)) % n = 0) ↔
      P * lucasSeq P s ≡ 2 * lucasSeq P (s + 1) [ZMOD n] := by
    rw [← cast_modEq]
    push_cast
    rw [← haV, ← hbV]
    have e : ((P : ZMod n) * a = 2 * b) ↔ a * P ≡ b * 2 [MOD n] := by
      rw [← ZMod.natCast_eq_natCast_iff]
      push_cast
      rw [mul_comm (P : ZMod n), mul_comm (2 : ZMod n)]
    rw [e, ← Nat.dvd_iff_mod_eq_zero]
    rcases Nat.le_total (a * P) (b * 2) with h | h
    · rw [show a * P - b * 2 + (b * 2 - a * P) = b * 2 - a * P by omega]
      exact (Nat.modEq_iff_dvd' h).symm
    · rw [show a * P - b * 2 + (b * 2 - a * P) = a * P - b * 2 by omega]
      exact ((Nat.modEq_iff_dvd' h).symm).trans ⟨Nat.ModEq.symm, Nat.ModEq.symm⟩
  have hcond : (decide (a = 2) || eqv (enc a) m) = true ↔ (a = 2 ∨ (a = n - 2 ∧ ∀ k, 1 ≤ k → n ≠ 2 ^ (32 * k) + 1)) := by
    rw [Bool.or_eq_true, hmeq, decide_eq_true_eq]
  by_cases hc : a = 2 ∨ (a = n - 2 ∧ ∀ k, 1 ≤ k → n ≠ 2 ^ (32 * k) + 1)
  · rw [if_pos (hcond.2 hc), mulKara_enc, hshl, assign_sub_enc, natRem_enc hn0]
    simp only [← enc_zero, eqv_enc]
    by_cases hd : (a * P - b * 2 ^ 1 + (b * 2 ^ 1 - a * P)) % n = 0
    · rw [if_pos (by simpa using hd)]
      exact ⟨true, rfl, by simp only [true_iff]; exact Or.inl ⟨hA.1 hc, hB.1 hd⟩⟩
    · rw [if_neg (by simpa using hd)]
      refine ⟨w, hw, hwiff'.trans ⟨Or.inr, ?_⟩⟩
      rintro (h | h)
      · exact absurd (hB.2 h.2) hd
      · exact h
  · rw [if_neg (mt hcond.1 hc)]
    simp only [Bool.false_eq_true, if_false]
    refine ⟨w, hw, hwiff'.trans ⟨Or.inr, ?_⟩⟩
    rintro (h | h)
    · exact absurd (hA.2 h.1) hc
    · exact h
theorem primeLucas_of (hodd : n % 2 = 1) (h128 : 128 ≤ n) (L : Nat → Prop)
    (hL : ∀ P, P < n → P < 2 ^ 32 → ∃ w, lucasCheck (enc n) P = .ok w ∧ (w = true ↔ L P)) :
    ∃ w, primeLucas (enc n) = .ok w ∧ (w = true ↔ ∃ P : Nat, 3 ≤ P ∧ P ≤ 10001 ∧ L P ∧
      (∀ q : Nat, 3 ≤ q → q < P → J(((q * q - 4 : Nat) : Int) | n) = 1) ∧
      (J(((P * P - 4 : Nat) : Int) | n) = -1 ∨ (P = 10001 ∧ ¬ IsSquare n))) := by
  have hwn : ∃ w, word0 (enc n) = .ok w ∧ ¬ (w &&& 1#32 = 0#32) := by
    obtain ⟨w, hw, hwn⟩ := word0_enc n
    refine ⟨w, hw, fun h => ?_⟩
    have h3 := congrArg BitVec.toNat h
    rw [BitVec.toNat_and] at h3
    simp only [BitVec.toNat_ofNat, Nat.one_mod, Nat.and_one_is_mod] at h3
    omega
  obtain ⟨w, hw, hwn⟩ := hwn
  have hred : primeLucas (enc n) = (lucasFind (enc n) 9999 3 >>= fun f =>
      match f with
      | .inl b => .ok b
      | .inr p => lucasCheck (enc n) p) := by
    unfold primeLucas
    rw [isNan_enc, eqv_one_enc, if_neg (by simp; omega), hw]
    simp only [bind, Except.bind]
    rw [if_neg hwn]
    rfl
  rw [hred]
  by_cases hP : ∃ P : Nat, 3 ≤ P ∧ P ≤ 10001 ∧
      (∀ q : Nat, 3 ≤ q → q < P → J(((q * q - 4 : Nat) : Int) | n) = 1) ∧
      (J(((P * P - 4 : Nat) : Int) | n) = -1 ∨ (P = 10001 ∧ ¬ IsSquare n))
  · obtain ⟨P, h3, hP1, hall, hj⟩ := hP
    rw [lucasFind_reaches hodd hP1 hall hj 9999 3 (by norm_num) h3 (by norm_num)]
    simp only [bind, Except.bind]
    have hPn : P < n := by
      by_contra hc
      have h0 := jacobi_disc_self (n := n) (by omega)
      rw [hall (n - 2) (by omega) (by omega)] at h0
      omega
    obtain ⟨b, hb, hiff⟩ := hL P hPn (by omega)
    refine ⟨b, hb, hiff.trans ⟨fun h => ⟨P, h3, hP1, h, hall, hj⟩, ?_⟩⟩
    rintro ⟨P', h3', hP1', hl, hall', hj'⟩
    have heq : P' = P := by
      rcases Nat.lt_trichotomy P' P with h | h | h
      · have := hall P' h3' h
        rcases hj' with h' | h'
        · omega
        · omega
      · exact h
      · have := hall' P h3 h
        rcases hj with h' | h'
        · omega
        · omega
    rwa [heq] at hl
  · rcases lucasFind_exact hodd (by omega) 9999 3 (by norm_num) (by norm_num) (by norm_num) (fun q h3 hq => by omega) with h | h
    · obtain ⟨q, hq, h3, hqn, hq10, hall, hj⟩ := h
      exfalso
      apply hP
      refine ⟨q, h3, hq10, hall, ?_⟩
      by_cases hs : IsSquare n
      · left
        rcases hj with h | h
        · exact h
        · rw [lucasFind_square hodd hs (fun q' h h' => hall q' h (by omega)) 9999 3 (by norm_num) (by norm_num) (by norm_num)] at hq
          cases hq
      · rcases hj with h | h
        · exact Or.inl h
        · exact Or.inr ⟨h, hs⟩
    · obtain ⟨b, hb, himp⟩ := h
      rw [hb]
      refine ⟨b, rfl, fun h => ?_, fun h => ?_⟩
      · obtain ⟨q, h3, hnq, hall⟩ := himp h
        have hall' : ∀ q' : Nat, 3 ≤ q' → q' + 2 < n → J(((q' * q' - 4 : Nat) : Int) | n) = 1 :=
          fun q' h h' => hall q' h (by omega)
        exact absurd hall' (not_all_one (prime_of_all_one hodd (by omega) hall') h128)
      · obtain ⟨P, h3, hP1, -, hall, hj⟩ := h
        exact absurd ⟨P, h3, hP1, hall, hj⟩ hP

theorem primeLucas_words (hodd : n % 2 = 1) (h128 : 128 ≤ n) :
    ∃ w, primeLucas (enc n) = .ok w ∧ (w = true ↔ ∃ P : Nat, 3 ≤ P ∧ P ≤ 10001 ∧ LucasAsShifted n P ∧
      (∀ q : Nat, 3 ≤ q → q < P → J(((q * q - 4 : Nat) : Int) | n) = 1) ∧
      (J(((P * P - 4 : Nat) : Int) | n) = -1 ∨ (P = 10001 ∧ ¬ IsSquare n))) :=
  primeLucas_of hodd h128 (fun P => LucasAsShifted n P) fun _ hPn hP => lucasCheck_words hodd (by omega) hPn hP

end RMath
