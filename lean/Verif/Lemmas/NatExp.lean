import Verif.Lemmas.NatMont
import Verif.Lemmas.NatRandom

/-! Proofs about modular exponentiation. -/

namespace RMath

/-! ## the loop over nibbles -/

theorem nibWord_spec {P : Nat → Words → Prop} {step : Bool → Nat → Words → Res Words}
    (hstep : ∀ first nib e z, nib < 16 → (first = true → e = 0) → P e z →
      ∃ z', step first nib z = .ok z' ∧ P (16 * e + nib) z') (c : Nat) :
    ∀ (first : Bool) (e : Nat) (yi : W) (z : Words), c ≤ 8 → (first = true → e = 0) → P e z →
      ∃ z', nibWord step c first yi z = .ok z' ∧ P (e * 16 ^ c + yi.toNat / 2 ^ (32 - 4 * c)) z' := by
  induction c with
  | zero =>
    intro first e yi z _ _ hP
    refine ⟨z, rfl, ?_⟩
    rw [Nat.div_eq_of_lt (by simpa using yi.isLt)]
    simpa using hP
  | succ c ih =>
    intro first e yi z hc hf hP
    have hnib : (yi >>> 28).toNat = yi.toNat / 2 ^ 28 := by
      rw [BitVec.toNat_ushiftRight, Nat.shiftRight_eq_div_pow]
    have hy := yi.isLt
    obtain ⟨z1, hz1, hP1⟩ := hstep first (yi >>> 28).toNat e z (by rw [hnib]; omega) hf hP
    obtain ⟨z2, hz2, hP2⟩ := ih false (16 * e + (yi >>> 28).toNat) (yi <<< 4) z1 (by omega) (by simp) hP1
    refine ⟨z2, by rw [nibWord, hz1]; exact hz2, ?_⟩
    rw [hnib, BitVec.toNat_shiftLeft, Nat.shiftLeft_eq] at hP2
    convert hP2 using 1
    have hc7 : c ≤ 7 := by omega
    interval_cases c <;> norm_num <;> omega

theorem nibLoop_spec {P : Nat → Words → Prop} {step : Bool → Nat → Words → Res Words}
    (hstep : ∀ first nib e z, nib < 16 → (first = true → e = 0) → P e z →
      ∃ z', step first nib z = .ok z' ∧ P (16 * e + nib) z') (ws : List W) :
    ∀ (first : Bool) (e : Nat) (z : Words), (first = true → e = 0) → P e z →
      ∃ z', nibLoop step first ws z = .ok z' ∧ P (e * 2 ^ (32 * ws.length) + val ws.reverse) z' := by
  induction ws with
  | nil => intro first e z _ hP; exact ⟨z, rfl, by simpa using hP⟩
  | cons w ws ih =>
    intro first e z hf hP
    obtain ⟨z1, h1, hP1⟩ := nibWord_spec hstep 8 first e w z (le_refl _) hf hP
    obtain ⟨z2, h2, hP2⟩ := ih false _ z1 (by simp) hP1
    refine ⟨z2, by rw [nibLoop, h1]; exact h2, ?_⟩
    convert hP2 using 1
    rw [List.reverse_cons, val_append, List.length_reverse, List.length_cons, pow32_succ]
    norm_num
    ring

/-! ## Montgomery -/

theorem resize_len_val {v : Words} {n : Nat} (h : v.length ≤ n) :
    (if v.length < n then resize v n else v).length = n ∧ val (if v.length < n then resize v n else v) = val v := by
  split
  · exact ⟨resize_length _ _, resize_val h⟩
  · exact ⟨by omega, rfl⟩

/-- `z` is an `n`-word representative of `a^e` in Montgomery form. -/
def MontRep (nw n a e : Nat) (z : Words) : Prop := z.length = nw ∧ val z ≡ a ^ e * 2 ^ (32 * nw) [MOD n]

theorem mont_cancel {c X Y R u v n : Nat} (hco : Nat.Coprime n R) (h : c * R ≡ X * Y [MOD n])
    (hX : X ≡ u * R [MOD n]) (hY : Y ≡ v * R [MOD n]) : c ≡ u * v * R [MOD n] := by
  have h1 : c * R ≡ (u * v * R) * R [MOD n] := by
    refine h.trans ?_
    have := hX.mul hY
    have e : u * R * (v * R) = u * v * R * R := by ring
    rw [e] at this
    exact this
  exact Nat.ModEq.cancel_right_of_coprime hco h1

section
variable {m : Words} {k : W} {nw n a : Nat} (hm : m.length = nw) (hv : val m = n) (hnw : 0 < nw)
  (hk : (n * k.toNat + 1) % 2 ^ 32 = 0) (hco : Nat.Coprime n (2 ^ (32 * nw)))
include hm hv hnw hk hco

theorem montMul_rep {x y : Words} {d e : Nat} (hx : MontRep nw n a d x) (hy : MontRep nw n a e y) :
    ∃ z, montgomery x y m k nw = .ok z ∧ MontRep nw n a (d + e) z := by
  obtain ⟨z, h1, h2, h3⟩ := montgomery_spec (k := k) hx.1 hy.1 hm hnw (by rw [hv]; exact hk)
  rw [hv] at h3
  refine ⟨z, h1, h2, ?_⟩
  have := mont_cancel hco h3 hx.2 hy.2
  rw [← Nat.pow_add] at this
  exact this

theorem montPowers_spec {p1 : Words} (h1 : MontRep nw n a 1 p1) (cnt : Nat) : ∀ (e : Nat) (p : Words),
    MontRep nw n a e p →
    ∃ ps, montPowers m k nw p1 cnt p = .ok ps ∧ ∀ j, j < cnt → MontRep nw n a (e + 1 + j) (ps.getD j []) := by
  induction cnt with
  | zero => intro e p _; exact ⟨[], rfl, by intro j hj; omega⟩
  | succ cnt ih =>
    intro e p hp
    obtain ⟨p', hp', hr⟩ := montMul_rep hm hv hnw hk hco hp h1
    obtain ⟨ps, hps, hall⟩ := ih (e + 1) p' hr
    refine ⟨p' :: ps, by rw [montPowers, hp']; simp only [bind, Except.bind, hps], ?_⟩
    intro j hj
    cases j with
    | zero => simpa using hr
    | succ j =>
      have := hall j (by omega)
      rw [List.getD_cons_succ]
      convert this using 1
      omega

theorem montStep_spec {powers : List Words} (hp : ∀ j, j < 16 → MontRep nw n a j (powers.getD j [])) :
    ∀ first nib e z, nib < 16 → (first = true → e = 0) → MontRep nw n a e z →
      ∃ z', montStep powers m k nw first nib z = .ok z' ∧ MontRep nw n a (16 * e + nib) z' := by
  intro first nib e z hnib hf hz
  unfold montStep
  cases first
  · simp only [Bool.false_eq_true, if_false]
    obtain ⟨z1, e1, r1⟩ := montMul_rep hm hv hnw hk hco hz hz
    obtain ⟨z2, e2, r2⟩ := montMul_rep hm hv hnw hk hco r1 r1
    obtain ⟨z3, e3, r3⟩ := montMul_rep hm hv hnw hk hco r2 r2
    obtain ⟨z4, e4, r4⟩ := montMul_rep hm hv hnw hk hco r3 r3
    obtain ⟨z5, e5, r5⟩ := montMul_rep hm hv hnw hk hco r4 (hp nib hnib)
    refine ⟨z5, by simp only [bind, Except.bind, e1, e2, e3, e4, e5], ?_⟩
    convert r5 using 1
    ring
  · simp only [if_true]
    obtain ⟨z5, e5, r5⟩ := montMul_rep hm hv hnw hk hco hz (hp nib hnib)
    refine ⟨z5, by simp only [bind, Except.bind, e5], ?_⟩
    rw [hf rfl] at r5 ⊢
    simpa using r5

end

theorem geOp_of_length_eq {x y : Words} (hx : x ≠ []) (h : x.length = y.length) :
    geOp x y = decide (val y ≤ val x) := by
  have hy : y ≠ [] := by rw [← List.length_pos_iff, ← h, List.length_pos_iff]; exact hx
  unfold geOp partialCmp
  simp only [isNan, List.isEmpty_eq_false_iff.2 hx, List.isEmpty_eq_false_iff.2 hy, Bool.or_self,
    Bool.false_eq_true, if_false, cmpInner_of_length_eq h]
  rcases Nat.lt_trichotomy (val x) (val y) with h | h | h
  · rw [Nat.compare_eq_lt.2 h]; simp; omega
  · rw [Nat.compare_eq_eq.2 h]; simp; omega
  · rw [Nat.compare_eq_gt.2 h]; simp; omega

theorem natRem_enc {a b : Nat} (hb : b ≠ 0) : natRem (enc a) (enc b) = .ok (enc (a % b)) := by
  simp [natRem, opNatR, remInner_enc hb]

theorem assignRem_enc {a b : Nat} (hb : b ≠ 0) : assignNatR remInner (enc a) (enc b) = .ok (enc (a % b)) := by
  simp [assignNatR, remInner_enc hb]

theorem enc_head (n : Nat) : ((enc n).headD 0#32).toNat = n % 2 ^ 32 := by
  by_cases h : n < 2 ^ 32
  · rw [enc_lt h]; simp [BitVec.toNat_ofNat]
  · rw [enc_ge (by omega)]; simp [BitVec.toNat_ofNat]

theorem expMontgomery_enc (a b : Nat) {n : Nat} (hodd : n % 2 = 1) :
    expMontgomery (enc a) (enc b) (enc n) = .ok (enc (a ^ b % n)) := by
  have hn0 : n ≠ 0 := by omega
  unfold expMontgomery
  simp only
  generalize hnw : (enc n).length = nw
  have hnwpos : 0 < nw := by rw [← hnw]; exact List.length_pos_iff.2 (enc_ne_nil n)
  have hnlt : n < 2 ^ (32 * nw) := by rw [← hnw]; simpa using val_lt (enc n)
  have hco : Nat.Coprime n (2 ^ (32 * nw)) := by
    apply Nat.Coprime.pow_right
    rw [Nat.coprime_comm]
    unfold Nat.Coprime
    rw [Nat.gcd_rec, hodd]
    norm_num
  generalize hk0 : negInv ((enc n).headD 0#32) = k
  have hk : (n * k.toNat + 1) % 2 ^ 32 = 0 := by
    have := negInv_toNat (m := (enc n).headD 0#32) (by rw [enc_head]; omega)
    rw [hk0, enc_head] at this
    rw [← this]
    conv_lhs => rw [Nat.add_mod, Nat.mul_mod]
    conv_rhs => rw [Nat.add_mod, Nat.mul_mod, Nat.mod_mod]
  -- the base
  obtain ⟨x0, hx0, hx0l, hx0v⟩ : ∃ x0 : Words, (if (enc a).length > nw then natRem (enc a) (enc n)
      else .ok (deepClone (enc a))) = .ok x0 ∧ x0.length ≤ nw ∧ val x0 ≡ a [MOD n] := by
    by_cases h : (enc a).length > nw
    · refine ⟨enc (a % n), by rw [if_pos h, natRem_enc hn0], ?_, ?_⟩
      · apply enc_length_le hnwpos
        exact lt_trans (Nat.mod_lt _ (by omega)) hnlt
      · rw [val_enc]; exact Nat.mod_modEq a n
    · refine ⟨enc a, by rw [if_neg h, deepClone_enc], by omega, by rw [val_enc]⟩
  rw [hx0]
  obtain ⟨hxl, hxv⟩ := resize_len_val hx0l
  simp only [bind, Except.bind]
  generalize (if x0.length < nw then resize x0 nw else x0) = x at hxl hxv
  -- 2^(64 nw) mod n
  have hrr : assignNatR remInner (assignPrim shlInner [1#32] (nw * 64)) (enc n) = .ok (enc (2 ^ (nw * 64) % n)) := by
    rw [← enc_one]
    simp only [assignPrim, isNan_enc, Bool.false_eq_true, if_false]
    rw [shlInner_enc (by norm_num), Nat.one_mul, assignRem_enc hn0]
  rw [hrr]
  simp only
  have hrl : (enc (2 ^ (nw * 64) % n)).length ≤ nw :=
    enc_length_le hnwpos (lt_trans (Nat.mod_lt _ (by omega)) hnlt)
  obtain ⟨hrl', hrv⟩ := resize_len_val hrl
  generalize (if (enc (2 ^ (nw * 64) % n)).length < nw then resize (enc (2 ^ (nw * 64) % n)) nw
    else enc (2 ^ (nw * 64) % n)) = rr at hrl' hrv
  rw [val_enc] at hrv
  have hrm : val rr ≡ 2 ^ (32 * nw) * 2 ^ (32 * nw) [MOD n] := by
    rw [hrv, ← Nat.pow_add, show 32 * nw + 32 * nw = nw * 64 by ring]
    exact Nat.mod_modEq _ _
  have honel : (resize [1#32] nw).length = nw := resize_length _ _
  have honev : val (resize [1#32] nw) = 1 := by rw [resize_val (by rw [List.length_singleton]; exact hnwpos)]; simp
  generalize resize [1#32] nw = one at honel honev
  have hv : val (enc n) = n := val_enc n
  -- powers 0 and 1
  obtain ⟨p0, e0, l0, c0⟩ := montgomery_spec (k := k) honel hrl' hnw hnwpos (by rw [hv]; exact hk)
  obtain ⟨p1, e1, l1, c1⟩ := montgomery_spec (k := k) hxl hrl' hnw hnwpos (by rw [hv]; exact hk)
  rw [hv] at c0 c1
  have r0 : MontRep nw n a 0 p0 := by
    refine ⟨l0, ?_⟩
    apply Nat.ModEq.cancel_right_of_coprime hco (c := 2 ^ (32 * nw))
    refine c0.trans ?_
    rw [honev, Nat.one_mul, Nat.pow_zero, Nat.one_mul]
    exact hrm
  have r1 : MontRep nw n a 1 p1 := by
    refine ⟨l1, ?_⟩
    apply Nat.ModEq.cancel_right_of_coprime hco (c := 2 ^ (32 * nw))
    refine c1.trans ?_
    rw [hxv, Nat.pow_one, Nat.mul_assoc]
    exact hx0v.mul hrm
  rw [e0, e1]
  simp only
  obtain ⟨ps, eps, hps⟩ := montPowers_spec hnw hv hnwpos hk hco r1 14 1 p1 r1
  rw [eps]
  simp only
  have hpow : ∀ j, j < 16 → MontRep nw n a j ((p0 :: p1 :: ps).getD j []) := by
    intro j hj
    match j with
    | 0 => simpa using r0
    | 1 => simpa using r1
    | j + 2 =>
      rw [List.getD_cons_succ, List.getD_cons_succ]
      have := hps j (by omega)
      convert this using 1
      omega
  obtain ⟨z, ez, hz⟩ := nibLoop_spec (montStep_spec hnw hv hnwpos hk hco hpow) (enc b).reverse true 0 p0
    (by simp) r0
  rw [ez]
  simp only
  rw [Nat.zero_mul, Nat.zero_add, List.reverse_reverse, val_enc] at hz
  obtain ⟨zz, ezz, lzz, czz⟩ := montgomery_spec (k := k) hz.1 honel hnw hnwpos (by rw [hv]; exact hk)
  rw [ezz]
  simp only
  rw [hv, honev, Nat.mul_one] at czz
  have hzzv : val zz ≡ a ^ b [MOD n] := Nat.ModEq.cancel_right_of_coprime hco (czz.trans hz.2)
  have hzne : zz ≠ [] := by rw [← List.length_pos_iff, lzz]; exact hnwpos
  rw [geOp_of_length_eq hzne (by rw [lzz, hnw]), hv]
  by_cases hge : n ≤ val zz
  · rw [if_pos (by simpa using hge)]
    have hcan : Canon zz := by
      apply canon_of_le_val hzne
      intro h
      have := (canon_enc n).le_val (by rw [hnw, ← lzz]; exact h)
      rw [hv, hnw] at this
      rw [lzz]
      omega
    obtain ⟨v, rfl⟩ := canon_iff_enc.1 hcan
    rw [val_enc] at hge hzzv
    have hsub : assignNat subInner (enc v) (enc n) = enc (v - n) := by
      simp [assignNat, subInner_enc_of_le hge]
    rw [hsub, geOp_enc]
    have hvn : v - n ≡ a ^ b [MOD n] := by
      refine Nat.ModEq.trans ?_ hzzv
      unfold Nat.ModEq
      conv_rhs => rw [← Nat.sub_add_cancel hge, Nat.add_mod_right]
    by_cases hge2 : n ≤ v - n
    · rw [if_pos (by simpa using hge2), assignRem_enc hn0]
      simp only
      rw [trim_enc]
      rw [hvn]
    · rw [if_neg (by simpa using hge2)]
      simp only
      rw [trim_enc]
      congr 2
      rw [← hvn, Nat.mod_eq_of_lt (by omega)]
  · rw [if_neg (by simpa using hge)]
    simp only
    rw [trim_eq_enc hzne]
    congr 2
    rw [← hzzv, Nat.mod_eq_of_lt (by omega)]

/-! ## windowed -/

theorem sqr_pow_mod {a e n : Nat} : a ^ e % n * (a ^ e % n) % n = a ^ (2 * e) % n := by
  rw [← Nat.mul_mod, ← Nat.pow_add, Nat.two_mul]

theorem sqrMod_enc {n : Nat} (hn : n ≠ 0) (a e : Nat) :
    sqrMod (enc n) (enc (a ^ e % n)) = .ok (enc (a ^ (2 * e) % n)) := by
  unfold sqrMod
  rw [sqrV_enc, assignRem_enc hn, sqr_pow_mod]

theorem winPowers_spec {n : Nat} (hn : n ≠ 0) (a : Nat) (cnt : Nat) : ∀ (h : Nat) (powers : List Words),
    powers.length = 2 * h → 0 < h →
    (∀ j, j < 2 * h → ∃ v, powers.getD j [] = enc v ∧ v ≡ a ^ j [MOD n]) →
    ∃ ps, winPowers (enc a) (enc n) cnt powers = .ok ps ∧
      ∀ j, j < 2 * (h + cnt) → ∃ v, ps.getD j [] = enc v ∧ v ≡ a ^ j [MOD n] := by
  induction cnt with
  | zero => intro h powers _ _ hall; exact ⟨powers, rfl, hall⟩
  | succ cnt ih =>
    intro h powers hlen hpos hall
    rw [winPowers]
    obtain ⟨v, hv, hvm⟩ := hall h (by omega)
    rw [hlen, Nat.mul_div_cancel_left h (by norm_num), hv, sqrV_enc, natRem_enc hn]
    simp only [bind, Except.bind]
    rw [mulKara_enc, natRem_enc hn]
    simp only
    have hp : v * v % n ≡ a ^ (2 * h) [MOD n] := by
      refine (Nat.mod_modEq _ _).trans ?_
      have := hvm.mul hvm
      rw [← Nat.pow_add, ← Nat.two_mul] at this
      exact this
    obtain ⟨ps, e, hps⟩ := ih (h + 1) (powers ++ [enc (v * v % n), enc (v * v % n * a % n)])
      (by rw [List.length_append, hlen]; simp; ring) (by omega) (by
        intro j hj
        by_cases hj1 : j < 2 * h
        · obtain ⟨u, hu, hum⟩ := hall j hj1
          refine ⟨u, ?_, hum⟩
          rw [← hu]
          simp only [List.getD_eq_getElem?_getD]
          rw [List.getElem?_append_left (by omega)]
        · by_cases hj2 : j = 2 * h
          · refine ⟨v * v % n, ?_, by rw [hj2]; exact hp⟩
            simp only [List.getD_eq_getElem?_getD]
            rw [List.getElem?_append_right (by omega), hj2, hlen]
            simp
          · have hj3 : j = 2 * h + 1 := by omega
            refine ⟨v * v % n * a % n, ?_, ?_⟩
            · simp only [List.getD_eq_getElem?_getD]
              rw [List.getElem?_append_right (by omega), hj3, hlen]
              simp
            · rw [hj3, Nat.pow_succ]
              exact (Nat.mod_modEq _ _).trans (hp.mul_right a))
    refine ⟨ps, e, ?_⟩
    intro j hj
    exact hps j (by omega)

theorem winStep_spec {n a : Nat} (hn : n ≠ 0) {powers : List Words}
    (hp : ∀ j, j < 16 → ∃ v, powers.getD j [] = enc v ∧ v ≡ a ^ j [MOD n]) :
    ∀ first nib e z, nib < 16 → (first = true → e = 0) → z = enc (a ^ e % n) →
      ∃ z', winStep powers (enc n) first nib z = .ok z' ∧ z' = enc (a ^ (16 * e + nib) % n) := by
  intro first nib e z hnib hf hz
  obtain ⟨v, hv, hvm⟩ := hp nib hnib
  refine ⟨_, ?_, rfl⟩
  have key : ∀ d, a ^ d % n * v % n = a ^ (d + nib) % n := by
    intro d
    rw [Nat.pow_add, Nat.mul_mod, Nat.mod_mod, Nat.mul_mod (a ^ d), hvm]
  unfold winStep
  rw [hz]
  cases first
  · simp only [Bool.false_eq_true, if_false, sqrMod_enc hn, bind, Except.bind]
    rw [hv, mulKara_enc, assignRem_enc hn, key]
    congr 4
    ring
  · simp only [if_true, bind, Except.bind]
    rw [hv, mulKara_enc, assignRem_enc hn, key, hf rfl]

theorem expWindowed_enc (a b : Nat) {n : Nat} (hn : 1 < n) :
    expWindowed (enc a) (enc b) (enc n) = .ok (enc (a ^ b % n)) := by
  have hn0 : n ≠ 0 := by omega
  unfold expWindowed
  obtain ⟨ps, e, hps⟩ := winPowers_spec hn0 a 7 1 [[1#32], deepClone (enc a)] (by simp) (by omega) (by
    intro j hj
    match j with
    | 0 => exact ⟨1, by simp [enc_one], by simp; rfl⟩
    | 1 => exact ⟨a, by simp, by simp; rfl⟩
    | j + 2 => omega)
  rw [e]
  simp only [bind, Except.bind]
  obtain ⟨z, ez, hz⟩ := nibLoop_spec (P := fun e z => z = enc (a ^ e % n)) (winStep_spec hn0 hps)
    (enc b).reverse true 0 [1#32] (by simp) (by rw [Nat.pow_zero, Nat.mod_eq_of_lt hn, enc_one])
  rw [ez]
  simp only
  rw [hz, trim_enc]
  simp

/-! ## square and multiply -/

/-- `z` denotes a number congruent to `a^e`, and reduced if `s` -/
def ExpRep (n a e : Nat) (s : Bool) (z : Words) : Prop :=
  ∃ v, z = enc v ∧ v % n = a ^ e % n ∧ (s = true → n = 0 ∨ v < n)

theorem top_bit (v : W) : (v &&& 0x80000000#32 ≠ 0#32) ↔ 2 ^ 31 ≤ v.toNat := by
  have h := and_bit_ne_zero v (i := 31) (by norm_num)
  have e : (1#32 <<< 31 : W) = 0x80000000#32 := by decide
  rw [e] at h
  have h2 : v.toNat.testBit 31 = decide (2 ^ 31 ≤ v.toNat) := by
    rw [Nat.testBit_eq_decide_div_mod_eq]
    have := v.isLt
    apply decide_eq_decide.2
    omega
  rw [h2] at h
  exact decide_eq_decide.1 h

theorem len1_zero (n : Nat) : ((enc n).length = 1 ∧ (enc n).headD 0#32 = 0#32) ↔ n = 0 := by
  constructor
  · rintro ⟨h1, h2⟩
    obtain ⟨w, hw⟩ := List.length_eq_one_iff.1 h1
    have := val_enc n
    rw [hw] at this h2
    simp at h2
    rw [← this, h2]; rfl
  · rintro rfl
    rw [enc_zero]; simp

theorem expBits_spec (n a : Nat) (c : Nat) : ∀ (e : Nat) (s : Bool) (v : W) (z : Words), c ≤ 32 → ExpRep n a e s z →
    ∃ z', expBits (enc a) (enc n) c v z = .ok z' ∧
      ExpRep n a (e * 2 ^ c + v.toNat / 2 ^ (32 - c)) (s || decide (0 < c)) z' := by
  induction c with
  | zero =>
    intro e s v z _ hP
    refine ⟨z, rfl, ?_⟩
    rw [Nat.div_eq_of_lt (by simpa using v.isLt)]
    simpa using hP
  | succ c ih =>
    intro e s v z hc hP
    obtain ⟨u, rfl, hu, _⟩ := hP
    rw [expBits]
    have hmul : ∃ w, (if v &&& 0x80000000#32 ≠ 0#32 then mulKara (sqrV (enc u)) (enc a) else sqrV (enc u)) = enc w
        ∧ w % n = a ^ (2 * e + v.toNat / 2 ^ 31) % n := by
      rw [sqrV_enc, mulKara_enc]
      have hvlt := v.isLt
      have hsq : u * u % n = a ^ (2 * e) % n := by
        rw [Nat.mul_mod, hu, sqr_pow_mod]
      by_cases hb : v &&& 0x80000000#32 ≠ 0#32
      · rw [if_pos hb]
        have := (top_bit v).1 hb
        refine ⟨_, rfl, ?_⟩
        rw [show v.toNat / 2 ^ 31 = 1 by omega, Nat.pow_succ, Nat.mul_mod, hsq, ← Nat.mul_mod]
      · rw [if_neg hb]
        have := mt (top_bit v).2 hb
        refine ⟨_, rfl, ?_⟩
        rw [show v.toNat / 2 ^ 31 = 0 by omega, Nat.add_zero, hsq]
    obtain ⟨w, hw, hwm⟩ := hmul
    rw [hw]
    have hred : ∃ z1, (if (enc n).length = 1 ∧ (enc n).headD 0#32 = 0#32 then .ok (enc w) else natRem (enc w) (enc n))
        = (.ok z1 : Res Words) ∧ ExpRep n a (2 * e + v.toNat / 2 ^ 31) true z1 := by
      by_cases hn : n = 0
      · rw [if_pos ((len1_zero n).2 hn)]
        exact ⟨_, rfl, w, rfl, hwm, fun _ => Or.inl hn⟩
      · rw [if_neg (mt (len1_zero n).1 hn), natRem_enc hn]
        exact ⟨_, rfl, w % n, rfl, by rw [Nat.mod_mod, hwm], fun _ => Or.inr (Nat.mod_lt _ (by omega))⟩
    obtain ⟨z1, hz1, hr1⟩ := hred
    rw [hz1]
    simp only [bind, Except.bind]
    obtain ⟨z2, hz2, hr2⟩ := ih _ _ (v <<< 1) z1 (by omega) hr1
    refine ⟨z2, hz2, ?_⟩
    rw [BitVec.toNat_shiftLeft, Nat.shiftLeft_eq] at hr2
    simp only [Bool.true_or] at hr2
    simp only [Nat.zero_lt_succ, decide_true, Bool.or_true]
    convert hr2 using 1
    have hv := v.isLt
    -- v = t * 2^31 + r
    generalize ht : v.toNat / 2 ^ 31 = t
    have ht1 : t ≤ 1 := by omega
    obtain ⟨r, hr⟩ : ∃ r, v.toNat = t * 2 ^ 31 + r ∧ r < 2 ^ 31 := ⟨v.toNat % 2 ^ 31, by omega, by omega⟩
    have e1 : v.toNat * 2 ^ 1 % 2 ^ 32 = r * 2 ^ 1 := by omega
    rw [e1, hr.1]
    have e2 : r * 2 ^ 1 / 2 ^ (32 - c) = r / 2 ^ (32 - (c + 1)) := by
      rw [show 32 - c = (32 - (c + 1)) + 1 by omega, Nat.pow_one, Nat.pow_succ,
        Nat.mul_div_mul_right _ _ (by norm_num)]
    have e3 : (t * 2 ^ 31 + r) / 2 ^ (32 - (c + 1)) = t * 2 ^ c + r / 2 ^ (32 - (c + 1)) := by
      have : 2 ^ 31 = 2 ^ c * 2 ^ (32 - (c + 1)) := by rw [← Nat.pow_add]; congr 1; omega
      rw [this, ← Nat.mul_assoc, Nat.add_comm, Nat.add_mul_div_right _ _ (Nat.two_pow_pos _), Nat.add_comm]
    rw [e2, e3, Nat.pow_succ]
    ring

theorem expWords_spec (n a : Nat) (ws : List W) : ∀ (e : Nat) (s : Bool) (z : Words), ExpRep n a e s z →
    ∃ z', expWords (enc a) (enc n) ws z = .ok z' ∧
      ExpRep n a (e * 2 ^ (32 * ws.length) + val ws.reverse) (s || decide (ws ≠ [])) z' := by
  induction ws with
  | nil => intro e s z hP; exact ⟨z, rfl, by simpa using hP⟩
  | cons w ws ih =>
    intro e s z hP
    obtain ⟨z1, h1, hP1⟩ := expBits_spec n a 32 e s w z (le_refl _) hP
    obtain ⟨z2, h2, hP2⟩ := ih _ _ z1 hP1
    refine ⟨z2, by rw [expWords, h1]; exact h2, ?_⟩
    have hs : (s || decide (w :: ws ≠ [])) = (s || decide (0 < 32) || decide (ws ≠ [])) := by simp
    rw [hs]
    convert hP2 using 1
    rw [List.reverse_cons, val_append, List.length_reverse, List.length_cons, pow32_succ]
    norm_num
    ring

theorem leadingZeros_toNat {v : W} (hv : v ≠ 0#32) :
    leadingZeros v + v.toNat.log2 = 31 ∧ 2 ^ v.toNat.log2 ≤ v.toNat ∧ v.toNat < 2 ^ (v.toNat.log2 + 1) := by
  have h0 : v.toNat ≠ 0 := fun h => hv (BitVec.eq_of_toNat_eq (by simpa using h))
  have h1 : v.toNat.log2 < 32 := (Nat.log2_lt h0).2 v.isLt
  unfold leadingZeros
  rw [if_neg hv]
  exact ⟨by omega, Nat.log2_self_le h0, Nat.lt_log2_self⟩

/-- bits below the leading one -/
theorem low_bits {v : W} {L : Nat} (hL : 0 < L) (hL32 : L < 32) (h1 : 2 ^ L ≤ v.toNat) (h2 : v.toNat < 2 ^ (L + 1)) :
    1 * 2 ^ L + (v <<< (32 - L)).toNat / 2 ^ (32 - L) = v.toNat := by
  rw [BitVec.toNat_shiftLeft, Nat.shiftLeft_eq, mul_pow_mod_split _ (by omega : 32 - L ≤ 32),
    Nat.mul_div_cancel _ (Nat.two_pow_pos _), show 32 - (32 - L) = L by omega]
  rw [Nat.pow_succ] at h2
  have : v.toNat % 2 ^ L = v.toNat - 2 ^ L := by
    rw [Nat.mod_eq_sub_mod h1, Nat.mod_eq_of_lt (by omega)]
  omega

theorem len1_eq (n : Nat) (w : W) : ((enc n).length = 1 ∧ (enc n).headD 0#32 = w) ↔ n = w.toNat := by
  constructor
  · rintro ⟨h1, h2⟩
    obtain ⟨u, hu⟩ := List.length_eq_one_iff.1 h1
    have := val_enc n
    rw [hu] at this h2
    simp at h2
    rw [← this, h2]; simp
  · rintro rfl
    rw [← singleton_eq_enc]; simp

theorem long_or_gt (n : Nat) (w : W) : ((enc n).length > 1 ∨ (enc n).headD 0#32 > w) ↔ n > w.toNat := by
  have hw := w.isLt
  by_cases h : n < 2 ^ 32
  · rw [enc_lt h]
    simp only [List.length_singleton, gt_iff_lt, lt_irrefl, List.headD_cons, false_or, BitVec.lt_def,
      BitVec.toNat_ofNat, Nat.mod_eq_of_lt h]
  · have : 1 < (enc n).length := by
      rw [enc_ge (by omega), List.length_cons]
      have := List.length_pos_iff.2 (enc_ne_nil (n / 2 ^ 32))
      omega
    constructor
    · intro _; omega
    · intro _; exact Or.inl this

theorem and_one_eq (w : W) : (w &&& 1#32 = 1#32) ↔ w.toNat % 2 = 1 := by
  have : (w &&& 1#32).toNat = w.toNat % 2 := by
    rw [BitVec.toNat_and]
    simp only [BitVec.toNat_ofNat, Nat.one_mod]
    exact Nat.and_one_is_mod _
  constructor
  · intro h; rw [← this, h]; rfl
  · intro h; apply BitVec.eq_of_toNat_eq; rw [this, h]; rfl

theorem expWidth_eq {s : Nat} (h : s ≤ 32) : expWidth s = 32 - s := by
  unfold expWidth
  rw [BitVec.toNat_sub_of_le (by rw [BitVec.le_def]; simp; omega)]
  simp only [BitVec.toNat_ofNat]
  omega

/-- The exponents for which the square-and-multiply path shifts by 32 in the code: several words, the top one
equal to 1. -/
theorem natExp_enc (checks : Bool) (a b n : Nat)
    (h : checks = true → ¬(1 < (enc b).length ∧ (enc b).getLast? = some 1#32 ∧ (a ≤ 1 ∨ n = 0))) :
    natExp checks (enc a) (enc b) (enc n) = .ok (enc (a ^ b % n)) := by
  unfold natExp
  simp only [isNan_enc, Bool.or_self, Bool.false_eq_true, if_false]
  rw [← enc_zero, ← enc_one]
  by_cases hn1 : n = 1
  · rw [if_pos ((len1_eq n 1#32).2 hn1), hn1, Nat.mod_one]
  rw [if_neg (mt (len1_eq n 1#32).1 hn1)]
  by_cases hb0 : b = 0
  · rw [if_pos ((len1_eq b 0#32).2 hb0), hb0, Nat.pow_zero]
    congr 2
    by_cases hn0 : n = 0
    · rw [hn0]
    · rw [Nat.mod_eq_of_lt (by omega)]
  rw [if_neg (mt (len1_eq b 0#32).1 hb0)]
  by_cases hb1 : b = 1
  · rw [if_pos ((len1_eq b 1#32).2 hb1), hb1, Nat.pow_one]
    by_cases hn0 : n = 0
    · rw [if_pos ((len1_eq n 0#32).2 hn0), deepClone_enc, hn0, Nat.mod_zero]
    · rw [if_neg (mt (len1_eq n 0#32).1 hn0), natRem_enc hn0]
  rw [if_neg (mt (len1_eq b 1#32).1 hb1)]
  have hiff : (((enc a).length > 1 ∨ (enc a).headD 0#32 > 1#32) ∧ (enc b).length > 1 ∧
      ((enc n).length > 1 ∨ (enc n).headD 0#32 > 0#32)) ↔
      (a > (1#32).toNat ∧ (enc b).length > 1 ∧ n > (0#32).toNat) := by
    rw [long_or_gt a 1#32, long_or_gt n 0#32]
  by_cases hbig : a > (1#32).toNat ∧ (enc b).length > 1 ∧ n > (0#32).toNat
  · rw [if_pos (hiff.2 hbig)]
    have hn0 : n > 0 := hbig.2.2
    by_cases hodd : (enc n).headD 0#32 &&& 1#32 = 1#32
    · rw [if_pos hodd]
      rw [and_one_eq, enc_head] at hodd
      rw [expMontgomery_enc a b (by omega)]
    · rw [if_neg hodd]
      rw [expWindowed_enc a b (by omega)]
  · rw [if_neg (mt hiff.1 hbig)]
    obtain ⟨rest, v, hbv⟩ := exists_concat (enc_ne_nil b)
    have hrev : (enc b).reverse = v :: rest.reverse := by rw [hbv]; simp
    rw [hrev]
    simp only
    have hbval : b = val rest + 2 ^ (32 * rest.length) * v.toNat := by
      have := val_enc b
      rw [hbv, val_append] at this
      simpa using this.symm
    have hlen : (enc b).length = rest.length + 1 := by rw [hbv]; simp
    have hvne : v ≠ 0#32 := by
      intro hv
      obtain ⟨hne, hc⟩ := canon_enc b
      rcases hc with hc | hc
      · have : rest = [] := List.length_eq_zero_iff.1 (by omega)
        rw [this, hv] at hbval
        simp at hbval
        exact hb0 hbval
      · apply hc
        have e := List.getLast?_eq_some_getLast hne
        have e2 : (enc b).getLast? = some v := by rw [hbv]; simp
        rw [e2] at e
        have e3 := Option.some.inj e
        rw [← e3, hv]; rfl
    obtain ⟨hl1, hl2, hl3⟩ := leadingZeros_toNat hvne
    generalize hL : v.toNat.log2 = L at *
    have hrestnil : rest = [] → 2 ≤ v.toNat := by
      intro hr
      rw [hr] at hbval
      simp at hbval
      omega
    rw [if_neg]
    · have hstart : ExpRep n a 1 false (enc a) := ⟨a, rfl, by rw [Nat.pow_one], by simp⟩
      have hw : expWidth (leadingZeros v + 1) = L := by rw [expWidth_eq (by omega)]; omega
      rw [hw]
      obtain ⟨z1, hz1, hr1⟩ := expBits_spec n a L 1 false (v <<< ((leadingZeros v + 1) % 32)) (enc a) (by omega) hstart
      rw [hz1]
      simp only [bind, Except.bind]
      have hr1' : ExpRep n a v.toNat (decide (0 < L)) z1 := by
        rw [Bool.false_or] at hr1
        convert hr1 using 1
        by_cases hL0 : L = 0
        · subst hL0
          have : v.toNat = 1 := by omega
          rw [Nat.pow_zero, Nat.sub_zero, Nat.div_eq_of_lt (v <<< ((leadingZeros v + 1) % 32)).isLt]
          omega
        · rw [show (leadingZeros v + 1) % 32 = 32 - L by omega, low_bits (by omega) (by omega) hl2 hl3]
      obtain ⟨z2, hz2, u, hu, hum, hur⟩ := expWords_spec n a rest.reverse v.toNat (decide (0 < L)) z1 hr1'
      rw [hz2]
      simp only
      rw [List.length_reverse, List.reverse_reverse,
        show v.toNat * 2 ^ (32 * rest.length) + val rest = b by rw [hbval]; ring] at hum
      have hs : (decide (0 < L) || decide (rest.reverse ≠ [])) = true := by
        by_cases hr : rest = []
        · have := hrestnil hr
          have : 0 < L := by
            rcases Nat.eq_zero_or_pos L with h | h
            · subst h; omega
            · exact h
          simp [this]
        · simp [hr]
      have hul := hur hs
      rw [hu, trim_enc, deepClone_enc]
      congr 2
      rw [← hum]
      rcases hul with h0 | h0
      · rw [h0, Nat.mod_zero]
      · rw [Nat.mod_eq_of_lt h0]
    · rintro ⟨hch, hsh⟩
      have hL0 : L = 0 := by omega
      subst hL0
      have hv1 : v.toNat = 1 := by omega
      have hrne : rest ≠ [] := fun hr => by have := hrestnil hr; omega
      apply h hch
      refine ⟨by rw [hlen]; have := List.length_pos_iff.2 hrne; omega, ?_, ?_⟩
      · rw [hbv]
        simp only [List.getLast?_append, List.getLast?_singleton, Option.some_or, Option.some.injEq]
        exact BitVec.eq_of_toNat_eq (by rw [hv1]; rfl)
      · simp only [BitVec.toNat_ofNat, Nat.one_mod, Nat.zero_mod] at hbig
        have : (enc b).length > 1 := by rw [hlen]; have := List.length_pos_iff.2 hrne; omega
        norm_num at hbig
        by_cases ha : a ≤ 1
        · exact Or.inl ha
        · right
          have := hbig (by omega) this
          omega

end RMath
