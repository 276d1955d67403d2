import Verif.Props.NonCanon
import Verif.Lemmas.PrimeAll

/-!
# C121: modular powers of numbers with leading zero words

`a * u` and `a - u` with a machine word, `0 << s`, `a >> s` and random numbers may be numbers with leading zero words (C05,
C06, C12, C29).  The theorems describe what `exp` does with them as base, exponent or modulus.
-/

namespace RMath

private theorem isNan_of_ne {x : Words} (hx : x ≠ NaN) : isNan x = false := by
  rw [Bool.eq_false_iff]; intro h; exact hx (isNan_iff.1 h)

/-- What the remainder by `n` satisfies: less than `n`, or for an `n` with leading zero words less than the next power of the
base. -/
def RemBound (n : Words) (r : Nat) : Prop := (Canon n → r < val n) ∧ (¬ Canon n → r < 2 ^ (32 * (n.length - 1)))

private theorem rem_ok {n : Words} (hn : n ≠ NaN) (h0 : val n ≠ 0) {z : Words} (hz : z ≠ []) :
    ∃ r, natRem z n = .ok (enc r) ∧ r ≡ val z [MOD val n] ∧ RemBound n r := by
  obtain ⟨q, r, -, h2, -, h4, h5, h6, h7⟩ := (C117_all z n hz hn).2.2.2.2 h0
  obtain ⟨r, rfl⟩ := canon_iff_enc.1 h4
  rw [val_enc] at h5 h6 h7
  refine ⟨r, h2, ?_, h6, h7⟩
  unfold Nat.ModEq
  rw [h5, Nat.mul_add_mod_self_right]

private theorem assign_ok {n : Words} (hn : n ≠ NaN) (h0 : val n ≠ 0) (a : Nat) :
    ∃ r, assignNatR remInner (enc a) n = .ok (enc r) ∧ r ≡ a [MOD val n] ∧ RemBound n r := by
  obtain ⟨r, h1, h2, h3⟩ := rem_ok hn h0 (enc_ne_nil a)
  refine ⟨r, ?_, by simpa using h2, h3⟩
  rw [← h1, natRem, opNatR, assignNatR, deepClone_enc]

private theorem bound_of_lt {n : Words} (hn : n ≠ NaN) {r : Nat} (h : r < val n) : RemBound n r := by
  refine ⟨fun _ => h, fun hc => h.trans ?_⟩
  exact ((not_canon_iff_padded hn).1 hc).val_lt

/-- a vector that compares less than `n` -/
private theorem bound_of_not_ge {n : Words} (hn : n ≠ NaN) {r : Nat} (h : geOp (enc r) n = false) : RemBound n r := by
  have hp : 0 < n.length := List.length_pos_iff.2 hn
  rcases Nat.lt_trichotomy (enc r).length n.length with hl | hl | hl
  · refine ⟨fun hc => ?_, fun hc => ?_⟩
    · obtain ⟨m, rfl⟩ := canon_iff_enc.1 hc
      by_contra hge
      rw [val_enc] at hge
      rw [geOp_enc] at h
      simp at h
      omega
    · have := ((not_canon_iff_padded hn).1 hc).1
      exact (enc_length_iff r (by omega)).1 (by omega)
  · rw [geOp_of_length_eq (enc_ne_nil r) hl] at h
    apply bound_of_lt hn
    simpa using h
  · exfalso
    unfold geOp partialCmp cmpInner at h
    rw [isNan_enc, isNan_of_ne hn] at h
    simp only [Bool.or_self, Bool.false_eq_true, if_false] at h
    rw [if_neg (by omega), if_pos hl] at h
    simp at h

/-! ## Montgomery form -/

private theorem expMontgomery_all {x y n : Words} (hx : x ≠ []) (hn : n ≠ NaN) (hodd : val n % 2 = 1) :
    ∃ r, expMontgomery x y n = .ok (enc r) ∧ r ≡ val x ^ val y [MOD val n] ∧ RemBound n r := by
  have hn0 : val n ≠ 0 := by omega
  unfold expMontgomery
  simp only
  generalize hnw : n.length = nw
  have hnwpos : 0 < nw := by rw [← hnw]; exact List.length_pos_iff.2 hn
  have hnlt : val n < 2 ^ (32 * nw) := by rw [← hnw]; exact val_lt n
  have hco : Nat.Coprime (val n) (2 ^ (32 * nw)) := by
    apply Nat.Coprime.pow_right
    rw [Nat.coprime_comm]
    unfold Nat.Coprime
    rw [Nat.gcd_rec, hodd]
    norm_num
  have hblen : ∀ r, RemBound n r → (enc r).length ≤ nw := by
    intro r hr
    apply enc_length_le hnwpos
    by_cases hc : Canon n
    · exact (hr.1 hc).trans hnlt
    · refine (hr.2 hc).trans_le (Nat.pow_le_pow_right (by norm_num) (by omega))
  have hhead : (n.headD 0#32).toNat = val n % 2 ^ 32 := by
    cases n with
    | nil => exact absurd rfl hn
    | cons w ws =>
      rw [val_cons, List.headD_cons, Nat.add_mul_mod_self_left, Nat.mod_eq_of_lt w.isLt]
  generalize hk0 : negInv (n.headD 0#32) = k
  have hk : (val n * k.toNat + 1) % 2 ^ 32 = 0 := by
    have := negInv_toNat (m := n.headD 0#32) (by rw [hhead]; omega)
    rw [hk0, hhead] at this
    rw [← this]
    conv_lhs => rw [Nat.add_mod, Nat.mul_mod]
    conv_rhs => rw [Nat.add_mod, Nat.mul_mod, Nat.mod_mod]
  obtain ⟨x0, hx0, hx0l, hx0v⟩ : ∃ x0 : Words, (if x.length > nw then natRem x n
      else .ok (deepClone x)) = .ok x0 ∧ x0.length ≤ nw ∧ val x0 ≡ val x [MOD val n] := by
    by_cases h : x.length > nw
    · obtain ⟨r, h1, h2, h3⟩ := rem_ok hn hn0 hx
      exact ⟨enc r, by rw [if_pos h, h1], hblen r h3, by rw [val_enc]; exact h2⟩
    · refine ⟨enc (val x), by rw [if_neg h, deepClone, trim_eq_enc hx], ?_, by rw [val_enc]⟩
      apply enc_length_le hnwpos
      exact lt_of_lt_of_le (val_lt x) (Nat.pow_le_pow_right (by norm_num) (by omega))
  rw [hx0]
  obtain ⟨hxl, hxv⟩ := resize_len_val hx0l
  simp only [bind, Except.bind]
  generalize (if x0.length < nw then resize x0 nw else x0) = x' at hxl hxv
  obtain ⟨rr0, hrr, hrr2, hrr3⟩ : ∃ rr0, assignNatR remInner (assignPrim shlInner [1#32] (nw * 64)) n = .ok (enc rr0) ∧
      rr0 ≡ 2 ^ (nw * 64) [MOD val n] ∧ RemBound n rr0 := by
    rw [← enc_one]
    simp only [assignPrim, isNan_enc, Bool.false_eq_true, if_false]
    rw [shlInner_enc (by norm_num), Nat.one_mul]
    exact assign_ok hn hn0 _
  rw [hrr]
  simp only
  obtain ⟨hrl', hrv⟩ := resize_len_val (hblen rr0 hrr3)
  generalize (if (enc rr0).length < nw then resize (enc rr0) nw else enc rr0) = rr at hrl' hrv
  rw [val_enc] at hrv
  have hrm : val rr ≡ 2 ^ (32 * nw) * 2 ^ (32 * nw) [MOD val n] := by
    rw [hrv, ← Nat.pow_add, show 32 * nw + 32 * nw = nw * 64 by ring]
    exact hrr2
  have honel : (resize [1#32] nw).length = nw := resize_length _ _
  have honev : val (resize [1#32] nw) = 1 := by rw [resize_val (by rw [List.length_singleton]; exact hnwpos)]; simp
  generalize resize [1#32] nw = one at honel honev
  have hv : val n = val n := rfl
  obtain ⟨p0, e0, l0, c0⟩ := montgomery_spec (k := k) honel hrl' hnw hnwpos hk
  obtain ⟨p1, e1, l1, c1⟩ := montgomery_spec (k := k) hxl hrl' hnw hnwpos hk
  have r0 : MontRep nw (val n) (val x) 0 p0 := by
    refine ⟨l0, ?_⟩
    apply Nat.ModEq.cancel_right_of_coprime hco (c := 2 ^ (32 * nw))
    refine c0.trans ?_
    rw [honev, Nat.one_mul, Nat.pow_zero, Nat.one_mul]
    exact hrm
  have r1 : MontRep nw (val n) (val x) 1 p1 := by
    refine ⟨l1, ?_⟩
    apply Nat.ModEq.cancel_right_of_coprime hco (c := 2 ^ (32 * nw))
    refine c1.trans ?_
    rw [hxv, Nat.pow_one, Nat.mul_assoc]
    exact hx0v.mul hrm
  rw [e0, e1]
  simp only
  obtain ⟨ps, eps, hps⟩ := montPowers_spec hnw hv hnwpos hk hco r1 14 1 p1 r1
  rw [eps]
  simp only
  have hpow : ∀ j, j < 16 → MontRep nw (val n) (val x) j ((p0 :: p1 :: ps).getD j []) := by
    intro j hj
    match j with
    | 0 => simpa using r0
    | 1 => simpa using r1
    | j + 2 =>
      rw [List.getD_cons_succ, List.getD_cons_succ]
      have := hps j (by omega)
      convert this using 1
      omega
  obtain ⟨z, ez, hz⟩ := nibLoop_spec (montStep_spec hnw hv hnwpos hk hco hpow) y.reverse true 0 p0 (by simp) r0
  rw [ez]
  simp only
  rw [Nat.zero_mul, Nat.zero_add, List.reverse_reverse] at hz
  obtain ⟨zz, ezz, lzz, czz⟩ := montgomery_spec (k := k) hz.1 honel hnw hnwpos hk
  rw [ezz]
  simp only
  rw [honev, Nat.mul_one] at czz
  have hzzv : val zz ≡ val x ^ val y [MOD val n] := Nat.ModEq.cancel_right_of_coprime hco (czz.trans hz.2)
  have hzne : zz ≠ [] := by rw [← List.length_pos_iff, lzz]; exact hnwpos
  rw [geOp_of_length_eq hzne (by rw [lzz, hnw])]
  by_cases hge : val n ≤ val zz
  · rw [if_pos (by simpa using hge)]
    have hsub : assignNat subInner zz n = enc (val zz - val n) := by
      have hgeo : geOp zz n = true := by
        rw [geOp_of_length_eq hzne (by rw [lzz, hnw])]; simpa using hge
      have hl : n.length ≤ zz.length := by omega
      have hlo : (sbbZip true false zz n).1.length = n.length := by
        rw [sbbZip_length]; omega
      rw [assignNat, isNan_of_ne hzne, isNan_of_ne hn, Bool.or_self, if_neg (by simp)]
      unfold subInner subInnerWithSign
      simp only [hgeo, if_true, hlo, Bool.true_and]
      have hv := sub_ge_val hl hge
      rw [trim_eq_enc, hv]
      intro h0
      have h1 := congrArg List.length h0
      rw [List.length_append, hlo] at h1
      rw [List.length_nil] at h1
      omega
    rw [hsub]
    have hvn : val zz - val n ≡ val x ^ val y [MOD val n] := by
      refine Nat.ModEq.trans ?_ hzzv
      unfold Nat.ModEq
      conv_rhs => rw [← Nat.sub_add_cancel hge, Nat.add_mod_right]
    cases hge2 : geOp (enc (val zz - val n)) n
    · simp only [Bool.false_eq_true, if_false]
      exact ⟨_, by rw [trim_enc], hvn, bound_of_not_ge hn hge2⟩
    · simp only [if_true]
      obtain ⟨r, h1, h2, h3⟩ := assign_ok hn hn0 (val zz - val n)
      rw [h1]
      exact ⟨r, by simp only [trim_enc], h2.trans hvn, h3⟩
  · rw [if_neg (by simpa using hge)]
    exact ⟨val zz, by simp only [trim_eq_enc hzne], hzzv, bound_of_lt hn (by omega)⟩

/-! ## windows -/

private theorem sqrMod_all {n : Words} (hn : n ≠ NaN) (h0 : val n ≠ 0) {a e u : Nat} (hu : u ≡ a ^ e [MOD val n]) :
    ∃ r, sqrMod n (enc u) = .ok (enc r) ∧ r ≡ a ^ (2 * e) [MOD val n] := by
  unfold sqrMod
  rw [sqrV_enc]
  obtain ⟨r, h1, h2, -⟩ := assign_ok hn h0 (u * u)
  refine ⟨r, h1, h2.trans ?_⟩
  rw [Nat.two_mul, Nat.pow_add]
  exact hu.mul hu

private theorem winPowers_all {x n : Words} (hx : x ≠ []) (hn : n ≠ NaN) (h0 : val n ≠ 0) (cnt : Nat) :
    ∀ (h : Nat) (powers : List Words), powers.length = 2 * h → 0 < h →
    (∀ j, j < 2 * h → ∃ v, powers.getD j [] = enc v ∧ v ≡ val x ^ j [MOD val n]) →
    ∃ ps, winPowers x n cnt powers = .ok ps ∧
      ∀ j, j < 2 * (h + cnt) → ∃ v, ps.getD j [] = enc v ∧ v ≡ val x ^ j [MOD val n] := by
  induction cnt with
  | zero => intro h powers _ _ hall; exact ⟨powers, rfl, hall⟩
  | succ cnt ih =>
    intro h powers hlen hpos hall
    rw [winPowers]
    obtain ⟨v, hv, hvm⟩ := hall h (by omega)
    obtain ⟨p, hp1, hp2, -⟩ := rem_ok hn h0 (enc_ne_nil (v * v))
    rw [hlen, Nat.mul_div_cancel_left h (by norm_num), hv, sqrV_enc, hp1]
    simp only [bind, Except.bind]
    obtain ⟨q, hq1, hq2, -⟩ := rem_ok hn h0 (enc_ne_nil (p * val x))
    rw [mulKara_spec (enc_ne_nil p) hx, val_enc, hq1]
    simp only
    rw [val_enc] at hp2 hq2
    have hp : p ≡ val x ^ (2 * h) [MOD val n] := by
      refine hp2.trans ?_
      have := hvm.mul hvm
      rw [← Nat.pow_add, ← Nat.two_mul] at this
      exact this
    have hq : q ≡ val x ^ (2 * h + 1) [MOD val n] := by
      rw [Nat.pow_succ]
      exact hq2.trans (hp.mul_right _)
    obtain ⟨ps, e, hps⟩ := ih (h + 1) (powers ++ [enc p, enc q])
      (by rw [List.length_append, hlen]; simp; ring) (by omega) (by
        intro j hj
        by_cases hj1 : j < 2 * h
        · obtain ⟨u, hu, hum⟩ := hall j hj1
          refine ⟨u, ?_, hum⟩
          rw [← hu]
          simp only [List.getD_eq_getElem?_getD]
          rw [List.getElem?_append_left (by omega)]
        · by_cases hj2 : j = 2 * h
          · refine ⟨p, ?_, by rw [hj2]; exact hp⟩
            simp only [List.getD_eq_getElem?_getD]
            rw [List.getElem?_append_right (by omega), hj2, hlen]
            simp
          · have hj3 : j = 2 * h + 1 := by omega
            refine ⟨q, ?_, by rw [hj3]; exact hq⟩
            simp only [List.getD_eq_getElem?_getD]
            rw [List.getElem?_append_right (by omega), hj3, hlen]
            simp)
    refine ⟨ps, e, ?_⟩
    intro j hj
    exact hps j (by omega)

private theorem winStep_all {a : Nat} {n : Words} (hn : n ≠ NaN) (h0 : val n ≠ 0) {powers : List Words}
    (hp : ∀ j, j < 16 → ∃ v, powers.getD j [] = enc v ∧ v ≡ a ^ j [MOD val n]) :
    ∀ first nib e z, nib < 16 → (first = true → e = 0) → (∃ u, z = enc u ∧ u ≡ a ^ e [MOD val n] ∧ (first = true ∨ RemBound n u)) →
      ∃ z', winStep powers n first nib z = .ok z' ∧ ∃ u, z' = enc u ∧ u ≡ a ^ (16 * e + nib) [MOD val n] ∧ RemBound n u := by
  rintro first nib e z hnib hf ⟨u, rfl, hu, -⟩
  obtain ⟨v, hv, hvm⟩ := hp nib hnib
  unfold winStep
  rw [hv]
  cases first
  · obtain ⟨u1, e1, r1⟩ := sqrMod_all hn h0 hu
    obtain ⟨u2, e2, r2⟩ := sqrMod_all hn h0 r1
    obtain ⟨u3, e3, r3⟩ := sqrMod_all hn h0 r2
    obtain ⟨u4, e4, r4⟩ := sqrMod_all hn h0 r3
    obtain ⟨u5, e5, r5, b5⟩ := assign_ok hn h0 (u4 * v)
    simp only [Bool.false_eq_true, if_false, bind, Except.bind, e1, e2, e3, e4, mulKara_enc, e5]
    refine ⟨_, rfl, u5, rfl, ?_, b5⟩
    rw [Nat.pow_add, show 16 * e = 2 * (2 * (2 * (2 * e))) by ring]
    exact r5.trans (r4.mul hvm)
  · obtain ⟨u5, e5, r5, b5⟩ := assign_ok hn h0 (u * v)
    simp only [if_true, bind, Except.bind, mulKara_enc, e5]
    refine ⟨_, rfl, u5, rfl, ?_, b5⟩
    rw [hf rfl] at hu ⊢
    rw [Nat.mul_zero, Nat.zero_add]
    have := r5.trans (hu.mul hvm)
    simpa using this

private theorem expWindowed_all {x y n : Words} (hx : x ≠ []) (hn : n ≠ NaN) (h0 : val n ≠ 0) (h1 : n ≠ [1#32]) :
    ∃ r, expWindowed x y n = .ok (enc r) ∧ r ≡ val x ^ val y [MOD val n] ∧ RemBound n r := by
  have hb1 : RemBound n 1 := by
    refine ⟨fun hc => ?_, fun hc => ?_⟩
    · have : val n ≠ 1 := by
        intro h
        apply h1
        obtain ⟨m, rfl⟩ := canon_iff_enc.1 hc
        rw [val_enc] at h
        rw [h, enc_one]
      omega
    · have := ((not_canon_iff_padded hn).1 hc).1
      exact Nat.one_lt_two_pow (by omega)
  unfold expWindowed
  obtain ⟨ps, e, hps⟩ := winPowers_all hx hn h0 7 1 [[1#32], deepClone x] (by simp) (by omega) (by
    intro j hj
    match j with
    | 0 => exact ⟨1, by simp [enc_one], by simp; rfl⟩
    | 1 => exact ⟨val x, by simp [deepClone, trim_eq_enc hx], by simp; rfl⟩
    | j + 2 => omega)
  rw [e]
  simp only [bind, Except.bind]
  obtain ⟨z, ez, u, rfl, hu, hb⟩ := nibLoop_spec
    (P := fun e z => ∃ u, z = enc u ∧ u ≡ val x ^ e [MOD val n] ∧ RemBound n u)
    (fun first nib e z h1 h2 h3 => winStep_all hn h0 hps first nib e z h1 h2
      (by obtain ⟨u, a, b, c⟩ := h3; exact ⟨u, a, b, .inr c⟩))
    y.reverse true 0 [1#32] (by simp) ⟨1, by rw [enc_one], by rw [Nat.pow_zero], hb1⟩
  rw [ez]
  simp only
  rw [Nat.zero_mul, Nat.zero_add, List.reverse_reverse] at hu
  exact ⟨u, by rw [trim_enc], hu, hb⟩

/-! ## square and multiply -/

/-- `z` denotes a number congruent to `a^e`, and is reduced if `s` -/
private def SqRep (n : Words) (a e : Nat) (s : Bool) (z : Words) : Prop :=
  z ≠ [] ∧ val z ≡ a ^ e [MOD val n] ∧ (s = true → ∃ r, z = enc r ∧ (val n = 0 ∨ RemBound n r))

private theorem expBits_one {x n : Words} (hx : x ≠ []) (hn : n ≠ NaN) (hz : n = [0#32] ∨ val n ≠ 0) (c : Nat) (v : W)
    {e : Nat} {s : Bool} {z : Words} (hP : SqRep n (val x) e s z) :
    ∃ z', expBits x n (c + 1) v z = expBits x n c (v <<< 1) z' ∧ SqRep n (val x) (2 * e + v.toNat / 2 ^ 31) true z' := by
  obtain ⟨hzne, hzv, -⟩ := hP
  rw [expBits]
  have hmul : ∃ w, (if v &&& 0x80000000#32 ≠ 0#32 then mulKara (sqrV z) x else sqrV z) = enc w
      ∧ w ≡ val x ^ (2 * e + v.toNat / 2 ^ 31) [MOD val n] := by
    rw [sqrV_spec hzne, mulKara_spec (enc_ne_nil _) hx, val_enc]
    have hvlt := v.isLt
    have hsq : val z * val z ≡ val x ^ (2 * e) [MOD val n] := by
      rw [Nat.two_mul, Nat.pow_add]
      exact hzv.mul hzv
    by_cases hb : v &&& 0x80000000#32 ≠ 0#32
    · rw [if_pos hb]
      have := (top_bit v).1 hb
      refine ⟨_, rfl, ?_⟩
      rw [show v.toNat / 2 ^ 31 = 1 by omega, Nat.pow_succ]
      exact hsq.mul_right _
    · rw [if_neg hb]
      have := mt (top_bit v).2 hb
      refine ⟨_, rfl, ?_⟩
      rw [show v.toNat / 2 ^ 31 = 0 by omega, Nat.add_zero]
      exact hsq
  obtain ⟨w, hw, hwm⟩ := hmul
  simp only [hw]
  by_cases h : n.length = 1 ∧ n.headD 0#32 = 0#32
  · rw [if_pos h]
    have hv0 : val n = 0 := by
      obtain ⟨u, rfl⟩ := List.length_eq_one_iff.1 h.1
      have := h.2
      simp at this
      rw [this]; rfl
    exact ⟨enc w, rfl, enc_ne_nil _, by rw [val_enc]; exact hwm, fun _ => ⟨w, rfl, .inl hv0⟩⟩
  · rw [if_neg h]
    have h0 : val n ≠ 0 := by
      rcases hz with rfl | hz
      · exact absurd (by simp) h
      · exact hz
    obtain ⟨r, h1, h2, h3⟩ := rem_ok hn h0 (enc_ne_nil w)
    rw [h1]
    rw [val_enc] at h2
    exact ⟨enc r, rfl, enc_ne_nil _, by rw [val_enc]; exact h2.trans hwm, fun _ => ⟨r, rfl, .inr h3⟩⟩

private theorem expBits_all {x n : Words} (hx : x ≠ []) (hn : n ≠ NaN) (hz : n = [0#32] ∨ val n ≠ 0) (c : Nat) :
    ∀ (e : Nat) (s : Bool) (v : W) (z : Words), c ≤ 32 → SqRep n (val x) e s z →
    ∃ z', expBits x n c v z = .ok z' ∧
      SqRep n (val x) (e * 2 ^ c + v.toNat / 2 ^ (32 - c)) (s || decide (0 < c)) z' := by
  induction c with
  | zero =>
    intro e s v z _ hP
    refine ⟨z, rfl, ?_⟩
    rw [Nat.div_eq_of_lt (by simpa using v.isLt)]
    simpa using hP
  | succ c ih =>
    intro e s v z hc hP
    obtain ⟨z1, h1, hP1⟩ := expBits_one hx hn hz c v hP
    obtain ⟨z2, hz2, hr2⟩ := ih _ _ (v <<< 1) z1 (by omega) hP1
    refine ⟨z2, h1.trans hz2, ?_⟩
    rw [BitVec.toNat_shiftLeft, Nat.shiftLeft_eq] at hr2
    simp only [Bool.true_or] at hr2
    simp only [Nat.zero_lt_succ, decide_true, Bool.or_true]
    convert hr2 using 1
    have hv := v.isLt
    generalize ht : v.toNat / 2 ^ 31 = t
    have ht1 : t ≤ 1 := by omega
    obtain ⟨r, hr⟩ : ∃ r, v.toNat = t * 2 ^ 31 + r ∧ r < 2 ^ 31 := ⟨v.toNat % 2 ^ 31, by omega, by omega⟩
    have e1 : v.toNat * 2 ^ 1 % 2 ^ 32 = r * 2 ^ 1 := by omega
    rw [e1, hr.1]
    have e2 : r * 2 ^ 1 / 2 ^ (32 - c) = r / 2 ^ (32 - (c + 1)) := by
      rw [show 32 - c = (32 - (c + 1)) + 1 by omega, Nat.pow_one, Nat.pow_succ,
        Nat.mul_div_mul_right _ _ (by norm_num)]
    have e3 : (t * 2 ^ 31 + r) / 2 ^ (32 - (c + 1)) = t * 2 ^ c + r / 2 ^ (32 - (c + 1)) := by
      have : 2 ^ 31 = 2 ^ c * 2 ^ (32 - (c + 1)) := by rw [← Nat.pow_add]; congr 1; omega
      rw [this, ← Nat.mul_assoc, Nat.add_comm, Nat.add_mul_div_right _ _ (Nat.two_pow_pos _), Nat.add_comm]
    rw [e2, e3, Nat.pow_succ]
    ring

/-- rounds for a zero word -/
private theorem expBits_zeros {x n : Words} (hx : x ≠ []) (hn : n ≠ NaN) (hz : n = [0#32] ∨ val n ≠ 0) (c : Nat) :
    ∀ (e : Nat) (s : Bool) (z : Words), SqRep n (val x) e s z →
    ∃ z', expBits x n c 0#32 z = .ok z' ∧ SqRep n (val x) (e * 2 ^ c) (s || decide (0 < c)) z' := by
  induction c with
  | zero => intro e s z hP; exact ⟨z, rfl, by simpa using hP⟩
  | succ c ih =>
    intro e s z hP
    obtain ⟨z1, h1, hP1⟩ := expBits_one hx hn hz c 0#32 hP
    obtain ⟨z2, hz2, hr2⟩ := ih _ _ z1 hP1
    refine ⟨z2, h1.trans hz2, ?_⟩
    simp only [Bool.true_or] at hr2
    simp only [Nat.zero_lt_succ, decide_true, Bool.or_true]
    convert hr2 using 1
    rw [show (0#32).toNat / 2 ^ 31 = 0 by decide, Nat.pow_succ]
    ring

private theorem expWords_all {x n : Words} (hx : x ≠ []) (hn : n ≠ NaN) (hz : n = [0#32] ∨ val n ≠ 0) (ws : List W) :
    ∀ (e : Nat) (s : Bool) (z : Words), SqRep n (val x) e s z →
    ∃ z', expWords x n ws z = .ok z' ∧
      SqRep n (val x) (e * 2 ^ (32 * ws.length) + val ws.reverse) (s || decide (ws ≠ [])) z' := by
  induction ws with
  | nil => intro e s z hP; exact ⟨z, rfl, by simpa using hP⟩
  | cons w ws ih =>
    intro e s z hP
    obtain ⟨z1, h1, hP1⟩ := expBits_all hx hn hz 32 e s w z (le_refl _) hP
    obtain ⟨z2, h2, hP2⟩ := ih _ _ z1 hP1
    refine ⟨z2, by rw [expWords, h1]; exact h2, ?_⟩
    have hs : (s || decide (w :: ws ≠ [])) = (s || decide (0 < 32) || decide (ws ≠ [])) := by simp
    rw [hs]
    convert hP2 using 1
    rw [List.reverse_cons, val_append, List.length_reverse, List.length_cons, pow32_succ]
    norm_num
    ring

/-- the exponent of the square-and-multiply path -/
private def seenExp (b : Words) : Nat :=
  if b.getLast? = some 0#32 then 2 ^ (2 ^ 32 - 1) * 2 ^ (32 * (b.length - 1)) + val b else val b

private theorem squares_all {x b n : Words} (hx : x ≠ []) (hn : n ≠ NaN) (hz : n = [0#32] ∨ val n ≠ 0)
    (hb0 : b ≠ [0#32]) (hb1 : b ≠ [1#32]) {v : W} {rest : Words} (hrev : b.reverse = v :: rest) :
    ∃ r, (do
        let z ← expBits x n (expWidth (leadingZeros v + 1)) (v <<< ((leadingZeros v + 1) % 32)) x
        let z ← expWords x n rest z
        .ok (deepClone (trim z)) : Res Words) = .ok (enc r) ∧ r ≡ val x ^ seenExp b [MOD val n] ∧ (val n = 0 ∨ RemBound n r) := by
  have hbe : b = rest.reverse ++ [v] := by
    rw [← List.reverse_reverse b, hrev, List.reverse_cons]
  have hbval : val b = val rest.reverse + 2 ^ (32 * rest.length) * v.toNat := by
    rw [hbe, val_append]; simp
  have hlen : b.length = rest.length + 1 := by rw [hbe]; simp
  have hlast : b.getLast? = some v := by rw [hbe]; simp
  have hstart : SqRep n (val x) 1 false x := ⟨hx, by rw [Nat.pow_one], by simp⟩
  by_cases hv0 : v = 0#32
  · subst hv0
    have hrest : rest ≠ [] := by
      rintro rfl
      exact hb0 (by rw [hbe]; rfl)
    have hlz : leadingZeros 0#32 = 32 := by decide
    have hw : expWidth (leadingZeros 0#32 + 1) = 2 ^ 32 - 1 := by rw [hlz]; decide
    rw [hw, show (0#32 : W) <<< ((leadingZeros 0#32 + 1) % 32) = 0#32 by rw [hlz]; decide]
    unfold seenExp
    rw [if_pos hlast]
    generalize 2 ^ 32 - 1 = c
    obtain ⟨z1, h1, hP1⟩ := expBits_zeros hx hn hz c 1 false x hstart
    rw [h1]
    obtain ⟨z2, h2, hP2, hv2, hr2⟩ := expWords_all hx hn hz rest _ _ z1 hP1
    simp only [bind, Except.bind, h2]
    obtain ⟨r, rfl, hr⟩ := hr2 (by simp [hrest])
    refine ⟨r, by rw [trim_enc, deepClone_enc], ?_, hr⟩
    rw [val_enc] at hv2
    have : val b = val rest.reverse := by rw [hbval]; simp
    rw [this, show b.length - 1 = rest.length by omega]
    rw [Nat.one_mul] at hv2
    exact hv2
  · obtain ⟨hl1, hl2, hl3⟩ := leadingZeros_toNat hv0
    generalize hL : v.toNat.log2 = L at *
    have hw : expWidth (leadingZeros v + 1) = L := by rw [expWidth_eq (by omega)]; omega
    rw [hw]
    unfold seenExp
    rw [hlast, if_neg (by simpa using hv0)]
    obtain ⟨z1, h1, hP1⟩ := expBits_all hx hn hz L 1 false (v <<< ((leadingZeros v + 1) % 32)) x (by omega) hstart
    rw [h1]
    have hP1' : SqRep n (val x) v.toNat (decide (0 < L)) z1 := by
      rw [Bool.false_or] at hP1
      convert hP1 using 1
      by_cases hL0 : L = 0
      · subst hL0
        have : v.toNat = 1 := by omega
        rw [Nat.pow_zero, Nat.sub_zero, Nat.div_eq_of_lt (v <<< ((leadingZeros v + 1) % 32)).isLt]
        omega
      · rw [show (leadingZeros v + 1) % 32 = 32 - L by omega, low_bits (by omega) (by omega) hl2 hl3]
    obtain ⟨z2, h2, hP2, hv2, hr2⟩ := expWords_all hx hn hz rest _ _ z1 hP1'
    simp only [bind, Except.bind, h2]
    have hs : (decide (0 < L) || decide (rest ≠ [])) = true := by
      by_cases hr : rest = []
      · have h2v : 2 ≤ v.toNat := by
          by_contra h
          have h0 : v.toNat ≠ 0 := fun h => hv0 (BitVec.eq_of_toNat_eq (by simpa using h))
          have : v = 1#32 := BitVec.eq_of_toNat_eq (by rw [show v.toNat = 1 by omega]; rfl)
          exact hb1 (by rw [hbe, hr, this]; rfl)
        have : 0 < L := by
          rcases Nat.eq_zero_or_pos L with h | h
          · subst h; omega
          · exact h
        simp [this]
      · simp [hr]
    obtain ⟨r, rfl, hr⟩ := hr2 hs
    refine ⟨r, by rw [trim_enc, deepClone_enc], ?_, hr⟩
    rw [val_enc] at hv2
    rw [hbval, Nat.add_comm, Nat.mul_comm]
    exact hv2

/-! ## C121 -/

private theorem one_word {x : Words} {w : W} : (x.length = 1 ∧ x.headD 0#32 = w) ↔ x = [w] := by
  constructor
  · rintro ⟨h1, h2⟩
    obtain ⟨u, rfl⟩ := List.length_eq_one_iff.1 h1
    simpa using h2
  · rintro rfl; simp

private theorem big_iff {x : Words} (hx : x ≠ []) : (x.length > 1 ∨ x.headD 0#32 > 1#32) ↔ ¬ (x = [0#32] ∨ x = [1#32]) := by
  cases x with
  | nil => exact absurd rfl hx
  | cons w ws =>
    cases ws with
    | nil =>
      simp only [List.length_singleton, gt_iff_lt, lt_irrefl, List.headD_cons, false_or, BitVec.lt_def, List.cons.injEq,
        and_true, BitVec.toNat_ofNat]
      have h0 : w = 0#32 ↔ w.toNat = 0 := by rw [← BitVec.toNat_inj]; simp
      have h1 : w = 1#32 ↔ w.toNat = 1 := by rw [← BitVec.toNat_inj]; simp
      rw [h0, h1]
      omega
    | cons u us => simp

private theorem pos_iff {n : Words} (hn : n ≠ []) : (n.length > 1 ∨ n.headD 0#32 > 0#32) ↔ n ≠ [0#32] := by
  cases n with
  | nil => exact absurd rfl hn
  | cons w ws =>
    cases ws with
    | nil =>
      simp only [List.length_singleton, gt_iff_lt, lt_irrefl, List.headD_cons, false_or, BitVec.lt_def, List.cons.injEq,
        and_true, BitVec.toNat_ofNat, Ne]
      have h0 : w = 0#32 ↔ w.toNat = 0 := by rw [← BitVec.toNat_inj]; simp
      rw [h0]
      omega
    | cons u us => simp

/-- `x.exp(b, n)` in a build without overflow checks, for every base and exponent and every modulus that is not zero, each with
or without leading zero words: it returns, in canonical form, a number congruent to `x^b`, and less than `n` if `n` is in
canonical form; if `n` is not, it is only bounded by the words of `n`.  The exception is the base zero with an exponent zero of
several words, where the result is congruent to 0. -/
theorem C121_exp (x b n : Words) (hx : x ≠ NaN) (hb : b ≠ NaN) (hn : n ≠ NaN) (h0 : val n ≠ 0) :
    ∃ r, natExp false x b n = .ok r ∧ Canon r ∧
      val r ≡ (if x = [0#32] ∧ val b = 0 ∧ b ≠ [0#32] then 0 else val x ^ val b) [MOD val n] ∧
      (Canon n → val r < val n) ∧ (¬ Canon n → val r < 2 ^ (32 * (n.length - 1))) := by
  have hne : n ≠ [0#32] := by rintro rfl; exact h0 rfl
  unfold natExp
  simp only [isNan_of_ne hx, isNan_of_ne hb, isNan_of_ne hn, Bool.or_self, Bool.false_eq_true, if_false, one_word, big_iff hx,
    pos_iff hn, if_neg hne, false_and]
  by_cases hn1 : n = [1#32]
  · rw [if_pos hn1]
    subst hn1
    exact ⟨_, rfl, by rw [← enc_zero]; exact canon_enc 0, by rw [show val [1#32] = 1 by decide]; exact Nat.modEq_one,
      fun _ => by decide, fun _ => by decide⟩
  rw [if_neg hn1]
  by_cases hb0 : b = [0#32]
  · rw [if_pos hb0]
    subst hb0
    refine ⟨_, rfl, by rw [← enc_one]; exact canon_enc 1, by simp; rfl, fun hc => ?_, fun hc => ?_⟩
    · have : val n ≠ 1 := by
        intro h
        apply hn1
        obtain ⟨m, rfl⟩ := canon_iff_enc.1 hc
        rw [val_enc] at h
        rw [h, enc_one]
      rw [show val [1#32] = 1 by decide]
      omega
    · have := ((not_canon_iff_padded hn).1 hc).1
      rw [show val [1#32] = 1 by decide]
      exact Nat.one_lt_two_pow (by omega)
  rw [if_neg hb0]
  by_cases hb1 : b = [1#32]
  · rw [if_pos hb1]
    subst hb1
    obtain ⟨r, h1, h2, h3⟩ := rem_ok hn h0 hx
    refine ⟨_, h1, canon_enc r, ?_, by rw [val_enc]; exact h3.1, by rw [val_enc]; exact h3.2⟩
    rw [if_neg (by simp), val_enc, show val [1#32] = 1 by decide, Nat.pow_one]
    exact h2
  rw [if_neg hb1]
  by_cases hbig : ¬ (x = [0#32] ∨ x = [1#32]) ∧ b.length > 1 ∧ n ≠ [0#32]
  · rw [if_pos hbig]
    have hx0 : x ≠ [0#32] := fun h => hbig.1 (.inl h)
    have hexc : (if x = [0#32] ∧ val b = 0 ∧ b ≠ [0#32] then 0 else val x ^ val b) = val x ^ val b :=
      if_neg (fun h => hx0 h.1)
    rw [hexc]
    have hhead : (n.headD 0#32).toNat = val n % 2 ^ 32 := by
      cases n with
      | nil => exact absurd rfl hn
      | cons w ws =>
        rw [val_cons, List.headD_cons, Nat.add_mul_mod_self_left, Nat.mod_eq_of_lt w.isLt]
    by_cases hodd : n.headD 0#32 &&& 1#32 = 1#32
    · rw [if_pos hodd]
      rw [and_one_eq, hhead] at hodd
      obtain ⟨r, h1, h2, h3⟩ := expMontgomery_all (y := b) hx hn (by omega)
      exact ⟨_, h1, canon_enc r, by rw [val_enc]; exact h2, by rw [val_enc]; exact h3.1, by rw [val_enc]; exact h3.2⟩
    · rw [if_neg hodd]
      obtain ⟨r, h1, h2, h3⟩ := expWindowed_all (y := b) hx hn h0 hn1
      exact ⟨_, h1, canon_enc r, by rw [val_enc]; exact h2, by rw [val_enc]; exact h3.1, by rw [val_enc]; exact h3.2⟩
  · rw [if_neg hbig]
    cases hrev : b.reverse with
    | nil => exact absurd (List.reverse_eq_nil_iff.1 hrev) hb
    | cons v rest =>
      simp only
      obtain ⟨r, h1, h2, h3⟩ := squares_all hx hn (.inr h0) hb0 hb1 hrev
      have h3 := h3.resolve_left h0
      refine ⟨_, h1, canon_enc r, ?_, by rw [val_enc]; exact h3.1, by rw [val_enc]; exact h3.2⟩
      rw [val_enc]
      refine h2.trans ?_
      unfold seenExp
      by_cases hl : b.getLast? = some 0#32
      · rw [if_pos hl]
        have hlen : b.length > 1 := by
          by_contra h
          have : 0 < b.length := List.length_pos_iff.2 hb
          obtain ⟨u, rfl⟩ := List.length_eq_one_iff.1 (show b.length = 1 by omega)
          simp at hl
          exact hb0 (by rw [hl])
        have hx01 : x = [0#32] ∨ x = [1#32] := by
          by_contra h
          exact hbig ⟨h, hlen, hne⟩
        have hpos : 2 ^ (2 ^ 32 - 1) * 2 ^ (32 * (b.length - 1)) + val b ≠ 0 := by
          generalize 2 ^ 32 - 1 = c
          have := Nat.mul_pos (Nat.two_pow_pos c) (Nat.two_pow_pos (32 * (b.length - 1)))
          omega
        generalize 2 ^ (2 ^ 32 - 1) * 2 ^ (32 * (b.length - 1)) + val b = e at hpos
        rcases hx01 with rfl | rfl
        · rw [show val [0#32] = 0 by decide, Nat.zero_pow (Nat.pos_of_ne_zero hpos)]
          by_cases hb00 : val b = 0
          · rw [if_pos ⟨rfl, hb00, hb0⟩]
          · rw [if_neg (by simp [hb00]), Nat.zero_pow (Nat.pos_of_ne_zero hb00)]
        · rw [if_neg (by simp), show val [1#32] = 1 by decide, Nat.one_pow, Nat.one_pow]
      · rw [if_neg hl, if_neg]
        rintro ⟨-, h4, -⟩
        apply hl
        rw [List.getLast?_eq_some_getLast hb]
        have := val_dropLast_getLast hb
        rw [h4] at this
        congr 1
        apply BitVec.eq_of_toNat_eq
        have h5 := Nat.two_pow_pos (32 * (b.length - 1))
        have h6 : 2 ^ (32 * (b.length - 1)) * (b.getLast hb).toNat = 0 := by omega
        rcases Nat.mul_eq_zero.1 h6 with h | h
        · omega
        · simpa using h

/-- … `exp` without a modulus (`n` zero): the power itself, unless the exponent has leading zero words.  Then the rounds for the
top word are `2^32 - 1` instead of none, and the exponent is `2^(2^32 - 1 + 32·(l-1)) + b` for an exponent of `l` words. -/
theorem C121_exp_no_modulus (x b : Words) (hx : x ≠ NaN) (hb : b ≠ NaN) :
    (Canon b → natExp false x b [0#32] = .ok (enc (val x ^ val b))) ∧
    (¬ Canon b → natExp false x b [0#32] = .ok (enc (val x ^ (2 ^ (2 ^ 32 - 1 + 32 * (b.length - 1)) + val b)))) := by
  have hz : isNan [0#32] = false := rfl
  have h01 : ¬ ([0#32] : Words) = [1#32] := by decide
  unfold natExp
  simp only [isNan_of_ne hx, isNan_of_ne hb, hz, Bool.or_self, Bool.false_eq_true, if_false, one_word,
    pos_iff (List.cons_ne_nil (0#32 : W) []), ne_eq, not_true, and_false, if_true, false_and, if_neg h01]
  by_cases hb0 : b = [0#32]
  · rw [if_pos hb0]
    subst hb0
    refine ⟨fun _ => by rw [show val [0#32] = 0 by decide, Nat.pow_zero, enc_one], fun hc => absurd ⟨by simp, .inl rfl⟩ hc⟩
  rw [if_neg hb0]
  by_cases hb1 : b = [1#32]
  · rw [if_pos hb1]
    subst hb1
    refine ⟨fun _ => by rw [show val [1#32] = 1 by decide, Nat.pow_one, deepClone, trim_eq_enc hx],
      fun hc => absurd ⟨by simp, .inl rfl⟩ hc⟩
  rw [if_neg hb1]
  cases hrev : b.reverse with
  | nil => exact absurd (List.reverse_eq_nil_iff.1 hrev) hb
  | cons v rest =>
    simp only
    obtain ⟨r, h1, h2, -⟩ := squares_all hx (by simp [NaN]) (.inl rfl) hb0 hb1 hrev
    rw [h1]
    have h3 : r = val x ^ seenExp b := by
      have := h2
      rw [show val [0#32] = 0 by decide] at this
      simpa [Nat.ModEq] using this
    rw [h3]
    unfold seenExp
    refine ⟨fun hc => ?_, fun hc => ?_⟩
    · rw [if_neg]
      intro hl
      rcases hc.2 with h | h
      · obtain ⟨u, rfl⟩ := List.length_eq_one_iff.1 h
        simp at hl
        exact hb0 (by rw [hl])
      · rw [List.getLast?_eq_some_getLast hb] at hl
        exact h (by simpa using hl)
    · rw [if_pos ((not_canon_iff_padded hb).1 hc).2]
      rw [Nat.pow_add 2]

/-- A build with overflow checks returns the same, or panics; it panics exactly for an exponent of several words whose top word
is 0 or 1, if moreover the base is 0 or 1 or the modulus zero (and the modulus is not 1). -/
theorem C121_exp_checks (x b n : Words) (hx : x ≠ NaN) (hb : b ≠ NaN) (hn : n ≠ NaN) :
    natExp true x b n =
      if n ≠ [1#32] ∧ 2 ≤ b.length ∧ (b.getLast? = some 0#32 ∨ b.getLast? = some 1#32) ∧
        (x = [0#32] ∨ x = [1#32] ∨ n = [0#32]) then .error .panic else natExp false x b n := by
  unfold natExp
  simp only [isNan_of_ne hx, isNan_of_ne hb, isNan_of_ne hn, Bool.or_self, Bool.false_eq_true, if_false, one_word, big_iff hx,
    pos_iff hn, true_and, false_and]
  by_cases hn1 : n = [1#32]
  · simp only [if_pos hn1]
    rw [if_neg (by simp [hn1])]
  simp only [if_neg hn1]
  by_cases hb0 : b = [0#32]
  · simp only [if_pos hb0]
    rw [if_neg (by simp [hb0])]
  simp only [if_neg hb0]
  by_cases hb1 : b = [1#32]
  · simp only [if_pos hb1]
    have hno : ¬ (n ≠ [1#32] ∧ 2 ≤ b.length ∧ (b.getLast? = some 0#32 ∨ b.getLast? = some 1#32) ∧
        (x = [0#32] ∨ x = [1#32] ∨ n = [0#32])) := by
      rintro ⟨-, h, -⟩
      simp [hb1] at h
    rw [if_neg hno]
  simp only [if_neg hb1]
  by_cases hbig : ¬ (x = [0#32] ∨ x = [1#32]) ∧ b.length > 1 ∧ n ≠ [0#32]
  · have hno : ¬ (n ≠ [1#32] ∧ 2 ≤ b.length ∧ (b.getLast? = some 0#32 ∨ b.getLast? = some 1#32) ∧
        (x = [0#32] ∨ x = [1#32] ∨ n = [0#32])) := by
      rintro ⟨-, -, -, h | h | h⟩
      · exact hbig.1 (.inl h)
      · exact hbig.1 (.inr h)
      · exact hbig.2.2 h
    rw [if_neg hno]
    simp only [if_pos hbig]
  simp only [if_neg hbig]
  cases hrev : b.reverse with
  | nil => exact absurd (List.reverse_eq_nil_iff.1 hrev) hb
  | cons v rest =>
    have hbe : b = rest.reverse ++ [v] := by
      rw [← List.reverse_reverse b, hrev, List.reverse_cons]
    have hlast : b.getLast? = some v := by rw [hbe]; simp
    have hlen : b.length = rest.length + 1 := by rw [hbe]; simp
    simp only [hlast, Option.some.injEq]
    have hlz : leadingZeros v + 1 ≥ 32 ↔ v = 0#32 ∨ v = 1#32 := by
      by_cases hv : v = 0#32
      · subst hv
        have : leadingZeros 0#32 = 32 := by decide
        simp [this]
      · obtain ⟨h1, h2, h3⟩ := leadingZeros_toNat hv
        have hv1 : v = 1#32 ↔ v.toNat = 1 := by rw [← BitVec.toNat_inj]; simp
        simp only [hv, false_or, hv1]
        have h0 : v.toNat ≠ 0 := fun h => hv (BitVec.eq_of_toNat_eq (by simpa using h))
        constructor
        · intro h
          rw [show v.toNat.log2 = 0 by omega] at h3
          omega
        · intro h
          rw [h] at h1
          have : Nat.log2 1 = 0 := by decide
          omega
    by_cases hv : v = 0#32 ∨ v = 1#32
    · rw [if_pos (hlz.2 hv), if_pos]
      have h2 : 2 ≤ b.length := by
        by_contra h
        have hr : rest = [] := List.length_eq_zero_iff.1 (by omega)
        rw [hr] at hbe
        rcases hv with rfl | rfl
        · exact hb0 (by simpa using hbe)
        · exact hb1 (by simpa using hbe)
      refine ⟨hn1, h2, hv, ?_⟩
      by_contra h
      push Not at h
      exact hbig ⟨by simp [h.1, h.2.1], by omega, h.2.2⟩
    · rw [if_neg (mt hlz.1 hv), if_neg (by tauto)]

/-- Hence `exp` does not depend on the values only: zero to the power zero is 1, but 0 if the exponent is `0 << 32`, and a build
with checks panics; and `10^1 mod (3 * 1u32)` is 10, whereas `10^1 mod 3` is 1. -/
theorem C121_violated :
    natExp false [0#32] [0#32] [5#32] = .ok [1#32] ∧ natExp false [0#32] (natShl [0#32] 32) [5#32] = .ok [0#32] ∧
    natExp true [0#32] (natShl [0#32] 32) [5#32] = .error .panic ∧ val (natShl [0#32] 32) = val [0#32] ∧
    natExp false [10#32] [1#32] (natMulW [3#32] 1#32) = .ok [10#32] ∧ natExp false [10#32] [1#32] [3#32] = .ok [1#32] := by
  have hs : natShl [0#32] 32 = [0#32, 0#32] := by decide
  refine ⟨by decide, ?_, ?_, by decide, by decide, by decide⟩
  · obtain ⟨r, h1, h2, h3, h4, -⟩ := C121_exp [0#32] [0#32, 0#32] [5#32] (by decide) (by decide) (by decide) (by decide)
    have h4 := h4 ⟨by simp, .inl rfl⟩
    rw [if_pos (by decide)] at h3
    rw [hs, h1]
    obtain ⟨m, rfl⟩ := canon_iff_enc.1 h2
    rw [val_enc] at h3 h4
    rw [show val [5#32] = 5 by decide] at h3 h4
    have : m = 0 := by
      unfold Nat.ModEq at h3
      omega
    rw [this, enc_zero]
  · rw [hs, C121_exp_checks _ _ _ (by decide) (by decide) (by decide), if_pos (by decide)]

/-- leading zero words in base and exponent do no harm to larger bases -/
example : ∃ r, natExp false (natMulW [3#32] 1#32) (natMulW [5#32] 1#32) [7#32] = .ok r ∧ val r = 5 := by
  obtain ⟨r, h1, h2, h3, h4, -⟩ := C121_exp [3#32, 0#32] [5#32, 0#32] [7#32] (by decide) (by decide) (by decide) (by decide)
  have h4 := h4 ⟨by simp, .inl rfl⟩
  refine ⟨r, h1, ?_⟩
  rw [if_neg (by decide)] at h3
  rw [show val [7#32] = 7 by decide] at h3 h4
  have : val [3#32, 0#32] ^ val [5#32, 0#32] % 7 = 5 := by decide
  unfold Nat.ModEq at h3
  omega

example : natExp false [3#32] [2#32] [0#32] = .ok [9#32] :=
  ((C121_exp_no_modulus [3#32] [2#32] (by decide) (by decide)).1 ⟨by simp, .inl rfl⟩).trans (by
    rw [show val [3#32] = 3 by decide, show val [2#32] = 2 by decide, show 3 ^ 2 = 9 by norm_num, enc_lt (by norm_num)])

end RMath
