import Verif.Lemmas.NatWord
import Verif.Model.NatMul

/-! # Multiplication -/

namespace RMath

/-- value of a row of 64-bit cells -/
def valD : List D → Nat
  | [] => 0
  | d :: ds => d.toNat + 2 ^ 32 * valD ds

theorem valD_append (x y : List D) : valD (x ++ y) = valD x + 2 ^ (32 * x.length) * valD y := by
  induction x with
  | nil => simp [valD]
  | cons a as ih =>
    simp only [List.cons_append, valD, List.length_cons, ih]; rw [pow32_succ]; ring

theorem valD_replicate_zero (n : Nat) : valD (List.replicate n 0#64) = 0 := by
  induction n with
  | zero => rfl
  | succ n ih => simp [List.replicate_succ, valD, ih]

theorem rpkg_length (x : Words) : (rpkg x).length * 4 = (x.length + 3) / 4 * 4 := by
  fun_induction rpkg x with
  | case1 x0 x1 x2 x3 t ih => simp only [List.length_cons]; omega
  | case2 => simp
  | case3 => simp
  | case4 => simp
  | case5 => simp

theorem flatMap_length (l : W) (pk : List (W × W × W × W)) :
    (pk.flatMap (mulEpu32 l)).length = pk.length * 4 := by
  induction pk with
  | nil => rfl
  | cons p pk ih => simp [mulEpu32]; omega

theorem valD_flatMap (l : W) (x : Words) : valD ((rpkg x).flatMap (mulEpu32 l)) = l.toNat * val x := by
  fun_induction rpkg x with
  | case1 x0 x1 x2 x3 t ih =>
    simp only [List.flatMap_cons, valD_append, ih, mulEpu32, valD, val, toD_mul_toNat]
    simp only [List.length_cons, List.length_nil]
    ring
  | case2 =>
    simp only [List.flatMap_cons, List.flatMap_nil, List.append_nil, mulEpu32, valD, val, toD_mul_toNat]
    simp; ring
  | case3 =>
    simp only [List.flatMap_cons, List.flatMap_nil, List.append_nil, mulEpu32, valD, val, toD_mul_toNat]
    simp; ring
  | case4 =>
    simp only [List.flatMap_cons, List.flatMap_nil, List.append_nil, mulEpu32, valD, val, toD_mul_toNat]
    simp
  | case5 => simp [valD]

theorem mulRow_length (vlen : Nat) (pk : List (W × W × W × W)) (i : Nat) (l : W) :
    (mulRow vlen pk i l).length = vlen := by
  simp [mulRow, mulRow.resizeD]; omega

theorem mulRow_val {vlen i : Nat} {x : Words} (l : W) (h : i + (x.length + 3) / 4 * 4 ≤ vlen) :
    valD (mulRow vlen (rpkg x) i l) = 2 ^ (32 * i) * (l.toNat * val x) := by
  have h1 := rpkg_length x
  unfold mulRow mulRow.resizeD
  rw [List.take_of_length_le, valD_append, valD_replicate_zero, valD_append, valD_replicate_zero,
    valD_flatMap, List.length_replicate]
  · ring
  · rw [List.length_append, List.length_replicate, flatMap_length]; omega

theorem mulRows_length {vlen : Nat} (pk : List (W × W × W × W)) (i : Nat) (ls : Words) :
    ∀ r ∈ mulRows vlen pk i ls, r.length = vlen := by
  induction ls generalizing i with
  | nil => simp [mulRows]
  | cons l ls ih =>
    intro r hr
    simp only [mulRows, List.mem_cons] at hr
    rcases hr with h | h
    · rw [h, mulRow_length]
    · exact ih _ r h

theorem mulRows_val {vlen i : Nat} {x : Words} (ls : Words)
    (h : i + ls.length + (x.length + 3) / 4 * 4 ≤ vlen + 1) :
    ((mulRows vlen (rpkg x) i ls).map valD).sum = 2 ^ (32 * i) * (val ls * val x) := by
  induction ls generalizing i with
  | nil => simp [mulRows]
  | cons l ls ih =>
    simp only [List.length_cons] at h
    simp only [mulRows, List.map_cons, List.sum_cons, val]
    rw [mulRow_val l (by omega), ih (by omega), pow32_succ]
    ring

theorem colSum_val (out : D) (c : Nat) (ys : List D) :
    (colSum out c ys).1.toNat + 2 ^ 64 * (colSum out c ys).2
      = out.toNat + 2 ^ 64 * c + (ys.map BitVec.toNat).sum := by
  induction ys generalizing out c with
  | nil => simp [colSum]
  | cons y ys ih =>
    rw [colSum, ih, List.map_cons, List.sum_cons, BitVec.toNat_add]
    have h1 := out.isLt
    have h2 := y.isLt
    by_cases h : 2 ^ 64 ≤ out.toNat + y.toNat
    · simp only [h, decide_true, Bool.toNat_true]; omega
    · simp only [h, decide_false, Bool.toNat_false]; omega

theorem rows_split (rows : List (List D)) :
    (rows.map valD).sum = ((rows.map (·.headD 0#64)).map BitVec.toNat).sum
      + 2 ^ 32 * ((rows.map (·.drop 1)).map valD).sum := by
  induction rows with
  | nil => simp
  | cons r rows ih =>
    simp only [List.map_cons, List.sum_cons, ih]
    cases r with
    | nil => simp [valD]
    | cons d ds => simp [valD]; ring

theorem colLoop_length (n pre : Nat) (rows : List (List D)) : (colLoop n pre rows).1.length = n := by
  induction n generalizing pre rows with
  | zero => rfl
  | succ n ih => simp [colLoop, ih]

theorem colLoop_val (n pre : Nat) (rows : List (List D)) (h : ∀ r ∈ rows, r.length = n) :
    val (colLoop n pre rows).1 + 2 ^ (32 * n) * (colLoop n pre rows).2
      = pre + (rows.map valD).sum := by
  induction n generalizing pre rows with
  | zero =>
    have : (rows.map valD).sum = 0 := by
      clear pre
      induction rows with
      | nil => rfl
      | cons r rows ih =>
        have h1 := h r (by simp)
        rw [List.length_eq_zero_iff] at h1
        rw [List.map_cons, List.sum_cons, ih (fun q hq => h q (by simp [hq])), h1]; rfl
    simp [colLoop, this]
  | succ n ih =>
    rw [rows_split]
    have hs := colSum_val (BitVec.ofNat 64 pre) (pre / 2 ^ 64) (rows.map (·.headD 0#64))
    simp only [colLoop, val]
    generalize hr : colSum (BitVec.ofNat 64 pre) (pre / 2 ^ 64) (rows.map (·.headD 0#64)) = r at hs
    have hlt := r.1.isLt
    have e : (r.1 >>> 32).toNat ||| (r.2 <<< 32) = r.1.toNat / 2 ^ 32 + 2 ^ 32 * r.2 := by
      rw [shr32_toNat, Nat.or_comm, Nat.shiftLeft_eq, or_eq_add (by omega)]; ring
    rw [e]
    have h' := ih (r.1.toNat / 2 ^ 32 + 2 ^ 32 * r.2) (rows.map (·.drop 1)) (by
      intro q hq
      obtain ⟨p, hp, rfl⟩ := List.mem_map.1 hq
      simp [h p hp])
    rw [pow32_succ, Nat.mul_assoc, toW_toNat, mask64_and]
    rw [BitVec.toNat_ofNat] at hs
    omega

theorem minMax_val (x y : Words) : val (minMax x y).1 * val (minMax x y).2.1 = val x * val y := by
  unfold minMax; split
  · rfl
  · simp only; ring

theorem minMax_ne_nil {x y : Words} (hx : x ≠ []) (hy : y ≠ []) :
    (minMax x y).1 ≠ [] ∧ (minMax x y).2.1 ≠ [] := by
  unfold minMax; split <;> simp [hx, hy]

theorem colLoop_pos {n pre : Nat} {rows : List (List D)} (h : 0 < n) : (colLoop n pre rows).1 ≠ [] := by
  intro h0
  have := colLoop_length n pre rows
  rw [h0] at this; simp at this; omega

theorem trim_ne_nil {x : Words} (hx : x ≠ []) : trim x ≠ [] := (canon_trim hx).ne_nil

theorem mulAvx2_spec {x y : Words} (hx : x ≠ []) (hy : y ≠ []) :
    Canon (mulAvx2 x y) ∧ val (mulAvx2 x y) = val x * val y := by
  have hmv := minMax_val (deepClone x) y
  obtain ⟨hn1, hn2⟩ := minMax_ne_nil (trim_ne_nil hx) hy
  change (minMax (deepClone x) y).1 ≠ [] at hn1
  change (minMax (deepClone x) y).2.1 ≠ [] at hn2
  unfold mulAvx2
  generalize minMax (deepClone x) y = mm at hmv hn1 hn2 ⊢
  simp only
  have hl1 : 0 < mm.1.length := List.length_pos_iff.2 hn1
  have hl2 : 0 < mm.2.1.length := List.length_pos_iff.2 hn2
  generalize hv : mm.1.length + (mm.2.1.length + 3) / 4 * 4 - 1 = vlen
  have hc := colLoop_val vlen 0 (mulRows vlen (rpkg mm.2.1) 0 mm.1) (mulRows_length _ _ _)
  rw [mulRows_val _ (by omega)] at hc
  have hlen := colLoop_length vlen 0 (mulRows vlen (rpkg mm.2.1) 0 mm.1)
  have hne : (colLoop vlen 0 (mulRows vlen (rpkg mm.2.1) 0 mm.1)).1 ≠ [] := colLoop_pos (by omega)
  generalize colLoop vlen 0 (mulRows vlen (rpkg mm.2.1) 0 mm.1) = r at hc hlen hne ⊢
  refine ⟨canon_trim (by simp [hne]), ?_⟩
  have hb : r.2 < 2 ^ 32 := by
    have h1 := val_lt mm.1
    have h2 := val_lt mm.2.1
    have h3 : val mm.1 * val mm.2.1 < 2 ^ (32 * mm.1.length) * 2 ^ (32 * mm.2.1.length) :=
      Nat.mul_lt_mul'' h1 h2
    have h4 : 2 ^ (32 * mm.1.length) * 2 ^ (32 * mm.2.1.length) ≤ 2 ^ (32 * vlen) * 2 ^ 32 := by
      rw [← Nat.pow_add, ← Nat.pow_add]; exact Nat.pow_le_pow_right (by norm_num) (by omega)
    have h5 : 2 ^ (32 * vlen) * r.2 < 2 ^ (32 * vlen) * 2 ^ 32 := by
      simp only [Nat.mul_zero, Nat.pow_zero, Nat.one_mul] at hc
      omega
    exact Nat.lt_of_mul_lt_mul_left h5
  have hlast : val (if r.2 > 0 then [BitVec.ofNat 32 r.2] else []) = r.2 := by
    split
    · simp [val]; omega
    · simp [val]; omega
  rw [val_trim, val_append, hlast, hlen]
  have : val (deepClone x) = val x := val_trim x
  rw [← this, ← hmv]
  simpa using hc

theorem eqv_iff {x y : Words} (hx : x ≠ []) : eqv x y = true ↔ x = y := by
  unfold eqv
  rw [if_neg (by simpa [isNan])]
  simp

theorem mulInner_val {x y : Words} (hx : x ≠ []) (hy : y ≠ []) :
    val (mulInner x y) = val x * val y := by
  unfold mulInner
  simp only [Bool.or_eq_true, eqv_iff hx, eqv_iff hy, Bool.not_eq_true']
  split
  · rename_i h
    rcases h with h | h <;> subst h <;> simp
  · split
    · rename_i h; subst h; simp
    · split
      · exact (mulAvx2_spec hx hy).2
      · rename_i h
        rw [Bool.not_eq_false, eqv_iff hy] at h
        subst h; simp

theorem mulInner_canon {x y : Words} (hx : Canon x) (hy : Canon y) : Canon (mulInner x y) := by
  unfold mulInner
  split
  · exact canon_singleton _
  · split
    · exact hy
    · split
      · exact (mulAvx2_spec hx.ne_nil hy.ne_nil).1
      · exact hx

theorem mulInner_enc (a b : Nat) : mulInner (enc a) (enc b) = enc (a * b) :=
  enc_eq_iff.2 ⟨mulInner_canon (canon_enc a) (canon_enc b),
    by rw [mulInner_val (enc_ne_nil a) (enc_ne_nil b)]; simp⟩

end RMath
