import Verif.Lemmas.NatKara
import Verif.Lemmas.NatShift

namespace RMath

theorem enc_length_le {v L : Nat} (hL : 1 ≤ L) (h : v < 2 ^ (32 * L)) : (enc v).length ≤ L := by
  by_contra hc
  have h1 := (canon_enc v).le_val (by omega)
  rw [val_enc] at h1
  have h2 : 2 ^ (32 * L) ≤ 2 ^ (32 * ((enc v).length - 1)) := Nat.pow_le_pow_right (by omega) (by omega)
  omega

theorem stripZeros_val (x : Words) : val (stripZeros x) = val x := val_strip x

theorem stripZeros_length (x : Words) : (stripZeros x).length ≤ x.length := by
  unfold stripZeros
  rw [List.length_reverse]
  exact (List.dropWhile_sublist _).length_le.trans (by simp)

theorem addAt_spec {z x : Words} {i : Nat} (hi : i + x.length ≤ z.length)
    (hb : val z + 2 ^ (32 * i) * val x < 2 ^ (32 * z.length)) :
    (addAt z x i).length = z.length ∧ val (addAt z x i) = val z + 2 ^ (32 * i) * val x := by
  unfold addAt
  by_cases hx : x.length > 0
  · rw [if_pos hx]
    obtain ⟨A, R, rfl, lA, lR⟩ := split_at (z := z) (n := i) (by omega)
    obtain ⟨B, C, rfl, lB, lC⟩ := split_at (z := R) (n := x.length) (by omega)
    obtain ⟨v1, v2⟩ := addVV_val lB
    have hl := addVV_length lB
    simp only
    rw [drop_take_app lA lB, writeAt_app lA hl.symm]
    generalize addVV B x = r at *
    have hr1 : r.1.length = x.length := hl.trans lB
    have lz : (A ++ (B ++ C)).length = i + x.length + C.length := by simp [lA, lB]; omega
    rw [lz] at hb ⊢
    have eA : 2 ^ (32 * (i + x.length + C.length)) = 2 ^ (32 * i) * (2 ^ (32 * x.length) * 2 ^ (32 * C.length)) := by
      rw [← Nat.pow_add, ← Nat.pow_add]; congr 1; ring
    by_cases hc : r.2 = 0#32
    · rw [if_neg (by simp [hc])]
      refine ⟨by simp [lA, hr1]; omega, ?_⟩
      rw [hc] at v1
      simp only [val_append, lA, lB, hr1]
      simp only [BitVec.toNat_ofNat, Nat.zero_mod, Nat.mul_zero, Nat.add_zero] at v1
      rw [v1]; ring
    · rw [if_pos hc]
      have e : A ++ (r.1 ++ C) = (A ++ r.1) ++ C := by simp
      have lAr : (A ++ r.1).length = i + x.length := by simp [lA, hr1]
      by_cases hC : C = []
      · exfalso
        have h1 : 1 ≤ r.2.toNat := Nat.pos_of_ne_zero (by simpa [← BitVec.toNat_inj] using hc)
        subst hC
        rw [eA] at hb
        simp only [List.append_nil, val_append, lA, List.length_nil, Nat.mul_zero, pow_zero, Nat.mul_one] at hb
        have : 2 ^ (32 * i) * 2 ^ (32 * x.length) ≤ 2 ^ (32 * i) * val B + 2 ^ (32 * i) * val x := by
          rw [← Nat.mul_add]
          apply Nat.mul_le_mul_left
          rw [← v1, lB]
          calc 2 ^ (32 * x.length) = 2 ^ (32 * x.length) * 1 := by ring
            _ ≤ 2 ^ (32 * x.length) * r.2.toNat := Nat.mul_le_mul_left _ h1
            _ ≤ _ := Nat.le_add_left _ _
        omega
      · have hC' : 0 < C.length := List.length_pos_iff.2 hC
        rw [e, if_pos (by simp only [List.length_append] at *; omega), List.drop_left' lAr]
        have w := addVW_val r.2 C
        have wl := addVW_length r.2 C
        have := writeAt_app (A := A ++ r.1) (B := C) (C := []) (i := i + x.length) lAr wl.symm
        simp only [List.append_nil] at this
        rw [this]
        generalize addVW r.2 C = q at *
        have hlen : ((A ++ r.1) ++ q.1).length = i + x.length + C.length := by simp [lA, hr1, wl]; omega
        refine ⟨hlen, ?_⟩
        have hlt := val_lt ((A ++ r.1) ++ q.1)
        rw [hlen] at hlt
        refine mod_fin hlt hb (i := q.2.toNat) (j := 0) ?_
        rw [eA]
        simp only [val_append, lA, lB, hr1, lAr] at *
        have e2 : 2 ^ (32 * (i + x.length)) = 2 ^ (32 * i) * 2 ^ (32 * x.length) := by
          rw [← Nat.pow_add]; congr 1; ring
        rw [e2]
        calc _ = val A + 2 ^ (32 * i) * (val r.1 + 2 ^ (32 * x.length) * (val q.1 + 2 ^ (32 * C.length) * q.2.toNat)) := by
              ring
          _ = val A + 2 ^ (32 * i) * ((val r.1 + 2 ^ (32 * x.length) * r.2.toNat) + 2 ^ (32 * x.length) * val C) := by
              rw [w]; ring
          _ = _ := by rw [v1]; ring
  · rw [if_neg hx]
    have : x = [] := by simpa using hx
    simp [this]

theorem karaLenLoop_le (t : Nat) (fuel n i : Nat) : karaLenLoop t fuel n i ≤ n * 2 ^ i := by
  induction fuel generalizing n i with
  | zero => simp [karaLenLoop]
  | succ fuel ih =>
    unfold karaLenLoop
    split
    · refine (ih (n / 2) (i + 1)).trans ?_
      rw [pow_succ, Nat.mul_comm (2 ^ i) 2, ← Nat.mul_assoc]
      exact Nat.mul_le_mul_right _ (by omega)
    · exact le_refl _

theorem karaLenLoop_pos {t : Nat} (ht : 0 < t) (fuel n i : Nat) (hn : 0 < n) : 0 < karaLenLoop t fuel n i := by
  induction fuel generalizing n i with
  | zero => simp [karaLenLoop, hn]
  | succ fuel ih =>
    unfold karaLenLoop
    split
    · exact ih _ _ (by omega)
    · exact Nat.mul_pos hn (Nat.two_pow_pos _)

theorem karaLen_le (n t : Nat) : karaLen n t ≤ n := by
  have := karaLenLoop_le t n n 0
  simpa [karaLen] using this

theorem karaLen_pos {n t : Nat} (ht : 0 < t) (hn : 0 < n) : 0 < karaLen n t := karaLenLoop_pos ht _ _ _ hn

theorem karaPieces_spec {mul : Words → Words → Words} {k L : Nat} {y0 y1 : Words} (hk : 0 < k)
    (hmul : ∀ a b : Words, a.length + b.length ≤ L →
      val (mul a b) = val a * val b ∧ (mul a b).length ≤ a.length + b.length)
    (h0 : y0.length ≤ k) (hL1 : 2 * k ≤ L) (hL2 : k + y1.length ≤ L)
    (fuel : Nat) : ∀ (i : Nat) (xr z : Words), xr.length ≤ fuel →
    (xr ≠ [] → i + xr.length + (k + y1.length) ≤ z.length) →
    val z + 2 ^ (32 * i) * val xr * (val y0 + 2 ^ (32 * k) * val y1) < 2 ^ (32 * z.length) →
    (karaPieces mul k y0 y1 fuel i xr z).length = z.length ∧
    val (karaPieces mul k y0 y1 fuel i xr z)
      = val z + 2 ^ (32 * i) * val xr * (val y0 + 2 ^ (32 * k) * val y1) := by
  induction fuel with
  | zero =>
    intro i xr z hf _ _
    have : xr = [] := by simpa using hf
    subst this
    simp [karaPieces]
  | succ fuel ih =>
    intro i xr z hf hz hb
    unfold karaPieces
    by_cases hxr : xr = []
    · simp [hxr]
    rw [if_neg hxr]
    have hxl : 0 < xr.length := List.length_pos_iff.2 hxr
    replace hz := hz hxr
    -- the piece
    have hpiece : (if xr.length > k then xr.take k else xr) = xr.take k := by
      split
      · rfl
      · rw [List.take_of_length_le (by omega)]
    rw [hpiece]
    simp only
    have hxs := stripZeros_length (xr.take k)
    have hxv := stripZeros_val (xr.take k)
    have hxl2 : (xr.take k).length ≤ k := by simp
    have hxl3 : (xr.take k).length ≤ xr.length := by simp
    generalize stripZeros (xr.take k) = xi at *
    obtain ⟨m1, m2⟩ := hmul xi y0 (by omega)
    obtain ⟨m3, m4⟩ := hmul xi y1 (by omega)
    -- value of the rest
    have hsplit : val xr = val xi + 2 ^ (32 * k) * val (xr.drop k) := by
      by_cases hkx : k ≤ xr.length
      · conv_lhs => rw [← List.take_append_drop k xr]
        rw [val_append, hxv]; simp [hkx]
      · rw [hxv, List.take_of_length_le (by omega), List.drop_of_length_le (by omega)]; simp
    have epow : 2 ^ (32 * (i + k)) = 2 ^ (32 * i) * 2 ^ (32 * k) := by
      rw [← Nat.pow_add]; congr 1; ring
    have etot : 2 ^ (32 * i) * val xr * (val y0 + 2 ^ (32 * k) * val y1)
        = 2 ^ (32 * i) * (val xi * val y0) + 2 ^ (32 * (i + k)) * (val xi * val y1)
          + 2 ^ (32 * (i + k)) * val (xr.drop k) * (val y0 + 2 ^ (32 * k) * val y1) := by
      rw [hsplit, epow]; ring
    rw [etot] at hb ⊢
    obtain ⟨a1, a2⟩ := addAt_spec (z := z) (x := mul xi y0) (i := i) (by omega) (by rw [m1]; omega)
    rw [m1] at a2
    generalize addAt z (mul xi y0) i = z1 at *
    obtain ⟨b1, b2⟩ := addAt_spec (z := z1) (x := mul xi y1) (i := i + k) (by omega) (by rw [m3, a1, a2]; omega)
    rw [m3] at b2
    generalize addAt z1 (mul xi y1) (i + k) = z2 at *
    have hdl : (xr.drop k).length = xr.length - k := by simp
    obtain ⟨c1, c2⟩ := ih (i + k) (xr.drop k) z2 (by omega)
      (by intro hne
          have := List.length_pos_iff.2 hne
          omega)
      (by rw [b1, a1, b2, a2]; omega)
    exact ⟨by omega, by omega⟩

theorem truncate_spec {z : Words} {k N : Nat} (hk : 2 * k ≤ N) (hN : N ≤ z.length) :
    ((z.take N).take (2 * k) ++ List.replicate ((z.take N).length - 2 * k) 0#32).length = N ∧
    val ((z.take N).take (2 * k) ++ List.replicate ((z.take N).length - 2 * k) 0#32) = val (z.take (2 * k)) := by
  rw [List.take_take, Nat.min_eq_left hk]
  refine ⟨by simp; omega, ?_⟩
  rw [val_append]; simp

theorem mulKaraF_spec (fuel : Nat) : ∀ (x y : Words), x.length + y.length < fuel →
    (x = [] ∨ y = [] → mulKaraF fuel x y = []) ∧
    (x ≠ [] → y ≠ [] → mulKaraF fuel x y = enc (val x * val y)) := by
  induction fuel with
  | zero => intro x y h; omega
  | succ fuel ih =>
    intro xx yy hf
    unfold mulKaraF
    simp only
    -- the ordered operands
    obtain ⟨x, y, hx, hy, hle, hsum, hval, hnil⟩ : ∃ x y : Words,
        (if xx.length < yy.length then yy else xx) = x ∧ (if xx.length < yy.length then xx else yy) = y ∧
        y.length ≤ x.length ∧ x.length + y.length = xx.length + yy.length ∧ val xx * val yy = val x * val y ∧
        (xx = [] ∨ yy = [] ↔ x = [] ∨ y = []) := by
      by_cases h : xx.length < yy.length
      · exact ⟨yy, xx, by simp [h], by simp [h], by omega, by omega, Nat.mul_comm _ _, by tauto⟩
      · exact ⟨xx, yy, by simp [h], by simp [h], by omega, rfl, rfl, Iff.rfl⟩
    rw [hx, hy, hval]
    have hne : xx ≠ [] → yy ≠ [] → x ≠ [] ∧ y ≠ [] := by tauto
    constructor
    · intro h
      rw [if_pos (by simpa using hnil.1 h)]
    intro h1 h2
    obtain ⟨hxn, hyn⟩ := hne h1 h2
    have hxl : 0 < x.length := List.length_pos_iff.2 hxn
    have hyl : 0 < y.length := List.length_pos_iff.2 hyn
    rw [if_neg (by omega)]
    by_cases hy1 : y.length = 1
    · rw [if_pos hy1, mulAddWW_spec hxn]
      obtain ⟨d, rfl⟩ := List.length_eq_one_iff.1 hy1
      simp
    rw [if_neg hy1]
    by_cases hyt : y.length < KARATSUBA_THRESHOLD
    · rw [if_pos hyt]
      obtain ⟨out, o1, o2, o3⟩ := basicMul_spec (List.replicate (x.length + y.length) 0#32) x y
      rw [o1]
      simp only [List.drop_replicate, Nat.sub_self, List.replicate_zero, List.append_nil]
      have : out ≠ [] := by apply List.ne_nil_of_length_pos; omega
      rw [trim_eq_enc this, o3]
    rw [if_neg hyt]
    have hk1 := karaLen_le y.length KARATSUBA_THRESHOLD
    have hk2 := karaLen_pos (t := KARATSUBA_THRESHOLD) (by decide) hyl
    generalize karaLen y.length KARATSUBA_THRESHOLD = k at *
    have lx0 : (x.take k).length = k := by simp; omega
    have ly0 : (y.take k).length = k := by simp; omega
    obtain ⟨q1, q2⟩ := karatsuba_spec (k + 1) (List.replicate (max (6 * k) (x.length + y.length)) 0#32)
      (x.take k) (y.take k) k lx0 ly0 (by omega) (by simp)
    generalize karatsuba (k + 1) (List.replicate (max (6 * k) (x.length + y.length)) 0#32)
      (x.take k) (y.take k) = zK at *
    rw [List.length_replicate] at q1
    obtain ⟨t1, t2⟩ := truncate_spec (z := zK) (k := k) (N := x.length + y.length) (by omega) (by omega)
    generalize (zK.take (x.length + y.length)).take (2 * k) ++
      List.replicate ((zK.take (x.length + y.length)).length - 2 * k) 0#32 = z at *
    rw [q2] at t2
    have hvx : val x = val (x.take k) + 2 ^ (32 * k) * val (x.drop k) := by
      conv_lhs => rw [← List.take_append_drop k x]
      rw [val_append, lx0]
    have hvy : val y = val (y.take k) + 2 ^ (32 * k) * val (y.drop k) := by
      conv_lhs => rw [← List.take_append_drop k y]
      rw [val_append, ly0]
    have hprod : val x * val y < 2 ^ (32 * (x.length + y.length)) := by
      calc _ < 2 ^ (32 * x.length) * 2 ^ (32 * y.length) :=
            Nat.mul_lt_mul_of_lt_of_le (val_lt x) (val_lt y).le (Nat.two_pow_pos _)
        _ = _ := by rw [← Nat.pow_add]; congr 1; ring
    by_cases hmore : k < y.length ∨ x.length ≠ y.length
    · rw [if_pos hmore]
      -- the inner products
      have hmul : ∀ a b : Words, a.length + b.length ≤ x.length + y.length - 1 →
          val (mulKaraF fuel a b) = val a * val b ∧ (mulKaraF fuel a b).length ≤ a.length + b.length := by
        intro a b hab
        obtain ⟨i1, i2⟩ := ih a b (by omega)
        by_cases hn : a = [] ∨ b = []
        · rw [i1 hn]
          rcases hn with rfl | rfl <;> simp
        · push Not at hn
          rw [i2 hn.1 hn.2, val_enc]
          refine ⟨rfl, enc_length_le ?_ ?_⟩
          · have := List.length_pos_iff.2 hn.1
            omega
          · calc _ < 2 ^ (32 * a.length) * 2 ^ (32 * b.length) :=
                  Nat.mul_lt_mul_of_lt_of_le (val_lt a) (val_lt b).le (Nat.two_pow_pos _)
              _ = _ := by rw [← Nat.pow_add]; congr 1; ring
      have sx := stripZeros_length (x.take k)
      have sy := stripZeros_length (y.take k)
      have vx := stripZeros_val (x.take k)
      have vy := stripZeros_val (y.take k)
      generalize stripZeros (x.take k) = sx0 at *
      generalize stripZeros (y.take k) = sy0 at *
      have ldy : (y.drop k).length = y.length - k := by simp
      have ldx : (x.drop k).length = x.length - k := by simp
      rw [← vx] at hvx t2
      rw [← vy] at hvy t2
      obtain ⟨m1, m2⟩ := hmul sx0 (y.drop k) (by omega)
      have htot : val x * val y = val sx0 * val sy0 + 2 ^ (32 * k) * (val sx0 * val (y.drop k))
          + 2 ^ (32 * k) * val (x.drop k) * (val sy0 + 2 ^ (32 * k) * val (y.drop k)) := by
        rw [hvx, hvy]; ring
      rw [htot] at hprod
      obtain ⟨a1, a2⟩ := addAt_spec (z := z) (x := mulKaraF fuel sx0 (y.drop k)) (i := k) (by omega)
        (by rw [m1, t1, t2]; omega)
      rw [m1] at a2
      generalize addAt z (mulKaraF fuel sx0 (y.drop k)) k = z1 at *
      obtain ⟨p1, p2⟩ := karaPieces_spec (mul := mulKaraF fuel) (k := k) (L := x.length + y.length - 1)
        (y0 := sy0) (y1 := y.drop k) hk2 hmul (by omega) (by omega) (by omega) x.length k (x.drop k) z1
        (by omega) (by intro _; omega) (by rw [a1, a2, t1, t2]; omega)
      have hz1 : karaPieces (mulKaraF fuel) k sy0 (y.drop k) x.length k (x.drop k) z1 ≠ [] := by
        apply List.ne_nil_of_length_pos; omega
      rw [trim_eq_enc hz1, p2, a2, t2, htot]
    · rw [if_neg hmore]
      push Not at hmore
      have hk : k = y.length := by omega
      have hz1 : z ≠ [] := by apply List.ne_nil_of_length_pos; omega
      rw [trim_eq_enc hz1, t2, List.take_of_length_le (by omega), List.take_of_length_le (by omega)]

theorem mulKara_spec {x y : Words} (hx : x ≠ []) (hy : y ≠ []) : mulKara x y = enc (val x * val y) :=
  (mulKaraF_spec _ x y (Nat.lt_succ_self _)).2 hx hy

theorem mulKara_nil {x y : Words} (h : x = [] ∨ y = []) : mulKara x y = [] :=
  (mulKaraF_spec _ x y (Nat.lt_succ_self _)).1 h

/-! ### squaring -/

theorem sqrDiag_append (a b : Words) : sqrDiag (a ++ b) = sqrDiag a ++ sqrDiag b := by
  induction a with
  | nil => rfl
  | cons d ds ih => simp [sqrDiag, ih]

theorem sqrDiag_length (a : Words) : (sqrDiag a).length = 2 * a.length := by
  induction a with
  | nil => rfl
  | cons d ds ih => simp [sqrDiag, ih]; omega

theorem val_sqrDiag_snoc (a : Words) (d : W) :
    val (sqrDiag (a ++ [d])) = val (sqrDiag a) + 2 ^ (32 * a.length) * 2 ^ (32 * a.length) * (d.toNat * d.toNat) := by
  rw [sqrDiag_append, val_append, sqrDiag_length, ← mulWW_spec d d]
  have : 2 ^ (32 * (2 * a.length)) = 2 ^ (32 * a.length) * 2 ^ (32 * a.length) := by
    rw [← Nat.pow_add]; congr 1; ring
  rw [this]
  simp [sqrDiag]

theorem sqrMixed_spec (ds : Words) : ∀ (pre S : Words), pre ≠ [] → S.length = 2 * pre.length - 2 →
    2 * val (0#32 :: S) + val (sqrDiag pre) = val pre * val pre →
    ∃ S' : Words, sqrMixed pre (0#32 :: S ++ List.replicate (2 * ds.length + 1) 0#32) ds = 0#32 :: S' ++ [0#32]
      ∧ S'.length = 2 * (pre.length + ds.length) - 2
      ∧ 2 * val (0#32 :: S') + val (sqrDiag (pre ++ ds)) = val (pre ++ ds) * val (pre ++ ds) := by
  induction ds with
  | nil => intro pre S _ hS hv; exact ⟨S, by simp [sqrMixed], by simpa using hS, by simpa using hv⟩
  | cons d ds ih =>
    intro pre S hpre hS hv
    have hp : 0 < pre.length := List.length_pos_iff.2 hpre
    obtain ⟨A, B, rfl, lA, lB⟩ := split_at (z := S) (n := pre.length - 1) (by omega)
    unfold sqrMixed
    simp only
    have hlA : (0#32 :: A).length = pre.length := by simp [lA]; omega
    have hseg : (B ++ [0#32]).length = pre.length := by
      rw [List.length_append, List.length_singleton]; omega
    have e1 : 0#32 :: (A ++ B) ++ List.replicate (2 * (d :: ds).length + 1) 0#32
        = (0#32 :: A) ++ ((B ++ [0#32]) ++ ([0#32] ++ List.replicate (2 * ds.length + 1) 0#32)) := by
      have : 2 * (d :: ds).length + 1 = (2 * ds.length + 1) + 1 + 1 := by simp; omega
      rw [this, List.replicate_succ, List.replicate_succ]; simp
    rw [e1, drop_take_app hlA hseg]
    have hl := addMulVVW_length hseg d
    have hvv := addMulVVW_val hseg d
    rw [writeAt_app hlA hl.symm]
    generalize addMulVVW (B ++ [0#32]) pre d = r at *
    have e2 : (0#32 :: A) ++ (r.1 ++ ([0#32] ++ List.replicate (2 * ds.length + 1) 0#32))
        = ((0#32 :: A) ++ r.1) ++ ([0#32] ++ List.replicate (2 * ds.length + 1) 0#32) := by simp
    rw [e2, writeAt_app (by rw [List.length_append, hlA, hl, hseg]; omega) (by simp)]
    have e3 : ((0#32 :: A) ++ r.1) ++ ([r.2] ++ List.replicate (2 * ds.length + 1) 0#32)
        = 0#32 :: (A ++ r.1 ++ [r.2]) ++ List.replicate (2 * ds.length + 1) 0#32 := by simp
    rw [e3]
    have hr1 : r.1.length = pre.length := hl.trans hseg
    obtain ⟨S', s1, s2, s3⟩ := ih (pre ++ [d]) (A ++ r.1 ++ [r.2]) (by simp)
      (by simp [hr1, lA]; omega) (by
        have f1 : (0#32 :: (A ++ r.1 ++ [r.2]) : Words) = (0#32 :: A) ++ (r.1 ++ [r.2]) := by simp
        have f2 : (0#32 :: (A ++ B) : Words) = (0#32 :: A) ++ B := by simp
        have f3 : val (B ++ [0#32]) = val B := by rw [val_append]; simp
        rw [f3] at hvv
        rw [f2, val_append, hlA] at hv
        rw [f1, val_append, hlA, val_append r.1, hr1, val_sqrDiag_snoc, val_append pre]
        simp only [val_cons _ [], val_nil, Nat.mul_zero, Nat.add_zero]
        rw [hvv]
        generalize 2 ^ (32 * pre.length) = b at *
        calc _ = (2 * (val (0#32 :: A) + b * val B) + val (sqrDiag pre)) + 2 * (b * (val pre * d.toNat))
                + b * b * (d.toNat * d.toNat) := by ring
          _ = _ := by rw [hv]; ring)
    refine ⟨S', s1, by rw [s2]; simp; omega, ?_⟩
    simpa using s3

theorem basicSqr_spec {z x : Words} (hx : x ≠ []) (hz : 2 * x.length ≤ z.length) :
    ∃ out : Words, basicSqr z x = out ++ z.drop (2 * x.length) ∧ out.length = 2 * x.length
      ∧ val out = val x * val x := by
  obtain ⟨d, ds, rfl⟩ := List.exists_cons_of_ne_nil hx
  obtain ⟨S, s1, s2, s3⟩ := sqrMixed_spec ds [d] [] (by simp) (by simp) (by
    have := mulWW_spec d d
    simp [sqrDiag]; omega)
  have e0 : List.replicate (2 * (d :: ds).length) 0#32 = 0#32 :: [] ++ List.replicate (2 * ds.length + 1) 0#32 := by
    rw [List.length_cons]
    have : 2 * (ds.length + 1) = (2 * ds.length + 1) + 1 := by ring
    rw [this, List.replicate_succ, List.cons_append, List.nil_append]
  unfold basicSqr
  simp only [List.take_succ_cons, List.take_zero, List.drop_succ_cons, List.drop_zero]
  rw [e0, s1]
  simp only [List.singleton_append] at s3
  have hn : (d :: ds).length = ds.length + 1 := rfl
  generalize hxx : d :: ds = x at *
  have lS : S.length = 2 * x.length - 2 := by rw [s2, hn]; simp; omega
  have hxp : 0 < x.length := by omega
  have t1 : ((0#32 :: S ++ [0#32]).drop 1).take (2 * x.length - 1 - 1) = S := by
    have : (0#32 :: S ++ [0#32] : Words) = [0#32] ++ (S ++ [0#32]) := by simp
    rw [this]
    exact drop_take_app (by simp) (by omega)
  rw [t1]
  -- the shifted vector
  have hsh : (shlVU S 1).1.length = S.length ∧
      val (shlVU S 1).1 + 2 ^ (32 * S.length) * (shlVU S 1).2.toNat = 2 * val S := by
    unfold shlVU
    by_cases hS : S = []
    · simp [hS]
    · rw [if_neg (by simp [hS])]
      refine ⟨shlLoop_length _ _ _, ?_⟩
      have := shlLoop_val (n := 1) (by omega) 0#32 S (by simp)
      rw [this]; simp; ring
  obtain ⟨g1, g2⟩ := hsh
  generalize shlVU S 1 = sh at *
  have t2 : writeAt (writeAt (0#32 :: S ++ [0#32]) 1 sh.1) (2 * x.length - 1) [sh.2]
      = 0#32 :: (sh.1 ++ [sh.2]) := by
    have f1 : (0#32 :: S ++ [0#32] : Words) = [0#32] ++ (S ++ [0#32]) := by simp
    rw [f1, writeAt_app (by simp) g1.symm]
    have f2 : [0#32] ++ (sh.1 ++ [0#32]) = ([0#32] ++ sh.1) ++ ([0#32] ++ []) := by simp
    rw [f2, writeAt_app (by simp [g1, lS]; omega) (by simp)]; simp
  rw [t2]
  have ht : (0#32 :: (sh.1 ++ [sh.2]) : Words).length = 2 * x.length := by simp [g1, lS]; omega
  have hvt : val (0#32 :: (sh.1 ++ [sh.2])) = 2 * val (0#32 :: S) := by
    have : val (sh.1 ++ [sh.2]) = 2 * val S := by rw [← g2, val_append, g1]; simp
    simp only [val_cons, this]
    simp
    ring
  generalize (0#32 :: (sh.1 ++ [sh.2]) : Words) = t at *
  -- the squares
  have hw : writeAt z 0 (sqrDiag x) = sqrDiag x ++ z.drop (2 * x.length) := by
    unfold writeAt; simp [sqrDiag_length]
  rw [hw]
  have ld := sqrDiag_length x
  have hm : min (sqrDiag x ++ z.drop (2 * x.length)).length (2 * x.length) = 2 * x.length := by
    simp [ld]
  rw [hm, List.take_left' ld, List.take_of_length_le ht.le]
  obtain ⟨v1, _⟩ := addVV_val (ld.trans ht.symm)
  have vl := addVV_length (ld.trans ht.symm)
  generalize addVV (sqrDiag x) t = r at *
  have := writeAt_app (A := []) (B := sqrDiag x) (C := z.drop (2 * x.length)) (v := r.1) (i := 0) rfl vl.symm
  simp only [List.nil_append] at this
  rw [this]
  refine ⟨r.1, rfl, by omega, ?_⟩
  have hlt := val_lt r.1
  rw [vl, ld] at hlt
  have hlx := val_lt x
  have hxx2 : val x * val x < 2 ^ (32 * (2 * x.length)) := by
    calc _ < 2 ^ (32 * x.length) * 2 ^ (32 * x.length) :=
          Nat.mul_lt_mul_of_lt_of_le hlx hlx.le (Nat.two_pow_pos _)
      _ = _ := by rw [← Nat.pow_add]; congr 1; ring
  refine mod_fin hlt hxx2 (i := r.2.toNat) (j := 0) ?_
  rw [ld, hvt] at v1
  rw [Nat.mul_comm, v1, ← s3]; ring

set_option maxHeartbeats 1000000 in
theorem karatsubaSqr_spec (fuel : Nat) : ∀ (z x : Words) (n : Nat), x.length = n → 0 < n → n < fuel →
    6 * n ≤ z.length →
    (karatsubaSqr fuel z x).length = z.length ∧ val ((karatsubaSqr fuel z x).take (2 * n)) = val x * val x := by
  induction fuel with
  | zero => intro z x n _ _ h; omega
  | succ fuel ih =>
    intro z x n hx hn0 hf hz
    unfold karatsubaSqr
    simp only [hx]
    by_cases hb : n % 2 ≠ 0 ∨ n < KARATSUBA_THRESHOLD ∨ n < 2
    · rw [if_pos hb]
      obtain ⟨out, h1, h2, h3⟩ := basicSqr_spec (z := z) (x := x)
        (by apply List.ne_nil_of_length_pos; omega) (by omega)
      rw [h1]
      have h2' : out.length = 2 * n := by rw [h2, hx]
      refine ⟨by simp [h2, hx]; omega, ?_⟩
      rw [List.take_left' h2', h3]
    · rw [if_neg hb]
      push Not at hb
      obtain ⟨hb1, hb2, hb3⟩ := hb
      obtain ⟨n2, rfl⟩ : ∃ n2, n = 2 * n2 := ⟨n / 2, by omega⟩
      have hn2 : 2 * n2 / 2 = n2 := by omega
      have hpos : 0 < n2 := by omega
      rw [hn2]
      obtain ⟨x0, x1, rfl, lx0, lx1⟩ := split_at (z := x) (n := n2) (by omega)
      rw [List.take_left' lx0, List.drop_left' lx0]
      rw [hx] at lx1
      have lx1' : x1.length = n2 := by omega
      -- z0
      obtain ⟨l1, v1⟩ := ih z x0 n2 lx0 hpos (by omega) (by omega)
      generalize karatsubaSqr fuel z x0 = z1 at *
      obtain ⟨Z0, R1, rfl, lZ0, lR1⟩ := split_at (z := z1) (n := 2 * n2) (by omega)
      rw [List.take_left' lZ0] at *
      rw [List.drop_left' lZ0]
      -- z2
      obtain ⟨l2, v2⟩ := ih R1 x1 n2 lx1' hpos (by omega) (by omega)
      generalize karatsubaSqr fuel R1 x1 = z2 at *
      obtain ⟨Z2, R2, rfl, lZ2, lR2⟩ := split_at (z := z2) (n := 2 * n2) (by omega)
      rw [List.take_left' lZ2] at v2
      -- difference
      obtain ⟨lxd, hxd⟩ := absDiff_spec (lx1'.trans lx0.symm)
      generalize absDiff x1 x0 = xd at *
      have lxd' : xd.1.length = n2 := lxd.trans lx1'
      have lR2' : R2.length = z.length - 4 * n2 := by
        simp only [List.length_append] at *
        omega
      obtain ⟨E, R3, rfl, lE, lR3⟩ := split_at (z := R2) (n := n2) (by omega)
      obtain ⟨F, R4, rfl, lF, lR4⟩ := split_at (z := R3) (n := n2) (by omega)
      have w1 : writeAt (Z0 ++ (Z2 ++ (E ++ (F ++ R4)))) (2 * (2 * n2)) xd.1
          = (Z0 ++ (Z2 ++ (xd.1 ++ F))) ++ R4 := by
        rw [← List.append_assoc Z0 Z2, writeAt_app (by simp [lZ0, lZ2]; omega) (by omega)]; simp
      rw [w1]
      have s1 : ((Z0 ++ (Z2 ++ (xd.1 ++ F)) ++ R4).drop (2 * (2 * n2))).take n2 = xd.1 := by
        have : Z0 ++ (Z2 ++ (xd.1 ++ F)) ++ R4 = (Z0 ++ Z2) ++ (xd.1 ++ (F ++ R4)) := by simp
        rw [this]
        exact drop_take_app (by simp [lZ0, lZ2]; omega) lxd'
      have lhead : (Z0 ++ (Z2 ++ (xd.1 ++ F))).length = 2 * (2 * n2) + 2 * n2 := by
        simp [lZ0, lZ2, lxd', lF]; omega
      rw [s1, List.take_left' lhead, List.drop_left' lhead]
      -- p
      obtain ⟨l3, v3⟩ := ih R4 xd.1 n2 lxd' hpos (by omega) (by omega)
      generalize karatsubaSqr fuel R4 xd.1 = z3 at *
      obtain ⟨P, Q, rfl, lP, lQ⟩ := split_at (z := z3) (n := 2 * n2) (by omega)
      rw [List.take_left' lP] at v3
      have lD : (xd.1 ++ F).length = 2 * n2 := by simp [lxd', lF]; omega
      generalize xd.1 ++ F = D at *
      obtain ⟨Q2, lQ2, hcopy⟩ := kara_copy (Q := Q) lZ0 lZ2 lD lP (by omega)
      rw [hcopy _ (by simp only [List.length_append] at *; omega)]
      obtain ⟨A, B, k1, k2, lB, a1, a2, a3, av1, av2⟩ := kara_two (Q2 := Q2) lZ0 lZ2 lD lP
      rw [a1, a2, a3]
      have hTl : (D ++ (P ++ (Z0 ++ (Z2 ++ Q2)))).length = z.length - 4 * n2 := by
        simp only [List.length_append] at *
        omega
      generalize D ++ (P ++ (Z0 ++ (Z2 ++ Q2))) = T at *
      have hprod : (val x0 + 2 ^ (32 * n2) * val x1) * (val x0 + 2 ^ (32 * n2) * val x1) < 2 ^ (32 * (4 * n2)) := by
        have q1 := val_lt (x0 ++ x1)
        rw [hx, val_append, lx0] at q1
        calc _ < 2 ^ (32 * (2 * n2)) * 2 ^ (32 * (2 * n2)) :=
              Nat.mul_lt_mul_of_lt_of_le q1 q1.le (Nat.two_pow_pos _)
          _ = _ := by rw [← Nat.pow_add]; congr 1; ring
      rw [val_append, lx0]
      rw [v1, v2] at av1
      rw [v2] at av2
      have c2 : val x0 * val x0 + val x1 * val x1
          = val x1 * val x0 + val x0 * val x1 + val xd.1 * val xd.1 := by
        rcases hxd with ⟨_, h⟩ | ⟨_, h⟩ <;> rw [← h] <;> ring
      obtain ⟨Dm, km, am, lm, vm⟩ := karaSub_spec' (A := B) (T := T) (x := P ++ (Z0 ++ (Z2 ++ Q2)))
        lB (by simp [lP])
      rw [List.take_left' lP, v3] at vm
      have hlt := val_lt Dm
      rw [lm] at hlt
      rw [am]
      refine ⟨by rw [List.length_append, lm, hTl]; omega, ?_⟩
      rw [List.take_left' (by omega)]
      exact mod_fin hlt hprod (kara_arith_sub c2 av1 av2 vm)

theorem sqrF_spec (fuel : Nat) : ∀ x : Words, x.length < fuel →
    (x = [] → sqrF fuel x = []) ∧ (x ≠ [] → sqrF fuel x = enc (val x * val x)) := by
  induction fuel with
  | zero => intro x h; omega
  | succ fuel ih =>
    intro x hf
    match x, hf with
    | [], _ => simp [sqrF]
    | [d], _ =>
      refine ⟨by simp, fun _ => ?_⟩
      have := mulWW_spec d d
      simp only [sqrF]
      rw [trim_eq_enc (by simp)]
      simp only [val_cons, val_nil, Nat.mul_zero, Nat.add_zero, this]
    | d :: e :: ds, hf =>
      refine ⟨by simp, fun hx => ?_⟩
      have hx2 : 2 ≤ (d :: e :: ds).length := by simp
      simp only [sqrF]
      generalize d :: e :: ds = x at *
      by_cases h1 : x.length < BASIC_SQR_THRESHOLD
      · rw [if_pos h1]
        obtain ⟨out, o1, o2, o3⟩ := basicMul_spec (List.replicate (2 * x.length) 0#32) x x
        have : out ≠ [] := by apply List.ne_nil_of_length_pos; omega
        have e : 2 * x.length - (x.length + x.length) = 0 := by omega
        rw [o1]
        simp only [List.drop_replicate, e, List.replicate_zero, List.append_nil]
        rw [trim_eq_enc this, o3]
      rw [if_neg h1]
      by_cases h2 : x.length < KARATSUBA_SQR_THRESHOLD
      · rw [if_pos h2]
        obtain ⟨out, o1, o2, o3⟩ := basicSqr_spec (z := List.replicate (2 * x.length) 0#32) hx (by simp)
        have : out ≠ [] := by apply List.ne_nil_of_length_pos; omega
        rw [o1]
        simp only [List.drop_replicate, Nat.sub_self, List.replicate_zero, List.append_nil]
        rw [trim_eq_enc this, o3]
      rw [if_neg h2]
      have hk1 := karaLen_le x.length KARATSUBA_SQR_THRESHOLD
      have hk2 := karaLen_pos (t := KARATSUBA_SQR_THRESHOLD) (n := x.length) (by decide) (by omega)
      generalize karaLen x.length KARATSUBA_SQR_THRESHOLD = k at *
      have lx0 : (x.take k).length = k := by simp; omega
      obtain ⟨q1, q2⟩ := karatsubaSqr_spec (k + 1) (List.replicate (max (k * 6) (x.length * 2)) 0#32)
        (x.take k) k lx0 hk2 (by omega) (by rw [List.length_replicate]; omega)
      generalize karatsubaSqr (k + 1) (List.replicate (max (k * 6) (x.length * 2)) 0#32) (x.take k) = zK at *
      rw [List.length_replicate] at q1
      obtain ⟨t1, t2⟩ := truncate_spec (z := zK) (k := k) (N := 2 * x.length) (by omega) (by omega)
      generalize (zK.take (2 * x.length)).take (2 * k) ++
        List.replicate ((zK.take (2 * x.length)).length - 2 * k) 0#32 = z at *
      rw [q2] at t2
      have hvx : val x = val (x.take k) + 2 ^ (32 * k) * val (x.drop k) := by
        conv_lhs => rw [← List.take_append_drop k x]
        rw [val_append, lx0]
      have hlx := val_lt x
      have hprod : val x * val x < 2 ^ (32 * (2 * x.length)) := by
        calc _ < 2 ^ (32 * x.length) * 2 ^ (32 * x.length) :=
              Nat.mul_lt_mul_of_lt_of_le hlx hlx.le (Nat.two_pow_pos _)
          _ = _ := by rw [← Nat.pow_add]; congr 1; ring
      by_cases hmore : k < x.length
      · rw [if_pos hmore]
        have sx := stripZeros_length (x.take k)
        have vx := stripZeros_val (x.take k)
        generalize stripZeros (x.take k) = sx0 at *
        rw [← vx] at hvx t2
        have ldx : (x.drop k).length = x.length - k := by simp
        have hdn : x.drop k ≠ [] := by apply List.ne_nil_of_length_pos; omega
        -- t
        have ht : val (mulKara sx0 (x.drop k)) = val sx0 * val (x.drop k) ∧
            (mulKara sx0 (x.drop k)).length ≤ k + (x.length - k) := by
          by_cases hs : sx0 = []
          · rw [mulKara_nil (Or.inl hs)]; simp [hs]
          · rw [mulKara_spec hs hdn, val_enc]
            refine ⟨rfl, enc_length_le (by omega) ?_⟩
            calc _ < 2 ^ (32 * sx0.length) * 2 ^ (32 * (x.drop k).length) :=
                  Nat.mul_lt_mul_of_lt_of_le (val_lt _) (val_lt _).le (Nat.two_pow_pos _)
              _ = 2 ^ (32 * (sx0.length + (x.drop k).length)) := by rw [← Nat.pow_add]; congr 1; ring
              _ ≤ _ := Nat.pow_le_pow_right (by omega) (by omega)
        obtain ⟨ht1, ht2⟩ := ht
        generalize mulKara sx0 (x.drop k) = t at *
        have hq := (ih (x.drop k) (by omega)).2 hdn
        rw [hq]
        have hlq : (enc (val (x.drop k) * val (x.drop k))).length ≤ 2 * (x.length - k) := by
          apply enc_length_le (by omega)
          have := val_lt (x.drop k)
          rw [ldx] at this
          calc _ < 2 ^ (32 * (x.length - k)) * 2 ^ (32 * (x.length - k)) :=
                Nat.mul_lt_mul_of_lt_of_le this this.le (Nat.two_pow_pos _)
            _ = _ := by rw [← Nat.pow_add]; congr 1; ring
        have htot : val x * val x = val sx0 * val sx0 + 2 ^ (32 * k) * (val sx0 * val (x.drop k))
            + 2 ^ (32 * k) * (val sx0 * val (x.drop k)) + 2 ^ (32 * (2 * k)) * (val (x.drop k) * val (x.drop k)) := by
          have : 2 ^ (32 * (2 * k)) = 2 ^ (32 * k) * 2 ^ (32 * k) := by rw [← Nat.pow_add]; congr 1; ring
          rw [hvx, this]; ring
        rw [htot] at hprod ⊢
        obtain ⟨a1, a2⟩ := addAt_spec (z := z) (x := t) (i := k) (by omega) (by rw [ht1, t1, t2]; omega)
        rw [ht1] at a2
        generalize addAt z t k = z1 at *
        obtain ⟨b1, b2⟩ := addAt_spec (z := z1) (x := t) (i := k) (by omega) (by rw [ht1, a1, a2, t1, t2]; omega)
        rw [ht1] at b2
        generalize addAt z1 t k = z2 at *
        obtain ⟨c1, c2⟩ := addAt_spec (z := z2) (x := enc (val (x.drop k) * val (x.drop k))) (i := 2 * k) (by omega)
          (by rw [val_enc, b1, b2, a1, a2, t1, t2]; omega)
        rw [val_enc] at c2
        have hne : addAt z2 (enc (val (x.drop k) * val (x.drop k))) (2 * k) ≠ [] := by
          apply List.ne_nil_of_length_pos; omega
        rw [trim_eq_enc hne, c2, b2, a2, t2]
      · rw [if_neg hmore]
        have hz1 : z ≠ [] := by apply List.ne_nil_of_length_pos; omega
        rw [trim_eq_enc hz1, t2, List.take_of_length_le (by omega)]

theorem sqrV_spec {x : Words} (hx : x ≠ []) : sqrV x = enc (val x * val x) :=
  (sqrF_spec _ x (Nat.lt_succ_self _)).2 hx

theorem sqrV_enc (a : Nat) : sqrV (enc a) = enc (a * a) := by rw [sqrV_spec (enc_ne_nil a), val_enc]

theorem mulKara_enc (a b : Nat) : mulKara (enc a) (enc b) = enc (a * b) := by
  rw [mulKara_spec (enc_ne_nil a) (enc_ne_nil b), val_enc, val_enc]

theorem natSqr_enc (a : Nat) : natSqr (enc a) = enc (a * a) := by
  rw [natSqr, sqrV_enc, trim_enc]

theorem natMulKaratsuba_enc (a b : Nat) : natMulKaratsuba (enc a) (enc b) = enc (a * b) := by
  rw [natMulKaratsuba, mulKara_enc, trim_enc]

end RMath
