import Verif.Model.NatKara
import Verif.Lemmas.NatGen
import Verif.Lemmas.NatMul
import Verif.Lemmas.NatWord

namespace RMath

/-! ### kernels -/

theorem addVVc_eq (c : Bool) (x y : Words) :
    addVVc (boolW c) x y = ((adcZip c x y).1, boolW (adcZip c x y).2) := by
  induction x generalizing c y with
  | nil => simp [addVVc, adcZip]
  | cons a as ih =>
    cases y with
    | nil => simp [addVVc, adcZip]
    | cons b bs =>
      have h := ovAdd_adc a b c
      simp only [Prod.ext_iff] at h
      simp only [addVVc, adcZip, h.2, ih, h.1]

theorem addVVc_length (c : W) (x y : Words) (h : x.length = y.length) : (addVVc c x y).1.length = x.length := by
  induction x generalizing c y with
  | nil => simp [addVVc]
  | cons a as ih =>
    cases y with
    | nil => simp at h
    | cons b bs => simp only [List.length_cons, Nat.add_right_cancel_iff] at h; simp [addVVc, ih _ _ h]

theorem subVVc_length (c : W) (x y : Words) (h : x.length = y.length) : (subVVc c x y).1.length = x.length := by
  induction x generalizing c y with
  | nil => simp [subVVc]
  | cons a as ih =>
    cases y with
    | nil => simp at h
    | cons b bs => simp only [List.length_cons, Nat.add_right_cancel_iff] at h; simp [subVVc, ih _ _ h]

theorem addVVc_val (c : Bool) (x y : Words) (h : x.length = y.length) :
    val (addVVc (boolW c) x y).1 + 2 ^ (32 * x.length) * (addVVc (boolW c) x y).2.toNat
      = val x + val y + c.toNat ∧ (addVVc (boolW c) x y).2.toNat ≤ 1 := by
  induction x generalizing c y with
  | nil =>
    have : y = [] := by simpa using h.symm
    subst this
    simp only [addVVc, val_nil, boolW_toNat, List.length_nil]
    exact ⟨by simp, Bool.toNat_le c⟩
  | cons a as ih =>
    cases y with
    | nil => simp at h
    | cons b bs =>
      have h' := ovAdd_adc a b c
      simp only [Prod.ext_iff] at h'
      simp only [List.length_cons, Nat.add_right_cancel_iff] at h
      have hs := adc_spec c a b
      obtain ⟨i1, i2⟩ := ih (adc c a b).2 bs h
      simp only [addVVc, h'.1, h'.2, val_cons, List.length_cons, pow32_succ] at *
      refine ⟨?_, i2⟩
      generalize (addVVc (boolW (adc c a b).2) as bs) = r at *
      rw [Nat.mul_assoc]
      generalize 2 ^ (32 * as.length) * r.2.toNat = P at *
      omega

theorem addVV_length {x y : Words} (h : x.length = y.length) : (addVV x y).1.length = x.length :=
  addVVc_length _ _ _ h

theorem addVV_val {x y : Words} (h : x.length = y.length) :
    val (addVV x y).1 + 2 ^ (32 * x.length) * (addVV x y).2.toNat = val x + val y
      ∧ (addVV x y).2.toNat ≤ 1 := addVVc_val false x y h

theorem subVVc_val (c : Bool) (x y : Words) (h : x.length = y.length) :
    val (subVVc (boolW c) x y).1 + val y + c.toNat
      = val x + 2 ^ (32 * x.length) * (subVVc (boolW c) x y).2.toNat
      ∧ (subVVc (boolW c) x y).2.toNat ≤ 1 := by
  induction x generalizing c y with
  | nil =>
    have : y = [] := by simpa using h.symm
    subst this
    simp only [subVVc, val_nil, boolW_toNat, List.length_nil]
    exact ⟨by simp, Bool.toNat_le c⟩
  | cons a as ih =>
    cases y with
    | nil => simp at h
    | cons b bs =>
      have h' := ovSub_sbb a b c
      simp only [Prod.ext_iff] at h'
      rw [Bool.or_comm] at h'
      simp only [List.length_cons, Nat.add_right_cancel_iff] at h
      have hs := sbb_spec c a b
      obtain ⟨i1, i2⟩ := ih (sbb c a b).2 bs h
      simp only [subVVc, h'.1, h'.2, val_cons, List.length_cons, pow32_succ] at *
      refine ⟨?_, i2⟩
      generalize (subVVc (boolW (sbb c a b).2) as bs) = r at *
      rw [Nat.mul_assoc]
      generalize 2 ^ (32 * as.length) * r.2.toNat = P at *
      omega

theorem subVV_length {x y : Words} (h : x.length = y.length) : (subVV x y).1.length = x.length :=
  subVVc_length _ _ _ h

theorem subVV_val {x y : Words} (h : x.length = y.length) :
    val (subVV x y).1 + val y = val x + 2 ^ (32 * x.length) * (subVV x y).2.toNat
      ∧ (subVV x y).2.toNat ≤ 1 := subVVc_val false x y h

theorem addVW_length (c : W) (x : Words) : (addVW c x).1.length = x.length := by
  induction x generalizing c with
  | nil => rfl
  | cons a as ih => simp [addVW, ih]

theorem subVW_length (c : W) (x : Words) : (subVW c x).1.length = x.length := by
  induction x generalizing c with
  | nil => rfl
  | cons a as ih => simp [subVW, ih]

theorem addVW_val (c : W) (x : Words) :
    val (addVW c x).1 + 2 ^ (32 * x.length) * (addVW c x).2.toNat = val x + c.toNat := by
  induction x generalizing c with
  | nil => simp [addVW]
  | cons a as ih =>
    have hs := overflowingAdd_spec a c
    have i := ih (boolW (overflowingAdd a c).2)
    rw [boolW_toNat] at i
    simp only [addVW, val_cons, List.length_cons, pow32_succ, Nat.mul_assoc] at *
    generalize addVW (boolW (overflowingAdd a c).2) as = r at *
    generalize 2 ^ (32 * as.length) * r.2.toNat = P at *
    omega

theorem subVW_val (c : W) (x : Words) :
    val (subVW c x).1 + c.toNat = val x + 2 ^ (32 * x.length) * (subVW c x).2.toNat := by
  induction x generalizing c with
  | nil => simp [subVW]
  | cons a as ih =>
    have hs := overflowingSub_spec a c
    have i := ih (boolW (overflowingSub a c).2)
    rw [boolW_toNat] at i
    simp only [subVW, val_cons, List.length_cons, pow32_succ, Nat.mul_assoc] at *
    generalize subVW (boolW (overflowingSub a c).2) as = r at *
    generalize 2 ^ (32 * as.length) * r.2.toNat = P at *
    omega

theorem mulAddWWW_spec (x y c : W) :
    (mulAddWWW x y c).2.toNat + 2 ^ 32 * (mulAddWWW x y c).1.toNat = x.toNat * y.toNat + c.toNat := by
  have h1 := mul_lt_64 x y
  have h2 := c.isLt
  have h3 : (toD x * toD y + toD c).toNat = x.toNat * y.toNat + c.toNat := by
    rw [BitVec.toNat_add, toD_mul_toNat, toD_toNat, Nat.mod_eq_of_lt (by omega)]
  simp only [mulAddWWW, toW_toNat, shr32_toNat, mask64_and, h3]
  omega

theorem mulWW_spec (x y : W) :
    (mulWW x y).2.toNat + 2 ^ 32 * (mulWW x y).1.toNat = x.toNat * y.toNat := by
  have h1 := mul_lt_64 x y
  simp only [mulWW, toW_toNat, shr32_toNat, mask64_and, toD_mul_toNat]
  omega

theorem mulAddVWW_length (y c : W) (x : Words) : (mulAddVWW y c x).1.length = x.length := by
  induction x generalizing c with
  | nil => rfl
  | cons a as ih => simp [mulAddVWW, ih]

theorem mulAddVWW_val (y c : W) (x : Words) :
    val (mulAddVWW y c x).1 + 2 ^ (32 * x.length) * (mulAddVWW y c x).2.toNat
      = val x * y.toNat + c.toNat := by
  induction x generalizing c with
  | nil => simp [mulAddVWW]
  | cons a as ih =>
    have hs := mulAddWWW_spec a y c
    have i := ih (mulAddWWW a y c).1
    simp only [mulAddVWW, val_cons, List.length_cons, pow32_succ, Nat.mul_assoc, Nat.add_mul] at *
    generalize mulAddVWW y (mulAddWWW a y c).1 as = r at *
    generalize 2 ^ (32 * as.length) * r.2.toNat = P at *
    generalize a.toNat * y.toNat = Q at *
    generalize val as * y.toNat = R at *
    omega

theorem addMulVVWc_length (y c : W) (z x : Words) (h : z.length = x.length) :
    (addMulVVWc y c z x).1.length = z.length := by
  induction z generalizing c x with
  | nil => simp [addMulVVWc]
  | cons a as ih =>
    cases x with
    | nil => simp at h
    | cons b bs => simp only [List.length_cons, Nat.add_right_cancel_iff] at h; simp [addMulVVWc, ih _ _ h]

theorem addMulStep (x y z c : W) :
    let p := mulAddWWW x y z
    let l := overflowingAdd p.2 c
    l.1.toNat + 2 ^ 32 * (if l.2 then 1#32 + p.1 else p.1).toNat = x.toNat * y.toNat + z.toNat + c.toNat := by
  simp only
  have h1 := mulAddWWW_spec x y z
  have h2 := overflowingAdd_spec (mulAddWWW x y z).2 c
  have h3 := mul_lt_64 x y
  have h4 := z.isLt
  have h5 := c.isLt
  have h6 := (mulAddWWW x y z).1.isLt
  have h7 := (overflowingAdd (mulAddWWW x y z).2 c).1.isLt
  generalize overflowingAdd (mulAddWWW x y z).2 c = l at *
  generalize mulAddWWW x y z = p at *
  generalize x.toNat * y.toNat = Q at *
  obtain ⟨l1, l2⟩ := l
  cases l2
  · simp only [Bool.toNat_false, Bool.false_eq_true, if_false] at *; omega
  · simp only [Bool.toNat_true, if_true, BitVec.toNat_add, BitVec.toNat_ofNat] at *; omega

theorem addMulVVWc_val (y c : W) (z x : Words) (h : z.length = x.length) :
    val (addMulVVWc y c z x).1 + 2 ^ (32 * x.length) * (addMulVVWc y c z x).2.toNat
      = val z + val x * y.toNat + c.toNat := by
  induction z generalizing c x with
  | nil =>
    have : x = [] := by simpa using h.symm
    subst this
    simp [addMulVVWc]
  | cons a as ih =>
    cases x with
    | nil => simp at h
    | cons b bs =>
      simp only [List.length_cons, Nat.add_right_cancel_iff] at h
      have hs := addMulStep b y a c
      simp only [addMulVVWc, val_cons, List.length_cons, pow32_succ, Nat.mul_assoc, Nat.add_mul] at *
      generalize (if (overflowingAdd (mulAddWWW b y a).2 c).2 = true then 1#32 + (mulAddWWW b y a).1
        else (mulAddWWW b y a).1) = cc at *
      have i := ih cc bs h
      generalize addMulVVWc y cc as bs = r at *
      generalize 2 ^ (32 * bs.length) * r.2.toNat = P at *
      generalize b.toNat * y.toNat = Q at *
      generalize val bs * y.toNat = R at *
      omega

theorem addMulVVW_length {z x : Words} (h : z.length = x.length) (y : W) :
    (addMulVVW z x y).1.length = z.length := addMulVVWc_length _ _ _ _ h

theorem addMulVVW_val {z x : Words} (h : z.length = x.length) (y : W) :
    val (addMulVVW z x y).1 + 2 ^ (32 * x.length) * (addMulVVW z x y).2.toNat
      = val z + val x * y.toNat := by
  have := addMulVVWc_val y 0#32 z x h
  simpa [addMulVVW] using this

/-! ### basic multiplication -/

theorem basicMulLoop_spec (x : Words) (ds : Words) :
    ∀ (lo rest : Words), lo.length = x.length →
    ∃ out : Words, basicMulLoop x (lo ++ List.replicate ds.length 0#32 ++ rest) ds = out ++ rest
      ∧ out.length = x.length + ds.length ∧ val out = val lo + val x * val ds := by
  induction ds with
  | nil => intro lo rest hl; exact ⟨lo, by simp [basicMulLoop], by simp [hl], by simp⟩
  | cons d ds ih =>
    intro lo rest hl
    -- the buffer after the step
    have hstep : ∃ (lo' : Words) (c : W), lo'.length = x.length
        ∧ val lo' + 2 ^ (32 * x.length) * c.toNat = val lo + val x * d.toNat
        ∧ (if d ≠ 0#32 then
            (addMulVVW ((lo ++ List.replicate (ds.length + 1) 0#32 ++ rest).take x.length) x d).1 ++
            [(addMulVVW ((lo ++ List.replicate (ds.length + 1) 0#32 ++ rest).take x.length) x d).2] ++
            (lo ++ List.replicate (ds.length + 1) 0#32 ++ rest).drop (x.length + 1)
          else lo ++ List.replicate (ds.length + 1) 0#32 ++ rest)
          = lo' ++ c :: (List.replicate ds.length 0#32 ++ rest) := by
      by_cases hd : d = 0#32
      · refine ⟨lo, 0#32, hl, by simp [hd], ?_⟩
        rw [if_neg (by simp [hd])]
        simp [List.replicate_succ]
      · rw [if_pos hd]
        have ht : (lo ++ List.replicate (ds.length + 1) 0#32 ++ rest).take x.length = lo := by
          rw [List.append_assoc, ← hl, List.take_left']; rfl
        have hdr : (lo ++ List.replicate (ds.length + 1) 0#32 ++ rest).drop (x.length + 1)
            = List.replicate ds.length 0#32 ++ rest := by
          rw [← hl, List.append_assoc, List.drop_append, List.replicate_succ]
          simp
        rw [ht, hdr]
        exact ⟨_, _, (addMulVVW_length hl d).trans hl, addMulVVW_val hl d, by simp⟩
    obtain ⟨lo', c, hl', hv, he⟩ := hstep
    simp only [basicMulLoop, List.length_cons]
    rw [he]
    -- pop the lowest word
    have hpop : ∃ w lo2, lo' ++ [c] = w :: lo2 ∧ lo2.length = x.length := by
      cases hq : lo' ++ [c] with
      | nil => simp at hq
      | cons w lo2 =>
        refine ⟨w, lo2, rfl, ?_⟩
        have := congrArg List.length hq
        simp at this; omega
    obtain ⟨w, lo2, hw, hl2⟩ := hpop
    have e : lo' ++ c :: (List.replicate ds.length 0#32 ++ rest)
        = w :: (lo2 ++ List.replicate ds.length 0#32 ++ rest) := by
      have : lo' ++ c :: (List.replicate ds.length 0#32 ++ rest)
        = (lo' ++ [c]) ++ (List.replicate ds.length 0#32 ++ rest) := by simp
      rw [this, hw]; simp
    rw [e]
    obtain ⟨out, ho, hlen, hval⟩ := ih lo2 rest hl2
    refine ⟨w :: out, by simp only [ho, List.cons_append], by simp [hlen]; omega, ?_⟩
    have hv2 : val lo' + 2 ^ (32 * x.length) * c.toNat = w.toNat + 2 ^ 32 * val lo2 := by
      have := congrArg val hw
      rw [val_append, hl'] at this
      simpa using this
    simp only [val_cons, hval]
    have : val x * (d.toNat + 2 ^ 32 * val ds) = val x * d.toNat + 2 ^ 32 * (val x * val ds) := by ring
    rw [this]
    omega

theorem basicMul_spec (z x y : Words) :
    ∃ out : Words, basicMul z x y = out ++ z.drop (x.length + y.length)
      ∧ out.length = x.length + y.length ∧ val out = val x * val y := by
  obtain ⟨out, h1, h2, h3⟩ := basicMulLoop_spec x y (List.replicate x.length 0#32)
    (z.drop (x.length + y.length)) (by simp)
  refine ⟨out, ?_, h2, by simpa using h3⟩
  rw [basicMul, ← h1, List.replicate_append_replicate]

theorem mulAddWW_spec {x : Words} (hx : x ≠ []) (y r : W) :
    mulAddWW x y r = enc (val x * y.toNat + r.toNat) := by
  unfold mulAddWW
  have hx' : x.length ≠ 0 := by simpa using hx
  by_cases hy : y = 0#32
  · rw [if_pos (Or.inr hy)]
    symm; rw [hy, enc_lt (by simpa using r.isLt)]; simp
  · rw [if_neg (by simp [hx', hy])]
    simp only
    rw [trim_eq_enc (by simp), val_append, mulAddVWW_length]
    have := mulAddVWW_val y r x
    simp only [val_cons, val_nil, Nat.mul_zero, Nat.add_zero]
    rw [this]

/-! ### Karatsuba -/

theorem writeAt_app {A B C v : Words} {i : Nat} (hA : A.length = i) (hB : B.length = v.length) :
    writeAt (A ++ (B ++ C)) i v = A ++ (v ++ C) := by
  unfold writeAt
  rw [List.take_left' hA, ← List.append_assoc A B C, List.drop_left' (by simp [hA, hB]), List.append_assoc]

theorem drop_take_app {A B C : Words} {i n : Nat} (hA : A.length = i) (hB : B.length = n) :
    ((A ++ (B ++ C)).drop i).take n = B := by
  rw [List.drop_left' hA, List.take_left' hB]

/-- splitting a list at a position -/
theorem split_at {z : Words} {n : Nat} (h : n ≤ z.length) :
    ∃ A B : Words, z = A ++ B ∧ A.length = n ∧ B.length = z.length - n :=
  ⟨z.take n, z.drop n, (List.take_append_drop n z).symm, by simp [h], by simp⟩

theorem karaAdd_spec {A0 A1 A2 T x : Words} {n n2 : Nat} (hn : n / 2 = n2) (h0 : A0.length = n2) (h1 : A1.length = n)
    (h2 : A2.length = n2) (hx : n ≤ x.length) :
    ∃ A' : Words, ∃ k : Nat, karaAdd (A0 ++ (A1 ++ (A2 ++ T))) n2 x n = A' ++ T ∧ A'.length = n2 + n + n2
      ∧ val A' + k * 2 ^ (32 * (n2 + n + n2))
        = val (A0 ++ (A1 ++ A2)) + 2 ^ (32 * n2) * val (x.take n) := by
  have hxt : A1.length = (x.take n).length := by simp [h1, hx]
  obtain ⟨v1, v2⟩ := addVV_val hxt
  have hl := addVV_length hxt
  unfold karaAdd
  rw [drop_take_app h0 h1]
  simp only
  rw [writeAt_app h0 hl.symm]
  generalize addVV A1 (x.take n) = r at *
  have e3 : 2 ^ (32 * (n2 + n + n2)) = 2 ^ (32 * n2) * (2 ^ (32 * n) * 2 ^ (32 * n2)) := by
    rw [← Nat.pow_add, ← Nat.pow_add]; congr 1; ring
  by_cases hc : r.2 = 0#32
  · rw [if_neg (by simp [hc])]
    refine ⟨A0 ++ (r.1 ++ A2), 0, by simp, by simp [h0, hl, h1, h2]; omega, ?_⟩
    rw [hc] at v1
    simp only [val_append, h0, h1, hl]
    simp only [BitVec.toNat_ofNat, Nat.zero_mod, Nat.mul_zero, Nat.add_zero] at v1
    rw [v1]; ring
  · rw [if_pos hc]
    have hA1 : r.1.length = n := by rw [hl, h1]
    have e : A0 ++ (r.1 ++ (A2 ++ T)) = (A0 ++ r.1) ++ (A2 ++ T) := by simp
    have w := addVW_val r.2 A2
    have wl := addVW_length r.2 A2
    rw [e, hn, drop_take_app (by simp [h0, hA1]) h2, writeAt_app (by simp [h0, hA1]) wl.symm]
    generalize addVW r.2 A2 = q at *
    refine ⟨A0 ++ (r.1 ++ q.1), q.2.toNat, by simp, by simp [h0, hA1, h2, wl]; omega, ?_⟩
    rw [e3]
    simp only [val_append, h0, h1, h2, hA1] at *
    calc _ = val A0 + 2 ^ (32 * n2) * (val r.1 + 2 ^ (32 * n) * (val q.1 + 2 ^ (32 * n2) * q.2.toNat)) := by ring
      _ = val A0 + 2 ^ (32 * n2) * ((val r.1 + 2 ^ (32 * n) * r.2.toNat) + 2 ^ (32 * n) * val A2) := by rw [w]; ring
      _ = _ := by rw [v1]; ring

theorem karaSub_spec {A0 A1 A2 T x : Words} {n n2 : Nat} (hn : n / 2 = n2) (h0 : A0.length = n2) (h1 : A1.length = n)
    (h2 : A2.length = n2) (hx : n ≤ x.length) :
    ∃ A' : Words, ∃ k : Nat, karaSub (A0 ++ (A1 ++ (A2 ++ T))) n2 x n = A' ++ T ∧ A'.length = n2 + n + n2
      ∧ val A' + 2 ^ (32 * n2) * val (x.take n)
        = val (A0 ++ (A1 ++ A2)) + k * 2 ^ (32 * (n2 + n + n2)) := by
  have hxt : A1.length = (x.take n).length := by simp [h1, hx]
  obtain ⟨v1, v2⟩ := subVV_val hxt
  have hl := subVV_length hxt
  unfold karaSub
  rw [drop_take_app h0 h1]
  simp only
  rw [writeAt_app h0 hl.symm]
  generalize subVV A1 (x.take n) = r at *
  have e3 : 2 ^ (32 * (n2 + n + n2)) = 2 ^ (32 * n2) * (2 ^ (32 * n) * 2 ^ (32 * n2)) := by
    rw [← Nat.pow_add, ← Nat.pow_add]; congr 1; ring
  by_cases hc : r.2 = 0#32
  · rw [if_neg (by simp [hc])]
    refine ⟨A0 ++ (r.1 ++ A2), 0, by simp, by simp [h0, hl, h1, h2]; omega, ?_⟩
    rw [hc] at v1
    simp only [val_append, h0, h1, hl]
    simp only [BitVec.toNat_ofNat, Nat.zero_mod, Nat.mul_zero, Nat.add_zero] at v1
    rw [← v1]; ring
  · rw [if_pos hc]
    have hA1 : r.1.length = n := by rw [hl, h1]
    have e : A0 ++ (r.1 ++ (A2 ++ T)) = (A0 ++ r.1) ++ (A2 ++ T) := by simp
    have w := subVW_val r.2 A2
    have wl := subVW_length r.2 A2
    rw [e, hn, drop_take_app (by simp [h0, hA1]) h2, writeAt_app (by simp [h0, hA1]) wl.symm]
    generalize subVW r.2 A2 = q at *
    refine ⟨A0 ++ (r.1 ++ q.1), q.2.toNat, by simp, by simp [h0, hA1, h2, wl]; omega, ?_⟩
    rw [e3]
    simp only [val_append, h0, h1, h2, hA1] at *
    calc _ = val A0 + 2 ^ (32 * n2) * ((val r.1 + val (x.take n)) + 2 ^ (32 * n) * val q.1) := by ring
      _ = val A0 + 2 ^ (32 * n2) * (val A1 + 2 ^ (32 * n) * (val q.1 + r.2.toNat)) := by rw [v1]; ring
      _ = _ := by rw [w]; ring

theorem absDiff_spec {a b : Words} (h : a.length = b.length) :
    (absDiff a b).1.length = a.length ∧
    ((absDiff a b).2 = false ∧ val (absDiff a b).1 + val b = val a
      ∨ (absDiff a b).2 = true ∧ val (absDiff a b).1 + val a = val b) := by
  obtain ⟨v1, v2⟩ := subVV_val h
  obtain ⟨w1, w2⟩ := subVV_val h.symm
  have l1 := subVV_length h
  have l2 := subVV_length h.symm
  have b1 := val_lt (subVV a b).1
  have b2 := val_lt (subVV b a).1
  unfold absDiff
  simp only
  by_cases hc : (subVV a b).2 = 0#32
  · rw [if_neg (by simp [hc])]
    refine ⟨l1, Or.inl ⟨rfl, ?_⟩⟩
    rw [hc] at v1; simpa using v1
  · rw [if_pos hc]
    refine ⟨by rw [l2, h], Or.inr ⟨rfl, ?_⟩⟩
    have h1 : (subVV a b).2.toNat = 1 := by
      have : (subVV a b).2.toNat ≠ 0 := by simpa [← BitVec.toNat_inj] using hc
      omega
    have h0 : (subVV b a).2.toNat = 0 ∨ (subVV b a).2.toNat = 1 := by omega
    rw [h1] at v1
    rw [l1, h] at b1
    rw [l2] at b2
    rw [h] at v1
    simp only
    rcases h0 with h0 | h0 <;> rw [h0] at w1 <;> omega

theorem kara_arith_add {M b X0 X1 Y0 Y1 P VB VC VD k1 k2 k3 : Nat}
    (hp : X0 * Y0 + X1 * Y1 + P = X1 * Y0 + X0 * Y1)
    (h1 : VB + k1 * M = X0 * Y0 + b * b * (X1 * Y1) + b * (X0 * Y0))
    (h2 : VC + k2 * M = VB + b * (X1 * Y1)) (h3 : VD + k3 * M = VC + b * P) :
    VD + (k3 + k2 + k1) * M = (X0 + b * X1) * (Y0 + b * Y1) + 0 * M := by
  have : (X0 + b * X1) * (Y0 + b * Y1) = X0 * Y0 + b * (X1 * Y0 + X0 * Y1) + b * b * (X1 * Y1) := by ring
  rw [this, ← hp]
  calc _ = (VD + k3 * M) + k2 * M + k1 * M := by ring
    _ = (VC + k2 * M) + k1 * M + b * P := by rw [h3]; ring
    _ = (VB + k1 * M) + b * (X1 * Y1) + b * P := by rw [h2]; ring
    _ = _ := by rw [h1]; ring

theorem kara_arith_sub {M b X0 X1 Y0 Y1 P VB VC VD k1 k2 k3 : Nat}
    (hp : X0 * Y0 + X1 * Y1 = X1 * Y0 + X0 * Y1 + P)
    (h1 : VB + k1 * M = X0 * Y0 + b * b * (X1 * Y1) + b * (X0 * Y0))
    (h2 : VC + k2 * M = VB + b * (X1 * Y1)) (h3 : VD + b * P = VC + k3 * M) :
    VD + (k2 + k1) * M = (X0 + b * X1) * (Y0 + b * Y1) + k3 * M := by
  have e : (X0 + b * X1) * (Y0 + b * Y1) = X0 * Y0 + b * (X1 * Y0 + X0 * Y1) + b * b * (X1 * Y1) := by ring
  have : VD + (k2 + k1) * M + b * P = (X0 + b * X1) * (Y0 + b * Y1) + k3 * M + b * P := by
    rw [e]
    calc _ = (VD + b * P) + k2 * M + k1 * M := by ring
      _ = (VC + k2 * M) + k1 * M + k3 * M := by rw [h3]; ring
      _ = (VB + k1 * M) + b * (X1 * Y1) + k3 * M := by rw [h2]; ring
      _ = X0 * Y0 + b * (X0 * Y0 + X1 * Y1) + b * b * (X1 * Y1) + k3 * M := by rw [h1]; ring
      _ = _ := by rw [hp]; ring
  exact Nat.add_right_cancel this

theorem kara_cross {X0 X1 Y0 Y1 XD YD : Nat} {s t : Bool}
    (hx : s = false ∧ XD + X0 = X1 ∨ s = true ∧ XD + X1 = X0)
    (hy : t = false ∧ YD + Y1 = Y0 ∨ t = true ∧ YD + Y0 = Y1) :
    (s = t → X0 * Y0 + X1 * Y1 + XD * YD = X1 * Y0 + X0 * Y1)
    ∧ (s ≠ t → X0 * Y0 + X1 * Y1 = X1 * Y0 + X0 * Y1 + XD * YD) := by
  rcases hx with ⟨rfl, rfl⟩ | ⟨rfl, rfl⟩ <;> rcases hy with ⟨rfl, rfl⟩ | ⟨rfl, rfl⟩ <;>
    simp only [ne_eq, not_true_eq_false, Bool.false_eq_true, Bool.true_eq_false, not_false_eq_true,
      false_imp_iff, true_imp_iff, and_true, true_and] <;> ring

theorem mod_fin {M a c i j : Nat} (ha : a < M) (hc : c < M) (h : a + i * M = c + j * M) : a = c := by
  have := congrArg (· % M) h
  simp only [Nat.add_mul_mod_self_right] at this
  rwa [Nat.mod_eq_of_lt ha, Nat.mod_eq_of_lt hc] at this

theorem karaAdd_spec' {A T x : Words} {n2 : Nat} (hA : A.length = 4 * n2) (hx : 2 * n2 ≤ x.length) :
    ∃ A' : Words, ∃ k : Nat, karaAdd (A ++ T) n2 x (2 * n2) = A' ++ T ∧ A'.length = 4 * n2
      ∧ val A' + k * 2 ^ (32 * (4 * n2)) = val A + 2 ^ (32 * n2) * val (x.take (2 * n2)) := by
  obtain ⟨B0, B', rfl, lB0, lB'⟩ := split_at (z := A) (n := n2) (by omega)
  obtain ⟨B1, B2, rfl, lB1, lB2⟩ := split_at (z := B') (n := 2 * n2) (by omega)
  obtain ⟨A', k, h1, h2, h3⟩ := karaAdd_spec (A0 := B0) (A1 := B1) (A2 := B2) (T := T)
    (x := x) (n := 2 * n2) (n2 := n2) (by omega) lB0 lB1 (by omega) hx
  refine ⟨A', k, ?_, by omega, ?_⟩
  · rw [← h1]; simp
  · rw [← h3]; congr 4; omega

theorem karaSub_spec' {A T x : Words} {n2 : Nat} (hA : A.length = 4 * n2) (hx : 2 * n2 ≤ x.length) :
    ∃ A' : Words, ∃ k : Nat, karaSub (A ++ T) n2 x (2 * n2) = A' ++ T ∧ A'.length = 4 * n2
      ∧ val A' + 2 ^ (32 * n2) * val (x.take (2 * n2)) = val A + k * 2 ^ (32 * (4 * n2)) := by
  obtain ⟨B0, B', rfl, lB0, lB'⟩ := split_at (z := A) (n := n2) (by omega)
  obtain ⟨B1, B2, rfl, lB1, lB2⟩ := split_at (z := B') (n := 2 * n2) (by omega)
  obtain ⟨A', k, h1, h2, h3⟩ := karaSub_spec (A0 := B0) (A1 := B1) (A2 := B2) (T := T)
    (x := x) (n := 2 * n2) (n2 := n2) (by omega) lB0 lB1 (by omega) hx
  refine ⟨A', k, ?_, by omega, ?_⟩
  · rw [← h1]; simp
  · rw [h3]; congr 4; omega

/-- Storing the differences: `z[2n..3n]`. -/
theorem kara_store {Z0 Z2 R2 u v : Words} {n2 : Nat} (h0 : Z0.length = 2 * n2) (h2 : Z2.length = 2 * n2)
    (hu : u.length = n2) (hv : v.length = n2) (hR : 2 * n2 ≤ R2.length) :
    ∃ R4 : Words, R4.length = R2.length - 2 * n2 ∧
      writeAt (writeAt (Z0 ++ (Z2 ++ R2)) (2 * (2 * n2)) u) (2 * (2 * n2) + n2) v
        = (Z0 ++ (Z2 ++ (u ++ v))) ++ R4 := by
  obtain ⟨E1, R3, rfl, lE1, lR3⟩ := split_at (z := R2) (n := n2) (by omega)
  obtain ⟨E2, R4, rfl, lE2, lR4⟩ := split_at (z := R3) (n := n2) (by omega)
  refine ⟨R4, by omega, ?_⟩
  have w1 : writeAt (Z0 ++ (Z2 ++ (E1 ++ (E2 ++ R4)))) (2 * (2 * n2)) u = Z0 ++ (Z2 ++ (u ++ (E2 ++ R4))) := by
    rw [← List.append_assoc Z0 Z2, writeAt_app (by simp [h0, h2]; omega) (by omega)]; simp
  rw [w1]
  have : Z0 ++ (Z2 ++ (u ++ (E2 ++ R4))) = (Z0 ++ (Z2 ++ u)) ++ (E2 ++ R4) := by simp
  rw [this, writeAt_app (by simp [h0, h2, hu]; omega) (by omega)]; simp

/-- Saving `z2:z0` in `z[4n..6n]`. -/
theorem kara_copy {Z0 Z2 D P Q : Words} {n2 : Nat} (h0 : Z0.length = 2 * n2) (h2 : Z2.length = 2 * n2)
    (hD : D.length = 2 * n2) (hP : P.length = 2 * n2) (hQ : 4 * n2 ≤ Q.length) :
    ∃ Q2 : Words, Q2.length = Q.length - 4 * n2 ∧ ∀ m, m = 2 * (2 * n2) →
      writeAt (Z0 ++ (Z2 ++ D) ++ (P ++ Q)) (4 * (2 * n2)) ((Z0 ++ (Z2 ++ D) ++ (P ++ Q)).take m)
        = (Z0 ++ Z2) ++ (D ++ (P ++ (Z0 ++ (Z2 ++ Q2)))) := by
  obtain ⟨Q1, Q2, rfl, lQ1, lQ2⟩ := split_at (z := Q) (n := 4 * n2) (by omega)
  refine ⟨Q2, by omega, ?_⟩
  rintro m rfl
  have e1 : Z0 ++ (Z2 ++ D) ++ (P ++ (Q1 ++ Q2)) = (Z0 ++ Z2) ++ (D ++ (P ++ (Q1 ++ Q2))) := by simp
  rw [e1, List.take_left' (by simp [h0, h2]; omega)]
  have e2 : (Z0 ++ Z2) ++ (D ++ (P ++ (Q1 ++ Q2))) = (Z0 ++ (Z2 ++ (D ++ P))) ++ (Q1 ++ Q2) := by simp
  rw [e2, writeAt_app (by simp [h0, h2, hD, hP]; omega) (by simp [lQ1, h0, h2]; omega)]
  simp

/-- Adding `z0` and `z2` in the middle. -/
theorem kara_two {Z0 Z2 D P Q2 : Words} {n2 : Nat} (h0 : Z0.length = 2 * n2) (h2 : Z2.length = 2 * n2)
    (hD : D.length = 2 * n2) (hP : P.length = 2 * n2) :
    ∃ (A B : Words) (k1 k2 : Nat), B.length = 4 * n2
      ∧ karaAdd ((Z0 ++ Z2) ++ (D ++ (P ++ (Z0 ++ (Z2 ++ Q2))))) n2
          (((Z0 ++ Z2) ++ (D ++ (P ++ (Z0 ++ (Z2 ++ Q2))))).drop (4 * (2 * n2))) (2 * n2)
        = A ++ (D ++ (P ++ (Z0 ++ (Z2 ++ Q2))))
      ∧ karaAdd (A ++ (D ++ (P ++ (Z0 ++ (Z2 ++ Q2))))) n2
          ((A ++ (D ++ (P ++ (Z0 ++ (Z2 ++ Q2))))).drop (4 * (2 * n2) + 2 * n2)) (2 * n2)
        = B ++ (D ++ (P ++ (Z0 ++ (Z2 ++ Q2))))
      ∧ (B ++ (D ++ (P ++ (Z0 ++ (Z2 ++ Q2))))).drop (2 * (2 * n2) + 2 * n2) = P ++ (Z0 ++ (Z2 ++ Q2))
      ∧ val A + k1 * 2 ^ (32 * (4 * n2))
          = val Z0 + 2 ^ (32 * n2) * 2 ^ (32 * n2) * val Z2 + 2 ^ (32 * n2) * val Z0
      ∧ val B + k2 * 2 ^ (32 * (4 * n2)) = val A + 2 ^ (32 * n2) * val Z2 := by
  have hb : 2 ^ (32 * (2 * n2)) = 2 ^ (32 * n2) * 2 ^ (32 * n2) := by rw [← Nat.pow_add]; congr 1; ring
  have d1 : ((Z0 ++ Z2) ++ (D ++ (P ++ (Z0 ++ (Z2 ++ Q2))))).drop (4 * (2 * n2)) = Z0 ++ (Z2 ++ Q2) := by
    have : (Z0 ++ Z2) ++ (D ++ (P ++ (Z0 ++ (Z2 ++ Q2))))
        = (Z0 ++ (Z2 ++ (D ++ P))) ++ (Z0 ++ (Z2 ++ Q2)) := by simp
    rw [this, List.drop_left' (by simp [h0, h2, hD, hP]; omega)]
  obtain ⟨A, k1, a1, a2, a3⟩ := karaAdd_spec' (A := Z0 ++ Z2) (T := D ++ (P ++ (Z0 ++ (Z2 ++ Q2))))
    (x := Z0 ++ (Z2 ++ Q2)) (n2 := n2) (by simp [h0, h2]; omega) (by simp [h0])
  have d2 : (A ++ (D ++ (P ++ (Z0 ++ (Z2 ++ Q2))))).drop (4 * (2 * n2) + 2 * n2) = Z2 ++ Q2 := by
    have : A ++ (D ++ (P ++ (Z0 ++ (Z2 ++ Q2)))) = (A ++ (D ++ (P ++ Z0))) ++ (Z2 ++ Q2) := by simp
    rw [this, List.drop_left' (by simp [a2, h0, hD, hP]; omega)]
  obtain ⟨B, k2, b1, b2, b3⟩ := karaAdd_spec' (A := A) (T := D ++ (P ++ (Z0 ++ (Z2 ++ Q2))))
    (x := Z2 ++ Q2) (n2 := n2) a2 (by simp [h2])
  rw [List.take_left' h0, val_append, h0, hb] at a3
  rw [List.take_left' h2] at b3
  refine ⟨A, B, k1, k2, b2, by rw [d1, a1], by rw [d2, b1], ?_, a3, b3⟩
  have : B ++ (D ++ (P ++ (Z0 ++ (Z2 ++ Q2)))) = (B ++ D) ++ (P ++ (Z0 ++ (Z2 ++ Q2))) := by simp
  rw [this, List.drop_left' (by simp [b2, hD]; omega)]

set_option maxHeartbeats 1000000 in
theorem karatsuba_spec (fuel : Nat) : ∀ (z x y : Words) (n : Nat), x.length = n → y.length = n → n < fuel →
    6 * n ≤ z.length →
    (karatsuba fuel z x y).length = z.length ∧ val ((karatsuba fuel z x y).take (2 * n)) = val x * val y := by
  induction fuel with
  | zero => intro z x y n _ _ h; omega
  | succ fuel ih =>
    intro z x y n hx hy hf hz
    unfold karatsuba
    simp only [hy]
    by_cases hb : n % 2 ≠ 0 ∨ n < KARATSUBA_THRESHOLD ∨ n < 2
    · rw [if_pos hb]
      obtain ⟨out, h1, h2, h3⟩ := basicMul_spec z x y
      rw [h1]
      have h2' : out.length = 2 * n := by rw [h2, hx, hy]; ring
      refine ⟨by simp [h2, hx, hy]; omega, ?_⟩
      rw [List.take_left' h2', h3]
    · rw [if_neg hb]
      push Not at hb
      obtain ⟨hb1, hb2, hb3⟩ := hb
      obtain ⟨n2, rfl⟩ : ∃ n2, n = 2 * n2 := ⟨n / 2, by omega⟩
      have hn2 : 2 * n2 / 2 = n2 := by omega
      have hpos : 0 < n2 := by omega
      rw [hn2]
      obtain ⟨x0, x1, rfl, lx0, lx1⟩ := split_at (z := x) (n := n2) (by omega)
      obtain ⟨y0, y1, rfl, ly0, ly1⟩ := split_at (z := y) (n := n2) (by omega)
      rw [List.take_left' lx0, List.drop_left' lx0, List.take_left' ly0, List.drop_left' ly0]
      rw [hx] at lx1; rw [hy] at ly1
      have lx1' : x1.length = n2 := by omega
      have ly1' : y1.length = n2 := by omega
      -- z0
      obtain ⟨l1, v1⟩ := ih z x0 y0 n2 lx0 ly0 (by omega) (by omega)
      generalize karatsuba fuel z x0 y0 = z1 at *
      obtain ⟨Z0, R1, rfl, lZ0, lR1⟩ := split_at (z := z1) (n := 2 * n2) (by omega)
      rw [List.take_left' lZ0] at *
      rw [List.drop_left' lZ0]
      -- z2
      obtain ⟨l2, v2⟩ := ih R1 x1 y1 n2 lx1' ly1' (by omega) (by omega)
      generalize karatsuba fuel R1 x1 y1 = z2 at *
      obtain ⟨Z2, R2, rfl, lZ2, lR2⟩ := split_at (z := z2) (n := 2 * n2) (by omega)
      rw [List.take_left' lZ2] at v2
      -- differences
      obtain ⟨lxd, hxd⟩ := absDiff_spec (lx1'.trans lx0.symm)
      obtain ⟨lyd, hyd⟩ := absDiff_spec (ly0.trans ly1'.symm)
      generalize absDiff x1 x0 = xd at *
      generalize absDiff y0 y1 = yd at *
      have lxd' : xd.1.length = n2 := lxd.trans lx1'
      have lyd' : yd.1.length = n2 := lyd.trans ly0
      have lR2' : R2.length = z.length - 4 * n2 := by
        simp only [List.length_append] at *
        omega
      obtain ⟨R4, lR4, hstore⟩ := kara_store (R2 := R2) lZ0 lZ2 lxd' lyd' (by omega)
      rw [hstore]
      have s1 : ((Z0 ++ (Z2 ++ (xd.1 ++ yd.1)) ++ R4).drop (2 * (2 * n2))).take n2 = xd.1 := by
        have : Z0 ++ (Z2 ++ (xd.1 ++ yd.1)) ++ R4 = (Z0 ++ Z2) ++ (xd.1 ++ (yd.1 ++ R4)) := by simp
        rw [this]
        exact drop_take_app (by simp [lZ0, lZ2]; omega) lxd'
      have s2 : ((Z0 ++ (Z2 ++ (xd.1 ++ yd.1)) ++ R4).drop (2 * (2 * n2) + n2)).take n2 = yd.1 := by
        have : Z0 ++ (Z2 ++ (xd.1 ++ yd.1)) ++ R4 = (Z0 ++ (Z2 ++ xd.1)) ++ (yd.1 ++ R4) := by simp
        rw [this]
        exact drop_take_app (by simp [lZ0, lZ2, lxd']; omega) lyd'
      have lhead : (Z0 ++ (Z2 ++ (xd.1 ++ yd.1))).length = 2 * (2 * n2) + 2 * n2 := by
        simp [lZ0, lZ2, lxd', lyd']; omega
      rw [s1, s2, List.take_left' lhead, List.drop_left' lhead]
      -- p
      obtain ⟨l3, v3⟩ := ih R4 xd.1 yd.1 n2 lxd' lyd' (by omega) (by omega)
      generalize karatsuba fuel R4 xd.1 yd.1 = z3 at *
      obtain ⟨P, Q, rfl, lP, lQ⟩ := split_at (z := z3) (n := 2 * n2) (by omega)
      rw [List.take_left' lP] at v3
      have lD : (xd.1 ++ yd.1).length = 2 * n2 := by simp [lxd', lyd']; omega
      generalize xd.1 ++ yd.1 = D at *
      -- copy of z2:z0
      obtain ⟨Q2, lQ2, hcopy⟩ := kara_copy (Q := Q) lZ0 lZ2 lD lP (by omega)
      rw [hcopy _ (by simp only [List.length_append] at *; omega)]
      obtain ⟨A, B, k1, k2, lB, a1, a2, a3, av1, av2⟩ := kara_two (Q2 := Q2) lZ0 lZ2 lD lP
      rw [a1, a2, a3]
      have hTl : (D ++ (P ++ (Z0 ++ (Z2 ++ Q2)))).length = z.length - 4 * n2 := by
        simp only [List.length_append] at *
        omega
      generalize D ++ (P ++ (Z0 ++ (Z2 ++ Q2))) = T at *
      have hprod : (val x0 + 2 ^ (32 * n2) * val x1) * (val y0 + 2 ^ (32 * n2) * val y1) < 2 ^ (32 * (4 * n2)) := by
        have q1 := val_lt (x0 ++ x1)
        have q2 := val_lt (y0 ++ y1)
        rw [hx, val_append, lx0] at q1
        rw [hy, val_append, ly0] at q2
        calc _ < 2 ^ (32 * (2 * n2)) * 2 ^ (32 * (2 * n2)) :=
              Nat.mul_lt_mul_of_lt_of_le q1 q2.le (Nat.two_pow_pos _)
          _ = _ := by rw [← Nat.pow_add]; congr 1; ring
      rw [val_append, val_append, lx0, ly0]
      rw [v1, v2] at av1
      rw [v2] at av2
      obtain ⟨c1, c2⟩ := kara_cross hxd hyd
      by_cases hs : xd.2 = yd.2
      · rw [if_pos (by simp [hs])]
        obtain ⟨Dp, kp, ap, lp, vp⟩ := karaAdd_spec' (A := B) (T := T) (x := P ++ (Z0 ++ (Z2 ++ Q2)))
          lB (by simp [lP])
        rw [List.take_left' lP, v3] at vp
        have hlt := val_lt Dp
        rw [lp] at hlt
        rw [ap]
        refine ⟨by rw [List.length_append, lp, hTl]; omega, ?_⟩
        rw [List.take_left' (by omega)]
        exact mod_fin hlt hprod (kara_arith_add (c1 hs) av1 av2 vp)
      · rw [if_neg (by simp [hs])]
        obtain ⟨Dm, km, am, lm, vm⟩ := karaSub_spec' (A := B) (T := T) (x := P ++ (Z0 ++ (Z2 ++ Q2)))
          lB (by simp [lP])
        rw [List.take_left' lP, v3] at vm
        have hlt := val_lt Dm
        rw [lm] at hlt
        rw [am]
        refine ⟨by rw [List.length_append, lm, hTl]; omega, ?_⟩
        rw [List.take_left' (by omega)]
        exact mod_fin hlt hprod (kara_arith_sub (c2 hs) av1 av2 vm)

end RMath
