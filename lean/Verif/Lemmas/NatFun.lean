import Verif.Model.NatFun
import Verif.Lemmas.NatSqr
import Verif.Lemmas.NatBits

/-! Proofs about `Verif.Model.NatFun`. -/

namespace RMath

@[simp] theorem leOp_enc (a b : Nat) : leOp (enc a) (enc b) = decide (a ≤ b) := by
  unfold leOp
  rw [partialCmp_enc]
  rcases Nat.lt_trichotomy a b with h | h | h
  · rw [Nat.compare_eq_lt.2 h]; simp; omega
  · rw [Nat.compare_eq_eq.2 h]; simp; omega
  · rw [Nat.compare_eq_gt.2 h]; simp; omega

/-! ## bits -/

theorem and_bit_ne_zero (w : W) {i : Nat} (hi : i < 32) :
    decide (w &&& (1#32 <<< i) ≠ 0#32) = w.toNat.testBit i := by
  have hb : (1#32 <<< i : W) = BitVec.twoPow 32 i := by
    simp [BitVec.twoPow]
  rw [hb, BitVec.and_twoPow]
  have ht : w.toNat.testBit i = w.getLsbD i := rfl
  rw [ht]
  cases h : w.getLsbD i
  · simp
  · simp only [if_true, decide_eq_true_eq]
    intro h0
    have := congrArg BitVec.toNat h0
    rw [BitVec.toNat_twoPow_of_lt hi] at this
    simp at this

theorem isSetBit__val {x : Words} {i : Nat} (h : i / 32 < x.length) :
    isSetBit_ x i = .ok ((val x).testBit i) := by
  unfold isSetBit_
  rw [List.getElem?_eq_getElem h]
  simp only
  rw [and_bit_ne_zero _ (Nat.mod_lt _ (by omega)), testBit_val, List.getElem?_eq_getElem h]
  rfl

theorem isSetBit__enc {a i : Nat} (h : i < bitLen a) : isSetBit_ (enc a) i = .ok (a.testBit i) := by
  have := canon_bitLen (canon_enc a)
  rw [val_enc] at this
  rw [isSetBit__val (by omega), val_enc]

theorem isSetBit_enc (a i : Nat) :
    isSetBit (enc a) i = .ok (if i < bitLen a then some (a.testBit i) else none) := by
  unfold isSetBit
  rw [bitsLen_enc]
  by_cases h : i < bitLen a
  · rw [if_neg (by omega), isSetBit__enc h, if_pos h]
  · rw [if_pos (by omega), if_neg h]

theorem trailingZeros_spec {w : W} (hw : w ≠ 0#32) :
    trailingZeros w < 32 ∧ w.toNat.testBit (trailingZeros w) = true ∧
    ∀ i, i < trailingZeros w → w.toNat.testBit i = false := by
  unfold trailingZeros
  have hex : ∃ i, i < 32 ∧ w.toNat.testBit i = true := by
    by_contra hcon
    push Not at hcon
    apply hw
    apply BitVec.eq_of_toNat_eq
    apply Nat.eq_of_testBit_eq
    intro i
    by_cases hi : i < 32
    · have := hcon i hi
      simp only [BitVec.toNat_ofNat, Nat.zero_mod, Nat.zero_testBit]
      simpa using this
    · rw [word_testBit_ge w (by omega)]; simp
  obtain ⟨i, hi, hbit⟩ := hex
  rcases hf : (List.range 32).find? (fun i => w.toNat.testBit i) with _ | k
  · rw [List.find?_eq_none] at hf
    exact absurd hbit (hf i (List.mem_range.2 hi))
  · have h1 := List.find?_some hf
    have h2 := List.mem_of_find?_eq_some hf
    refine ⟨List.mem_range.1 h2, h1, ?_⟩
    intro j hj
    rw [List.find?_range_eq_some] at hf
    have := hf.2.2 j hj
    simpa using this

theorem traillingZeros_spec (x : Words) (h : val x ≠ 0) :
    (val x).testBit (traillingZeros x) = true ∧ ∀ i, i < traillingZeros x → (val x).testBit i = false := by
  induction x with
  | nil => simp at h
  | cons w ws ih =>
    unfold traillingZeros
    by_cases hw : w = 0#32
    · rw [if_pos hw]
      have hv : val ws ≠ 0 := by
        intro h0; apply h; rw [val_cons, h0, hw]; simp
      obtain ⟨h1, h2⟩ := ih hv
      constructor
      · rw [testBit_cons, if_neg (by omega)]
        rw [show 32 + traillingZeros ws - 32 = traillingZeros ws by omega]; exact h1
      · intro i hi
        rw [testBit_cons]
        split
        · simp [hw]
        · exact h2 _ (by omega)
    · rw [if_neg hw]
      obtain ⟨h0, h1, h2⟩ := trailingZeros_spec hw
      constructor
      · rw [testBit_cons, if_pos h0]; exact h1
      · intro i hi
        rw [testBit_cons, if_pos (by omega)]
        exact h2 i hi

theorem traillingZeros_zero (n : Nat) : traillingZeros (List.replicate n 0#32) = 32 * n := by
  induction n with
  | zero => rfl
  | succ n ih => rw [List.replicate_succ, traillingZeros, if_pos rfl, ih]; ring

theorem testBit_resize {x : Words} {n : Nat} (h : x.length ≤ n) (i : Nat) :
    (val (resize x n)).testBit i = (val x).testBit i := by rw [resize_val h]

theorem testBit_modify (x : Words) (f : W → W) (j i : Nat) (hj : j < x.length) :
    (val (x.modify j f)).testBit i
      = if i / 32 = j then (f (x.getD j 0#32)).toNat.testBit (i % 32) else (val x).testBit i := by
  rw [testBit_val, testBit_val, List.getElem?_modify]
  by_cases h : i / 32 = j
  · subst h
    simp [List.getElem?_eq_getElem hj]
  · have h' : ¬ j = i / 32 := fun e => h e.symm
    simp [h, h']

theorem or_bit_testBit (w : W) {m : Nat} (hm : m < 32) (i : Nat) (hi : i < 32) :
    (w ||| (1#32 <<< m)).toNat.testBit i = (decide (i = m) || w.toNat.testBit i) := by
  have hb : (1#32 <<< m : W) = BitVec.twoPow 32 m := by
    simp [BitVec.twoPow]
  rw [hb, BitVec.toNat_or, Nat.testBit_or, BitVec.toNat_twoPow_of_lt hm, Nat.testBit_two_pow, Bool.or_comm]
  congr 1
  exact decide_eq_decide.2 ⟨fun h => h.symm, fun h => h.symm⟩

theorem andnot_bit_testBit (w : W) {m : Nat} (hm : m < 32) (i : Nat) (hi : i < 32) :
    (w &&& ~~~(1#32 <<< m)).toNat.testBit i = (!decide (i = m) && w.toNat.testBit i) := by
  have hb : (1#32 <<< m : W) = BitVec.twoPow 32 m := by
    simp [BitVec.twoPow]
  rw [hb]
  show (w &&& ~~~(BitVec.twoPow 32 m)).getLsbD i = (!decide (i = m) && w.getLsbD i)
  rw [BitVec.getLsbD_and, BitVec.getLsbD_not, BitVec.getLsbD_twoPow, Bool.and_comm]
  by_cases h : i = m
  · subst h; simp [hi]
  · have h' : ¬ m = i := fun e => h e.symm
    simp [h, hi, h']

theorem setBits_testBit (x : Words) (k : Nat) (b : Bool) (i : Nat) :
    (val (setBits x k b)).testBit i = if i = k then b else (val x).testBit i := by
  unfold setBits
  simp only
  have hm : k % 32 < 32 := Nat.mod_lt _ (by omega)
  have him : i % 32 < 32 := Nat.mod_lt _ (by omega)
  cases b
  · simp only [Bool.false_eq_true, if_false]
    by_cases hj : k / 32 < x.length
    · rw [if_pos hj, testBit_modify _ _ _ _ hj]
      by_cases hd : i / 32 = k / 32
      · rw [if_pos hd, andnot_bit_testBit _ hm _ him]
        by_cases hik : i = k
        · subst hik; simp
        · have hne : i % 32 ≠ k % 32 := by omega
          rw [if_neg hik, testBit_val x i, hd]
          simp [hne]
      · rw [if_neg hd, if_neg (by rintro rfl; exact hd rfl)]
    · rw [if_neg hj]
      by_cases hik : i = k
      · subst hik
        rw [if_pos rfl, testBit_val_ge x (by omega)]
      · rw [if_neg hik]
  · simp only [if_true]
    have key : ∀ y : Words, k / 32 < y.length → val y = val x →
        (val (y.modify (k / 32) (· ||| 1#32 <<< (k % 32)))).testBit i
          = if i = k then true else (val x).testBit i := by
      intro y hy hv
      rw [testBit_modify _ _ _ _ hy]
      by_cases hd : i / 32 = k / 32
      · rw [if_pos hd, or_bit_testBit _ hm _ him]
        by_cases hik : i = k
        · subst hik; simp
        · have hne : i % 32 ≠ k % 32 := by omega
          rw [if_neg hik, ← hv, testBit_val y i, hd]
          simp [hne]
      · rw [if_neg hd, if_neg (by rintro rfl; exact hd rfl), hv]
    by_cases hj : k / 32 ≥ x.length
    · rw [if_pos hj]
      exact key _ (by rw [resize_length]; omega) (resize_val (by omega))
    · rw [if_neg hj]
      exact key _ (by omega) rfl

theorem setBits_true_canon {x : Words} (hx : Canon x) (k : Nat) : Canon (setBits x k true) := by
  have hbit := setBits_testBit x k true
  have hlen : (setBits x k true).length = max x.length (k / 32 + 1) := by
    unfold setBits
    simp only [if_true]
    split
    · rw [List.length_modify, resize_length]; omega
    · rw [List.length_modify]; omega
  rw [canon_iff_le_val]
  have hpos := hx.length_pos
  refine ⟨by rw [← List.length_pos_iff]; omega, ?_⟩
  intro h1
  have hge : 2 ^ k ≤ val (setBits x k true) := Nat.ge_two_pow_of_testBit (by rw [hbit]; simp)
  rw [hlen]
  by_cases hk : x.length ≤ k / 32 + 1
  · refine le_trans (Nat.pow_le_pow_right (by norm_num) ?_) hge
    omega
  · have hle : val x ≤ val (setBits x k true) := by
      have hor : val x ||| val (setBits x k true) = val (setBits x k true) := by
        apply Nat.eq_of_testBit_eq
        intro i
        rw [Nat.testBit_or, hbit]
        by_cases hik : i = k <;> simp [hik]
      rw [← hor]
      exact Nat.left_le_or
    have := hx.le_val (by omega)
    rw [show max x.length (k / 32 + 1) = x.length by omega]
    omega

theorem mod_pow_eq_zero_iff (a n : Nat) : a % 2 ^ n = 0 ↔ ∀ i, i < n → a.testBit i = false := by
  constructor
  · intro h i hi
    have : (a % 2 ^ n).testBit i = a.testBit i := by rw [Nat.testBit_mod_two_pow]; simp [hi]
    rw [← this, h]; simp
  · intro h
    apply Nat.eq_of_testBit_eq
    intro i
    rw [Nat.testBit_mod_two_pow, Nat.zero_testBit]
    by_cases hi : i < n
    · simp [h i hi]
    · simp [hi]

theorem any_ne_zero_iff (x : Words) : x.any (· ≠ 0#32) = decide (val x ≠ 0) := by
  induction x with
  | nil => simp
  | cons w ws ih =>
    rw [List.any_cons, ih, val_cons, ← Bool.decide_or]
    apply decide_eq_decide.2
    rw [show (w ≠ 0#32) ↔ w.toNat ≠ 0 from by
      constructor
      · intro h h0; exact h (BitVec.eq_of_toNat_eq (by simpa using h0))
      · intro h h0; apply h; rw [h0]; rfl]
    omega

theorem shl_ne_zero_iff (w : W) {r : Nat} (h0 : 0 < r) (hr : r < 32) :
    w <<< (32 - r) ≠ 0#32 ↔ w.toNat % 2 ^ r ≠ 0 := by
  have h : (w <<< (32 - r)).toNat = (w.toNat % 2 ^ r) * 2 ^ (32 - r) := by
    rw [BitVec.toNat_shiftLeft, Nat.shiftLeft_eq, mul_pow_mod_split _ (by omega : 32 - r ≤ 32)]
    rw [show 32 - (32 - r) = r by omega]
  constructor
  · intro h1 h2
    apply h1
    apply BitVec.eq_of_toNat_eq
    rw [h, h2]; simp
  · intro h1 h2
    rw [h2] at h
    have : w.toNat % 2 ^ r * 2 ^ (32 - r) ≠ 0 := Nat.mul_ne_zero h1 (by positivity)
    simp only [BitVec.toNat_ofNat, Nat.zero_mod] at h
    omega

theorem sticky_canon {x : Words} (hx : Canon x) (k : Nat) :
    sticky x k = if val x % 2 ^ k = 0 then 0 else 1 := by
  unfold sticky
  have hne := hx.ne_nil
  rw [if_neg (by rw [isNan_iff]; exact hne)]
  simp only
  by_cases hj : k / 32 ≥ x.length
  · rw [if_pos hj]
    have hlt : val x < 2 ^ k := lt_of_lt_of_le (val_lt x) (Nat.pow_le_pow_right (by norm_num) (by omega))
    rw [Nat.mod_eq_of_lt hlt]
    obtain ⟨a, rfl⟩ := canon_iff_enc.1 hx
    rw [← enc_zero, eqv_enc, val_enc]
    simp
  · rw [if_neg hj, any_ne_zero_iff]
    have hsplit := val_take_add_drop x (k / 32) (by omega)
    have hdrop : x.drop (k / 32) = x.getD (k / 32) 0#32 :: x.drop (k / 32 + 1) := by
      rw [List.drop_eq_getElem_cons (by omega : k / 32 < x.length)]
      simp [List.getD, List.getElem?_eq_getElem (by omega : k / 32 < x.length)]
    have hlow := val_lt (x.take (k / 32))
    rw [List.length_take, Nat.min_eq_left (by omega)] at hlow
    have hk : k = 32 * (k / 32) + k % 32 := by omega
    have hmod : val x % 2 ^ k
        = val (x.take (k / 32)) + 2 ^ (32 * (k / 32)) * ((x.getD (k / 32) 0#32).toNat % 2 ^ (k % 32)) := by
      conv_lhs => rw [hk, Nat.pow_add, Nat.mod_mul]
      rw [hsplit, Nat.add_mul_mod_self_left, Nat.mod_eq_of_lt hlow,
        Nat.add_mul_div_left _ _ (by positivity), Nat.div_eq_of_lt hlow, Nat.zero_add, hdrop, val_cons]
      congr 2
      have : 2 ^ 32 = 2 ^ (k % 32) * 2 ^ (32 - k % 32) := by
        rw [← Nat.pow_add]; congr 1; omega
      rw [this, Nat.mul_assoc, Nat.add_mul_mod_self_left]
    rw [hmod]
    by_cases hz : val (x.take (k / 32)) = 0
    · rw [if_neg (by simp [hz]), hz, Nat.zero_add]
      by_cases hr : 0 < k % 32
      · have := shl_ne_zero_iff (x.getD (k / 32) 0#32) hr (Nat.mod_lt _ (by omega))
        by_cases hb : (x.getD (k / 32) 0#32).toNat % 2 ^ (k % 32) = 0
        · rw [hb, if_neg (by rw [this]; simp only [hb]; simp), Nat.mul_zero, if_pos rfl]
        · rw [if_pos ⟨hr, this.2 hb⟩, if_neg (Nat.mul_ne_zero (by positivity) hb)]
      · rw [if_neg (by omega)]
        have : k % 32 = 0 := by omega
        rw [this, Nat.pow_zero, Nat.mod_one, Nat.mul_zero, if_pos rfl]
    · rw [if_pos (by simp [hz]), if_neg (by omega)]

/-! ## powers -/

theorem mod_two_pow_succ_testBit (b i : Nat) :
    b % 2 ^ (i + 1) = b % 2 ^ i + (b.testBit i).toNat * 2 ^ i := by
  rw [Nat.pow_succ, Nat.mod_mul, Nat.toNat_testBit, Nat.mul_comm (2 ^ i)]

theorem powLoop_enc (x b : Nat) : ∀ (n i : Nat), 1 ≤ i → i + n = bitLen b →
    powLoop (enc b) n i (enc (x ^ 2 ^ (i - 1))) (enc (x ^ (b % 2 ^ i))) = .ok (enc (x ^ b)) := by
  intro n
  induction n with
  | zero =>
    intro i hi h
    have : b % 2 ^ i = b := Nat.mod_eq_of_lt (by have := lt_pow_bitLen b; rw [← h] at this; simpa using this)
    rw [powLoop, this]
  | succ n ih =>
    intro i hi h
    rw [powLoop, isSetBit__enc (by omega), mulInner_enc]
    have hsq : x ^ 2 ^ (i - 1) * x ^ 2 ^ (i - 1) = x ^ 2 ^ (i + 1 - 1) := by
      rw [← Nat.pow_add, show i + 1 - 1 = (i - 1) + 1 by omega, Nat.pow_succ, Nat.mul_two]
    rw [hsq]
    have hb := mod_two_pow_succ_testBit b i
    cases ht : b.testBit i
    · rw [ht] at hb
      simp only [Bool.toNat_false, Nat.zero_mul, Nat.add_zero] at hb
      simp only
      rw [← hb]
      exact ih (i + 1) (by omega) (by omega)
    · rw [ht] at hb
      simp only [Bool.toNat_true, Nat.one_mul] at hb
      simp only
      rw [mulInner_enc, show i + 1 - 1 = i by omega, ← Nat.pow_add, ← hb]
      exact ih (i + 1) (by omega) (by omega)

theorem powInner_enc (x b : Nat) : powInner (enc x) (enc b) = .ok (enc (x ^ b)) := by
  unfold powInner
  rw [← enc_zero, ← enc_one, eqv_enc, eqv_enc]
  by_cases hx : x = 0
  · subst hx
    by_cases hb : b = 0
    · subst hb; simp
    · simp [hb]
  · by_cases hb : b = 0
    · subst hb; simp [hx]
    · rw [if_neg (by simp [hx]), if_neg (by simp [hb]), isSetBit__enc (bitLen_pos b), bitsLen_enc]
      simp only [deepClone_enc]
      have h1 := mod_two_pow_succ_testBit b 0
      simp only [Nat.pow_zero, Nat.mod_one, Nat.zero_add, Nat.mul_one] at h1
      have := powLoop_enc x b (bitLen b - 1) 1 (by omega) (by have := bitLen_pos b; omega)
      simp only [Nat.sub_self, Nat.pow_zero, Nat.pow_one] at this
      rw [← this]
      congr 1
      rw [Nat.pow_one] at h1
      rw [h1]
      cases b.testBit 0 <;> simp

theorem powModLoop_enc {n : Nat} (hn : n ≠ 0) (x b : Nat) : ∀ (i : Nat), i ≤ bitLen b →
    powModLoop (enc b) (enc n) (enc (x % n)) i (enc (x ^ (b / 2 ^ i) % n)) = .ok (enc (x ^ b % n)) := by
  intro i
  induction i with
  | zero => intro _; rw [powModLoop, Nat.pow_zero, Nat.div_one]
  | succ i ih =>
    intro h
    rw [powModLoop, mulInner_enc, remInner_enc hn, isSetBit__enc (by omega)]
    simp only [bind, Except.bind]
    have hb : b / 2 ^ i = 2 * (b / 2 ^ (i + 1)) + (b.testBit i).toNat := by
      rw [Nat.pow_succ, ← Nat.div_div_eq_div_mul, Nat.toNat_testBit]
      exact (Nat.div_add_mod (b / 2 ^ i) 2).symm
    have hsq : x ^ (b / 2 ^ (i + 1)) % n * (x ^ (b / 2 ^ (i + 1)) % n) % n = x ^ (2 * (b / 2 ^ (i + 1))) % n := by
      rw [← Nat.mul_mod, ← Nat.pow_add, Nat.two_mul]
    rw [hsq]
    cases ht : b.testBit i
    · rw [ht] at hb
      simp only [Bool.toNat_false, Nat.add_zero] at hb
      simp only [Bool.false_eq_true, if_false]
      rw [← hb]
      exact ih (by omega)
    · rw [ht] at hb
      simp only [Bool.toNat_true] at hb
      simp only [if_true]
      rw [mulInner_enc, remInner_enc hn]
      simp only
      rw [← Nat.mul_mod, ← Nat.pow_succ, Nat.succ_eq_add_one, ← hb]
      exact ih (by omega)

theorem powModInner_enc (x b n : Nat) :
    powModInner (enc x) (enc b) (enc n) = .ok (enc (x ^ b % n)) := by
  unfold powModInner
  rw [← enc_zero, ← enc_one, eqv_enc, eqv_enc]
  by_cases h0 : n = 0
  · subst h0; rw [if_pos (by simp), powInner_enc, Nat.mod_zero]
  · by_cases h1 : n = 1
    · subst h1; simp [Nat.mod_one]
    · rw [if_neg (by simp [h0]), if_neg (by simp [h1]), deepClone_enc, remInner_enc h0, bitsLen_enc]
      simp only [bind, Except.bind]
      have := powModLoop_enc h0 x b (bitLen b) (le_refl _)
      rw [Nat.div_eq_of_lt (lt_pow_bitLen b), Nat.pow_zero, Nat.mod_eq_of_lt (by omega : 1 < n)] at this
      exact this

/-! ## square root -/

theorem newton_ge (x z : Nat) (hz : 0 < z) : Nat.sqrt x ≤ (x / z + z) / 2 := by
  rw [Nat.le_div_iff_mul_le (by norm_num)]
  have h1 := Nat.sqrt_le x
  by_contra hcon
  push Not at hcon
  generalize hs : Nat.sqrt x = s at *
  have hd : x < z * (x / z + 1) := by
    have := Nat.div_add_mod x z
    have := Nat.mod_lt x hz
    rw [Nat.mul_add]; omega
  have h2 : x / z + 1 + z ≤ 2 * s := by omega
  generalize x / z + 1 = q at *
  have h3 : z * q < s * s + 1 := by
    have : 4 * (z * q) ≤ (q + z) * (q + z) := by nlinarith [sq_nonneg ((q : ℤ) - z)]
    have : (q + z) * (q + z) ≤ (2 * s) * (2 * s) := Nat.mul_le_mul h2 h2
    nlinarith
  omega

theorem sqrt_of_newton_stop (x z : Nat) (hz : 0 < z) (h1 : Nat.sqrt x ≤ z) (h2 : z ≤ (x / z + z) / 2) :
    z = Nat.sqrt x := by
  have h3 : z ≤ x / z := by omega
  have h4 : z * z ≤ x := by
    have := Nat.div_mul_le_self x z
    nlinarith
  have := Nat.le_sqrt.2 h4
  omega

theorem sqrtLoop_enc (x : Nat) : ∀ (fuel z : Nat), 0 < z → Nat.sqrt x ≤ z → 0 < x → z < fuel →
    sqrtLoop (enc x) fuel (enc z) = .ok (enc (Nat.sqrt x)) := by
  intro fuel
  induction fuel with
  | zero => intro z _ _ _ h; omega
  | succ fuel ih =>
    intro z hz hs hx hf
    rw [sqrtLoop]
    have hd : natDiv (enc x) (enc z) = .ok (enc (x / z)) := by
      simp [natDiv, opNatR, divInner_enc (by omega : z ≠ 0)]
    have ha : assignPrim shrInner (assignNat addInner (enc (x / z)) (enc z)) 1 = enc ((x / z + z) / 2) := by
      simp only [assignPrim, assignNat, isNan_enc, addInner_enc, Bool.false_or, Bool.false_eq_true, if_false]
      rw [shrInner_enc_lt (by norm_num), Nat.pow_one]
    simp only [hd, bind, Except.bind, ha, geOp_enc]
    by_cases hge : z ≤ (x / z + z) / 2
    · rw [if_pos (by simpa using hge)]
      rw [← sqrt_of_newton_stop x z hz hs hge]
    · rw [if_neg (by simpa using hge)]
      have hn := newton_ge x z hz
      have : 0 < Nat.sqrt x := Nat.sqrt_pos.2 hx
      exact ih _ (by omega) hn hx (by omega)

theorem natSqrt_enc (x : Nat) : natSqrt (enc x) = .ok (enc (Nat.sqrt x)) := by
  unfold natSqrt
  rw [← enc_one, leOp_enc, isNan_enc, Bool.false_or]
  by_cases hx : x ≤ 1
  · rw [if_pos (by simpa using hx), deepClone_enc]
    interval_cases x <;> simp
  · rw [if_neg (by simpa using hx)]
    simp only
    have hz : assignPrim shlInner (enc 1) ((bitsLen (enc x) + 1) / 2) = enc (2 ^ ((bitLen x + 1) / 2)) := by
      simp only [assignPrim, isNan_enc, bitsLen_enc, Bool.false_eq_true, if_false]
      rw [shlInner_enc (by norm_num), Nat.one_mul]
    rw [hz, val_enc]
    apply sqrtLoop_enc
    · positivity
    · rw [← Nat.lt_succ_iff]
      apply Nat.sqrt_lt'.2
      have h1 := lt_pow_bitLen x
      refine lt_trans h1 ?_
      refine lt_of_le_of_lt ?_ (Nat.pow_lt_pow_left (Nat.lt_succ_self _) (by norm_num))
      rw [← Nat.pow_mul]
      exact Nat.pow_le_pow_right (by norm_num) (by omega)
    · omega
    · omega

end RMath
