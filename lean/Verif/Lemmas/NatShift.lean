import Verif.Lemmas.NatCore
import Mathlib.Tactic.IntervalCases
import Mathlib.Tactic.FinCases

/-! Shifts, bit length. -/

namespace RMath

theorem or_eq_add {a b i : Nat} (h : b < 2 ^ i) : (a * 2 ^ i) ||| b = a * 2 ^ i + b := by
  have := Nat.shiftLeft_add_eq_or_of_lt h a
  rw [Nat.shiftLeft_eq] at this
  exact this.symm

theorem mul_pow_mod_split (a : Nat) {n : Nat} (hn : n ≤ 32) :
    a * 2 ^ n % 2 ^ 32 = (a % 2 ^ (32 - n)) * 2 ^ n := by
  have : (2:Nat) ^ 32 = 2 ^ (32 - n) * 2 ^ n := by rw [← Nat.pow_add]; congr 1; omega
  rw [this, Nat.mul_mod_mul_right]

theorem shl_or_toNat (a pre : W) {n : Nat} (hn : n < 32) (hp : pre.toNat < 2 ^ n) :
    ((a <<< n) ||| pre).toNat + 2 ^ 32 * (a >>> (32 - n)).toNat = a.toNat * 2 ^ n + pre.toNat := by
  rw [BitVec.toNat_or, BitVec.toNat_shiftLeft, BitVec.toNat_ushiftRight, Nat.shiftLeft_eq,
    Nat.shiftRight_eq_div_pow, mul_pow_mod_split _ (by omega), or_eq_add hp]
  have h1 : (2:Nat) ^ 32 = 2 ^ (32 - n) * 2 ^ n := by rw [← Nat.pow_add]; congr 1; omega
  have h2 := Nat.mod_add_div a.toNat (2 ^ (32 - n))
  rw [h1]
  generalize 2 ^ (32 - n) = P at *
  generalize 2 ^ n = Q at *
  calc a.toNat % P * Q + pre.toNat + P * Q * (a.toNat / P)
      = (a.toNat % P + P * (a.toNat / P)) * Q + pre.toNat := by ring
    _ = _ := by rw [h2]

theorem shr_lt (a : W) {n : Nat} (hn : n ≤ 32) : (a >>> (32 - n)).toNat < 2 ^ n := by
  rw [BitVec.toNat_ushiftRight, Nat.shiftRight_eq_div_pow]
  apply Nat.div_lt_of_lt_mul
  rw [← Nat.pow_add]
  have : 32 - n + n = 32 := by omega
  rw [this]; exact a.isLt

theorem shlLoop_length (n : Nat) (pre : W) (x : Words) : (shlLoop n pre x).1.length = x.length := by
  induction x generalizing pre with
  | nil => rfl
  | cons a as ih => simp [shlLoop, ih]

theorem shlLoop_val {n : Nat} (hn : n < 32) (pre : W) (x : Words) (hp : pre.toNat < 2 ^ n) :
    val (shlLoop n pre x).1 + 2 ^ (32 * x.length) * (shlLoop n pre x).2.toNat
      = val x * 2 ^ n + pre.toNat := by
  induction x generalizing pre with
  | nil => simp [shlLoop]
  | cons a as ih =>
    have h := shl_or_toNat a pre hn hp
    have h' := ih (a >>> (32 - n)) (shr_lt a (by omega))
    simp only [shlLoop, val_cons, List.length_cons, Nat.mul_add, Nat.pow_add, Nat.mul_one,
      Nat.add_mul] at *
    generalize (shlLoop n (a >>> (32 - n)) as).2.toNat = C at *
    generalize 2 ^ (32 * as.length) = P at *
    have e1 : P * 2 ^ 32 * C = 2 ^ 32 * (P * C) := by ring
    have e2 : 2 ^ 32 * val as * 2 ^ n = 2 ^ 32 * (val as * 2 ^ n) := by ring
    rw [e1, e2]
    omega

theorem val_ite_push (w : W) : val (if w ≠ 0#32 then [w] else []) = w.toNat := by
  by_cases h : w = 0#32 <;> simp [h]

theorem shlInner_val (x : Words) (s : Nat) : val (shlInner x s) = val x * 2 ^ s := by
  unfold shlInner
  simp only
  have hs : s = 32 * (s / 32) + s % 32 := by omega
  have hn : s % 32 < 32 := Nat.mod_lt _ (by norm_num)
  have key : val (if s % 32 > 0 then
      (shlLoop (s % 32) 0#32 x).1 ++
        (if (shlLoop (s % 32) 0#32 x).2 ≠ 0#32 then [(shlLoop (s % 32) 0#32 x).2] else [])
      else x) = val x * 2 ^ (s % 32) := by
    split
    · have := shlLoop_val hn 0#32 x (by simp)
      rw [val_append, val_ite_push, shlLoop_length]
      simpa using this
    · have : s % 32 = 0 := by omega
      rw [this]; simp
  conv_rhs => rw [hs, Nat.pow_add]
  split
  · rw [val_append, val_replicate_zero, List.length_replicate, key]; ring
  · have : s / 32 = 0 := by omega
    rw [key, this]; simp

theorem canon_append_replicate {x : Words} (hx : Canon x) (hv : val x ≠ 0) (n : Nat) :
    Canon (List.replicate n 0#32 ++ x) := by
  induction n with
  | zero => simpa
  | succ n ih =>
    rw [List.replicate_succ, List.cons_append]
    apply canon_cons_of_canon_ne_zero ih
    rw [val_append]; simp [hv]

theorem shlLoop_canon {n : Nat} (hn : n < 32) {x : Words} (hx : Canon x) :
    Canon ((shlLoop n 0#32 x).1 ++
        (if (shlLoop n 0#32 x).2 ≠ 0#32 then [(shlLoop n 0#32 x).2] else [])) := by
  have hv := shlLoop_val hn 0#32 x (by simp)
  have hl := shlLoop_length n 0#32 x
  have hp := hx.length_pos
  split
  · rename_i h
    refine ⟨by simp, Or.inr ?_⟩
    simpa using h
  · rename_i h
    simp only [ne_eq, not_not] at h
    rw [h] at hv
    simp at hv
    rw [List.append_nil]
    apply canon_of_le_val
    · intro h0; rw [h0] at hl; simp at hl; omega
    · intro h1
      rw [hl] at *
      have := hx.le_val h1
      rw [hv]
      calc _ ≤ val x := this
        _ = val x * 1 := by omega
        _ ≤ _ := Nat.mul_le_mul_left _ Nat.one_le_two_pow

theorem shlInner_canon {x : Words} (hx : Canon x) (hv : val x ≠ 0) (s : Nat) :
    Canon (shlInner x s) := by
  unfold shlInner
  simp only
  have hn : s % 32 < 32 := Nat.mod_lt _ (by norm_num)
  have key : Canon (if s % 32 > 0 then
      (shlLoop (s % 32) 0#32 x).1 ++
        (if (shlLoop (s % 32) 0#32 x).2 ≠ 0#32 then [(shlLoop (s % 32) 0#32 x).2] else [])
      else x) := by
    split
    · exact shlLoop_canon hn hx
    · exact hx
  have key2 : val (if s % 32 > 0 then
      (shlLoop (s % 32) 0#32 x).1 ++
        (if (shlLoop (s % 32) 0#32 x).2 ≠ 0#32 then [(shlLoop (s % 32) 0#32 x).2] else [])
      else x) ≠ 0 := by
    have h := shlInner_val x (s % 32)
    unfold shlInner at h
    simp only [Nat.mod_mod] at h
    rw [if_neg (by omega)] at h
    rw [h]
    exact Nat.mul_ne_zero hv (by positivity)
  split
  · exact canon_append_replicate key key2 _
  · exact key

theorem shlInner_enc {a : Nat} (ha : a ≠ 0) (s : Nat) : shlInner (enc a) s = enc (a * 2 ^ s) :=
  enc_eq_iff.2 ⟨shlInner_canon (canon_enc a) (by simpa) s, by rw [shlInner_val, val_enc]⟩

/-- Shifting zero by less than a word. -/
theorem shlInner_enc_zero {s : Nat} (h : s < 32) : shlInner (enc 0) s = enc 0 := by
  apply enc_eq_iff.2
  refine ⟨?_, by rw [shlInner_val]; simp⟩
  unfold shlInner
  simp only
  rw [if_neg (by omega)]
  split
  · exact shlLoop_canon (Nat.mod_lt _ (by norm_num)) (canon_enc 0)
  · exact canon_enc 0

theorem shlInner_enc_lt {a s : Nat} (h : s < 32) : shlInner (enc a) s = enc (a * 2 ^ s) := by
  by_cases ha : a = 0
  · subst ha; rw [shlInner_enc_zero h]; simp
  · exact shlInner_enc ha s

/-! ### right shift -/

theorem maskL_eq {n : Nat} (h0 : 0 < n) (h : n < 32) :
    ((1#32 <<< (32 - n)) - 1#32) = BitVec.ofNat 32 (2 ^ (32 - n) - 1) := by
  interval_cases n <;> rfl

theorem maskH_eq {n : Nat} (h0 : 0 < n) (h : n < 32) :
    (((1#32 <<< n) - 1#32) <<< (32 - n)) = BitVec.ofNat 32 (2 ^ n - 1) <<< (32 - n) := by
  interval_cases n <;> rfl

theorem rot_and_maskL (b : W) {n : Nat} (h0 : 0 < n) (h : n < 32) :
    b.rotateRight n &&& ((1#32 <<< (32 - n)) - 1#32) = b >>> n := by
  rw [maskL_eq h0 h]
  apply BitVec.eq_of_getLsbD_eq
  intro i hi
  rw [BitVec.getLsbD_and, BitVec.getLsbD_rotateRight_of_lt h, BitVec.getLsbD_ushiftRight,
    BitVec.getLsbD_ofNat, Nat.testBit_two_pow_sub_one]
  by_cases h1 : i < 32 - n
  · simp [h1, hi]
  · simp only [h1, decide_false, Bool.and_false]
    rw [BitVec.getLsbD_of_ge]
    omega

theorem rot_and_maskH (b : W) {n : Nat} (h0 : 0 < n) (h : n < 32) :
    b.rotateRight n &&& (((1#32 <<< n) - 1#32) <<< (32 - n)) = b <<< (32 - n) := by
  rw [maskH_eq h0 h]
  apply BitVec.eq_of_getLsbD_eq
  intro i hi
  rw [BitVec.getLsbD_and, BitVec.getLsbD_rotateRight_of_lt h, BitVec.getLsbD_shiftLeft,
    BitVec.getLsbD_shiftLeft, BitVec.getLsbD_ofNat, Nat.testBit_two_pow_sub_one]
  by_cases h1 : i < 32 - n
  · simp [h1]
  · have : i - (32 - n) < n := by omega
    simp [h1, hi, this]
    intro _; omega

theorem shr_or_toNat (b pre : W) {n : Nat} (h0 : 0 < n) (hn : n < 32)
    (hp : pre.toNat < 2 ^ (32 - n)) :
    ((b <<< (32 - n)) ||| pre).toNat + 2 ^ 32 * (b >>> n).toNat
      = b.toNat * 2 ^ (32 - n) + pre.toNat := by
  have := shl_or_toNat b pre (n := 32 - n) (by omega) hp
  have e : 32 - (32 - n) = n := by omega
  rwa [e] at this

theorem shrLoop_length (n : Nat) (pre : W) (x : Words) : (shrLoop n pre x).1.length = x.length := by
  induction x generalizing pre with
  | nil => rfl
  | cons a as ih => simp [shrLoop, ih]

theorem shr_lt' (a : W) {n : Nat} (hn : n ≤ 32) : (a >>> n).toNat < 2 ^ (32 - n) := by
  have := shr_lt a (n := 32 - n) (by omega)
  have e : 32 - (32 - n) = n := by omega
  rwa [e] at this

theorem shrLoop_val {n : Nat} (h0 : 0 < n) (hn : n < 32) (pre : W) (x : Words)
    (hp : pre.toNat < 2 ^ (32 - n)) :
    val (shrLoop n pre x).1 + 2 ^ (32 * x.length) * (shrLoop n pre x).2.toNat
      = val x * 2 ^ (32 - n) + pre.toNat := by
  induction x generalizing pre with
  | nil => simp [shrLoop]
  | cons a as ih =>
    have h := shr_or_toNat a pre h0 hn hp
    have h' := ih (a >>> n) (shr_lt' a (by omega))
    simp only [shrLoop, rot_and_maskL a h0 hn, rot_and_maskH a h0 hn]
    simp only [val_cons, List.length_cons, Nat.mul_add, Nat.pow_add, Nat.mul_one,
      Nat.add_mul] at *
    generalize (shrLoop n (a >>> n) as).2.toNat = C at *
    generalize 2 ^ (32 * as.length) = P at *
    have e1 : P * 2 ^ 32 * C = 2 ^ 32 * (P * C) := by ring
    have e2 : 2 ^ 32 * val as * 2 ^ (32 - n) = 2 ^ 32 * (val as * 2 ^ (32 - n)) := by ring
    rw [e1, e2]
    omega

/-- the last carry of the loop is the top word shifted -/
theorem shrLoop_snd {n : Nat} (h0 : 0 < n) (hn : n < 32) (x : W) (xs : Words) :
    (shrLoop n (x >>> n) xs).2 = ((x :: xs).getLast (by simp)) >>> n := by
  induction xs generalizing x with
  | nil => rfl
  | cons a as ih =>
    simp only [shrLoop, rot_and_maskL a h0 hn]
    rw [ih a]
    rfl

theorem div_pow_split (x : W) (xs : Words) {n : Nat} (hn : n < 32) :
    val xs * 2 ^ (32 - n) + (x >>> n).toNat = val (x :: xs) / 2 ^ n := by
  rw [BitVec.toNat_ushiftRight, Nat.shiftRight_eq_div_pow, val_cons]
  have h1 : (2:Nat) ^ 32 * val xs = 2 ^ n * (2 ^ (32 - n) * val xs) := by
    rw [← Nat.mul_assoc, ← Nat.pow_add]; congr 2; omega
  rw [h1, Nat.add_mul_div_left _ _ (by positivity)]
  ring

/-- `shr_inner` on the words from `num` up, when the carry out of the loop is not zero -/
theorem shrInner_carry {v : Words} {s : Nat} (hlen : s / 32 < v.length) (h0 : 0 < s % 32)
    (htop : v.getLast (by intro h; simp [h] at hlen) >>> (s % 32) ≠ 0#32) :
    val (shrInner v s) = val v / 2 ^ s ∧ Canon (shrInner v s) := by
  have hn : s % 32 < 32 := Nat.mod_lt _ (by norm_num)
  obtain ⟨x, xs, hd⟩ : ∃ x xs, v.drop (s / 32) = x :: xs := by
    cases h : v.drop (s / 32) with
    | nil => have := congrArg List.length h; simp at this; omega
    | cons x xs => exact ⟨x, xs, rfl⟩
  have hxl : xs.length + 1 = v.length - s / 32 := by
    have := congrArg List.length hd; simp at this; omega
  have hlast : (x :: xs).getLast (by simp) = v.getLast (by intro h; simp [h] at hlen) := by
    have h1 : v.drop (s / 32) ≠ [] := by rw [hd]; simp
    have h2 := List.getLast_drop h1
    rw [← h2]
    congr 1; exact hd.symm
  have hsnd := shrLoop_snd h0 hn x xs
  rw [hlast] at hsnd
  have hsl := shrLoop_length (s % 32) (x >>> (s % 32)) xs
  have hsv := shrLoop_val h0 hn (x >>> (s % 32)) xs (shr_lt' x (by omega))
  have hdl : (((shrLoop (s % 32) (x >>> (s % 32)) xs).1 ++
        v.drop (shrLoop (s % 32) (x >>> (s % 32)) xs).1.length).take (v.length - s / 32)).dropLast
      = (shrLoop (s % 32) (x >>> (s % 32)) xs).1 := by
    rw [List.dropLast_eq_take, List.take_take]
    rw [List.take_left']
    simp only [List.length_take, List.length_append, hsl, List.length_drop]
    omega
  have hres : shrInner v s = (shrLoop (s % 32) (x >>> (s % 32)) xs).1 ++
      [(shrLoop (s % 32) (x >>> (s % 32)) xs).2] := by
    unfold shrInner
    simp only
    rw [if_neg (by omega), if_pos h0, hd]
    simp only
    rw [if_pos (by rw [hsnd]; exact htop), hdl]
  rw [hres]
  constructor
  · rw [val_append, hsl]
    simp only [val_cons, val_nil, Nat.mul_zero, Nat.add_zero]
    rw [hsv, div_pow_split x xs hn, ← hd]
    have h1 := val_take_add_drop v (s / 32) (by omega)
    have h2 := val_lt (v.take (s / 32))
    rw [List.length_take, Nat.min_eq_left (by omega)] at h2
    have hs : s = 32 * (s / 32) + s % 32 := by omega
    conv_rhs => rw [hs, Nat.pow_add, ← Nat.div_div_eq_div_mul]
    congr 1
    rw [h1, Nat.add_mul_div_left _ _ (by positivity), Nat.div_eq_of_lt h2]
    omega
  · refine ⟨by simp, Or.inr ?_⟩
    simp only [List.getLast_append_singleton]
    rw [hsnd]; exact htop

/-- `shr_inner` when the carry out of the loop is zero and whole words are shifted out as well: the word of the original
number that happens to be at the new top position stays there -/
theorem shrInner_stale {v : Words} {s : Nat} (hlen : s / 32 < v.length) (h0 : 0 < s % 32) (h1 : 32 ≤ s)
    (htop : v.getLast (by intro h; simp [h] at hlen) >>> (s % 32) = 0#32) :
    ∃ lo, lo.length = v.length - 1 - s / 32 ∧ val lo = val v / 2 ^ s ∧
      shrInner v s = lo ++ [v.getD (v.length - 1 - s / 32) 0#32] := by
  have hn : s % 32 < 32 := Nat.mod_lt _ (by norm_num)
  obtain ⟨x, xs, hd⟩ : ∃ x xs, v.drop (s / 32) = x :: xs := by
    cases h : v.drop (s / 32) with
    | nil => have := congrArg List.length h; simp at this; omega
    | cons x xs => exact ⟨x, xs, rfl⟩
  have hxl : xs.length + 1 = v.length - s / 32 := by
    have := congrArg List.length hd; simp at this; omega
  have hlast : (x :: xs).getLast (by simp) = v.getLast (by intro h; simp [h] at hlen) := by
    have h1 : v.drop (s / 32) ≠ [] := by rw [hd]; simp
    have h2 := List.getLast_drop h1
    rw [← h2]
    congr 1; exact hd.symm
  have hsnd := shrLoop_snd h0 hn x xs
  rw [hlast, htop] at hsnd
  have hsl := shrLoop_length (s % 32) (x >>> (s % 32)) xs
  have hsv := shrLoop_val h0 hn (x >>> (s % 32)) xs (shr_lt' x (by omega))
  refine ⟨(shrLoop (s % 32) (x >>> (s % 32)) xs).1, by omega, ?_, ?_⟩
  · rw [hsnd] at hsv
    simp only [BitVec.toNat_zero, Nat.mul_zero, Nat.add_zero] at hsv
    rw [hsv, div_pow_split x xs hn, ← hd]
    have h1 := val_take_add_drop v (s / 32) (by omega)
    have h2 := val_lt (v.take (s / 32))
    rw [List.length_take, Nat.min_eq_left (by omega)] at h2
    have hs : s = 32 * (s / 32) + s % 32 := by omega
    conv_rhs => rw [hs, Nat.pow_add, ← Nat.div_div_eq_div_mul]
    congr 1
    rw [h1, Nat.add_mul_div_left _ _ (by positivity), Nat.div_eq_of_lt h2]
    omega
  · unfold shrInner
    simp only
    rw [if_neg (by omega), if_pos h0, hd]
    simp only
    rw [if_neg (by rw [hsnd]; simp), if_neg (by
      have : s / 32 ≠ 0 := by omega
      simp [this]), hsl]
    rw [List.take_append, hsl]
    rw [List.take_of_length_le (by omega)]
    congr 1
    have e : v.length - s / 32 - xs.length = 1 := by omega
    have e2 : v.length - 1 - s / 32 = xs.length := by omega
    rw [e, e2]
    have hlt : xs.length < v.length := by omega
    rw [List.drop_eq_getElem_cons hlt, List.take_succ_cons, List.take_zero]
    simp [List.getD, hlt]

theorem val_dropLast_getLast {v : Words} (hv : v ≠ []) :
    val v = val v.dropLast + 2 ^ (32 * (v.length - 1)) * (v.getLast hv).toNat := by
  conv_lhs => rw [← List.dropLast_append_getLast hv, val_append]
  simp

theorem getD_toNat (v : Words) (i : Nat) : (v.getD i 0#32).toNat = val v / 2 ^ (32 * i) % 2 ^ 32 := by
  induction v generalizing i with
  | nil => simp
  | cons a v ih =>
    have ha := a.isLt
    rcases i with _ | i
    · simp only [List.getD_cons_zero, val_cons, Nat.mul_zero, pow_zero, Nat.div_one]
      omega
    · have e : 32 * (i + 1) = 32 + 32 * i := by ring
      have e2 : (a.toNat + 2 ^ 32 * val v) / 2 ^ 32 = val v := by omega
      rw [List.getD_cons_succ, ih, val_cons, e, Nat.pow_add, ← Nat.div_div_eq_div_mul, e2]

/-- `shr_inner` by less than 32 bits -/
theorem shrInner_small {v : Words} {s : Nat} (hv : v ≠ []) (h : s < 32) :
    val (shrInner v s) = val v / 2 ^ s ∧ (Canon v → Canon (shrInner v s)) := by
  have hpos : 0 < v.length := List.length_pos_iff.2 hv
  have hs32 : s / 32 = 0 := by omega
  have hs : s % 32 = s := by omega
  by_cases h0 : s = 0
  · subst h0
    have : shrInner v 0 = v := by
      unfold shrInner
      simp [hv]
    rw [this]; simp
  · by_cases htop : v.getLast hv >>> s = 0#32
    · obtain ⟨x, xs, rfl⟩ : ∃ x xs, v = x :: xs := by
        cases v with
        | nil => exact absurd rfl hv
        | cons x xs => exact ⟨x, xs, rfl⟩
      have hsnd := shrLoop_snd (by omega : 0 < s) h x xs
      have hsl := shrLoop_length s (x >>> s) xs
      have hsv := shrLoop_val (by omega : 0 < s) h (x >>> s) xs (shr_lt' x (by omega))
      have hz : (shrLoop s (x >>> s) xs).2 = 0#32 := by rw [hsnd]; exact htop
      have hdl : (((shrLoop s (x >>> s) xs).1 ++
            (x :: xs).drop (shrLoop s (x >>> s) xs).1.length).take ((x :: xs).length - 0)).dropLast
          = (shrLoop s (x >>> s) xs).1 := by
        rw [List.dropLast_eq_take, List.take_take]
        rw [List.take_left']
        simp only [List.length_take, List.length_append, hsl, List.length_drop, List.length_cons]
        omega
      have hres : shrInner (x :: xs) s =
          if (shrLoop s (x >>> s) xs).1 = [] then [0#32] else (shrLoop s (x >>> s) xs).1 := by
        unfold shrInner
        simp only [hs32, hs]
        have hs0 : s > 0 := by omega
        rw [if_neg (by simp), if_pos hs0, List.drop_zero]
        simp only
        rw [if_neg (by rw [hz]; simp), if_pos (by simp; omega), hdl]
      have hval : val (shrInner (x :: xs) s) = val (x :: xs) / 2 ^ s := by
        rw [hres, ← div_pow_split x xs h, ← hsv, hz]
        split
        · rename_i hnil
          rw [hnil]; simp
        · simp
      refine ⟨hval, ?_⟩
      intro hc
      rw [hres]
      by_cases hxs : xs = []
      · subst hxs
        simp [shrLoop, canon_singleton]
      · have hne : (shrLoop s (x >>> s) xs).1 ≠ [] := by
          intro h0; rw [h0] at hsl; simp at hsl; exact hxs (List.length_eq_zero_iff.1 hsl.symm)
        rw [if_neg hne]
        rw [hres, if_neg hne] at hval
        apply canon_of_le_val hne
        intro h1
        rw [hval, hsl]
        rw [Nat.le_div_iff_mul_le (by positivity)]
        have := hc.le_val (by simp; omega)
        simp only [List.length_cons, Nat.add_sub_cancel] at this
        calc 2 ^ (32 * (xs.length - 1)) * 2 ^ s = 2 ^ (32 * (xs.length - 1) + s) := by
              rw [Nat.pow_add]
          _ ≤ 2 ^ (32 * xs.length) := Nat.pow_le_pow_right (by norm_num) (by omega)
          _ ≤ _ := this
    · have := shrInner_carry (v := v) (s := s) (by omega) (by omega) (by rw [hs]; exact htop)
      exact ⟨this.1, fun _ => this.2⟩

theorem shrInner_enc_lt {a s : Nat} (h : s < 32) : shrInner (enc a) s = enc (a / 2 ^ s) := by
  have := shrInner_small (enc_ne_nil a) h
  exact enc_eq_iff.2 ⟨this.2 (canon_enc a), by rw [this.1, val_enc]⟩

/-- shifting out all words -/
theorem shrInner_all {v : Words} {s : Nat} (h : v.length ≤ s / 32) : shrInner v s = enc 0 := by
  unfold shrInner
  simp only
  rw [if_pos h, enc_zero]

/-- What the code does for a shift by a whole number of words: it keeps the *low* words. -/
theorem shrInner_words {v : Words} {k : Nat} (hk : k < v.length) :
    shrInner v (32 * k) = v.take (v.length - k) := by
  have h1 : 32 * k / 32 = k := by omega
  have h2 : 32 * k % 32 = 0 := by omega
  unfold shrInner
  simp only [h1, h2]
  rw [if_neg (by omega)]
  simp

theorem shrInner_ne_nil {v : Words} (hv : v ≠ []) (s : Nat) : shrInner v s ≠ [] := by
  have hpos : 0 < v.length := List.length_pos_iff.2 hv
  unfold shrInner
  simp only
  split_ifs with h1 h2 h3 h4 h5
  all_goals first
    | simp; done
    | assumption
    | skip
  all_goals
    refine List.ne_nil_of_length_pos ?_
    simp only [List.length_take, List.length_append, List.length_drop, List.length_nil]
    omega

/-- the value of the right shift, in all cases -/
theorem val_shrInner {v : Words} (hv : v ≠ []) (s : Nat) : val (shrInner v s) = shrWords v.length (val v) s := by
  have hpos : 0 < v.length := List.length_pos_iff.2 hv
  have hd := val_dropLast_getLast hv
  have hl := val_lt v.dropLast
  rw [List.length_dropLast] at hl
  have htop : v.getLast hv >>> (s % 32) = 0#32 ↔ val v < 2 ^ (32 * (v.length - 1) + s % 32) := by
    rw [← BitVec.toNat_inj, BitVec.toNat_ushiftRight, Nat.shiftRight_eq_div_pow, BitVec.toNat_zero,
      Nat.div_eq_zero_iff_lt (Nat.two_pow_pos _), Nat.pow_add]
    constructor
    · intro h
      have := Nat.mul_le_mul_left (2 ^ (32 * (v.length - 1))) (Nat.succ_le_of_lt h)
      rw [Nat.succ_eq_add_one, Nat.mul_add] at this
      omega
    · intro h
      by_contra hc
      have := Nat.mul_le_mul_left (2 ^ (32 * (v.length - 1))) (not_lt.1 hc)
      omega
  unfold shrWords
  split_ifs with h1 h2 h3
  · by_cases hs : s < 32
    · exact (shrInner_small hv hs).1
    · rw [shrInner_all (by omega), val_enc, Nat.div_eq_of_lt]
      exact lt_of_lt_of_le (val_lt v) (Nat.pow_le_pow_right (by norm_num) (by omega))
  · have e : s = 32 * (s / 32) := by omega
    have h := val_take_add_drop v (v.length - s / 32) (by omega)
    have hlt : val (v.take (v.length - s / 32)) < 2 ^ (32 * (v.length - s / 32)) := by
      have := val_lt (v.take (v.length - s / 32))
      rwa [List.length_take, Nat.min_eq_left (by omega)] at this
    have hw := shrInner_words (v := v) (k := s / 32) (by omega)
    rw [← e] at hw
    rw [hw, h, Nat.add_mul_mod_self_left, Nat.mod_eq_of_lt hlt]
  · obtain ⟨lo, hl, hv, hr⟩ := shrInner_stale (v := v) (s := s) (by omega) (by omega) (by omega) (htop.2 h3)
    rw [hr, val_append, hl, hv, val_cons, val_nil, getD_toNat]
    simp
  · exact (shrInner_carry (v := v) (s := s) (by omega) (by omega) (fun h => h3 (htop.1 h))).1

/-! ### bit length -/

/-- length of the binary expansion, with 1 for zero -/
def bitLen (n : Nat) : Nat := if n = 0 then 1 else n.log2 + 1

theorem log2_top {xs : Words} {w : W} (hw : w ≠ 0#32) :
    (val (xs ++ [w])).log2 = w.toNat.log2 + 32 * xs.length := by
  have hw0 : w.toNat ≠ 0 := by
    intro h; exact hw (BitVec.eq_of_toNat_eq (by simpa using h))
  have hv : val (xs ++ [w]) = val xs + 2 ^ (32 * xs.length) * w.toNat := by
    rw [val_append]; simp
  have h1 := val_lt xs
  have hb := (Nat.log2_eq_iff hw0).1 rfl
  have hne : val (xs ++ [w]) ≠ 0 := by
    rw [hv]
    have : 0 < 2 ^ (32 * xs.length) * w.toNat := Nat.mul_pos (by positivity) (by omega)
    omega
  rw [Nat.log2_eq_iff hne, hv]
  generalize w.toNat.log2 = k at *
  have e1 : 2 ^ (k + 32 * xs.length) = 2 ^ (32 * xs.length) * 2 ^ k := by
    rw [Nat.add_comm, Nat.pow_add]
  have e2 : 2 ^ (k + 32 * xs.length + 1) = 2 ^ (32 * xs.length) * 2 ^ (k + 1) := by
    rw [← Nat.pow_add]; congr 1; omega
  rw [e1, e2]
  constructor
  · have := Nat.mul_le_mul_left (2 ^ (32 * xs.length)) hb.1
    omega
  · have := Nat.mul_le_mul_left (2 ^ (32 * xs.length)) (Nat.succ_le_of_lt hb.2)
    rw [Nat.succ_eq_add_one, Nat.mul_add] at this
    omega

theorem bitsLen_canon {x : Words} (hx : Canon x) : bitsLen x = bitLen (val x) := by
  obtain ⟨hne, h⟩ := hx
  unfold bitsLen
  rw [List.getLast?_eq_some_getLast hne]
  simp only
  by_cases hz : x.getLast hne = 0#32
  · rw [if_pos hz]
    have h1 : x.length = 1 := by
      rcases h with h | h
      · exact h
      · exact absurd hz h
    rw [if_pos h1]
    match x, h1 with
    | [w], _ => simp at hz; subst hz; rfl
  · rw [if_neg hz]
    have hd := List.dropLast_concat_getLast hne
    have hl := log2_top (xs := x.dropLast) hz
    rw [hd, List.length_dropLast] at hl
    have hw0 : (x.getLast hne).toNat ≠ 0 := by
      intro h; exact hz (BitVec.eq_of_toNat_eq (by simpa using h))
    have hv0 : val x ≠ 0 := by
      rw [← hd, val_append]
      have : 0 < 2 ^ (32 * x.dropLast.length) * val [x.getLast hne] := by
        simp only [val_cons, val_nil]
        exact Nat.mul_pos (by positivity) (by omega)
      omega
    unfold bitLen leadingZeros
    rw [if_neg hv0, if_neg hz, hl]
    have : (x.getLast hne).toNat.log2 < 32 := (Nat.log2_lt hw0).2 (x.getLast hne).isLt
    omega

@[simp] theorem bitsLen_enc (a : Nat) : bitsLen (enc a) = bitLen a := by
  rw [bitsLen_canon (canon_enc a), val_enc]

theorem bitLen_pos (n : Nat) : 0 < bitLen n := by unfold bitLen; split <;> omega

theorem lt_pow_bitLen (n : Nat) : n < 2 ^ bitLen n := by
  unfold bitLen
  split
  · subst_vars; norm_num
  · exact ((Nat.log2_eq_iff (by assumption)).1 rfl).2

theorem pow_bitLen_le {n : Nat} (h : n ≠ 0) : 2 ^ (bitLen n - 1) ≤ n := by
  unfold bitLen
  rw [if_neg h]
  exact ((Nat.log2_eq_iff h).1 rfl).1

theorem bitLen_mono {m n : Nat} (h : m ≤ n) : bitLen m ≤ bitLen n := by
  by_contra hc
  have h1 := lt_pow_bitLen n
  by_cases hm : m = 0
  · subst hm
    have := bitLen_pos n
    simp [bitLen] at hc
    split at hc <;> omega
  · have h2 := pow_bitLen_le hm
    have h3 : 2 ^ bitLen n ≤ 2 ^ (bitLen m - 1) := Nat.pow_le_pow_right (by norm_num) (by omega)
    omega

theorem bitLen_le_of_lt {n k : Nat} (hk : 0 < k) (h : n < 2 ^ k) : bitLen n ≤ k := by
  by_cases hn : n = 0
  · subst hn; simp [bitLen]; omega
  · have := pow_bitLen_le hn
    by_contra hc
    have : 2 ^ k ≤ 2 ^ (bitLen n - 1) := Nat.pow_le_pow_right (by norm_num) (by omega)
    omega

end RMath
