import Verif.Model.FloatText
import Verif.SpecDec
import Mathlib.Tactic.Ring
import Mathlib.Tactic.FieldSimp
import Mathlib.Tactic.Linarith
import Mathlib.Tactic.LinearCombination
import Mathlib.Tactic.Positivity

/-! Lemmas about the decimal numbers of src/bigint/decimal.rs. -/

namespace RMath

/-- The number denoted by a list of digits, the most significant first. -/
def digVal (ds : List Nat) : Nat := ds.foldl (fun n d => 10 * n + d) 0

/-- The number denoted by a `Decimal`. -/
def decVal (d : Dec) : ℚ := (digVal d.mant : ℚ) * 10 ^ (d.exp - d.mant.length)

theorem digVal_from (ds : List Nat) : ∀ n, ds.foldl (fun n d => 10 * n + d) n = n * 10 ^ ds.length + digVal ds := by
  induction ds with
  | nil => intro n; simp [digVal]
  | cons d ds ih =>
    intro n
    have h : digVal (d :: ds) = (10 * 0 + d) * 10 ^ ds.length + digVal ds := by
      rw [← ih]; rfl
    rw [List.foldl_cons, ih, h, List.length_cons, pow_succ]
    ring

theorem digVal_nil : digVal [] = 0 := rfl

theorem digVal_append (a b : List Nat) : digVal (a ++ b) = digVal a * 10 ^ b.length + digVal b := by
  rw [digVal, List.foldl_append, digVal_from]; rfl

theorem digVal_cons (d : Nat) (ds : List Nat) : digVal (d :: ds) = d * 10 ^ ds.length + digVal ds := by
  rw [show d :: ds = [d] ++ ds from rfl, digVal_append]; simp [digVal]

theorem digVal_concat (a : List Nat) (d : Nat) : digVal (a ++ [d]) = digVal a * 10 + d := by
  rw [digVal_append]; simp [digVal]

theorem digVal_lt {ds : List Nat} (h : ∀ d ∈ ds, d < 10) : digVal ds < 10 ^ ds.length := by
  induction ds with
  | nil => simp [digVal]
  | cons d ds ih =>
    have h1 := ih fun x hx => h x (List.mem_cons_of_mem _ hx)
    have h2 : d < 10 := h d List.mem_cons_self
    rw [digVal_cons, List.length_cons, pow_succ]
    nlinarith

theorem digVal_zeros (n : Nat) : digVal (List.replicate n 0) = 0 := by
  induction n with
  | zero => rfl
  | succ n ih => rw [List.replicate_succ, digVal_cons, ih]; simp

/-- The digits of a `Decimal` that is in normal form: the first and the last digit are not zero. -/
structure DecOk (d : Dec) : Prop where
  lt : ∀ x ∈ d.mant, x < 10
  ne : d.mant ≠ []
  head : d.mant.headD 0 ≠ 0
  last : d.mant.getLastD 0 ≠ 0

/-- The same without a condition on the last digit. -/
structure DecPre (d : Dec) : Prop where
  lt : ∀ x ∈ d.mant, x < 10
  head : d.mant.headD 0 ≠ 0

theorem DecOk.pre {d : Dec} (h : DecOk d) : DecPre d := ⟨h.lt, h.head⟩

theorem DecPre.ne {d : Dec} (h : DecPre d) : d.mant ≠ [] := fun h0 => h.head (by rw [h0]; rfl)

theorem DecPre.ok {d : Dec} (h : DecPre d) (hl : d.mant.getLastD 0 ≠ 0) : DecOk d := ⟨h.lt, h.ne, h.head, hl⟩

theorem dec_and_mask (n s : Nat) : n &&& (1 <<< s - 1) = n % 2 ^ s := by
  rw [Nat.one_shiftLeft, Nat.and_two_pow_sub_one_eq_mod]

theorem shr_zero_iff (n s : Nat) : n >>> s = 0 ↔ n < 2 ^ s := by
  rw [Nat.shiftRight_eq_div_pow, Nat.div_eq_zero_iff]
  have : 2 ^ s ≠ 0 := by positivity
  omega

theorem decLead_stop {s n : Nat} (h : 2 ^ s ≤ n) (r : Nat) (ds : List Nat) : decLead s n r ds = (n, r) := by
  induction ds with
  | nil => rfl
  | cons d ds ih => rw [decLead, if_neg (by rw [shr_zero_iff]; omega), ih]

/-- the leading digits picked up: enough for a quotient that is not zero, or all of them -/
theorem decLead_spec (s : Nat) : ∀ (ds : List Nat) (n r : Nat), (∀ d ∈ ds, d < 10) → n < 2 ^ s →
    ∃ k, k ≤ ds.length ∧ decLead s n r ds = (n * 10 ^ k + digVal (ds.take k), r + k) ∧
      n * 10 ^ k + digVal (ds.take k) < 10 * 2 ^ s ∧ (2 ^ s ≤ n * 10 ^ k + digVal (ds.take k) ∨ k = ds.length) := by
  intro ds
  induction ds with
  | nil => intro n r _ hn; exact ⟨0, le_refl _, by simp [decLead, digVal], by simp [digVal]; omega, Or.inr rfl⟩
  | cons d ds ih =>
    intro n r hd hn
    have hd0 : d < 10 := hd d List.mem_cons_self
    rw [decLead, if_pos ((shr_zero_iff _ _).2 hn)]
    have h10 : n * 10 + d < 10 * 2 ^ s := by omega
    by_cases h : 2 ^ s ≤ n * 10 + d
    · refine ⟨1, by simp, ?_⟩
      rw [decLead_stop h]
      simp only [List.take_succ_cons, List.take_zero, digVal, List.foldl_cons, List.foldl_nil]
      exact ⟨by simp, by omega, Or.inl (by omega)⟩
    · obtain ⟨k, h1, h2, h3, h4⟩ := ih (n * 10 + d) (r + 1) (fun x hx => hd x (List.mem_cons_of_mem _ hx)) (by omega)
      have e : (n * 10 + d) * 10 ^ k + digVal (ds.take k) = n * 10 ^ (k + 1) + digVal ((d :: ds).take (k + 1)) := by
        rw [List.take_succ_cons, digVal_cons, List.length_take, Nat.min_eq_left h1, pow_succ]; ring
      refine ⟨k + 1, by simpa using h1, ?_, ?_, ?_⟩
      · rw [h2, e]; simp only [Prod.mk.injEq, true_and]; omega
      · rw [← e]; exact h3
      · rw [← e]; exact h4.imp id fun h => by simp [h]

/-- zeros appended until the first digit of the quotient is not zero -/
theorem decGrow_spec (s : Nat) : ∀ (fuel n r : Nat), n < 10 * 2 ^ s → 2 ^ s ≤ n * 2 ^ fuel →
    ∃ j, decGrow s (fuel + 1) n r = .ok (n * 10 ^ j, r + j) ∧ 2 ^ s ≤ n * 10 ^ j ∧ n * 10 ^ j < 10 * 2 ^ s ∧
      (j ≠ 0 → n < 2 ^ s) := by
  intro fuel
  induction fuel with
  | zero =>
    intro n r h1 h2
    exact ⟨0, by rw [decGrow, if_neg (by rw [shr_zero_iff]; omega)]; simp, by omega, by omega, by omega⟩
  | succ fuel ih =>
    intro n r h1 h2
    rw [decGrow]
    by_cases h : n < 2 ^ s
    · rw [if_pos ((shr_zero_iff _ _).2 h)]
      obtain ⟨j, e, h3, h4, -⟩ := ih (n * 10) (r + 1) (by omega) (by
        rw [pow_succ] at h2
        nlinarith [Nat.zero_le (n * 2 ^ fuel)])
      have e2 : n * 10 * 10 ^ j = n * 10 ^ (j + 1) := by rw [pow_succ]; ring
      rw [e2] at e h3 h4
      exact ⟨j + 1, by rw [e]; simp only [Except.ok.injEq, Prod.mk.injEq, true_and]; omega, h3, h4, fun _ => h⟩
    · rw [if_neg (by rw [shr_zero_iff]; omega)]
      exact ⟨0, by simp, by omega, by omega, by omega⟩

/-- long division by `2^s`, digit by digit -/
theorem decQuo_spec (s : Nat) : ∀ (cs : List Nat) (n : Nat), (∀ c ∈ cs, c < 10) → n < 10 * 2 ^ s →
    (decQuo s n cs).1.length = cs.length ∧ (decQuo s n cs).2 < 10 * 2 ^ s ∧ (∀ d ∈ (decQuo s n cs).1, d < 10) ∧
    n * 10 ^ cs.length + digVal cs = 10 * 2 ^ s * digVal (decQuo s n cs).1 + (decQuo s n cs).2 := by
  intro cs
  induction cs with
  | nil => intro n _ hn; simp [decQuo, digVal, hn]
  | cons c cs ih =>
    intro n hc hn
    have hc0 : c < 10 := hc c List.mem_cons_self
    have hm : n % 2 ^ s < 2 ^ s := Nat.mod_lt _ (by positivity)
    obtain ⟨h1, h2, h3, h4⟩ := ih (n % 2 ^ s * 10 + c) (fun x hx => hc x (List.mem_cons_of_mem _ hx)) (by omega)
    rw [decQuo]
    simp only [dec_and_mask]
    refine ⟨by simp [h1], h2, ?_, ?_⟩
    · intro d hd
      rcases List.mem_cons.1 hd with rfl | hd
      · rw [Nat.shiftRight_eq_div_pow]; exact Nat.div_lt_of_lt_mul (by linarith)
      · exact h3 d hd
    · rw [digVal_cons, digVal_cons, h1, Nat.shiftRight_eq_div_pow, List.length_cons, pow_succ]
      have e := Nat.div_add_mod n (2 ^ s)
      generalize n / 2 ^ s = q at *
      generalize n % 2 ^ s = m at *
      rw [← e]
      linear_combination h4

theorem decTail_zero (s fuel : Nat) : decTail s (fuel + 1) 0 = .ok [] := by simp [decTail]

/-- one digit and the rest -/
theorem tail_step {s n : Nat} {t : List Nat} (h : ((n % 2 ^ s * 10 : Nat) : ℚ) = 2 ^ s * (digVal t * 10 ^ (1 - (t.length : ℤ)))) :
    (n : ℚ) = 2 ^ s * (digVal ((n >>> s) :: t) * 10 ^ (1 - (((n >>> s) :: t).length : ℤ))) := by
  have e := Nat.div_add_mod n (2 ^ s)
  have e' : (n : ℚ) = 2 ^ s * (n / 2 ^ s : Nat) + (n % 2 ^ s : Nat) := by rw [← e]; push_cast; rw [e]
  rw [digVal_cons, Nat.shiftRight_eq_div_pow, List.length_cons]
  have hz : (10 : ℚ) ^ (1 - ((t.length + 1 : Nat) : ℤ)) = (10 ^ t.length)⁻¹ := by
    rw [← zpow_natCast, ← zpow_neg]; congr 1; push_cast; ring
  have hz2 : (10 : ℚ) ^ (1 - (t.length : ℤ)) = 10 * (10 ^ t.length)⁻¹ := by
    rw [sub_eq_add_neg, zpow_add₀ (by norm_num), zpow_one, zpow_neg, zpow_natCast]
  rw [hz2] at h
  rw [hz]
  push_cast at h ⊢
  have hp : (10 : ℚ) ^ t.length ≠ 0 := by positivity
  field_simp at h ⊢
  rw [e']
  push_cast
  linear_combination h

/-- the digits behind those of the dividend: every round makes the remainder more divisible by 2 -/
theorem decTail_spec (s : Nat) : ∀ (fuel n i : Nat), n < 10 * 2 ^ s → 2 ^ i ∣ n → i + fuel = s →
    ∃ t, decTail s (fuel + 2) n = .ok t ∧ (∀ d ∈ t, d < 10) ∧
      (n : ℚ) = 2 ^ s * (digVal t * 10 ^ (1 - (t.length : ℤ))) ∧ (0 < n → t.head? = some (n >>> s)) := by
  intro fuel
  induction fuel with
  | zero =>
    intro n i hn hd hi
    rcases Nat.eq_zero_or_pos n with rfl | h0
    · exact ⟨[], decTail_zero _ _, by simp, by simp [digVal], by omega⟩
    · rw [decTail, if_pos h0]
      have hz : n % 2 ^ s = 0 := by rw [← hi]; exact Nat.mod_eq_zero_of_dvd hd
      simp only [dec_and_mask, hz, zero_mul, decTail_zero, bind, Except.bind]
      refine ⟨_, rfl, ?_, ?_, fun _ => rfl⟩
      · intro d hd
        simp only [List.mem_singleton] at hd
        rw [hd, Nat.shiftRight_eq_div_pow]; exact Nat.div_lt_of_lt_mul (by linarith)
      · exact tail_step (by rw [hz]; simp [digVal])
  | succ fuel ih =>
    intro n i hn hd hi
    rcases Nat.eq_zero_or_pos n with rfl | h0
    · exact ⟨[], decTail_zero _ _, by simp, by simp [digVal], by omega⟩
    · rw [decTail, if_pos h0]
      have hm : n % 2 ^ s < 2 ^ s := Nat.mod_lt _ (by positivity)
      have hd2 : 2 ^ i ∣ n % 2 ^ s := (Nat.dvd_mod_iff (pow_dvd_pow 2 (by omega))).2 hd
      obtain ⟨t, h1, h2, h3, -⟩ := ih (n % 2 ^ s * 10) (i + 1) (by omega)
        (by rw [pow_succ]; exact Nat.mul_dvd_mul hd2 (by norm_num)) (by omega)
      simp only [dec_and_mask, h1, bind, Except.bind]
      refine ⟨_, rfl, ?_, tail_step h3, fun _ => rfl⟩
      intro d hd
      rcases List.mem_cons.1 hd with rfl | hd
      · rw [Nat.shiftRight_eq_div_pow]; exact Nat.div_lt_of_lt_mul (by linarith)
      · exact h2 d hd

/-- cutting zeros at the end -/
theorem trim_split_digits (ds : List Nat) : ∃ k, ds = ds.rdropWhile (· == 0) ++ List.replicate k 0 := by
  induction ds using List.reverseRecOn with
  | nil => exact ⟨0, rfl⟩
  | append_singleton ds d ih =>
    by_cases h : d = 0
    · obtain ⟨k, hk⟩ := ih
      refine ⟨k + 1, ?_⟩
      rw [h, List.rdropWhile_concat_pos _ _ _ (by simp), List.replicate_succ', ← List.append_assoc, ← hk]
    · exact ⟨0, by rw [List.rdropWhile_concat_neg _ _ _ (by simpa using h)]; simp⟩

theorem decVal_append_zeros (m : List Nat) (k : Nat) (e : ℤ) :
    decVal ⟨m ++ List.replicate k 0, e⟩ = decVal ⟨m, e⟩ := by
  simp only [decVal, digVal_append, digVal_zeros, List.length_append, List.length_replicate]
  push_cast
  rw [show e - ((m.length : ℤ) + k) = (e - m.length) - k by ring, zpow_sub₀ (by norm_num), zpow_natCast]
  have : (10 : ℚ) ^ k ≠ 0 := by positivity
  field_simp
  ring

theorem getLastD_ne {α : Type} (l : List α) (a b : α) (h : l ≠ []) : l.getLastD a = l.getLastD b := by
  cases l with
  | nil => exact absurd rfl h
  | cons x xs => simp [List.getLastD]

theorem rdropWhile_last (ds : List Nat) (h : ds.rdropWhile (· == 0) ≠ []) : (ds.rdropWhile (· == 0)).getLastD 0 ≠ 0 := by
  have := List.rdropWhile_last_not (fun x : Nat => x == 0) ds h
  rw [List.getLastD_eq_getLast?, List.getLast?_eq_getLast_of_ne_nil h]
  simpa using this

/-- trimming keeps the value; the result is in normal form if the first digit is not zero -/
theorem decTrim_spec {d : Dec} (h1 : ∀ x ∈ d.mant, x < 10) (h2 : d.mant.headD 0 ≠ 0) :
    DecOk (decTrim d) ∧ decVal (decTrim d) = decVal d ∧ (decTrim d).mant.length ≤ d.mant.length ∧ (decTrim d).exp = d.exp := by
  obtain ⟨m, e⟩ := d
  simp only at h1 h2
  obtain ⟨k, hk⟩ := trim_split_digits m
  have hne : m.rdropWhile (· == 0) ≠ [] := by
    intro h0
    rw [h0, List.nil_append] at hk
    rw [hk] at h2
    cases k <;> simp [List.replicate_succ] at h2
  have hd : decTrim ⟨m, e⟩ = ⟨m.rdropWhile (· == 0), e⟩ := by
    rw [decTrim]; simp only [if_neg hne]
  rw [hd]
  refine ⟨⟨?_, hne, ?_, rdropWhile_last m hne⟩, ?_, ?_, rfl⟩
  · intro x hx
    exact h1 x (by rw [hk]; exact List.mem_append_left _ hx)
  · intro h0
    apply h2
    rw [hk]
    cases hc : m.rdropWhile (· == 0) with
    | nil => exact absurd hc hne
    | cons a as => rw [hc] at h0; simpa using h0
  · rw [← decVal_append_zeros _ k, ← hk]
  · have := congrArg List.length hk
    simp only [List.length_append] at this
    simp only; omega

theorem digVal_pos {ds : List Nat} (h : ds.headD 0 ≠ 0) : 0 < digVal ds := by
  cases ds with
  | nil => simp at h
  | cons d ds =>
    simp only [List.headD_cons] at h
    rw [digVal_cons]
    have : 0 < d * 10 ^ ds.length := Nat.mul_pos (by omega) (by positivity)
    omega

/-- division by a power of two -/
theorem decShr_spec {d : Dec} (h : DecPre d) (s : Nat) :
    ∃ z, decShr d s = .ok z ∧ DecOk z ∧ decVal z = decVal d / 2 ^ s := by
  obtain ⟨m, e⟩ := d
  have hlt := h.lt
  have hpos : 0 < digVal m := digVal_pos h.head
  simp only at hlt hpos
  have h2s : 0 < 2 ^ s := by positivity
  obtain ⟨k, hk, e1, h1, h2⟩ := decLead_spec s m 0 0 hlt h2s
  simp only [zero_mul, zero_add] at e1 h1 h2
  have hsplit : digVal m = digVal (m.take k) * 10 ^ (m.length - k) + digVal (m.drop k) := by
    conv_lhs => rw [← List.take_append_drop k m, digVal_append, List.length_drop]
  have hn0 : 0 < digVal (m.take k) := by
    rcases h2 with h2 | h2
    · omega
    · rw [h2, List.take_length]; exact hpos
  rw [decShr]
  simp only [e1]
  rw [if_neg (by omega)]
  obtain ⟨j, e2, h3, h4, h5⟩ := decGrow_spec s s (digVal (m.take k)) k h1 (by nlinarith)
  simp only [e2, bind, Except.bind]
  have hdrop : ∀ c ∈ m.drop (k + j), c < 10 := fun c hc => hlt c (List.mem_of_mem_drop hc)
  obtain ⟨q1, q2, q3, q4⟩ := decQuo_spec s (m.drop (k + j)) (digVal (m.take k) * 10 ^ j) hdrop h4
  obtain ⟨t, e3, t1, t2, t3⟩ := decTail_spec s s _ 0 q2 (by simp) (by omega)
  simp only [e3]
  generalize hq : decQuo s (digVal (m.take k) * 10 ^ j) (m.drop (k + j)) = q at *
  have hhead : (q.1 ++ t).headD 0 ≠ 0 := by
    have hd : (digVal (m.take k) * 10 ^ j) >>> s ≠ 0 := by rw [Ne, shr_zero_iff]; omega
    cases hc : m.drop (k + j) with
    | nil =>
      rw [hc, decQuo] at hq
      rw [← hq] at t3 ⊢
      have := t3 (by simp only; omega)
      simp only [List.nil_append, List.headD_eq_head?_getD]
      rw [this]; simpa using hd
    | cons a as =>
      rw [hc, decQuo] at hq
      rw [← hq]
      simpa using hd
  have hall : ∀ x ∈ q.1 ++ t, x < 10 := by
    intro x hx
    rcases List.mem_append.1 hx with hx | hx
    · exact q3 x hx
    · exact t1 x hx
  obtain ⟨r1, r2, -, -⟩ := decTrim_spec (d := ⟨q.1 ++ t, e + 1 - ((k + j : Nat) : ℤ)⟩) hall hhead
  refine ⟨_, rfl, r1, ?_⟩
  rw [r2]
  -- the value of the digits
  have hn : (digVal (m.take k) * 10 ^ j * 10 ^ (m.drop (k + j)).length + digVal (m.drop (k + j)) : ℚ) =
      2 ^ s * (digVal (q.1 ++ t) * 10 ^ (1 - (t.length : ℤ))) := by
    have q4' := congrArg (Nat.cast : Nat → ℚ) q4
    push_cast at q4'
    rw [q4', t2, digVal_append]
    push_cast
    rw [sub_eq_add_neg, zpow_add₀ (by norm_num), zpow_one, zpow_neg, zpow_natCast]
    have : (10 : ℚ) ^ t.length ≠ 0 := by positivity
    field_simp
  -- the digits consumed
  have hm : (digVal m : ℚ) * 10 ^ (e - m.length) =
      (digVal (m.take k) * 10 ^ j * 10 ^ (m.drop (k + j)).length + digVal (m.drop (k + j)) : ℚ) *
        10 ^ (e - (k + j : Nat) - q.1.length) := by
    rw [q1]
    by_cases hj : j = 0
    · subst hj
      simp only [pow_zero, mul_one, add_zero, List.length_drop]
      rw [hsplit]
      push_cast [Nat.cast_sub hk]
      congr 2
      ring
    · have hkl : k = m.length := by
        rcases h2 with h2 | h2
        · exact absurd (h5 hj) (by omega)
        · exact h2
      have hd : m.drop (k + j) = [] := List.drop_eq_nil_of_le (by omega)
      rw [hd, hkl, List.take_length]
      simp only [List.length_nil, pow_zero, mul_one, digVal_nil, Nat.cast_zero, add_zero, sub_zero]
      rw [show e - ((m.length + j : Nat) : ℤ) = (e - m.length) - j by push_cast; ring, zpow_sub₀ (by norm_num) (e - m.length : ℤ), zpow_natCast]
      have : (10 : ℚ) ^ j ≠ 0 := by positivity
      generalize (10 : ℚ) ^ (e - m.length : ℤ) = X
      field_simp
  simp only [decVal]
  rw [hm, hn, List.length_append]
  have hp : (2 : ℚ) ^ s ≠ 0 := by positivity
  rw [eq_div_iff hp]
  have : (10 : ℚ) ^ (e + 1 - ((k + j : Nat) : ℤ) - ((q.1.length + t.length : Nat) : ℤ)) =
      10 ^ (1 - (t.length : ℤ)) * 10 ^ (e - ((k + j : Nat) : ℤ) - q.1.length) := by
    rw [← zpow_add₀ (by norm_num)]; congr 1; push_cast; ring
  rw [this]
  ring

/-- the repeated division -/
theorem decShrs_spec : ∀ (fuel k : Nat) (d : Dec), DecPre d → k < 28 * fuel + 1 → 0 < fuel →
    ∃ z, decShrs fuel k d = .ok z ∧ DecOk z ∧ decVal z = decVal d / 2 ^ k := by
  intro fuel
  induction fuel with
  | zero => intro k d _ _ h; omega
  | succ fuel ih =>
    intro k d hd hk _
    rw [decShrs]
    by_cases h : k > 28
    · rw [if_pos h]
      obtain ⟨z, e, h1, h2⟩ := decShr_spec hd 28
      obtain ⟨w, e2, h3, h4⟩ := ih (k - 28) z h1.pre (by omega) (by omega)
      simp only [e, bind, Except.bind]
      refine ⟨w, e2, h3, ?_⟩
      rw [h4, h2, div_div, ← pow_add]
      congr 2; omega
    · rw [if_neg h]; exact decShr_spec hd k

/-! ## rounding -/

theorem nines_split (ds : List Nat) (h : ∀ d ∈ ds, d < 10) :
    ∃ k, ds = ds.rdropWhile (fun x => decide (x ≥ 9)) ++ List.replicate k 9 := by
  induction ds using List.reverseRecOn with
  | nil => exact ⟨0, rfl⟩
  | append_singleton ds d ih =>
    have hd : d < 10 := h d (by simp)
    by_cases h9 : 9 ≤ d
    · obtain ⟨k, hk⟩ := ih fun x hx => h x (by simp [hx])
      refine ⟨k + 1, ?_⟩
      have : d = 9 := by omega
      rw [this, List.rdropWhile_concat_pos _ _ _ (by simp), List.replicate_succ', ← List.append_assoc, ← hk]
    · exact ⟨0, by rw [List.rdropWhile_concat_neg _ _ _ (by simpa using h9)]; simp⟩

theorem digVal_nines (k : Nat) : digVal (List.replicate k 9) + 1 = 10 ^ k := by
  induction k with
  | zero => rfl
  | succ k ih => rw [List.replicate_succ, digVal_cons, List.length_replicate, pow_succ]; omega

theorem headD_take {ds : List Nat} {n : Nat} (h : 0 < n) : (ds.take n).headD 0 = ds.headD 0 := by
  cases ds with
  | nil => simp
  | cons d ds => cases n with
    | zero => omega
    | succ n => simp

theorem decRoundUp_spec {d : Dec} (h : DecPre d) {n : Nat} (hn : n < d.mant.length) :
    DecOk (decRoundUp d n) ∧ decVal (decRoundUp d n) = (digVal (d.mant.take n) + 1 : Nat) * 10 ^ (d.exp - n) ∧
      (decRoundUp d n).mant.length ≤ max n 1 := by
  obtain ⟨m, e⟩ := d
  simp only at hn
  have hall : ∀ x ∈ m.take n, x < 10 := fun x hx => h.lt x (List.mem_of_mem_take hx)
  obtain ⟨j, hj⟩ := nines_split _ hall
  rw [decRoundUp]
  simp only
  have hlen : n = ((m.take n).rdropWhile (fun x => decide (x ≥ 9))).length + j := by
    have := congrArg List.length hj
    simp only [List.length_append, List.length_replicate, List.length_take] at this
    omega
  have hv : digVal (m.take n) + 1 = (digVal ((m.take n).rdropWhile (fun x => decide (x ≥ 9))) + 1) * 10 ^ j := by
    conv_lhs => rw [hj, digVal_append, List.length_replicate]
    have := digVal_nines j
    rw [add_mul, one_mul]; omega
  have hlast : ∀ hne : (m.take n).rdropWhile (fun x => decide (x ≥ 9)) ≠ [],
      ((m.take n).rdropWhile (fun x => decide (x ≥ 9))).getLast hne < 9 := by
    intro hne
    have := List.rdropWhile_last_not (fun x : Nat => decide (x ≥ 9)) (m.take n) hne
    simpa using this
  have hhead : (m.take n).rdropWhile (fun x => decide (x ≥ 9)) ≠ [] →
      ((m.take n).rdropWhile (fun x => decide (x ≥ 9))).headD 0 ≠ 0 := by
    intro hne h0
    apply h.head
    have hn0 : 0 < n := by
      rcases Nat.eq_zero_or_pos n with rfl | h0
      · simp at hne
      · exact h0
    simp only
    rw [← headD_take hn0, hj]
    cases hc : (m.take n).rdropWhile (fun x => decide (x ≥ 9)) with
    | nil => exact absurd hc hne
    | cons a as => rw [hc] at h0; simpa using h0
  have hmem : ∀ x ∈ (m.take n).rdropWhile (fun x => decide (x ≥ 9)), x < 10 := by
    intro x hx
    exact hall x (by rw [hj]; exact List.mem_append_left _ hx)
  generalize (m.take n).rdropWhile (fun x => decide (x ≥ 9)) = kept at *
  by_cases hk : kept = []
  · rw [if_pos hk]
    subst hk
    refine ⟨⟨by simp, by simp, by simp, by simp⟩, ?_, by simp⟩
    rw [hv, decVal]
    simp only [digVal_nil, List.length_nil] at hlen ⊢
    rw [hlen]
    simp only [digVal, List.foldl_cons, List.foldl_nil, List.length_singleton, zero_add, one_mul]
    push_cast
    rw [← zpow_natCast, ← zpow_add₀ (by norm_num)]
    norm_num
  · rw [if_neg hk]
    have hl := hlast hk
    have hkk : kept = kept.dropLast ++ [kept.getLast hk] := (List.dropLast_append_getLast hk).symm
    have hg : kept.getLastD 0 = kept.getLast hk := by
      rw [List.getLastD_eq_getLast?, List.getLast?_eq_getLast_of_ne_nil hk]; rfl
    have hlk : kept.length = kept.dropLast.length + 1 := by
      conv_lhs => rw [hkk]
      simp
    rw [hg]
    refine ⟨⟨?_, by simp, ?_, by simp⟩, ?_, ?_⟩
    · intro x hx
      simp only [List.mem_append, List.mem_singleton] at hx
      rcases hx with hx | hx
      · exact hmem x (List.mem_of_mem_dropLast hx)
      · omega
    · have := hhead hk
      rw [hkk] at this
      cases hc : kept.dropLast with
      | nil => simp
      | cons a as => rw [hc] at this; simpa using this
    · simp only [decVal]
      rw [hv, digVal_concat]
      have h1 : digVal kept = digVal kept.dropLast * 10 + kept.getLast hk := by
        conv_lhs => rw [hkk, digVal_concat]
      rw [h1]
      simp only [List.length_append, List.length_singleton]
      rw [← hlk, hlen]
      push_cast
      rw [show e - ((kept.length : ℤ) + j) = (e - kept.length) - j by ring, zpow_sub₀ (by norm_num) (e - kept.length), zpow_natCast]
      generalize (10 : ℚ) ^ (e - kept.length : ℤ) = X
      have : (10 : ℚ) ^ j ≠ 0 := by positivity
      field_simp
      ring
    · simp only [List.length_append, List.length_singleton]
      omega

theorem digVal_mod_two (ds : List Nat) (h : ds ≠ []) : digVal ds % 2 = ds.getLastD 0 % 2 := by
  have hk := (List.dropLast_append_getLast h).symm
  rw [List.getLastD_eq_getLast?, List.getLast?_eq_getLast_of_ne_nil h]
  conv_lhs => rw [hk, digVal_concat]
  simp only [Option.getD_some]
  omega

/-- the decision to round up: more than half of a unit is cut off, or just half, and the last digit kept is odd -/
theorem decShouldRoundUp_iff {d : Dec} (h : DecOk d) {n : Nat} (hn : n < d.mant.length) :
    decShouldRoundUp d n = true ↔
      10 ^ (d.mant.length - n) < 2 * digVal (d.mant.drop n) ∨
        (10 ^ (d.mant.length - n) = 2 * digVal (d.mant.drop n) ∧ digVal (d.mant.take n) % 2 = 1) := by
  obtain ⟨m, e⟩ := d
  simp only at hn ⊢
  have hc : m.drop n = m[n] :: m.drop (n + 1) := List.drop_eq_getElem_cons hn
  have hget : m.getD n 0 = m[n] := by simp [List.getD_eq_getElem?_getD, hn]
  have hrest : digVal (m.drop (n + 1)) < 10 ^ (m.drop (n + 1)).length :=
    digVal_lt fun x hx => h.lt x (List.mem_of_mem_drop hx)
  have hl : m.length - n = (m.drop (n + 1)).length + 1 := by rw [List.length_drop]; omega
  have hrest0 : n + 1 < m.length → 0 < digVal (m.drop (n + 1)) := by
    intro h1
    have hne : m.drop (n + 1) ≠ [] := by simp; omega
    have hk := (List.dropLast_append_getLast hne).symm
    have hg : (m.drop (n + 1)).getLast hne = m.getLast h.ne := List.getLast_drop hne
    have := h.last
    simp only [List.getLastD_eq_getLast?, List.getLast?_eq_getLast_of_ne_nil h.ne, Option.getD_some] at this
    rw [hk, digVal_concat, hg]
    omega
  have hprev : n > 0 → m.getD (n - 1) 0 % 2 = digVal (m.take n) % 2 := by
    intro h0
    have hne : m.take n ≠ [] := by
      intro h1
      have := congrArg List.length h1
      simp only [List.length_take, List.length_nil] at this
      omega
    rw [digVal_mod_two _ hne, List.getLastD_eq_getLast?, List.getLast?_take]
    rw [if_neg (by omega)]
    simp only [List.getD_eq_getElem?_getD]
    have : n - 1 < m.length := by omega
    simp [this]
  have hzero : n = 0 → digVal (m.take n) = 0 := by rintro rfl; rfl
  rw [decShouldRoundUp, hc, digVal_cons, hl, pow_succ]
  simp only [hget]
  generalize hR : digVal (m.drop (n + 1)) = R at *
  generalize hL : (m.drop (n + 1)).length = L at *
  have hP : 0 < 10 ^ L := by positivity
  by_cases htie : m[n] = 5 ∧ n + 1 = m.length
  · rw [if_pos htie, htie.1]
    have hL0 : L = 0 := by rw [← hL, List.length_drop]; omega
    subst hL0
    have hR0 : R = 0 := by simp at hrest; exact hrest
    subst hR0
    simp only [pow_zero, Bool.and_eq_true, decide_eq_true_eq, bne_iff_ne, ne_eq]
    constructor
    · rintro ⟨h1, h2⟩
      right
      rw [hprev h1] at h2
      omega
    · rintro (h1 | ⟨-, h1⟩)
      · omega
      · have h0 : n > 0 := by
          rcases Nat.eq_zero_or_pos n with h0 | h0
          · rw [hzero h0] at h1; omega
          · exact h0
        refine ⟨h0, ?_⟩
        rw [hprev h0]; omega
  · rw [if_neg htie, decide_eq_true_eq]
    constructor
    · intro h5
      left
      by_cases h6 : m[n] = 5
      · have := hrest0 (by have : n + 1 ≠ m.length := fun hh => htie ⟨h6, hh⟩
                           omega)
        rw [h6]; omega
      · have : 6 * 10 ^ L ≤ m[n] * 10 ^ L := Nat.mul_le_mul_right _ (by omega)
        omega
    · intro h7
      by_contra h8
      have : m[n] * 10 ^ L ≤ 4 * 10 ^ L := Nat.mul_le_mul_right _ (by omega)
      omega

theorem decVal_split {d : Dec} {n : Nat} (hn : n ≤ d.mant.length) :
    decVal d = (digVal (d.mant.take n) + digVal (d.mant.drop n) / 10 ^ (d.mant.length - n)) * 10 ^ (d.exp - n) := by
  obtain ⟨m, e⟩ := d
  simp only at hn
  simp only [decVal]
  conv_lhs => rw [← List.take_append_drop n m, digVal_append]
  simp only [List.take_append_drop, List.length_drop]
  push_cast
  obtain ⟨j, hj⟩ : ∃ j, m.length = n + j := ⟨m.length - n, by omega⟩
  rw [hj, show n + j - n = j by omega, show e - ((n + j : Nat) : ℤ) = (e - n) - j by push_cast; ring, zpow_sub₀ (by norm_num) (e - n : ℤ), zpow_natCast]
  generalize (10 : ℚ) ^ (e - n : ℤ) = X
  have : (10 : ℚ) ^ j ≠ 0 := by positivity
  field_simp

/-- rounding to `n` digits -/
theorem decRound_spec {d : Dec} (h : DecOk d) (n : Nat) :
    ∃ k : Nat, decVal (decRound d n) = k * 10 ^ (d.exp - n) ∧ RoundsTo .toNearestEven (decVal d / 10 ^ (d.exp - n)) k ∧
      (0 < n → DecOk (decRound d n)) ∧ (decRound d n).mant.length ≤ max n 1 ∧ (∀ x ∈ (decRound d n).mant, x < 10) ∧
      (DecOk (decRound d n) ∨ decRound d n = ⟨[], 0⟩) := by
  have hX : (10 : ℚ) ^ (d.exp - n) ≠ 0 := zpow_ne_zero _ (by norm_num)
  rw [decRound]
  by_cases hn : n < d.mant.length
  · rw [if_pos hn]
    have hs := decVal_split (d := d) hn.le
    have hq : decVal d / 10 ^ (d.exp - n) = digVal (d.mant.take n) + digVal (d.mant.drop n) / 10 ^ (d.mant.length - n) := by
      rw [hs, mul_div_assoc, div_self hX, mul_one]
    rw [hq]
    have hP : (0 : ℚ) < 10 ^ (d.mant.length - n) := by positivity
    have hB : digVal (d.mant.drop n) < 10 ^ (d.mant.length - n) := by
      have := digVal_lt (ds := d.mant.drop n) fun x hx => h.lt x (List.mem_of_mem_drop hx)
      rwa [List.length_drop] at this
    have hBq : (digVal (d.mant.drop n) : ℚ) < 10 ^ (d.mant.length - n) := by exact_mod_cast hB
    have hB0 : (0 : ℚ) ≤ digVal (d.mant.drop n) := Nat.cast_nonneg _
    have hiff := decShouldRoundUp_iff h hn
    by_cases hr : decShouldRoundUp d n = true
    · rw [if_pos hr]
      obtain ⟨h1, h2, h3⟩ := decRoundUp_spec h.pre hn
      refine ⟨_, h2, ?_, fun _ => h1, h3, h1.lt, Or.inl h1⟩
      have hr' := hiff.1 hr
      rw [RoundsTo]
      generalize digVal (d.mant.take n) = A at *
      generalize digVal (d.mant.drop n) = B at *
      generalize d.mant.length - n = L at *
      have hge : (10 : ℚ) ^ L ≤ 2 * B := by
        have : 10 ^ L ≤ 2 * B := by omega
        exact_mod_cast this
      have habs : |(A : ℚ) + B / 10 ^ L - ((A + 1 : Nat) : ℤ)| = 1 - B / 10 ^ L := by
        rw [abs_of_nonpos]
        · push_cast; ring
        · push_cast
          have : (B : ℚ) / 10 ^ L ≤ 1 := by rw [div_le_one hP]; linarith
          linarith
      simp only [habs]
      have hhalf : (1 : ℚ) / 2 ≤ B / 10 ^ L := by rw [le_div_iff₀ hP]; linarith
      refine ⟨by linarith, ?_⟩
      intro heq
      have : (B : ℚ) / 10 ^ L = 1 / 2 := by linarith
      rw [div_eq_iff hP.ne'] at this
      have h3 : 10 ^ L = 2 * B := by
        have : (10 : ℚ) ^ L = 2 * B := by linarith
        exact_mod_cast this
      rcases hr' with hr' | hr'
      · omega
      · have := hr'.2; omega
    · rw [if_neg hr]
      have hr' : ¬ _ := fun hh => hr (hiff.2 hh)
      rw [decRoundDown]
      have hall : ∀ x ∈ d.mant.take n, x < 10 := fun x hx => h.lt x (List.mem_of_mem_take hx)
      have hround : RoundsTo .toNearestEven (digVal (d.mant.take n) + digVal (d.mant.drop n) / 10 ^ (d.mant.length - n))
          (digVal (d.mant.take n) : Nat) := by
        rw [RoundsTo]
        generalize digVal (d.mant.take n) = A at *
        generalize digVal (d.mant.drop n) = B at *
        generalize d.mant.length - n = L at *
        have hge : (2 : ℚ) * B ≤ 10 ^ L := by
          have : 2 * B ≤ 10 ^ L := by omega
          exact_mod_cast this
        have habs : |(A : ℚ) + B / 10 ^ L - (A : ℤ)| = B / 10 ^ L := by
          rw [abs_of_nonneg]
          · push_cast; ring
          · push_cast
            have : 0 ≤ (B : ℚ) / 10 ^ L := div_nonneg hB0 hP.le
            linarith
        simp only [habs]
        refine ⟨by rw [div_le_iff₀ hP]; linarith, ?_⟩
        intro heq
        rw [div_eq_iff hP.ne'] at heq
        have h3 : 10 ^ L = 2 * B := by
          have : (10 : ℚ) ^ L = 2 * B := by linarith
          exact_mod_cast this
        omega
      have hval : decVal ⟨d.mant.take n, d.exp⟩ = (digVal (d.mant.take n) : Nat) * 10 ^ (d.exp - n) := by
        simp only [decVal, List.length_take, min_eq_left hn.le]
      rcases Nat.eq_zero_or_pos n with rfl | h0
      · refine ⟨_, ?_, hround, fun hh => by omega, by simp [decTrim], by simp [decTrim], Or.inr (by simp [decTrim])⟩
        simp [decTrim, decVal, digVal]
      · obtain ⟨t1, t2, t3, -⟩ := decTrim_spec (d := ⟨d.mant.take n, d.exp⟩) hall (by
          simp only; rw [headD_take h0]; exact h.head)
        refine ⟨_, t2.trans hval, hround, fun _ => t1, ?_, t1.lt, Or.inl t1⟩
        refine t3.trans ?_
        simp
  · rw [if_neg hn]
    refine ⟨digVal d.mant * 10 ^ (n - d.mant.length), ?_, ?_, fun _ => h, by omega, h.lt, Or.inl h⟩
    · simp only [decVal]
      obtain ⟨j, hj⟩ : ∃ j, n = d.mant.length + j := ⟨n - d.mant.length, by omega⟩
      rw [hj, show d.mant.length + j - d.mant.length = j by omega, show d.exp - ((d.mant.length + j : Nat) : ℤ) = (d.exp - d.mant.length) - j by push_cast; ring,
        zpow_sub₀ (by norm_num) (d.exp - d.mant.length : ℤ), zpow_natCast]
      generalize (10 : ℚ) ^ (d.exp - d.mant.length : ℤ) = X
      have : (10 : ℚ) ^ j ≠ 0 := by positivity
      push_cast
      field_simp
    · have : decVal d / 10 ^ (d.exp - n) = (digVal d.mant * 10 ^ (n - d.mant.length) : Nat) := by
        rw [div_eq_iff hX]
        simp only [decVal]
        obtain ⟨j, hj⟩ : ∃ j, n = d.mant.length + j := ⟨n - d.mant.length, by omega⟩
        rw [hj, show d.mant.length + j - d.mant.length = j by omega, show d.exp - ((d.mant.length + j : Nat) : ℤ) = (d.exp - d.mant.length) - j by push_cast; ring,
          zpow_sub₀ (by norm_num) (d.exp - d.mant.length : ℤ), zpow_natCast]
        generalize (10 : ℚ) ^ (d.exp - d.mant.length : ℤ) = X
        have : (10 : ℚ) ^ j ≠ 0 := by positivity
        push_cast
        field_simp
      rw [this, RoundsTo]
      simp

end RMath
