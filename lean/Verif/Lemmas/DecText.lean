import Verif.Lemmas.Decimal
import Verif.Lemmas.NatText
import Verif.Lemmas.Jacobi
import Verif.Lemmas.FloatOps

/-! Lemmas about the decimal text of floating point numbers: src/bigint/float_fmt.rs. -/

namespace RMath

/-! ## digits as characters -/

theorem digChr_eq {d : Nat} (h : d < 10) : digitOf (digChr d) = d ∧ Nat.digitChar d = digChr d ∧ (digChr d).toNat - 48 = d ∧
    (digChr d = '0' ↔ d = 0) := by
  interval_cases d <;> decide

theorem numeral_digs {l : List Nat} (h0 : l ≠ []) (h : ∀ d ∈ l, d < 10) : numeral 10 (l.map digChr) = some (digVal l) := by
  rw [numeral, if_pos]
  · congr 1
    rw [digVal]
    have : ∀ n, (l.map digChr).foldl (fun n c => 10 * n + digitOf c) n = l.foldl (fun n d => 10 * n + d) n := by
      clear h0
      induction l with
      | nil => intro n; rfl
      | cons d ds ih =>
        intro n
        rw [List.map_cons, List.foldl_cons, List.foldl_cons, (digChr_eq (h d (by simp))).1]
        exact ih (fun x hx => h x (by simp [hx])) _
    exact this 0
  · refine ⟨by simpa using h0, ?_⟩
    intro c hc
    obtain ⟨d, hd, rfl⟩ := List.mem_map.1 hc
    rw [(digChr_eq (h d hd)).1]; exact h d hd

theorem usizeDec_digs (n : Nat) : ∃ l : List Nat, usizeDec n = l.map digChr ∧ l ≠ [] ∧ (∀ d ∈ l, d < 10) ∧ digVal l = n ∧
    (10 ≤ n → 2 ≤ l.length) := by
  unfold usizeDec
  induction n using Nat.strongRecOn with
  | ind n ih =>
    by_cases h : n < 10
    · refine ⟨[n], ?_, by simp, by simpa using h, by simp [digVal], by omega⟩
      rw [Nat.toDigits_of_lt_base h, (digChr_eq h).2.1]; rfl
    · obtain ⟨l, h1, h2, h3, h4, -⟩ := ih (n / 10) (by omega)
      have hd : n % 10 < 10 := Nat.mod_lt _ (by norm_num)
      refine ⟨l ++ [n % 10], ?_, by simp, ?_, ?_, ?_⟩
      · rw [Nat.toDigits_of_base_le (by norm_num) (by omega), h1, (digChr_eq hd).2.1]; simp
      · intro d hd'
        rcases List.mem_append.1 hd' with hd' | hd'
        · exact h3 d hd'
        · simp at hd'; omega
      · rw [digVal_concat, h4]; omega
      · intro _
        have := List.length_pos_iff.2 h2
        simp; omega

theorem decRev_digits (n : Nat) : decRev n = (Nat.digits 10 n).map digChr := by
  induction n using Nat.strongRecOn with
  | ind n ih =>
    rw [decRev]
    by_cases h : n = 0
    · rw [if_pos h, h]; simp
    · rw [if_neg h, Nat.digits_def' (by norm_num) (by omega), List.map_cons, ih (n / 10) (by omega),
        (digChr_eq (Nat.mod_lt n (by norm_num))).2.1]

theorem digVal_reverse (l : List Nat) : digVal l.reverse = Nat.ofDigits 10 l := by
  induction l with
  | nil => rfl
  | cons d ds ih => rw [List.reverse_cons, digVal_concat, ih, Nat.ofDigits_cons]; push_cast; ring

theorem decRev_mul_pow {c : Nat} (hc : c ≠ 0) (j : Nat) : decRev (c * 10 ^ j) = List.replicate j '0' ++ decRev c := by
  induction j with
  | zero => simp
  | succ j ih =>
    have h0 : c * 10 ^ (j + 1) ≠ 0 := by positivity
    rw [decRev, if_neg h0, List.replicate_succ, List.cons_append, ← ih, pow_succ, ← mul_assoc]
    rw [Nat.mul_mod_left, Nat.mul_div_cancel _ (by norm_num)]
    rfl

/-- the digits of a numeral without inner zeros -/
theorem decDigits_spec {N : Nat} (h0 : N ≠ 0) (h : PlainZeros N) {t : List Char} (ht : t = (decRev N).reverse) :
    DecOk ⟨decDigits t, t.length⟩ ∧ decVal ⟨decDigits t, t.length⟩ = N := by
  obtain ⟨c, j, rfl, hc⟩ := h
  have hc0 : c ≠ 0 := by rintro rfl; simp at h0
  have hlt : ∀ d ∈ Nat.digits 10 c, d < 10 := fun d hd => Nat.digits_lt_base (by norm_num) hd
  have htt : t = ((Nat.digits 10 c).reverse.map digChr) ++ List.replicate j '0' := by
    rw [ht, decRev_mul_pow hc0, List.reverse_append, List.reverse_replicate, decRev_digits, List.map_reverse]
  have hcount : t.countP (· ≠ '0') = (Nat.digits 10 c).length := by
    rw [htt, List.countP_append]
    have h1 : List.countP (fun x => decide (x ≠ '0')) (List.replicate j '0') = 0 := by
      rw [List.countP_eq_zero]
      intro x hx
      rw [(List.mem_replicate.1 hx).2]; simp
    rw [h1, Nat.add_zero, List.countP_eq_length.2]
    · simp
    · intro x hx
      obtain ⟨d, hd, rfl⟩ := List.mem_map.1 hx
      rw [List.mem_reverse] at hd
      have := (digChr_eq (hlt d hd)).2.2.2
      simp only [ne_eq, decide_eq_true_eq, this]
      exact hc d hd
  have hdig : decDigits t = (Nat.digits 10 c).reverse := by
    rw [decDigits, hcount, htt, List.take_append_of_le_length (by simp), List.take_of_length_le (by simp), List.map_map]
    conv_rhs => rw [← List.map_id (Nat.digits 10 c).reverse]
    apply List.map_congr_left
    intro d hd
    rw [List.mem_reverse] at hd
    exact (digChr_eq (hlt d hd)).2.2.1
  have hlen : t.length = (Nat.digits 10 c).length + j := by rw [htt]; simp
  have hne : Nat.digits 10 c ≠ [] := Nat.digits_ne_nil_iff_ne_zero.2 hc0
  rw [hdig, hlen]
  refine ⟨⟨by simpa using hlt, by simpa using hne, ?_, ?_⟩, ?_⟩
  · have hr : (Nat.digits 10 c).reverse ≠ [] := by simpa using hne
    cases hcs : (Nat.digits 10 c).reverse with
    | nil => exact absurd hcs hr
    | cons a as =>
      simp only [List.headD_cons]
      exact hc a (by rw [← List.mem_reverse, hcs]; simp)
  · have hr : (Nat.digits 10 c).reverse ≠ [] := by simpa using hne
    simp only [List.getLastD_eq_getLast?, List.getLast?_eq_getLast_of_ne_nil hr, Option.getD_some]
    exact hc _ (by rw [← List.mem_reverse]; exact List.getLast_mem hr)
  · simp only [decVal, digVal_reverse, Nat.ofDigits_digits, List.length_reverse]
    push_cast
    rw [show ((Nat.digits 10 c).length : ℤ) + j - (Nat.digits 10 c).length = j by ring, zpow_natCast]

/-! ## conversion to decimal -/

/-- the top word of a normalised mantissa -/
theorem Norm.top {m L : Nat} (h : Norm m L) : 2 ^ 31 ≤ ((enc m).getLast (enc_ne_nil m)).toNat := by
  have hL := h.length
  have hp := h.pos
  have h1 := (List.dropLast_append_getLast (enc_ne_nil m)).symm
  have h2 : m = val (enc m).dropLast + 2 ^ (32 * (L - 1)) * ((enc m).getLast (enc_ne_nil m)).toNat := by
    conv_lhs => rw [← val_enc m, h1, val_append, List.length_dropLast, hL]
    simp [val]
  have h3 := val_lt (enc m).dropLast
  rw [List.length_dropLast, hL] at h3
  by_contra hc
  have h4 : ((enc m).getLast (enc_ne_nil m)).toNat + 1 ≤ 2 ^ 31 := by omega
  have h5 : 2 ^ (32 * (L - 1)) * (((enc m).getLast (enc_ne_nil m)).toNat + 1) ≤ 2 ^ (32 * (L - 1)) * 2 ^ 31 :=
    Nat.mul_le_mul_left _ h4
  rw [← Nat.pow_add, show 32 * (L - 1) + 31 = 32 * L - 1 by omega, mul_add, mul_one] at h5
  have := h.lo
  omega

/-- the shift that makes the mantissa odd -/
theorem shr_mant {M L s : Nat} (hn : Norm M L) (hs : s < 32 * L)
    (h : s = 0 ∨ ¬ 32 ∣ s) : assignPrim shrInner (enc M) s = enc (M / 2 ^ s) := by
  rw [assignPrim, isNan_enc]
  simp only [Bool.false_eq_true, if_false]
  rcases h with rfl | h
  · rw [shrInner_enc_lt (by norm_num)]
  · have h0 : 0 < s % 32 := by omega
    have hlt : s % 32 < 32 := Nat.mod_lt _ (by norm_num)
    have := shrInner_carry (v := enc M) (s := s) (by rw [hn.length]; omega) h0 (by
      intro hz
      have := congrArg BitVec.toNat hz
      simp only [BitVec.toNat_ushiftRight, Nat.shiftRight_eq_div_pow, BitVec.toNat_ofNat, Nat.zero_mod] at this
      have h1 := hn.top
      have h2 : 0 < ((enc M).getLast (enc_ne_nil M)).toNat / 2 ^ (s % 32) := by
        apply Nat.div_pos _ (by positivity)
        exact le_trans (Nat.pow_le_pow_right (by norm_num) (by omega)) h1
      omega)
    exact enc_eq_iff.2 ⟨this.2, by rw [this.1, val_enc]⟩

/-- the decimal form of the magnitude -/
theorem decNew_spec {M L : Nat} (hn : Norm M L) {sh : ℤ} {N k : Nat} (hq : (M : ℚ) * 2 ^ sh = N / 2 ^ k)
    (hk : k = 0 ∨ N % 2 = 1) (hg : 32 * L ≤ bitLen N ∨ ¬ 32 ∣ bitLen N) (hz : PlainZeros N) :
    ∃ d, decNew (enc M) sh = .ok d ∧ DecOk d ∧ decVal d = N / 2 ^ k := by
  have hM0 := hn.ne_zero
  have hMq : (0 : ℚ) < M := by exact_mod_cast Nat.pos_of_ne_zero hM0
  have hN0 : N ≠ 0 := by
    rintro rfl
    have : (0 : ℚ) < (M : ℚ) * 2 ^ sh := by positivity
    rw [hq] at this; simp at this
  have hbM := hn.bitLen
  have hbN : ∀ c, M = N * 2 ^ c → bitLen N + c = 32 * L := by
    intro c hc
    have h1 := lt_pow_bitLen N
    have h2 := pow_bitLen_le hN0
    have h3 := bitLen_pos N
    have h4 : N * 2 ^ c < 2 ^ (bitLen N + c) := by rw [Nat.pow_add]; exact Nat.mul_lt_mul_of_pos_right h1 (by positivity)
    have h5 : 2 ^ (bitLen N - 1 + c) ≤ N * 2 ^ c := by rw [Nat.pow_add]; exact Nat.mul_le_mul_right _ h2
    rw [← hc] at h4 h5
    have h6 := hn.lo
    have h7 := hn.hi
    have h8 : 32 * L - 1 < bitLen N + c := (Nat.pow_lt_pow_iff_right (by norm_num : 1 < 2)).1 (lt_of_le_of_lt h6 h4)
    have h9 : bitLen N - 1 + c < 32 * L := (Nat.pow_lt_pow_iff_right (by norm_num : 1 < 2)).1 (lt_of_le_of_lt h5 h7)
    omega
  rw [decNew, isNan_enc, ← enc_zero, eqv_enc]
  simp only [hM0, decide_false, Bool.or_self, Bool.false_eq_true, if_false, deepClone_enc]
  obtain ⟨t, ht⟩ : ∃ t, t = (decRev N).reverse := ⟨_, rfl⟩
  have htxt : natDisplay (enc N) = .ok t := by rw [natDisplay_enc, if_neg hN0, ht]
  obtain ⟨hd1, hd2⟩ := decDigits_spec hN0 hz ht
  by_cases hsh : sh < 0
  · simp only [hsh, if_true]
    obtain ⟨a, ha⟩ : ∃ a : Nat, sh = -(a : ℤ) := ⟨(-sh).toNat, by omega⟩
    subst ha
    have hMN : M * 2 ^ k = N * 2 ^ a := by
      rw [zpow_neg, zpow_natCast] at hq
      field_simp at hq
      rw [Nat.mul_comm N]
      exact_mod_cast hq
    -- the shift done
    have hs : min (-(-(a : ℤ))).toNat (traillingZeros (enc M)) = a - k ∧ k ≤ a ∧ M = N * 2 ^ (a - k) := by
      rw [neg_neg, Int.toNat_natCast]
      have hka : k ≤ a := by
        rcases hk with rfl | hk
        · omega
        · by_contra hc
          have : 2 ∣ N := by
            have h1 : M * 2 ^ (k - a) = N := by
              have : M * 2 ^ (k - a) * 2 ^ a = N * 2 ^ a := by
                rw [mul_assoc, ← Nat.pow_add, show k - a + a = k by omega, hMN]
              exact Nat.eq_of_mul_eq_mul_right (by positivity) this
            rw [← h1, show k - a = (k - a - 1) + 1 by omega, pow_succ]
            exact ⟨M * 2 ^ (k - a - 1), by ring⟩
          omega
      have hM : M = N * 2 ^ (a - k) := by
        have : M * 2 ^ k = N * 2 ^ (a - k) * 2 ^ k := by
          rw [mul_assoc, ← Nat.pow_add, show a - k + k = a by omega, hMN]
        exact Nat.eq_of_mul_eq_mul_right (by positivity) this
      refine ⟨?_, hka, hM⟩
      rcases hk with rfl | hk
      · simp only [Nat.sub_zero] at hM ⊢
        rw [min_eq_left]
        by_contra hc
        have h0 : val (enc M) ≠ 0 := by rwa [val_enc]
        obtain ⟨h1, -⟩ := traillingZeros_spec _ h0
        rw [val_enc, hM, mul_comm, Nat.testBit_two_pow_mul] at h1
        simp at h1
        rw [← Nat.mul_comm, ← hM] at h1
        omega
      · have := traillingZeros_eq (s := a - k) hk
        rw [mul_comm, ← hM] at this
        rw [this]; omega
    obtain ⟨hs1, hka, hM⟩ := hs
    rw [hs1]
    have hbl := hbN _ hM
    rw [shr_mant hn (by have := bitLen_pos N; omega) (by
      rcases hg with hg | hg
      · left; omega
      · right; intro hc; apply hg; omega)]
    rw [show M / 2 ^ (a - k) = N by rw [hM]; exact Nat.mul_div_cancel _ (by positivity)]
    rw [if_neg (by omega : ¬ (-(a : ℤ) + ((a - k : Nat) : ℤ) > 0))]
    simp only [htxt, bind, Except.bind]
    by_cases hk0 : k = 0
    · rw [if_neg (by omega)]
      exact ⟨_, rfl, hd1, by rw [hd2, hk0]; simp⟩
    · rw [if_pos (by omega), show (-(-(a : ℤ) + ((a - k : Nat) : ℤ))).toNat = k by omega]
      obtain ⟨z, e1, e2, e3⟩ := decShrs_spec (k + 1) k _ hd1.pre (by omega) (by omega)
      exact ⟨z, e1, e2, by rw [e3, hd2]⟩
  · simp only [hsh, if_false, Nat.cast_zero, add_zero]
    obtain ⟨a, rfl⟩ : ∃ a : Nat, sh = (a : ℤ) := ⟨sh.toNat, by omega⟩
    have hMN : M * 2 ^ a * 2 ^ k = N := by
      rw [zpow_natCast] at hq
      field_simp at hq
      exact_mod_cast hq
    have hk0 : k = 0 := by
      rcases hk with hk | hk
      · exact hk
      · by_contra hc
        rw [show k = (k - 1) + 1 by omega, pow_succ, ← mul_assoc] at hMN
        omega
    subst hk0
    rw [pow_zero, mul_one] at hMN
    have hm : (if (a : ℤ) > 0 then assignPrim shlInner (enc M) (a : ℤ).toNat else enc M) = enc N := by
      by_cases ha : (a : ℤ) > 0
      · rw [if_pos ha, assignPrim, isNan_enc, Int.toNat_natCast]
        simp only [Bool.false_eq_true, if_false]
        rw [shlInner_enc hM0, hMN]
      · rw [if_neg ha, ← hMN, show a = 0 by omega, pow_zero, mul_one]
    simp only [hm, htxt, bind, Except.bind]
    exact ⟨_, rfl, hd1, by rw [hd2]; simp⟩

/-! ## the value of a decimal -/

theorem DecPre.val_pos {d : Dec} (h : DecPre d) : 0 < digVal d.mant := digVal_pos h.head

theorem DecPre.lower {d : Dec} (h : DecPre d) : 10 ^ (d.mant.length - 1) ≤ digVal d.mant := by
  obtain ⟨m, e⟩ := d
  cases m with
  | nil => exact absurd rfl h.ne
  | cons a as =>
    have := h.head
    simp only [List.headD_cons] at this
    simp only [digVal_cons, List.length_cons, Nat.add_sub_cancel]
    have : 1 * 10 ^ as.length ≤ a * 10 ^ as.length := Nat.mul_le_mul_right _ (by omega)
    omega

theorem DecPre.bounds {d : Dec} (h : DecPre d) : (10 : ℚ) ^ (d.exp - 1) ≤ decVal d ∧ decVal d < 10 ^ d.exp := by
  have h1 := h.lower
  have h2 := digVal_lt h.lt
  have h3 := List.length_pos_iff.2 h.ne
  have hX : (0 : ℚ) < 10 ^ (d.exp - d.mant.length) := zpow_pos (by norm_num) _
  unfold decVal
  constructor
  · have : (10 : ℚ) ^ (d.exp - 1) = (10 ^ (d.mant.length - 1) : Nat) * 10 ^ (d.exp - d.mant.length) := by
      push_cast
      rw [← zpow_natCast, ← zpow_add₀ (by norm_num)]
      congr 1
      push_cast [Nat.cast_sub (show 1 ≤ d.mant.length by omega)]
      ring
    rw [this]
    exact mul_le_mul_of_nonneg_right (by exact_mod_cast h1) hX.le
  · have : (10 : ℚ) ^ d.exp = (10 ^ d.mant.length : Nat) * 10 ^ (d.exp - d.mant.length) := by
      push_cast
      rw [← zpow_natCast, ← zpow_add₀ (by norm_num)]
      congr 1; ring
    rw [this]
    exact mul_lt_mul_of_pos_right (by exact_mod_cast h2) hX

theorem DecPre.pos {d : Dec} (h : DecPre d) : 0 < decVal d := lt_of_lt_of_le (zpow_pos (by norm_num) _) h.bounds.1

theorem DecOk.bounds {d : Dec} (h : DecOk d) : (10 : ℚ) ^ (d.exp - 1) ≤ decVal d ∧ decVal d < 10 ^ d.exp := h.pre.bounds

theorem DecOk.pos {d : Dec} (h : DecOk d) : 0 < decVal d := h.pre.pos

theorem DecOk.mod_ten {d : Dec} (h : DecOk d) : digVal d.mant % 10 ≠ 0 := by
  have hk := (List.dropLast_append_getLast h.ne).symm
  have hl := h.last
  rw [List.getLastD_eq_getLast?, List.getLast?_eq_getLast_of_ne_nil h.ne, Option.getD_some] at hl
  have hlt := h.lt _ (List.getLast_mem h.ne)
  rw [hk, digVal_concat]
  omega

/-- the digits of a decimal do not reach beyond a unit its value is a multiple of -/
theorem DecOk.exp_ge {d : Dec} (h : DecOk d) {c : Nat} {j : ℤ} (hv : decVal d = c * 10 ^ j) : j ≤ d.exp - d.mant.length := by
  by_contra hc
  obtain ⟨i, hi⟩ : ∃ i : Nat, j = d.exp - d.mant.length + (i + 1 : Nat) := ⟨(j - (d.exp - d.mant.length) - 1).toNat, by omega⟩
  have hX : (10 : ℚ) ^ (d.exp - d.mant.length) ≠ 0 := zpow_ne_zero _ (by norm_num)
  rw [hi, zpow_add₀ (by norm_num), decVal, zpow_natCast, mul_left_comm, mul_comm ((10 : ℚ) ^ _)] at hv
  have h1 := mul_right_cancel₀ hX hv
  have h2 : digVal d.mant = c * 10 ^ (i + 1) := by exact_mod_cast h1
  apply h.mod_ten
  rw [h2, pow_succ, ← mul_assoc]; exact Nat.mul_mod_left _ _

theorem decRound_idem {d : Dec} (h : DecOk d) {n : Nat} (hn : 0 < n) : decRound (decRound d n) n = decRound d n := by
  obtain ⟨k, -, -, -, h4, -⟩ := decRound_spec h n
  conv_lhs => rw [decRound]
  rw [if_neg (by omega)]

/-! ## scientific notation -/

theorem fmtForExp_spec {d : Dec} (h : DecPre d) {prec : Nat} (hl : d.mant.length ≤ prec + 1) (e : Char) :
    ∃ t, fmtForExp d prec e = .ok t ∧ ∀ neg, ExpText e prec (signText neg ++ t) (signQ neg * decVal d) := by
  obtain ⟨m, x⟩ := d
  cases m with
  | nil => exact absurd rfl h.ne
  | cons d0 ds =>
    simp only [List.length_cons] at hl
    rw [fmtForExp]
    simp only [List.length_cons, min_eq_left (by omega : ds.length + 1 ≤ prec + 1), Nat.add_sub_cancel, List.take_length]
    refine ⟨_, rfl, ?_⟩
    intro neg
    obtain ⟨l, l1, l2, l3, l4, l5⟩ := usizeDec_digs (if x < 1 then (1 - x).toNat else (x - 1).toNat)
    have h00 : List.replicate (prec + 1 - (ds.length + 1)) '0' = (List.replicate (prec + 1 - (ds.length + 1)) 0).map digChr := by
      rw [List.map_replicate]; rfl
    have hlt : ∀ y ∈ d0 :: (ds ++ List.replicate (prec + 1 - (ds.length + 1)) 0), y < 10 := by
      intro y hy
      rw [← List.cons_append] at hy
      rcases List.mem_append.1 hy with hy | hy
      · exact h.lt y hy
      · rw [(List.mem_replicate.1 hy).2]; norm_num
    have hd0 : d0 < 10 := hlt d0 (by simp)
    generalize hxe : (if x < 1 then (1 - x).toNat else (x - 1).toNat) = xe at *
    refine ⟨neg, digChr d0, (ds ++ List.replicate (prec + 1 - (ds.length + 1)) 0).map digChr, decide (x < 1),
      (if xe < 10 then ['0'] else []) ++ usizeDec xe, digVal (d0 :: (ds ++ List.replicate (prec + 1 - (ds.length + 1)) 0)), xe,
      ?_, ?_, ?_, ?_, ?_, ?_, ?_⟩
    · have : (if decide (x < 1) = true then ['-'] else []) = (if x < 1 then ['-'] else []) := by simp
      simp only [signText, this, List.map_append, ← h00]
      by_cases hp : prec = 0
      · simp [hp]
      · simp [hp, Nat.pos_of_ne_zero hp]
    · intro hc
      exact h.head (by simpa using (digChr_eq hd0).2.2.2.1 hc)
    · simp; omega
    · rw [List.length_append, l1, List.length_map]
      have := List.length_pos_iff.2 l2
      by_cases h10 : xe < 10
      · simp [h10]; omega
      · have := l5 (by omega); simp [h10]; omega
    · rw [← List.map_cons]; exact numeral_digs (by simp) hlt
    · have hz : (if xe < 10 then ['0'] else []) ++ usizeDec xe = ((if xe < 10 then [0] else []) ++ l).map digChr := by
        rw [l1, List.map_append]; split <;> rfl
      rw [hz, numeral_digs (by simp [l2])]
      · congr 1
        rw [← l4]
        by_cases h10 : digVal l < 10
        · simp [h10, digVal_cons]
        · simp [h10]
      · intro y hy
        rcases List.mem_append.1 hy with hy | hy
        · split at hy <;> simp at hy; omega
        · exact l3 y hy
    · rw [← List.cons_append, digVal_append, digVal_zeros, List.length_replicate]
      have hx : (if decide (x < 1) = true then -(xe : ℤ) else xe) = x - 1 := by
        rw [← hxe]; by_cases hx1 : x < 1
        · simp only [hx1, decide_true, if_true]; omega
        · simp only [hx1, decide_false, Bool.false_eq_true, if_false]; omega
      rw [hx]
      simp only [decVal, List.length_cons]
      obtain ⟨j, hj⟩ : ∃ j : Nat, prec = ds.length + j := ⟨prec - ds.length, by omega⟩
      rw [hj, show ds.length + j + 1 - (ds.length + 1) = j by omega]
      push_cast
      rw [show x - ((ds.length : ℤ) + 1) = (x - 1 - (ds.length + j)) + j by ring, zpow_add₀ (by norm_num), zpow_natCast]
      ring

/-! ## positional notation -/

theorem mapM_ok {α β : Type} (f : α → Res β) (g : α → β) : ∀ l : List α, (∀ a ∈ l, f a = .ok (g a)) → l.mapM f = .ok (l.map g) := by
  intro l
  induction l with
  | nil => intro _; rfl
  | cons a as ih =>
    intro h
    rw [List.mapM_cons, h a (by simp), List.map_cons]
    simp only [bind, Except.bind]
    rw [ih fun x hx => h x (by simp [hx])]
    rfl

theorem range_getD (l : List Nat) (p : Nat) (h : l.length ≤ p) :
    (List.range p).map (fun i => l.getD i 0) = l ++ List.replicate (p - l.length) 0 := by
  apply List.ext_getElem
  · simp; omega
  · intro i h1 h2
    simp only [List.length_map, List.length_range] at h1
    rw [List.getElem_map, List.getElem_range, List.getD_eq_getElem?_getD]
    by_cases hi : i < l.length
    · rw [List.getElem_append_left hi, List.getElem?_eq_getElem hi]; rfl
    · rw [List.getElem_append_right (by omega), List.getElem?_eq_none (by omega)]; simp

/-- the digits behind the point -/
theorem frac_digits {d : Dec} {p : Nat} (checks : Bool) (hc : checks = true → 0 ≤ d.exp) (hl : (d.mant.length : ℤ) ≤ d.exp + p)
    (h : ∀ x ∈ d.mant, x < 10) :
    ∃ fr : List Nat, (List.range p).mapM (decAt checks d) = .ok (fr.map digChr) ∧ fr.length = p ∧ (∀ x ∈ fr, x < 10) ∧
      (0 ≤ d.exp → fr = d.mant.drop d.exp.toNat ++ List.replicate (p - (d.mant.length - d.exp.toNat)) 0) ∧
      (d.exp < 0 → digVal fr = digVal d.mant * 10 ^ (d.exp + p - d.mant.length).toNat) := by
  obtain ⟨m, e⟩ := d
  simp only at hc hl h ⊢
  have key : ∀ l : List Nat, l.length ≤ p → (∀ x ∈ l, x < 10) → (∀ i, i < p → decAt checks ⟨m, e⟩ i = .ok (digChr (l.getD i 0))) →
      (List.range p).mapM (decAt checks ⟨m, e⟩) = .ok ((l ++ List.replicate (p - l.length) 0).map digChr) ∧
      (l ++ List.replicate (p - l.length) 0).length = p ∧ (∀ x ∈ l ++ List.replicate (p - l.length) 0, x < 10) := by
    intro l h1 h2 h3
    refine ⟨?_, by simp; omega, ?_⟩
    · rw [mapM_ok _ (fun i => digChr (l.getD i 0)) _ (fun i hi => h3 i (List.mem_range.1 hi)), ← range_getD l p h1, List.map_map]
      rfl
    · intro x hx
      rcases List.mem_append.1 hx with hx | hx
      · exact h2 x hx
      · rw [(List.mem_replicate.1 hx).2]; norm_num
  by_cases he : e < 0
  · obtain ⟨a, rfl⟩ : ∃ a : Nat, e = -(a : ℤ) := ⟨(-e).toNat, by omega⟩
    have hcf : checks = false := by
      cases checks
      · rfl
      · exact absurd (hc rfl) (by omega)
    have hlen : (List.replicate a 0 ++ m).length ≤ p := by simp; omega
    obtain ⟨k1, k2, k3⟩ := key (List.replicate a 0 ++ m) hlen (by
      intro x hx
      rcases List.mem_append.1 hx with hx | hx
      · rw [(List.mem_replicate.1 hx).2]; norm_num
      · exact h x hx) (by
      intro i hi
      rw [decAt]
      simp only [he, if_true, hcf, Bool.false_eq_true, if_false]
      by_cases hia : (i : ℤ) < - -(a : ℤ)
      · rw [if_pos hia]
        congr 1
        rw [List.getD_eq_getElem?_getD, List.getElem?_append_left (by simp; omega), List.getElem?_replicate, if_pos (by omega)]
        rfl
      · rw [if_neg hia]
        congr 2
        rw [List.getD_eq_getElem?_getD, List.getD_eq_getElem?_getD, List.getElem?_append_right (by simp; omega), List.length_replicate]
        congr 2; omega)
    refine ⟨_, k1, k2, k3, fun hh => by omega, fun _ => ?_⟩
    rw [digVal_append, digVal_append, digVal_zeros, digVal_zeros]
    simp only [List.length_replicate, List.length_append, zero_mul, zero_add, add_zero]
    congr 2; omega
  · obtain ⟨a, rfl⟩ : ∃ a : Nat, e = (a : ℤ) := ⟨e.toNat, by omega⟩
    obtain ⟨k1, k2, k3⟩ := key (m.drop a) (by simp; omega) (fun x hx => h x (List.mem_of_mem_drop hx)) (by
      intro i hi
      rw [decAt]
      simp only [he, if_false, Int.toNat_natCast]
      rw [List.getD_eq_getElem?_getD, List.getD_eq_getElem?_getD, List.getElem?_drop])
    refine ⟨_, k1, k2, k3, fun _ => ?_, fun hh => by omega⟩
    rw [Int.toNat_natCast, List.length_drop]

theorem zpow_shift (A : ℚ) (e : ℤ) (p l : Nat) (h : (l : ℤ) ≤ e + p) :
    A * 10 ^ (e - l) = A * 10 ^ (e + p - l).toNat / 10 ^ p := by
  rw [eq_div_iff (by positivity), mul_assoc, ← zpow_natCast, ← zpow_natCast, ← zpow_add₀ (by norm_num)]
  congr 2
  omega

theorem fmtForDisplay_spec {d : Dec} {p : Nat} (hp : 0 < p) (checks : Bool) (hc : checks = true → 0 ≤ d.exp)
    (hl : (d.mant.length : ℤ) ≤ d.exp + p) (h : DecPre d ∨ d = ⟨[], 0⟩) :
    ∃ t, fmtForDisplay checks d p = .ok t ∧ ∀ neg, PointText p (signText neg ++ t) (signQ neg * decVal d) := by
  have hlt : ∀ x ∈ d.mant, x < 10 := by
    rcases h with h | h
    · exact h.lt
    · subst h; simp
  obtain ⟨fr, f1, f2, f3, f4, f5⟩ := frac_digits checks hc hl hlt
  rw [fmtForDisplay]
  simp only [hp, if_true, f1, bind, Except.bind]
  refine ⟨_, rfl, ?_⟩
  intro neg
  by_cases he : d.exp > 0
  · have hok : DecPre d := by
      rcases h with h | h
      · exact h
      · subst h; simp at he
    obtain ⟨a, ha⟩ : ∃ a : Nat, d.exp = a := ⟨d.exp.toNat, by omega⟩
    have hfr := f4 (by omega)
    rw [ha, Int.toNat_natCast] at hfr
    simp only [ha, Int.toNat_natCast]
    rw [if_pos (by omega)]
    have hint : ((d.mant.take (min d.mant.length a)).map digChr ++ List.replicate (a - min d.mant.length a) '0') =
        (d.mant.take a ++ List.replicate (a - d.mant.length) 0).map digChr := by
      rw [List.map_append, List.map_replicate]
      congr 2
      · by_cases hh : d.mant.length ≤ a
        · rw [min_eq_left hh, List.take_length, List.take_of_length_le hh]
        · rw [min_eq_right (by omega)]
      · omega
    rw [hint]
    have hall : (d.mant.take a ++ List.replicate (a - d.mant.length) 0) ++ fr =
        d.mant ++ List.replicate (d.exp + p - d.mant.length).toNat 0 := by
      rw [hfr]
      by_cases hh : d.mant.length ≤ a
      · rw [List.take_of_length_le hh, List.drop_eq_nil_of_le hh, List.nil_append, List.append_assoc, List.replicate_append_replicate]
        congr 2; omega
      · rw [show a - d.mant.length = 0 by omega, List.replicate_zero, List.append_nil, ← List.append_assoc, List.take_append_drop]
        congr 2; omega
    refine ⟨neg, (d.mant.take a ++ List.replicate (a - d.mant.length) 0).map digChr, fr.map digChr, digVal (d.mant ++ List.replicate (d.exp + p - d.mant.length).toNat 0), ?_, ?_, ?_, ?_, ?_, ?_⟩
    · rw [if_neg (by omega : p ≠ 0), List.append_assoc]
    · obtain ⟨m, e⟩ := d
      cases m with
      | nil => exact absurd rfl hok.ne
      | cons b bs => cases a with
        | zero => omega
        | succ a => simp
    · intro hh
      exfalso
      obtain ⟨m, e⟩ := d
      cases m with
      | nil => exact absurd rfl hok.ne
      | cons b bs => cases a with
        | zero => omega
        | succ a =>
          simp at hh
          exact hok.head (by simpa using (digChr_eq (hlt b (by simp))).2.2.2.1 hh)
    · simp [f2]
    · rw [← List.map_append, hall]
      apply numeral_digs
      · simp [hok.ne]
      · intro x hx
        rcases List.mem_append.1 hx with hx | hx
        · exact hlt x hx
        · rw [(List.mem_replicate.1 hx).2]; norm_num
    · rw [digVal_append, digVal_zeros, List.length_replicate, decVal, zpow_shift _ _ _ _ hl]
      push_cast
      ring
  · rw [if_neg he]
    refine ⟨neg, ['0'], fr.map digChr, digVal ([0] ++ fr), ?_, by simp, by simp, by simp [f2], ?_, ?_⟩
    · rw [if_neg (by omega : p ≠ 0), List.append_assoc]
    · rw [show ['0'] = [0].map digChr from rfl, ← List.map_append]
      apply numeral_digs (by simp)
      intro x hx
      rcases List.mem_append.1 hx with hx | hx
      · simp at hx; omega
      · exact f3 x hx
    · have hfv : digVal fr = digVal d.mant * 10 ^ (d.exp + p - d.mant.length).toNat := by
        by_cases h0 : d.exp < 0
        · exact f5 h0
        · have hz : d.exp = 0 := by omega
          rw [f4 (by omega), hz]
          simp only [Int.toNat_zero, List.drop_zero, Nat.sub_zero]
          rw [digVal_append, digVal_zeros, List.length_replicate, add_zero]
          congr 2; omega
      rw [digVal_append, hfv, decVal, zpow_shift _ _ _ _ hl]
      have : digVal [0] = 0 := rfl
      rw [this]
      push_cast
      ring

/-- a number that is too small for the digits printed -/
theorem fmtForDisplay_small {d : Dec} {p : Nat} (hp : 0 < p) (checks : Bool) (hl : d.exp + p < 0) :
    ∃ t, fmtForDisplay checks d p = .ok t ∧ ∀ neg, PointText p (signText neg ++ t) 0 := by
  have f1 : (List.range p).mapM (decAt checks d) = .ok ((List.replicate p 0).map digChr) := by
    rw [mapM_ok _ (fun _ => digChr 0)]
    · simp
    · intro i hi
      rw [decAt, if_pos (by omega), if_pos (by have := List.mem_range.1 hi; omega)]; rfl
  rw [fmtForDisplay]
  simp only [hp, if_true, f1, bind, Except.bind]
  refine ⟨_, rfl, ?_⟩
  intro neg
  rw [if_neg (by omega)]
  refine ⟨neg, ['0'], (List.replicate p 0).map digChr, digVal ([0] ++ List.replicate p 0), ?_, by simp, by simp, by simp, ?_, ?_⟩
  · rw [if_neg (by omega : p ≠ 0), List.append_assoc]
  · rw [show ['0'] = [0].map digChr from rfl, ← List.map_append]
    apply numeral_digs (by simp)
    intro x hx
    rcases List.mem_append.1 hx with hx | hx
    · simp at hx; omega
    · rw [(List.mem_replicate.1 hx).2]; norm_num
  · rw [digVal_append, digVal_zeros]
    simp [digVal]

/-- with overflow checks the index computation fails behind the leading zeros -/
theorem fmtForDisplay_panic {d : Dec} {p : Nat} (h1 : d.exp < 0) (h2 : 0 < d.exp + p) :
    fmtForDisplay true d p = .error .panic := by
  have hp : 0 < p := by omega
  have key : ∀ (l : List Nat), (∃ i ∈ l, -d.exp ≤ (i : ℤ)) → l.mapM (decAt true d) = .error .panic := by
    intro l
    induction l with
    | nil => rintro ⟨i, hi, -⟩; simp at hi
    | cons a as ih =>
      intro hex
      rw [List.mapM_cons]
      by_cases ha : (a : ℤ) < -d.exp
      · rw [decAt, if_pos h1, if_pos ha]
        simp only [bind, Except.bind]
        rw [ih]
        obtain ⟨i, hi, hi2⟩ := hex
        rcases List.mem_cons.1 hi with rfl | hi
        · omega
        · exact ⟨i, hi, hi2⟩
      · rw [decAt, if_pos h1, if_neg ha]
        rfl
  rw [fmtForDisplay]
  simp only [hp, if_true]
  rw [key (List.range p) ⟨(-d.exp).toNat, List.mem_range.2 (by omega), by omega⟩]
  rfl

/-! ## the number printed -/

theorem RoundsTo.signQ {x : ℚ} {k : ℤ} (h : RoundsTo .toNearestEven x k) (neg : Bool) :
    RoundsTo .toNearestEven (RMath.signQ neg * x) (if neg then -k else k) := by
  cases neg
  · simpa [RMath.signQ] using h
  · obtain ⟨h1, h2⟩ := h
    have e : |-x - ((-k : ℤ) : ℚ)| = |x - k| := by
      rw [← abs_neg]; push_cast; congr 1; ring
    simp only [RMath.signQ, if_true, neg_mul, one_mul]
    exact ⟨by rw [e]; exact h1, fun hh => by rw [e] at hh; have := h2 hh; omega⟩

theorem signQ_abs (neg : Bool) (q : ℚ) : |signQ neg * q| = |q| := by cases neg <;> simp [signQ]

theorem signQ_cast (neg : Bool) (k : Nat) : (((if neg then -(k : ℤ) else k) : ℤ) : ℚ) = signQ neg * k := by
  cases neg <;> simp [signQ]

theorem sgn_eq_signQ (neg : Bool) : sgn neg = signQ neg := rfl

/-- the first rounding -/
theorem nearestDigits_dec {d : Dec} (h : DecOk d) (n : Nat) (neg : Bool) :
    NearestDigits n (signQ neg * decVal d) (signQ neg * decVal (decRound d n)) := by
  obtain ⟨k, h1, h2, -⟩ := decRound_spec h n
  refine ⟨d.exp, if neg then -(k : ℤ) else k, ?_, ?_, ?_, ?_⟩
  · rw [signQ_abs, abs_of_pos h.pos]; exact h.bounds.1
  · rw [signQ_abs, abs_of_pos h.pos]; exact h.bounds.2
  · rw [signQ_cast, h1]; ring
  · rw [mul_div_assoc]; exact h2.signQ neg

/-- the rounding to a number of places -/
theorem nearestPlaces_dec {d : Dec} (h : DecOk d) {p n : Nat} (hn : (n : ℤ) = d.exp + p) (neg : Bool) :
    NearestPlaces p (signQ neg * decVal d) (signQ neg * decVal (decRound d n)) ∧
      ((decRound d n).mant.length : ℤ) ≤ (decRound d n).exp + p := by
  obtain ⟨k, h1, h2, -, h4, -, h6⟩ := decRound_spec h n
  have hX : (10 : ℚ) ^ (d.exp - n) = (10 ^ p)⁻¹ := by
    rw [hn, show d.exp - (d.exp + p) = -(p : ℤ) by ring, zpow_neg, zpow_natCast]
  rw [hX] at h2 h1
  rw [div_inv_eq_mul] at h2
  refine ⟨⟨if neg then -(k : ℤ) else k, ?_, ?_⟩, ?_⟩
  · rw [signQ_cast, h1]; ring
  · rw [mul_assoc]; exact h2.signQ neg
  · rcases h6 with h6 | h6
    · have := h6.exp_ge (c := k) (j := -(p : ℤ)) (by rw [h1, zpow_neg, zpow_natCast])
      omega
    · rw [h6]; simp

/-- numbers below half a unit in the last place -/
theorem nearestPlaces_zero {d : Dec} (h : DecOk d) {p : Nat} (hn : d.exp + p < 0) (neg : Bool) :
    NearestPlaces p (signQ neg * decVal d) 0 := by
  refine ⟨0, by simp, ?_⟩
  have h1 := h.bounds.2
  have h2 : (10 : ℚ) ^ d.exp * 10 ^ p ≤ 1 / 10 := by
    rw [← zpow_natCast, ← zpow_add₀ (by norm_num), show (1 / 10 : ℚ) = 10 ^ (-1 : ℤ) by norm_num]
    exact zpow_le_zpow_right₀ (by norm_num) (by omega)
  have hp : (0 : ℚ) < 10 ^ p := by positivity
  have h3 : decVal d * 10 ^ p < 1 / 10 := lt_of_lt_of_le (mul_lt_mul_of_pos_right h1 hp) h2
  have h4 : 0 < decVal d * 10 ^ p := mul_pos h.pos hp
  have h5 : |signQ neg * decVal d * 10 ^ p - ((0 : ℤ) : ℚ)| < 1 / 2 := by
    rw [Int.cast_zero, sub_zero, mul_assoc, signQ_abs, abs_of_pos h4]; linarith
  exact ⟨h5.le, fun hh => by linarith⟩

theorem RoundsTo.int_eq {z k : ℤ} (h : RoundsTo .toNearestEven (z : ℚ) k) : k = z := by
  obtain ⟨h1, -⟩ := h
  have h2 : |((z - k : ℤ) : ℚ)| < 1 := by push_cast; linarith
  have h3 : |z - k| < 1 := by exact_mod_cast h2
  have := Int.abs_lt_one_iff.1 h3
  omega

/-- rounding a number that has no more digits than are kept -/
theorem NearestDigits.eq {n : Nat} {q r : ℚ} (h : NearestDigits n q r) {c : Nat} {j : ℤ} (hq : |q| = c * 10 ^ j)
    (hc : c < 10 ^ n) : r = q := by
  obtain ⟨e, k, h1, -, h3, h4⟩ := h
  have hj : e - n ≤ j := by
    by_contra hlt
    have h5 : (c : ℚ) * 10 ^ j < 10 ^ (n : ℤ) * 10 ^ j := by
      apply mul_lt_mul_of_pos_right _ (zpow_pos (by norm_num) _)
      rw [zpow_natCast]; exact_mod_cast hc
    rw [← zpow_add₀ (by norm_num)] at h5
    rw [hq] at h1
    have h6 : (10 : ℚ) ^ ((n : ℤ) + j) ≤ 10 ^ (e - 1) := zpow_le_zpow_right₀ (by norm_num) (by omega)
    linarith
  have hX : (10 : ℚ) ^ (e - n) ≠ 0 := zpow_ne_zero _ (by norm_num)
  obtain ⟨i, hi⟩ : ∃ i : Nat, j = (e - n) + i := ⟨(j - (e - n)).toNat, by omega⟩
  have h7 : |q| = (c * 10 ^ i : Nat) * 10 ^ (e - n) := by
    rw [hq, hi, zpow_add₀ (by norm_num), zpow_natCast]; push_cast; ring
  obtain ⟨z, hz⟩ : ∃ z : ℤ, q = z * 10 ^ (e - n) := by
    rcases abs_choice q with hh | hh
    · exact ⟨(c * 10 ^ i : Nat), by rw [← hh, h7]; simp⟩
    · refine ⟨-(c * 10 ^ i : Nat), ?_⟩
      have : q = -|q| := by rw [hh]; ring
      rw [this, h7]; push_cast; ring
  rw [hz, mul_div_assoc, div_self hX, mul_one] at h4
  rw [h3, h4.int_eq, hz]

/-- rounding a number that has no more places than are kept -/
theorem NearestPlaces.eq {p : Nat} {q r : ℚ} (h : NearestPlaces p q r) {z : ℤ} (hq : q = z / 10 ^ p) : r = q := by
  obtain ⟨k, h1, h2⟩ := h
  have hp : (10 : ℚ) ^ p ≠ 0 := by positivity
  rw [hq, div_mul_cancel₀ _ hp] at h2
  rw [h1, h2.int_eq, hq]

end RMath
