import Verif.Model.Ieee
import Mathlib.Tactic.Ring
import Mathlib.Tactic.Linarith
import Mathlib.Tactic.NormNum
import Mathlib.Tactic.Positivity
import Mathlib.Tactic.FieldSimp
import Mathlib.Algebra.Order.Field.Power
import Mathlib.Algebra.Order.AbsoluteValue.Basic

/-!
# Rounding to an IEEE format
-/

namespace RMath

/-! ### Integer rounding -/

theorem rneDiv_spec (n d : Nat) (hd : 0 < d) :
    2 * n ≤ (2 * rneDiv n d + 1) * d ∧ 2 * rneDiv n d * d ≤ 2 * n + d ∧
    (2 * n = (2 * rneDiv n d + 1) * d → rneDiv n d % 2 = 0) ∧ (2 * rneDiv n d * d = 2 * n + d → rneDiv n d % 2 = 0) := by
  have h := Nat.div_add_mod n d
  have hr := Nat.mod_lt n hd
  unfold rneDiv
  generalize n / d = q at *
  generalize n % d = r at *
  subst h
  dsimp only
  split
  · refine ⟨by nlinarith, by nlinarith, fun h => by nlinarith, fun h => by nlinarith⟩
  · split
    · refine ⟨by nlinarith, by nlinarith, fun h => by nlinarith, fun h => by nlinarith⟩
    · have h2 : d = 2 * r := by omega
      subst h2
      rcases Nat.mod_two_eq_zero_or_one q with hq | hq <;> rw [hq]
      · refine ⟨by nlinarith, by nlinarith, fun h => by omega, fun h => by omega⟩
      · refine ⟨by nlinarith, by nlinarith, fun h => by omega, fun h => by omega⟩

/-- `k` is `x` rounded to an integer, ties to even. -/
def RneInt (x : ℚ) (k : Nat) : Prop := |(k : ℚ) - x| ≤ 1 / 2 ∧ (|(k : ℚ) - x| = 1 / 2 → k % 2 = 0)

theorem rneDiv_rneInt (n d : Nat) (hd : 0 < d) : RneInt ((n : ℚ) / d) (rneDiv n d) := by
  obtain ⟨h1, h2, h3, h4⟩ := rneDiv_spec n d hd
  generalize rneDiv n d = k at *
  have hd' : (0 : ℚ) < d := by exact_mod_cast hd
  have h1' : (2 * n : ℚ) ≤ (2 * k + 1) * d := by exact_mod_cast h1
  have h2' : (2 * k * d : ℚ) ≤ 2 * n + d := by exact_mod_cast h2
  have e : (n : ℚ) = (n / d : ℚ) * d := by field_simp
  have g3 : ((n : ℚ) / d = k + 1 / 2 → k % 2 = 0) := by
    intro g; apply h3
    rw [g] at e
    have : (2 * n : ℚ) = (2 * k + 1) * d := by rw [e]; ring
    exact_mod_cast this
  have g4 : ((n : ℚ) / d = k - 1 / 2 → k % 2 = 0) := by
    intro g; apply h4
    rw [g] at e
    have : (2 * k * d : ℚ) = 2 * n + d := by rw [e]; ring
    exact_mod_cast this
  generalize (n : ℚ) / d = x at *
  rw [e] at h1' h2'
  have a1 : x ≤ k + 1 / 2 := by
    by_contra hc; push Not at hc; nlinarith
  have a2 : (k : ℚ) - 1 / 2 ≤ x := by
    by_contra hc; push Not at hc; nlinarith
  refine ⟨abs_le.2 ⟨by linarith, by linarith⟩, fun h => ?_⟩
  rcases abs_eq (by norm_num : (0 : ℚ) ≤ 1 / 2) |>.1 h with h | h
  · exact g4 (by linarith)
  · exact g3 (by linarith)

theorem RneInt.nearest {x : ℚ} {k : Nat} (h : RneInt x k) (j : Nat) :
    |(k : ℚ) - x| ≤ |(j : ℚ) - x| ∧ (|(j : ℚ) - x| = |(k : ℚ) - x| → j ≠ k → k % 2 = 0) := by
  by_cases e : j = k
  · subst e; exact ⟨le_refl _, fun _ h => absurd rfl h⟩
  · have h1 : (1 : ℚ) ≤ |(j : ℚ) - k| := by
      rcases Nat.lt_or_gt_of_ne e with g | g
      · have : (j : ℚ) + 1 ≤ k := by exact_mod_cast g
        rw [abs_of_nonpos (by linarith)]; linarith
      · have : (k : ℚ) + 1 ≤ j := by exact_mod_cast g
        rw [abs_of_nonneg (by linarith)]; linarith
    have h2 : |(j : ℚ) - k| ≤ |(j : ℚ) - x| + |(k : ℚ) - x| := by
      have := abs_sub (( j : ℚ) - x) (k - x)
      rwa [show ((j : ℚ) - x) - (k - x) = j - k by ring] at this
    refine ⟨by linarith [h.1], fun g _ => h.2 ?_⟩
    have := h.1
    linarith

theorem RneInt.unique {x : ℚ} {k j : Nat} (hk : RneInt x k) (hj : RneInt x j) : k = j := by
  by_contra e
  have h1 := (hk.nearest j).1
  have h2 := (hj.nearest k).1
  have e' : |(j : ℚ) - x| = |(k : ℚ) - x| := le_antisymm h2 h1
  have p1 := (hk.nearest j).2 e' (fun h => e h.symm)
  have p2 := (hj.nearest k).2 e'.symm e
  have h3 : |(j : ℚ) - k| ≤ 1 := by
    have := abs_sub (( j : ℚ) - x) (k - x)
    rw [show ((j : ℚ) - x) - (k - x) = j - k by ring] at this
    linarith [hk.1, hj.1]
  rw [abs_le] at h3
  have a1 : (j : ℚ) ≤ (k + 1 : Nat) := by push_cast; linarith [h3.2]
  have a2 : (k : ℚ) ≤ (j + 1 : Nat) := by push_cast; linarith [h3.1]
  have a1' : j ≤ k + 1 := by exact_mod_cast a1
  have a2' : k ≤ j + 1 := by exact_mod_cast a2
  omega

theorem RneInt.of_nat (k : Nat) : RneInt k k := by
  refine ⟨by simp, fun h => ?_⟩
  simp at h

/-! ### The binary logarithm of a fraction -/

theorem zpow_toNat (e : Int) : (2 : ℚ) ^ e = 2 ^ e.toNat / 2 ^ (-e).toNat := by
  rcases le_total 0 e with h | h
  · obtain ⟨n, rfl⟩ := Int.eq_ofNat_of_zero_le h
    simp
  · obtain ⟨n, hn⟩ := Int.eq_ofNat_of_zero_le (by omega : 0 ≤ -e)
    obtain rfl : e = -(n : Int) := by omega
    simp

theorem two_zpow_pos (e : Int) : (0 : ℚ) < 2 ^ e := by positivity

theorem zpow_le_iff {a b : Int} : (2 : ℚ) ^ a ≤ 2 ^ b ↔ a ≤ b := zpow_le_zpow_iff_right₀ (by norm_num)

theorem zpow_lt_iff {a b : Int} : (2 : ℚ) ^ a < 2 ^ b ↔ a < b := zpow_lt_zpow_iff_right₀ (by norm_num)

theorem zadd (a b : Int) : (2 : ℚ) ^ (a + b) = 2 ^ a * 2 ^ b := zpow_add₀ (by norm_num) a b

theorem zsucc (a : Int) : (2 : ℚ) ^ (a + 1) = 2 * 2 ^ a := by rw [zadd, zpow_one]; ring

theorem floorLog_spec (n d : Nat) (hn : n ≠ 0) (hd : d ≠ 0) :
    (2 : ℚ) ^ floorLog n d ≤ (n : ℚ) / d ∧ (n : ℚ) / d < 2 ^ (floorLog n d + 1) := by
  have n1 : (2 : ℚ) ^ (n.log2 : Int) ≤ n := by
    rw [zpow_natCast]; exact_mod_cast Nat.log2_self_le hn
  have n2 : (n : ℚ) < 2 * 2 ^ (n.log2 : Int) := by
    rw [zpow_natCast]
    have := @Nat.lt_log2_self n
    rw [pow_succ] at this
    have h : (n : ℚ) < (2 ^ n.log2 * 2 : Nat) := by exact_mod_cast this
    push_cast at h; linarith
  have d1 : (2 : ℚ) ^ (d.log2 : Int) ≤ d := by
    rw [zpow_natCast]; exact_mod_cast Nat.log2_self_le hd
  have d2 : (d : ℚ) < 2 * 2 ^ (d.log2 : Int) := by
    rw [zpow_natCast]
    have := @Nat.lt_log2_self d
    rw [pow_succ] at this
    have h : (d : ℚ) < (2 ^ d.log2 * 2 : Nat) := by exact_mod_cast this
    push_cast at h; linarith
  have hd' : (0 : ℚ) < d := by exact_mod_cast Nat.pos_of_ne_zero hd
  unfold floorLog
  dsimp only
  generalize he : (n.log2 : Int) - d.log2 = e
  have hN : (2 : ℚ) ^ (n.log2 : Int) = 2 ^ e * 2 ^ (d.log2 : Int) := by
    rw [← he, ← zadd]; congr 1; ring
  have pe := two_zpow_pos e
  have hc : (d * 2 ^ e.toNat ≤ n * 2 ^ (-e).toNat) ↔ ((d : ℚ) * 2 ^ e ≤ n) := by
    rw [zpow_toNat, ← mul_div_assoc, div_le_iff₀ (by positivity)]
    exact_mod_cast Iff.rfl
  split
  · rename_i h
    rw [hc] at h
    refine ⟨by rw [le_div_iff₀ hd']; linarith, ?_⟩
    rw [div_lt_iff₀ hd', zsucc]
    nlinarith
  · rename_i h
    rw [hc] at h
    push Not at h
    refine ⟨?_, ?_⟩
    · rw [le_div_iff₀ hd']
      have : (2 : ℚ) ^ e = 2 * 2 ^ (e - 1) := by rw [← zsucc]; congr 1; ring
      have := two_zpow_pos (e - 1)
      nlinarith
    · rw [div_lt_iff₀ hd', show e - 1 + 1 = e by ring]; linarith

/-! ### Codes and their values -/

theorem Fmt.bias_pos (F : Fmt) : 0 < F.bias := by
  unfold Fmt.bias
  have := F.heb
  have : 2 ^ 1 ≤ 2 ^ (F.eb - 1) := Nat.pow_le_pow_right (by norm_num) (by omega)
  omega

theorem Fmt.eb_eq (F : Fmt) : 2 ^ F.eb = 2 * F.bias + 2 := by
  unfold Fmt.bias
  have := F.heb
  have h : 2 ^ F.eb = 2 * 2 ^ (F.eb - 1) := by
    rw [← pow_succ']; congr 1; omega
  have : 0 < 2 ^ (F.eb - 1) := by positivity
  omega

theorem Fmt.inf_eq (F : Fmt) : F.inf = (2 * F.bias + 1) * 2 ^ F.mb := by
  unfold Fmt.inf; rw [F.eb_eq]; rfl

theorem Fmt.value_eq (F : Fmt) (c : Nat) : F.value c = (fmtNum F c : ℚ) / fmtDen F := by
  have hb := F.bias_pos
  have key : ((2 : ℚ) ^ (F.bias + F.mb - 1)) = 2 ^ ((F.bias : Int) + F.mb - 1) := by
    rw [← zpow_natCast]; congr 1; push_cast [Nat.cast_sub (by omega : 1 ≤ F.bias + F.mb)]; ring
  unfold Fmt.value fmtNum fmtDen
  dsimp only
  split
  · push_cast
    rw [key, eq_div_iff (by positivity), mul_assoc, ← zadd]
    rw [show (1 - (F.bias : Int) - F.mb + (F.bias + F.mb - 1)) = 0 by ring]; simp
  · rename_i h
    generalize c / 2 ^ F.mb = e at *
    generalize c % 2 ^ F.mb = m at *
    push_cast
    rw [key, eq_div_iff (by positivity), mul_assoc, ← zadd]
    congr 1
    rw [← zpow_natCast]; congr 1
    omega

/-- The code made from an exponent `i` above the least and a mantissa with its leading bit. -/
theorem Fmt.value_mk (F : Fmt) (i k : Nat) (hk : k ≤ 2 ^ (F.mb + 1)) (h : i = 0 ∨ 2 ^ F.mb ≤ k) :
    F.value (i * 2 ^ F.mb + k) = k * 2 ^ ((i : Int) + 1 - F.bias - F.mb) := by
  have hp : 0 < 2 ^ F.mb := by positivity
  unfold Fmt.value
  dsimp only
  rw [pow_succ] at hk
  rcases Nat.lt_or_ge k (2 ^ F.mb) with h1 | h1
  · obtain rfl : i = 0 := by omega
    rw [Nat.zero_mul, Nat.zero_add, Nat.div_eq_of_lt h1, Nat.mod_eq_of_lt h1, if_pos rfl]
    simp
  · obtain ⟨m, rfl⟩ := Nat.exists_eq_add_of_le h1
    rcases Nat.lt_or_ge m (2 ^ F.mb) with h2 | h2
    · have e : i * 2 ^ F.mb + (2 ^ F.mb + m) = m + 2 ^ F.mb * (i + 1) := by ring
      rw [e, Nat.add_mul_div_left _ _ hp, Nat.add_mul_mod_self_left, Nat.div_eq_of_lt h2, Nat.mod_eq_of_lt h2,
        if_neg (by omega)]
      push_cast
      congr 2; ring
    · obtain rfl : m = 2 ^ F.mb := by omega
      have e : i * 2 ^ F.mb + (2 ^ F.mb + 2 ^ F.mb) = 0 + 2 ^ F.mb * (i + 2) := by ring
      rw [e, Nat.add_mul_div_left _ _ hp, Nat.add_mul_mod_self_left, Nat.zero_div, Nat.zero_mod,
        if_neg (by omega)]
      push_cast
      rw [show ((0 : Int) + ((i : Int) + 2) - F.bias - F.mb) = (i + 1 - F.bias - F.mb) + 1 by ring, zsucc]; ring

theorem Fmt.code_split (F : Fmt) (c : Nat) :
    (c = 0 * 2 ^ F.mb + c ∧ c < 2 ^ F.mb) ∨
    ∃ i k, c = i * 2 ^ F.mb + k ∧ 2 ^ F.mb ≤ k ∧ k < 2 ^ (F.mb + 1) := by
  have hp : 0 < 2 ^ F.mb := by positivity
  have h := Nat.div_add_mod c (2 ^ F.mb)
  have hm := Nat.mod_lt c hp
  rcases Nat.lt_or_ge c (2 ^ F.mb) with h1 | h1
  · exact Or.inl ⟨by omega, h1⟩
  · right
    have : 1 ≤ c / 2 ^ F.mb := (Nat.one_le_div_iff hp).2 h1
    obtain ⟨i, hi⟩ := Nat.exists_eq_add_of_le this
    refine ⟨i, 2 ^ F.mb + c % 2 ^ F.mb, ?_, by omega, by rw [pow_succ]; omega⟩
    rw [hi] at h
    generalize c % 2 ^ F.mb = r at *
    generalize 2 ^ F.mb = M at *
    rw [← h]; ring

theorem Fmt.value_succ (F : Fmt) (c : Nat) : F.value c < F.value (c + 1) := by
  rcases F.code_split c with ⟨h1, h2⟩ | ⟨i, k, rfl, h1, h2⟩
  · rw [h1, Nat.add_assoc, F.value_mk 0 _ (by rw [pow_succ]; omega) (Or.inl rfl),
      F.value_mk 0 _ (by rw [pow_succ]; omega) (Or.inl rfl)]
    apply mul_lt_mul_of_pos_right _ (two_zpow_pos _)
    push_cast; linarith
  · rw [Nat.add_assoc, F.value_mk i _ (by omega) (Or.inr (by omega)), F.value_mk i _ (by omega) (Or.inr (by omega))]
    apply mul_lt_mul_of_pos_right _ (two_zpow_pos _)
    push_cast; linarith

theorem Fmt.value_strictMono (F : Fmt) : StrictMono F.value := strictMono_nat_of_lt_succ F.value_succ

theorem Fmt.value_lt (F : Fmt) {a b : Nat} : F.value a < F.value b ↔ a < b := F.value_strictMono.lt_iff_lt
theorem Fmt.value_le (F : Fmt) {a b : Nat} : F.value a ≤ F.value b ↔ a ≤ b := F.value_strictMono.le_iff_le
theorem Fmt.value_inj (F : Fmt) {a b : Nat} : F.value a = F.value b ↔ a = b := F.value_strictMono.injective.eq_iff

theorem Fmt.value_nonneg (F : Fmt) (c : Nat) : 0 ≤ F.value c := by
  rw [F.value_eq]; positivity

theorem Fmt.value_zero (F : Fmt) : F.value 0 = 0 := by
  have := F.value_mk 0 0 (by positivity) (Or.inl rfl)
  simpa using this

/-- The value of the code of infinity, read as if it were finite. -/
theorem Fmt.value_inf (F : Fmt) : F.value F.inf = 2 ^ ((F.bias : Int) + 1) := by
  have h : F.inf = (2 * F.bias) * 2 ^ F.mb + 2 ^ F.mb := by rw [F.inf_eq]; ring
  rw [h, F.value_mk _ _ (by rw [pow_succ]; omega) (Or.inr (le_refl _))]
  push_cast
  rw [← zpow_natCast, ← zadd]; congr 1; push_cast; ring

/-- From the code of `2^p` on, all values are multiples of the unit in the last place of that binade. -/
theorem Fmt.value_multiple (F : Fmt) (i c : Nat) (h : i = 0 ∨ i * 2 ^ F.mb + 2 ^ F.mb ≤ c) :
    ∃ j : Nat, F.value c = j * 2 ^ ((i : Int) + 1 - F.bias - F.mb) := by
  have hp : 0 < 2 ^ F.mb := by positivity
  have aux : ∀ (i' k : Nat), i ≤ i' → (2 : ℚ) ^ ((i' : Int) + 1 - F.bias - F.mb) * k =
      ((2 ^ (i' - i) * k : Nat) : ℚ) * 2 ^ ((i : Int) + 1 - F.bias - F.mb) := by
    intro i' k hi
    push_cast
    rw [← zpow_natCast, mul_right_comm, ← zadd]
    congr 2
    push_cast [Nat.cast_sub hi]; ring
  rcases F.code_split c with ⟨h1, h2⟩ | ⟨i', k, rfl, h1, h2⟩
  · rcases h with rfl | h
    · refine ⟨c, ?_⟩
      conv_lhs => rw [h1]
      rw [F.value_mk 0 c (by rw [pow_succ]; omega) (Or.inl rfl)]
    · omega
  · have hi : i ≤ i' := by
      rcases h with rfl | h
      · omega
      · rw [pow_succ] at h2
        by_contra hc
        have : (i' + 1) * 2 ^ F.mb ≤ i * 2 ^ F.mb := Nat.mul_le_mul_right _ (by omega)
        nlinarith
    refine ⟨2 ^ (i' - i) * k, ?_⟩
    rw [F.value_mk i' k (by omega) (Or.inr h1), ← aux i' k hi]; ring

/-! ### Uniqueness of rounding to nearest -/

theorem Fmt.Nearest.unique {F : Fmt} {q : ℚ} {a b : Nat} (ha : F.Nearest q a) (hb : F.Nearest q b) : a = b := by
  rcases ha with ⟨a1, a2, a3⟩ | ⟨a1, a2⟩ <;> rcases hb with ⟨b1, b2, b3⟩ | ⟨b1, b2⟩
  · by_contra hne
    wlog hlt : a < b generalizing a b
    · exact this b1 b3 a1 a3 (fun h => hne h.symm) (by omega)
    have e := le_antisymm (b3 a a1).1 (a3 b b1).1
    have pa := (a3 b b1).2 e (fun h => hne h.symm)
    have pb := (b3 a a1).2 e.symm hne
    have h1 : a + 1 < b := by omega
    have v1 := F.value_lt.2 (Nat.lt_succ_self a)
    have v2 := F.value_lt.2 h1
    have v3 := (a3 (a + 1) (by omega)).1
    have v4 := (b3 (a + 1) (by omega)).1
    rcases abs_eq_abs.1 e with h | h
    · linarith
    · rw [abs_of_nonpos (by linarith : F.value a - q ≤ 0)] at v3
      rw [abs_of_nonneg (by linarith : 0 ≤ F.value b - q)] at v4
      rcases abs_cases (F.value (a + 1) - q) with ⟨g, _⟩ | ⟨g, _⟩ <;> rw [g] at v3 v4 <;>
        linarith
  · linarith
  · linarith
  · omega

/-! ### The rounding function -/

/-- What `rneBits` computes, without the cut at infinity. -/
def rneCode (F : Fmt) (i k : Nat) : Nat := i * 2 ^ F.mb + k

/-- How `q > 0` is scaled before rounding: `i` is the exponent above the least one, `x` the number in units of the last
place. -/
structure Scaled (F : Fmt) (q : ℚ) (i : Nat) (x : ℚ) : Prop where
  eq : q = x * 2 ^ ((i : Int) + 1 - F.bias - F.mb)
  pos : 0 ≤ x
  hi : x < 2 ^ (F.mb + 1)
  lo : i = 0 ∨ (2 : ℚ) ^ F.mb ≤ x

theorem RneInt.le_of_lt {x : ℚ} {k n : Nat} (h : RneInt x k) (hx : x < n) : k ≤ n := by
  by_contra hc
  push Not at hc
  have : (n : ℚ) + 1 ≤ k := by exact_mod_cast hc
  have := (abs_le.1 h.1).2
  linarith

theorem RneInt.ge_of_le {x : ℚ} {k n : Nat} (h : RneInt x k) (hx : (n : ℚ) ≤ x) : n ≤ k := by
  by_contra hc
  push Not at hc
  have : (k : ℚ) + 1 ≤ n := by exact_mod_cast hc
  have := (abs_le.1 h.1).1
  linarith

/-- Half a unit below the next power of two, everything rounds up to it; below that it does not. -/
theorem RneInt.top_iff {x : ℚ} {k n : Nat} (h : RneInt x k) (hn : n % 2 = 0) (hx : x < n) :
    k = n ↔ (n : ℚ) - 1 / 2 ≤ x := by
  constructor
  · rintro rfl
    have := (abs_le.1 h.1).2
    linarith
  · intro g
    have h1 : k ≤ n := h.le_of_lt hx
    by_contra hc
    have h2 : k + 1 ≤ n := by omega
    have h2' : (k : ℚ) + 1 ≤ n := by exact_mod_cast h2
    have h3 := (abs_le.1 h.1).1
    have e : x = k + 1 / 2 := by linarith
    have e2 : (n : ℚ) = (k + 1 : Nat) := by push_cast; linarith
    have e3 : n = k + 1 := by exact_mod_cast e2
    have := h.2 (by rw [e, show (k : ℚ) - (k + 1 / 2) = -(1 / 2) by ring, abs_neg, abs_of_pos (by norm_num)])
    omega

theorem Scaled.inf_iff {F : Fmt} {q x : ℚ} {i k : Nat} (s : Scaled F q i x) (h : RneInt x k) :
    F.inf ≤ rneCode F i k ↔ 2 ^ ((F.bias : ℤ) + 1) - 2 ^ ((F.bias : ℤ) - F.mb - 1) ≤ q := by
  have hp : 0 < 2 ^ F.mb := by positivity
  have hb := F.bias_pos
  have hk : k ≤ 2 ^ (F.mb + 1) := h.le_of_lt (by exact_mod_cast s.hi)
  have hT : (2 : ℚ) ^ ((F.bias : ℤ) + 1) - 2 ^ ((F.bias : ℤ) - F.mb - 1) =
      (2 ^ (F.mb + 1) - 1 / 2) * 2 ^ ((F.bias : ℤ) - F.mb) := by
    rw [sub_mul, ← zpow_natCast, ← zadd]
    congr 1
    · congr 1; push_cast; ring
    · rw [show ((F.bias : ℤ) - F.mb) = (F.bias - F.mb - 1) + 1 by ring, zsucc,
        show ((F.bias : ℤ) - F.mb - 1 + 1 - 1) = F.bias - F.mb - 1 by ring]
      ring
  rw [hT, F.inf_eq, s.eq]
  unfold rneCode
  rw [pow_succ] at hk
  rcases Nat.lt_trichotomy (i + 1) (2 * F.bias) with g | g | g
  · constructor
    · intro c
      exfalso
      have : (i + 2) * 2 ^ F.mb ≤ (2 * F.bias) * 2 ^ F.mb := Nat.mul_le_mul_right _ (by omega)
      nlinarith
    · intro c
      exfalso
      have h1 : (2 : ℚ) * 2 ^ ((i : ℤ) + 1 - F.bias - F.mb) ≤ 2 ^ ((F.bias : ℤ) - F.mb) := by
        rw [← zsucc, zpow_le_iff]; omega
      have h2 := s.hi
      have h3 := two_zpow_pos ((i : ℤ) + 1 - F.bias - F.mb)
      have h4 : (1 : ℚ) ≤ 2 ^ F.mb := by exact_mod_cast hp
      rw [pow_succ] at c h2
      have h5 : ((2 : ℚ) ^ F.mb * 2 - 1 / 2) * (2 * 2 ^ ((i : ℤ) + 1 - F.bias - F.mb)) ≤
          (2 ^ F.mb * 2 - 1 / 2) * 2 ^ ((F.bias : ℤ) - F.mb) := mul_le_mul_of_nonneg_left h1 (by linarith)
      have h6 : x * 2 ^ ((i : ℤ) + 1 - F.bias - F.mb) < (2 ^ F.mb * 2) * 2 ^ ((i : ℤ) + 1 - F.bias - F.mb) :=
        mul_lt_mul_of_pos_right h2 h3
      nlinarith
  · have e : (i : ℤ) + 1 - F.bias - F.mb = F.bias - F.mb := by omega
    rw [e, mul_le_mul_iff_left₀ (two_zpow_pos _)]
    have := h.top_iff (n := 2 ^ (F.mb + 1)) (by rw [pow_succ]; omega) (by exact_mod_cast s.hi)
    push_cast at this
    rw [← this, pow_succ]
    have e2 : (2 * F.bias + 1) * 2 ^ F.mb = i * 2 ^ F.mb + 2 ^ F.mb * 2 := by rw [← g]; ring
    rw [e2]; omega
  · have g1 : i ≠ 0 := by omega
    have hlo := s.lo.resolve_left g1
    have h1 : 2 ^ F.mb ≤ k := h.ge_of_le (by exact_mod_cast hlo)
    constructor
    · intro _
      have h2 : (2 : ℚ) * 2 ^ ((F.bias : ℤ) - F.mb) ≤ 2 ^ ((i : ℤ) + 1 - F.bias - F.mb) := by
        rw [← zsucc, zpow_le_iff]; omega
      have h3 := two_zpow_pos ((F.bias : ℤ) - F.mb)
      have h4 : (2 : ℚ) ^ F.mb * (2 * 2 ^ ((F.bias : ℤ) - F.mb)) ≤ x * 2 ^ ((i : ℤ) + 1 - F.bias - F.mb) :=
        mul_le_mul hlo h2 (by positivity) s.pos
      rw [pow_succ]
      nlinarith
    · intro _
      have : (2 * F.bias) * 2 ^ F.mb ≤ i * 2 ^ F.mb := Nat.mul_le_mul_right _ (by omega)
      nlinarith

theorem Scaled.value {F : Fmt} {q x : ℚ} {i k : Nat} (s : Scaled F q i x) (h : RneInt x k) :
    F.value (rneCode F i k) = k * 2 ^ ((i : Int) + 1 - F.bias - F.mb) := by
  have hk : k ≤ 2 ^ (F.mb + 1) := h.le_of_lt (by exact_mod_cast s.hi)
  exact F.value_mk i k hk (s.lo.imp id (fun hlo => h.ge_of_le (by exact_mod_cast hlo)))

theorem Scaled.nearest {F : Fmt} {q x : ℚ} {i k : Nat} (s : Scaled F q i x) (h : RneInt x k) :
    F.Nearest q (min (rneCode F i k) F.inf) := by
  rcases Nat.lt_or_ge (rneCode F i k) F.inf with g | g
  · left
    rw [Nat.min_eq_left (le_of_lt g)]
    refine ⟨g, lt_of_not_ge (fun hc => absurd ((s.inf_iff h).2 hc) (by omega)), fun c hc => ?_⟩
    rw [s.value h]
    have hu := two_zpow_pos ((i : Int) + 1 - F.bias - F.mb)
    have heven : k % 2 = 0 → rneCode F i k % 2 = 0 := by
      intro h
      unfold rneCode
      obtain ⟨m, hm⟩ := Nat.exists_eq_add_of_lt F.hmb
      rw [hm, show 0 + m + 1 = m + 1 by ring, pow_succ, ← mul_assoc]
      omega
    have scale : ∀ y : ℚ, |y * 2 ^ ((i : Int) + 1 - F.bias - F.mb) - q| = |y - x| * 2 ^ ((i : Int) + 1 - F.bias - F.mb) := by
      intro y
      rw [s.eq, ← sub_mul, abs_mul, abs_of_pos hu]
    by_cases hc2 : i = 0 ∨ i * 2 ^ F.mb + 2 ^ F.mb ≤ c
    · obtain ⟨j, hj⟩ := F.value_multiple i c hc2
      rw [hj, scale, scale]
      refine ⟨mul_le_mul_of_nonneg_right (h.nearest j).1 (le_of_lt hu), fun e hne => heven ?_⟩
      refine (h.nearest j).2 (mul_right_cancel₀ (ne_of_gt hu) e) (fun e => hne ?_)
      rw [← F.value_inj, hj, s.value h, e]
    · push Not at hc2
      have hlo := s.lo.resolve_left hc2.1
      have v1 : F.value c < F.value (i * 2 ^ F.mb + 2 ^ F.mb) := F.value_lt.2 hc2.2
      rw [F.value_mk i _ (by rw [pow_succ]; omega) (Or.inr (le_refl _))] at v1
      have v2 : ((2 ^ F.mb : Nat) : ℚ) * 2 ^ ((i : Int) + 1 - F.bias - F.mb) ≤ q := by
        rw [s.eq]; push_cast
        exact mul_le_mul_of_nonneg_right hlo (le_of_lt hu)
      have v3 := (h.nearest (2 ^ F.mb)).1
      have v4 := mul_le_mul_of_nonneg_right v3 (le_of_lt hu)
      rw [← scale, ← scale, abs_of_nonpos (by linarith : ((2 ^ F.mb : Nat) : ℚ) * 2 ^ ((i : Int) + 1 - F.bias - F.mb) - q ≤ 0)] at v4
      rw [abs_of_nonpos (by linarith : F.value c - q ≤ 0)]
      refine ⟨by linarith, fun e _ => by exfalso; linarith⟩
  · right
    exact ⟨Nat.min_eq_right g, (s.inf_iff h).1 g⟩

/-- Rounding the rounded number again gives the same code. -/
theorem Scaled.nearest_rounded {F : Fmt} {q x : ℚ} {i k : Nat} (s : Scaled F q i x) (h : RneInt x k) :
    F.Nearest (k * 2 ^ ((i : Int) + 1 - F.bias - F.mb)) (min (rneCode F i k) F.inf) := by
  have hv := s.value h
  have top : F.value (F.inf - 1) < 2 ^ ((F.bias : ℤ) + 1) - 2 ^ ((F.bias : ℤ) - F.mb - 1) := by
    have hp : 0 < 2 ^ F.mb := by positivity
    have hb := F.bias_pos
    have e : F.inf - 1 = (2 * F.bias - 1) * 2 ^ F.mb + (2 ^ (F.mb + 1) - 1) := by
      rw [F.inf_eq, pow_succ]
      obtain ⟨b, hb'⟩ := Nat.exists_eq_add_of_lt hb
      rw [hb', show 0 + b + 1 = b + 1 by ring, show 2 * (b + 1) - 1 = 2 * b + 1 by omega,
        show (2 * (b + 1) + 1) * 2 ^ F.mb = (2 * b + 1) * 2 ^ F.mb + 2 ^ F.mb * 2 by ring]
      omega
    rw [e, F.value_mk _ _ (by omega) (Or.inr (by rw [pow_succ]; omega))]
    have e1 : (((2 * F.bias - 1 : Nat) : ℤ) + 1 - F.bias - F.mb) = F.bias - F.mb := by omega
    rw [e1, Nat.cast_sub (by positivity : 0 < 2 ^ (F.mb + 1))]
    push_cast
    rw [sub_mul]
    have e2 : (2 : ℚ) ^ (F.mb + 1) * 2 ^ ((F.bias : ℤ) - F.mb) = 2 ^ ((F.bias : ℤ) + 1) := by
      rw [← zpow_natCast, ← zadd]; congr 1; push_cast; ring
    have e3 : (2 : ℚ) ^ ((F.bias : ℤ) - F.mb) = 2 * 2 ^ ((F.bias : ℤ) - F.mb - 1) := by
      rw [← zsucc]; congr 1; ring
    rw [e2, e3]
    have := two_zpow_pos ((F.bias : ℤ) - F.mb - 1)
    linarith
  rw [← hv]
  rcases Nat.lt_or_ge (rneCode F i k) F.inf with g | g
  · left
    rw [Nat.min_eq_left (le_of_lt g)]
    refine ⟨g, lt_of_le_of_lt (F.value_le.2 (by omega)) top, fun c _ => ⟨by simp, fun e hne => ?_⟩⟩
    simp only [sub_self, abs_zero, abs_eq_zero] at e
    exact absurd (F.value_inj.1 (by linarith)) hne
  · right
    refine ⟨Nat.min_eq_right g, le_trans ?_ (F.value_le.2 g)⟩
    rw [F.value_inf]
    have := two_zpow_pos ((F.bias : ℤ) - F.mb - 1)
    linarith

theorem scaled_exists (F : Fmt) (n d : Nat) (hn : n ≠ 0) (hd : d ≠ 0) :
    Scaled F ((n : ℚ) / d) (max (floorLog n d) (1 - (F.bias : Int)) - (1 - (F.bias : Int))).toNat
      (((n * 2 ^ (-(max (floorLog n d) (1 - (F.bias : Int)) - F.mb)).toNat : Nat) : ℚ) /
        ((d * 2 ^ (max (floorLog n d) (1 - (F.bias : Int)) - F.mb).toNat : Nat) : ℚ)) := by
  obtain ⟨l1, l2⟩ := floorLog_spec n d hn hd
  generalize floorLog n d = e at *
  generalize hp : max e (1 - (F.bias : Int)) = p at *
  have hp1 : e ≤ p := by omega
  have hp2 : 1 - (F.bias : Int) ≤ p := by omega
  obtain ⟨i, hi⟩ := Int.eq_ofNat_of_zero_le (by omega : 0 ≤ p - (1 - (F.bias : Int)))
  have hd' : (d : ℚ) ≠ 0 := by exact_mod_cast hd
  have hx : ((n * 2 ^ (-(p - F.mb)).toNat : Nat) : ℚ) / ((d * 2 ^ (p - F.mb).toNat : Nat) : ℚ) =
      (n : ℚ) / d * 2 ^ (-(p - (F.mb : Int))) := by
    rw [zpow_toNat, neg_neg]
    push_cast
    field_simp
  rw [hx, hi]
  have et : ((i : Int) + 1 - F.bias - F.mb) = p - F.mb := by omega
  have hpos : 0 ≤ (n : ℚ) / d := by positivity
  refine ⟨?_, by positivity, ?_, ?_⟩
  · rw [Int.toNat_natCast, et, mul_assoc, ← zadd]; simp
  · have e1 : (2 : ℚ) ^ (F.mb + 1) = 2 ^ (p + 1) * 2 ^ (-(p - (F.mb : Int))) := by
      rw [← zadd, ← zpow_natCast]; congr 1; push_cast; ring
    rw [e1]
    refine mul_lt_mul_of_pos_right (lt_of_lt_of_le l2 ?_) (two_zpow_pos _)
    rw [zpow_le_iff]; omega
  · rcases Nat.eq_zero_or_pos i with g | g
    · left; rw [g]; rfl
    · right
      have : p = e := by omega
      have e1 : (2 : ℚ) ^ F.mb = 2 ^ p * 2 ^ (-(p - (F.mb : Int))) := by
        rw [← zadd, ← zpow_natCast]; congr 1; ring
      rw [e1, this]
      exact mul_le_mul_of_nonneg_right l1 (le_of_lt (two_zpow_pos _))

theorem Fmt.nearest_zero (F : Fmt) : F.Nearest 0 0 := by
  have hp : 0 < 2 ^ F.mb := by positivity
  left
  refine ⟨by rw [F.inf_eq]; positivity, ?_, fun c _ => ?_⟩
  · have : (2 : ℚ) ^ ((F.bias : ℤ) - F.mb - 1) < 2 ^ ((F.bias : ℤ) + 1) := by rw [zpow_lt_iff]; omega
    linarith
  · rw [F.value_zero]; simp

/-- **`rneBits` rounds to nearest, ties to even.** -/
theorem rneBits_nearest (F : Fmt) (n d : Nat) (hd : d ≠ 0) : F.Nearest ((n : ℚ) / d) (rneBits F n d) := by
  by_cases hn : n = 0
  · subst hn; simp only [rneBits, if_pos, Nat.cast_zero, zero_div]; exact F.nearest_zero
  · have s := scaled_exists F n d hn hd
    unfold rneBits
    rw [if_neg hn]
    exact s.nearest (rneDiv_rneInt _ _ (by positivity))

theorem rneBits_unique (F : Fmt) {n d : Nat} (hd : d ≠ 0) {q : ℚ} {c : Nat} (h : F.Nearest q c) (e : (n : ℚ) / d = q) :
    rneBits F n d = c := (rneBits_nearest F n d hd).unique (e ▸ h)

/-- A number of the format is its own rounding. -/
theorem Fmt.nearest_self (F : Fmt) (c : Nat) (hc : c < F.inf) : F.Nearest (F.value c) c := by
  have hp : 0 < 2 ^ F.mb := by positivity
  rcases F.code_split c with ⟨h1, h2⟩ | ⟨i, k, rfl, h1, h2⟩
  · have s : Scaled F (F.value c) 0 c := by
      refine ⟨?_, by positivity, ?_, Or.inl rfl⟩
      · conv_lhs => rw [h1]
        rw [F.value_mk 0 c (by rw [pow_succ]; omega) (Or.inl rfl)]
      · have : c < 2 ^ (F.mb + 1) := by rw [pow_succ]; omega
        exact_mod_cast this
    have := s.nearest (RneInt.of_nat c)
    unfold rneCode at this
    rwa [← h1, Nat.min_eq_left (le_of_lt hc)] at this
  · have s : Scaled F (F.value (i * 2 ^ F.mb + k)) i k := by
      refine ⟨F.value_mk i k (by omega) (Or.inr h1), by positivity, by exact_mod_cast h2, Or.inr (by exact_mod_cast h1)⟩
    have := s.nearest (RneInt.of_nat k)
    unfold rneCode at this
    rwa [Nat.min_eq_left (le_of_lt hc)] at this

end RMath
