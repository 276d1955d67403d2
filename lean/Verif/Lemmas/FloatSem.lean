import Verif.SpecFloat
import Verif.Model.Float
import Verif.Lemmas.Ieee
import Mathlib.Tactic.Linarith
import Mathlib.Tactic.Ring
import Mathlib.Tactic.NormNum
import Mathlib.Tactic.FieldSimp
import Mathlib.Algebra.Order.Field.Power
import Mathlib.Algebra.Order.Floor.Ring

/-! # Facts about rounding to an integer and to `p` digits -/

namespace RMath

/-- The sign as a number. -/
def sgn (neg : Bool) : ℚ := if neg then -1 else 1
/-- The sign as an integer. -/
def sgnZ (neg : Bool) : ℤ := if neg then -1 else 1

theorem sgn_cast (neg : Bool) : ((sgnZ neg : ℤ) : ℚ) = sgn neg := by cases neg <;> simp [sgn, sgnZ]

/-- the mode seen from the other side of zero -/
def RoundingMode.flip : RoundingMode → RoundingMode
  | .toNegativeInf => .toPositiveInf
  | .toPositiveInf => .toNegativeInf
  | m => m

theorem roundInc_flip (mode : RoundingMode) (rb st l : Bool) :
    roundInc mode true rb st l = roundInc mode.flip false rb st l := by
  cases mode <;> rfl

theorem roundsTo_neg {mode : RoundingMode} {x : ℚ} {k : ℤ} (h : RoundsTo mode.flip x k) (hx : 0 < x) :
    RoundsTo mode (-x) (-k) := by
  have e : |(-x : ℚ) - ((-k : ℤ) : ℚ)| = |x - k| := by
    rw [← abs_neg]; congr 1; push_cast; ring
  have hn : ¬ (0 : ℚ) ≤ -x := by linarith
  cases mode
  · simp only [RoundingMode.flip, RoundsTo] at h ⊢
    rw [e]
    exact ⟨h.1, fun h' => by have := h.2 h'; omega⟩
  · simp only [RoundingMode.flip, RoundsTo] at h ⊢
    rw [e]
    refine ⟨h.1, fun h' => ?_⟩
    have := h.2 h'
    push_cast
    rwa [abs_neg, abs_neg]
  · simp only [RoundingMode.flip, RoundsTo] at h ⊢
    rw [if_pos hx.le] at h
    rw [if_neg hn, Int.ceil_neg, h]
  · simp only [RoundingMode.flip, RoundsTo] at h ⊢
    rw [if_pos hx.le] at h
    rw [if_neg hn, Int.floor_neg, h]
  · simp only [RoundingMode.flip, RoundsTo] at h ⊢
    rw [Int.floor_neg, h]
  · simp only [RoundingMode.flip, RoundsTo] at h ⊢
    rw [Int.ceil_neg, h]

/-- The fraction `f` agrees with the rounding bit and the sticky bit. -/
def BitsOf (f : ℚ) (rb st : Bool) : Prop :=
  (rb = false ∧ st = false ∧ f = 0) ∨ (rb = false ∧ st = true ∧ 0 < f ∧ f < 1 / 2) ∨
  (rb = true ∧ st = false ∧ f = 1 / 2) ∨ (rb = true ∧ st = true ∧ 1 / 2 < f ∧ f < 1)

theorem floor_nat_add {k : Nat} {f : ℚ} (h0 : 0 ≤ f) (h1 : f < 1) : ⌊(k : ℚ) + f⌋ = k := by
  rw [Int.floor_eq_iff]; push_cast; constructor <;> linarith

theorem ceil_nat_add {k : Nat} {f : ℚ} (h0 : 0 < f) (h1 : f ≤ 1) : ⌈(k : ℚ) + f⌉ = k + 1 := by
  rw [Int.ceil_eq_iff]; push_cast; constructor <;> linarith

theorem roundsTo_pos (mode : RoundingMode) (k : Nat) {f : ℚ} {rb st : Bool} (h : BitsOf f rb st) :
    RoundsTo mode ((k : ℚ) + f)
      ((k + ((rb || st) && roundInc mode false rb st (decide (k % 2 = 1))).toNat : Nat) : ℤ) := by
  have hk : (0 : ℚ) ≤ k := Nat.cast_nonneg k
  rcases h with ⟨rfl, rfl, rfl⟩ | ⟨rfl, rfl, h0, h1⟩ | ⟨rfl, rfl, rfl⟩ | ⟨rfl, rfl, h0, h1⟩
  · cases mode <;> simp [roundInc, RoundsTo]
  · have hfl := floor_nat_add (k := k) h0.le (by linarith : f < 1)
    have hce := ceil_nat_add (k := k) h0 (by linarith : f ≤ 1)
    have hnn : (0 : ℚ) ≤ k + f := by linarith
    have ha : |(k : ℚ) + f - (k : ℤ)| = f := by
      push_cast; rw [show (k : ℚ) + f - k = f by ring]; exact abs_of_pos h0
    cases mode <;> simp only [roundInc, RoundsTo, Bool.or_true, Bool.true_and, Bool.false_and, Bool.toNat_false,
      Bool.toNat_true, Nat.add_zero, if_pos hnn, hfl, hce, Bool.not_false, Bool.false_or, Bool.or_false]
    · rw [ha]; exact ⟨by linarith, fun h => by linarith⟩
    · rw [ha]; exact ⟨by linarith, fun h => by linarith⟩
    · push_cast; rfl
    · push_cast; rfl
  · have hfl := floor_nat_add (k := k) (f := 1 / 2) (by norm_num) (by norm_num)
    have hce := ceil_nat_add (k := k) (f := 1 / 2) (by norm_num) (by norm_num)
    have hnn : (0 : ℚ) ≤ k + 1 / 2 := by linarith
    have ha : |(k : ℚ) + 1 / 2 - (k : ℤ)| = 1 / 2 := by
      push_cast; rw [show (k : ℚ) + 1 / 2 - k = 1 / 2 by ring]; norm_num
    have hb : |(k : ℚ) + 1 / 2 - ((k + 1 : Nat) : ℤ)| = 1 / 2 := by
      push_cast; rw [show (k : ℚ) + 1 / 2 - (k + 1) = -(1 / 2) by ring]; norm_num
    cases mode <;> simp only [roundInc, RoundsTo, Bool.or_true, Bool.true_and, Bool.false_and, Bool.toNat_false,
      Bool.toNat_true, Nat.add_zero, if_pos hnn, hfl, hce, Bool.not_false, Bool.false_or, Bool.or_false]
    · by_cases ho : k % 2 = 1
      · simp only [ho, decide_true, Bool.toNat_true, hb]
        exact ⟨le_rfl, fun _ => by omega⟩
      · simp only [ho, decide_false, Bool.toNat_false, Nat.add_zero, ha]
        exact ⟨le_rfl, fun _ => by omega⟩
    · rw [hb]
      refine ⟨le_rfl, fun _ => ?_⟩
      push_cast
      rw [abs_of_nonneg (by linarith), abs_of_nonneg (by linarith)]; linarith
    · push_cast; rfl
    · push_cast; rfl
  · have hfl := floor_nat_add (k := k) (by linarith : (0 : ℚ) ≤ f) h1
    have hce := ceil_nat_add (k := k) (by linarith : (0 : ℚ) < f) h1.le
    have hnn : (0 : ℚ) ≤ k + f := by linarith
    have hb : |(k : ℚ) + f - ((k + 1 : Nat) : ℤ)| = 1 - f := by
      push_cast; rw [show (k : ℚ) + f - (k + 1) = -(1 - f) by ring, abs_neg]; exact abs_of_pos (by linarith)
    cases mode <;> simp only [roundInc, RoundsTo, Bool.or_true, Bool.true_and, Bool.false_and, Bool.toNat_false,
      Bool.toNat_true, Nat.add_zero, if_pos hnn, hfl, hce, Bool.not_false, Bool.false_or, Bool.or_false, Bool.true_or]
    · rw [hb]; exact ⟨by linarith, fun h => by linarith⟩
    · rw [hb]; exact ⟨by linarith, fun h => by linarith⟩
    · push_cast; rfl
    · push_cast; rfl

theorem roundsTo_core (mode : RoundingMode) (neg : Bool) {k : Nat} (hk : 1 ≤ k) {f : ℚ} {rb st : Bool}
    (h : BitsOf f rb st) :
    RoundsTo mode (sgn neg * ((k : ℚ) + f))
      (sgnZ neg * ((k + ((rb || st) && roundInc mode neg rb st (decide (k % 2 = 1))).toNat : Nat) : ℤ)) := by
  have hk' : (1 : ℚ) ≤ k := by exact_mod_cast hk
  have hf : 0 ≤ f := by
    rcases h with ⟨_, _, rfl⟩ | ⟨_, _, h, _⟩ | ⟨_, _, rfl⟩ | ⟨_, _, h, _⟩ <;> linarith
  cases neg
  · simp only [sgn, sgnZ, Bool.false_eq_true, if_false, one_mul]
    exact roundsTo_pos mode k h
  · simp only [sgn, sgnZ, if_true, neg_mul, one_mul, roundInc_flip]
    exact roundsTo_neg (roundsTo_pos mode.flip k h) (by linarith)

theorem acc_core (neg inc : Bool) {k : Nat} {f u : ℚ} {rb st : Bool} (h : BitsOf f rb st) (hu : 0 < u) (hi : inc = true → (rb || st) = true) :
    (if rb || st then makeAccuracy (inc != neg) else .exact)
      = accOf (sgn neg * (((k : ℚ) + f) * u)) (sgn neg * (((k + inc.toNat : Nat) : ℚ) * u)) := by
  have hf : 0 ≤ f ∧ f < 1 := by
    rcases h with ⟨_, _, rfl⟩ | ⟨_, _, h, _⟩ | ⟨_, _, rfl⟩ | ⟨_, _, h, _⟩ <;> constructor <;> linarith
  have h0 : (rb || st) = false ↔ f = 0 := by
    rcases h with ⟨rfl, rfl, rfl⟩ | ⟨rfl, rfl, h, _⟩ | ⟨rfl, rfl, rfl⟩ | ⟨rfl, rfl, h, _⟩
    · simp
    · simp; linarith
    · simp
    · simp; linarith
  by_cases hin : (rb || st) = true
  · rw [if_pos hin]
    have hfp : 0 < f := by
      rcases lt_or_eq_of_le hf.1 with h | h
      · exact h
      · rw [h0.2 h.symm] at hin; simp at hin
    have hfu := mul_pos hfp hu
    have hfu' := mul_pos (sub_pos.2 hf.2) hu
    unfold accOf
    cases inc <;> cases neg <;> simp only [makeAccuracy, sgn, Bool.toNat_false, Bool.toNat_true, Nat.cast_add,
      Nat.cast_zero, Nat.cast_one, bne_self_eq_false, Bool.false_eq_true, if_false, if_true, Bool.true_bne, Bool.not_false,
      Bool.false_bne, one_mul, neg_mul, add_zero]
    · rw [if_pos (by nlinarith)]
    · rw [if_neg (by nlinarith), if_neg (by nlinarith)]
    · rw [if_neg (by nlinarith), if_neg (by nlinarith)]
    · rw [if_pos (by nlinarith)]
  · have hb : (rb || st) = false := by simpa using hin
    have hi' : inc = false := by cases inc; rfl; exact absurd (hi rfl) hin
    rw [if_neg hin, h0.1 hb, hi']
    simp [accOf]

/-! ### `RoundsTo` and `Rounded` are functions -/

theorem RoundsTo.unique {mode : RoundingMode} {x : ℚ} {k k' : ℤ} (h : RoundsTo mode x k) (h' : RoundsTo mode x k') :
    k = k' := by
  have near : |x - k| ≤ 1 / 2 → |x - k'| ≤ 1 / 2 → k ≠ k' →
      |x - k| = 1 / 2 ∧ |x - k'| = 1 / 2 ∧ (k' = k + 1 ∧ x = k + 1 / 2 ∨ k = k' + 1 ∧ x = k' + 1 / 2) := by
    intro h1 h2 hne
    have h1' := abs_le.1 h1
    have h2' := abs_le.1 h2
    rcases lt_or_gt_of_ne hne with hlt | hlt
    · have h3 : (k : ℚ) + 1 ≤ k' := by exact_mod_cast hlt
      have hx : x = k + 1 / 2 := by linarith
      have hk : (k' : ℚ) = k + 1 := by linarith
      refine ⟨?_, ?_, Or.inl ⟨by exact_mod_cast hk, hx⟩⟩
      · rw [hx]; simp
      · rw [hx, hk]; rw [show (k : ℚ) + 1 / 2 - (k + 1) = -(1 / 2) by ring]; norm_num
    · have h3 : (k' : ℚ) + 1 ≤ k := by exact_mod_cast hlt
      have hx : x = k' + 1 / 2 := by linarith
      have hk : (k : ℚ) = k' + 1 := by linarith
      refine ⟨?_, ?_, Or.inr ⟨by exact_mod_cast hk, hx⟩⟩
      · rw [hx, hk]; rw [show (k' : ℚ) + 1 / 2 - (k' + 1) = -(1 / 2) by ring]; norm_num
      · rw [hx]; simp
  cases mode <;> simp only [RoundsTo] at h h'
  · by_contra hne
    obtain ⟨h1, h2, h3⟩ := near h.1 h'.1 hne
    have := h.2 h1
    have := h'.2 h2
    rcases h3 with h3 | h3 <;> omega
  · by_contra hne
    obtain ⟨h1, h2, h3⟩ := near h.1 h'.1 hne
    have ha := h.2 h1
    have hb := h'.2 h2
    have key : ∀ j : ℤ, x = j + 1 / 2 → |x| ≤ |(j : ℚ)| → |x| ≤ |((j + 1 : ℤ) : ℚ)| → False := by
      intro j hx h1 h2
      push_cast at h2
      rcases le_or_gt 0 j with hj | hj
      · have : (0 : ℚ) ≤ j := by exact_mod_cast hj
        rw [hx, abs_of_nonneg (by linarith), abs_of_nonneg this] at h1
        linarith
      · have : (j : ℚ) + 1 ≤ 0 := by exact_mod_cast hj
        rw [hx, abs_of_nonpos (by linarith), abs_of_nonpos this] at h2
        linarith
    rcases h3 with ⟨h3, hx⟩ | ⟨h3, hx⟩
    · exact key k hx ha (by rw [← h3]; exact hb)
    · exact key k' hx hb (by rw [← h3]; exact ha)
  · rw [h, h']
  · rw [h, h']
  · rw [h, h']
  · rw [h, h']

theorem Rounded.unique {mode : RoundingMode} {p : Nat} {q r r' : ℚ} (h : Rounded mode p q r) (h' : Rounded mode p q r') :
    r = r' := by
  rcases h with ⟨h0, hr⟩ | ⟨e, k, h1, h2, hr, hk⟩
  · rcases h' with ⟨_, hr'⟩ | ⟨e', k', h1', _⟩
    · rw [hr, hr']
    · rw [h0, abs_zero] at h1'
      exact absurd h1' (not_le.2 (two_zpow_pos _))
  · rcases h' with ⟨h0, _⟩ | ⟨e', k', h1', h2', hr', hk'⟩
    · rw [h0, abs_zero] at h1
      exact absurd h1 (not_le.2 (two_zpow_pos _))
    · have a := zpow_lt_iff.1 (lt_of_le_of_lt h1 h2')
      have b := zpow_lt_iff.1 (lt_of_le_of_lt h1' h2)
      have he : e = e' := by omega
      subst he
      rw [hr, hr', hk.unique hk']

/-- Rounding moves the number by less than one unit in the last place. -/
theorem RoundsTo.error {mode : RoundingMode} {x : ℚ} {k : ℤ} (h : RoundsTo mode x k) : |x - k| < 1 := by
  have fl : |x - (⌊x⌋ : ℚ)| < 1 := by
    have h1 := Int.floor_le x
    have h2 := Int.lt_floor_add_one x
    rw [abs_lt]; constructor <;> linarith
  have ce : |x - (⌈x⌉ : ℚ)| < 1 := by
    have h1 := Int.le_ceil x
    have h2 := Int.ceil_lt_add_one x
    rw [abs_lt]; constructor <;> linarith
  cases mode <;> simp only [RoundsTo] at h
  · linarith [h.1]
  · linarith [h.1]
  · rw [h]; split <;> assumption
  · rw [h]; split <;> assumption
  · rw [h]; assumption
  · rw [h]; assumption

theorem RoundsTo.of_int (mode : RoundingMode) (k : ℤ) : RoundsTo mode (k : ℚ) k := by
  cases mode <;> simp [RoundsTo]

end RMath
