import Verif.Props.FloatProgExt

/-!
# Rounding is monotone, symmetric, and leaves alone what fits
-/

namespace RMath

theorem RoundsTo.mono {m : RoundingMode} {x y : ℚ} {k l : ℤ} (hk : RoundsTo m x k) (hl : RoundsTo m y l) (h : x ≤ y) : k ≤ l := by
  by_contra hlt
  push Not at hlt
  have h1 : (l : ℚ) + 1 ≤ k := by exact_mod_cast hlt
  have near : |x - k| ≤ 1 / 2 → |y - l| ≤ 1 / 2 → x = y := by
    intro a b
    have a' := abs_le.1 a
    have b' := abs_le.1 b
    linarith
  cases m <;> simp only [RoundsTo] at hk hl
  · have e := near hk.1 hl.1
    subst e
    have := RoundsTo.unique (mode := .toNearestEven) (x := x) (k := k) (k' := l) hk hl
    omega
  · have e := near hk.1 hl.1
    subst e
    have := RoundsTo.unique (mode := .toNearestAway) (x := x) (k := k) (k' := l) hk hl
    omega
  · subst hk hl
    by_cases hx : 0 ≤ x
    · rw [if_pos hx, if_pos (hx.trans h)] at hlt
      exact absurd (Int.floor_le_floor h) (not_le.2 hlt)
    · rw [if_neg hx] at hlt
      by_cases hy : 0 ≤ y
      · rw [if_pos hy] at hlt
        have a : (0 : ℤ) ≤ ⌊y⌋ := Int.floor_nonneg.2 hy
        have b : ⌈x⌉ ≤ 0 := Int.ceil_le.2 (by push_cast; linarith)
        omega
      · rw [if_neg hy] at hlt
        exact absurd (Int.ceil_le_ceil h) (not_le.2 hlt)
  · subst hk hl
    by_cases hx : 0 ≤ x
    · rw [if_pos hx, if_pos (hx.trans h)] at hlt
      exact absurd (Int.ceil_le_ceil h) (not_le.2 hlt)
    · rw [if_neg hx] at hlt
      by_cases hy : 0 ≤ y
      · rw [if_pos hy] at hlt
        have a : (0 : ℤ) ≤ ⌈y⌉ := Int.ceil_nonneg hy
        have b : ⌊x⌋ ≤ 0 := Int.floor_nonpos (by linarith)
        omega
      · rw [if_neg hy] at hlt
        exact absurd (Int.floor_le_floor h) (not_le.2 hlt)
  · subst hk hl
    exact absurd (Int.floor_le_floor h) (not_le.2 hlt)
  · subst hk hl
    exact absurd (Int.ceil_le_ceil h) (not_le.2 hlt)

theorem RoundsTo.eq_int {m : RoundingMode} {n k : ℤ} (h : RoundsTo m (n : ℚ) k) : k = n := h.unique (RoundsTo.of_int m n)

theorem RoundsTo.negate {m : RoundingMode} {x : ℚ} {k : ℤ} (h : RoundsTo m x k) : RoundsTo m.flip (-x) (-k) := by
  have e : |(-x : ℚ) - ((-k : ℤ) : ℚ)| = |x - k| := by
    rw [← abs_neg]; congr 1; push_cast; ring
  rcases lt_trichotomy x 0 with hx | hx | hx
  · have hn : (0 : ℚ) ≤ -x := by linarith
    have hm : ¬ (0 : ℚ) ≤ x := by linarith
    cases m <;> simp only [RoundingMode.flip, RoundsTo] at h ⊢
    · rw [e]
      exact ⟨h.1, fun h' => by have := h.2 h'; omega⟩
    · rw [e]
      refine ⟨h.1, fun h' => ?_⟩
      have := h.2 h'
      push_cast
      rwa [abs_neg, abs_neg]
    · rw [if_neg hm] at h
      rw [if_pos hn, Int.floor_neg, h]
    · rw [if_neg hm] at h
      rw [if_pos hn, Int.ceil_neg, h]
    · rw [Int.ceil_neg, h]
    · rw [Int.floor_neg, h]
  · subst hx
    have : k = 0 := (show RoundsTo m ((0 : ℤ) : ℚ) k by simpa using h).eq_int
    subst this
    simpa using RoundsTo.of_int m.flip 0
  · have : m.flip.flip = m := by cases m <;> rfl
    exact roundsTo_neg (mode := m.flip) (by rwa [this]) hx

theorem Rounded.negate {m : RoundingMode} {p : Nat} {q r : ℚ} (h : Rounded m p q r) : Rounded m.flip p (-q) (-r) := by
  rcases h with ⟨h0, hr⟩ | ⟨e, k, h1, h2, hr, hk⟩
  · exact Or.inl ⟨by simp [h0], by simp [hr]⟩
  · refine Or.inr ⟨e, -k, by rwa [abs_neg], by rwa [abs_neg], by rw [hr]; push_cast; ring, ?_⟩
    rw [neg_div]
    exact hk.negate

/-- a number with at most `p` significant digits is not changed -/
theorem Rounded.exact {m : RoundingMode} {p : Nat} {q r : ℚ} (hp : 1 ≤ p) (h : Rounded m p q r) {c k : ℤ} (hq : q = c * 2 ^ k)
    (hc : |(c : ℚ)| ≤ 2 ^ p) : r = q := by
  rcases h with ⟨h0, hr⟩ | ⟨e, l, h1, h2, hr, hk⟩
  · rw [h0, hr]
  · have hu := two_zpow_pos k
    -- `q` is a multiple of the unit `2 ^ (e - p)`
    suffices hn : ∃ n : ℤ, q = n * 2 ^ (e - p : ℤ) by
      obtain ⟨n, hn⟩ := hn
      have hu' := two_zpow_pos (e - p)
      have e1 : q / 2 ^ (e - p : ℤ) = (n : ℚ) := by rw [hn]; field_simp
      rw [e1] at hk
      rw [hr, hk.eq_int, ← hn]
    by_cases hle : e - p ≤ k
    · refine ⟨c * 2 ^ (k - (e - p)).toNat, ?_⟩
      have : (2 : ℚ) ^ (k - (e - p)).toNat = 2 ^ (k - (e - p)) := by
        rw [← zpow_natCast, Int.toNat_of_nonneg (by omega)]
      push_cast
      rw [this, mul_assoc, ← zadd, hq]
      congr 2; ring
    · -- only `|c| = 2 ^ p` is left
      have h3 : |q| ≤ 2 ^ ((p : ℤ) + k) := by
        rw [hq, abs_mul, abs_of_pos hu, zadd, zpow_natCast]
        exact mul_le_mul_of_nonneg_right hc hu.le
      have h4 : e - 1 ≤ p + k := zpow_le_iff.1 (h1.trans h3)
      have h5 : e - 1 = p + k := by omega
      have h6 : |q| = 2 ^ (e - 1) := le_antisymm (h5 ▸ h3) h1
      have h7 : |(c : ℚ)| = 2 ^ p := by
        rw [h5, hq, abs_mul, abs_of_pos hu, zadd, zpow_natCast] at h6
        exact mul_right_cancel₀ hu.ne' h6
      have hcc : |c| = 2 ^ p := by exact_mod_cast h7
      rcases abs_eq (by positivity) |>.1 hcc with hc' | hc'
      · refine ⟨2 ^ (p - 1), ?_⟩
        rw [hq, hc']
        push_cast
        rw [← zpow_natCast, ← zpow_natCast, ← zadd, ← zadd]
        congr 1
        omega
      · refine ⟨-2 ^ (p - 1), ?_⟩
        rw [hq, hc']
        push_cast
        rw [← zpow_natCast, ← zpow_natCast, neg_mul, neg_mul, ← zadd, ← zadd]
        congr 2
        omega

theorem Rounded.nonneg {m : RoundingMode} {p : Nat} {q r : ℚ} (h : Rounded m p q r) (hq : 0 ≤ q) : 0 ≤ r := by
  rcases h with ⟨h0, hr⟩ | ⟨e, k, h1, h2, hr, hk⟩
  · rw [hr]
  · have h0 := (RoundsTo.of_int m 0).mono hk (by push_cast; positivity)
    rw [hr]
    have : (0 : ℚ) ≤ k := by exact_mod_cast h0
    positivity

/-- the rounded number stays in the closed binade -/
theorem Rounded.binade {m : RoundingMode} {p : Nat} {q r : ℚ} (hp : 1 ≤ p) (h : Rounded m p q r) (hq : 0 < q) {e : ℤ} (h1 : 2 ^ (e - 1) ≤ q)
    (h2 : q < 2 ^ e) : 2 ^ (e - 1) ≤ r ∧ r ≤ 2 ^ e := by
  rcases h with ⟨h0, _⟩ | ⟨e', k, g1, g2, hr, hk⟩
  · exact absurd h0 hq.ne'
  · rw [abs_of_pos hq] at g1 g2
    have a := zpow_lt_iff.1 (lt_of_le_of_lt g1 h2)
    have b := zpow_lt_iff.1 (lt_of_le_of_lt h1 g2)
    obtain rfl : e' = e := by omega
    have hu := two_zpow_pos (e' - p)
    have k1 := (RoundsTo.of_int m (2 ^ (p - 1))).mono hk (by
      rw [le_div_iff₀ hu]
      push_cast
      rw [← zpow_natCast, ← zadd]
      refine le_trans (le_of_eq ?_) h1
      congr 1; omega)
    have k2 := hk.mono (RoundsTo.of_int m (2 ^ p)) (by
      rw [div_le_iff₀ hu]
      push_cast
      rw [← zpow_natCast, ← zadd]
      refine le_trans h2.le (le_of_eq ?_)
      congr 1; omega)
    have k1' : (2 : ℚ) ^ (p - 1) ≤ k := by exact_mod_cast k1
    have k2' : (k : ℚ) ≤ 2 ^ p := by exact_mod_cast k2
    rw [hr]
    constructor
    · refine le_trans (le_of_eq ?_) (mul_le_mul_of_nonneg_right k1' hu.le)
      rw [← zpow_natCast, ← zadd]
      congr 1; omega
    · refine le_trans (mul_le_mul_of_nonneg_right k2' hu.le) (le_of_eq ?_)
      rw [← zpow_natCast, ← zadd]
      congr 1; omega

theorem Rounded.mono_pos {m : RoundingMode} {p : Nat} {q q' r r' : ℚ} (hp : 1 ≤ p) (h : Rounded m p q r) (h' : Rounded m p q' r')
    (hq : 0 < q) (hle : q ≤ q') : r ≤ r' := by
  have hq' := lt_of_lt_of_le hq hle
  rcases id h with ⟨h0, _⟩ | ⟨e, k, g1, g2, hr, hk⟩
  · exact absurd h0 hq.ne'
  rcases id h' with ⟨h0, _⟩ | ⟨e', k', g1', g2', hr', hk'⟩
  · exact absurd h0 hq'.ne'
  rw [abs_of_pos hq] at g1 g2
  rw [abs_of_pos hq'] at g1' g2'
  have a := zpow_lt_iff.1 (lt_of_le_of_lt (g1.trans hle) g2')
  rcases eq_or_lt_of_le (show e ≤ e' by omega) with he | he
  · subst he
    have hu := two_zpow_pos (e - p)
    have hkk : (k : ℚ) ≤ k' := by exact_mod_cast hk.mono hk' (by gcongr)
    rw [hr, hr']
    exact mul_le_mul_of_nonneg_right hkk hu.le
  · refine le_trans (h.binade hp hq g1 g2).2 (le_trans ?_ (h'.binade hp hq' g1' g2').1)
    exact zpow_le_iff.2 (by omega)

theorem Rounded.mono {m : RoundingMode} {p : Nat} {q q' r r' : ℚ} (hp : 1 ≤ p) (h : Rounded m p q r) (h' : Rounded m p q' r')
    (hle : q ≤ q') : r ≤ r' := by
  rcases lt_trichotomy q 0 with hq | hq | hq
  · rcases le_or_gt 0 q' with hq' | hq'
    · have := h.negate.nonneg (by linarith)
      have := h'.nonneg hq'
      linarith
    · have := h'.negate.mono_pos hp h.negate (by linarith) (by linarith)
      linarith
  · have h0 : r = 0 := h.unique (Or.inl ⟨hq, rfl⟩)
    rw [h0]
    exact h'.nonneg (by linarith)
  · exact h.mono_pos hp h' hq hle

/-! ## What becomes of an exact result -/

/-- the extended number of a value -/
def FXVal.ext : FXVal → Option (WithBot (WithTop ℚ))
  | .num q => some ((q : WithTop ℚ) : WithBot (WithTop ℚ))
  | .inf s => some (if s then ⊥ else ((⊤ : WithTop ℚ) : WithBot (WithTop ℚ)))
  | .nan => none

theorem FDenX.ext {v : FloatV} {a : FXNum} (h : FDenX v a) : FloatOk v ∧ fext v = a.v.ext := by
  unfold FDenX at h
  cases ha : a.v <;> rw [ha] at h <;> simp only at h
  · obtain ⟨h1, h2, h3, -⟩ := h
    refine ⟨h1, ?_⟩
    unfold fext FXVal.ext
    rcases h2 with h2 | h2 <;> simp [h2, h3]
  · refine ⟨fun hf => ?_, ?_⟩
    · rw [h.1] at hf; cases hf
    · unfold fext FXVal.ext
      simp [h.1, h.2.1]
  · refine ⟨fun hf => ?_, ?_⟩
    · rw [h] at hf; cases hf
    · unfold fext FXVal.ext
      simp [h]

/-- the value a `Float` holds -/
def FloatV.fx (x : FloatV) : FXVal :=
  match x.form with
  | .nan => .nan
  | .inf => .inf x.neg
  | _ => .num (fval x)

theorem FloatV.denX {x : FloatV} (h : FloatOk x) (hp : 1 ≤ x.prec) : FDenX x ⟨x.fx, x.prec, x.mode⟩ := by
  unfold FDenX FloatV.fx
  rcases hf : x.form with _ | _ | _ | _
  · exact ⟨h, Or.inr hf, rfl, rfl, rfl, hp⟩
  · exact ⟨h, Or.inl hf, rfl, rfl, rfl, hp⟩
  · simpa using hp
  · rfl

theorem FRounds.mono {m : RoundingMode} {p : Nat} {q q' : ℚ} {v v' : FXVal} (hp : 1 ≤ p) (h : FRounds m p q v) (h' : FRounds m p q' v')
    (hle : q ≤ q') : ∃ a b, v.ext = some a ∧ v'.ext = some b ∧ a ≤ b := by
  have hlt : (2 : ℚ) ^ (minExp - 1) ≤ 2 ^ maxExp := zpow_le_iff.2 (by decide)
  have hpos : (0 : ℚ) < 2 ^ (minExp - 1) := two_zpow_pos _
  unfold FRounds at h h'
  by_cases hq : |q| < 2 ^ (minExp - 1)
  · rw [if_pos hq] at h
    subst h
    by_cases hq' : |q'| < 2 ^ (minExp - 1)
    · rw [if_pos hq'] at h'
      subst h'
      exact ⟨_, _, rfl, rfl, le_refl _⟩
    · rw [if_neg hq'] at h'
      obtain ⟨r, hr, rfl⟩ := h'
      have hq0 : 0 ≤ q' := by
        by_contra hn
        have := (abs_lt.1 hq).1
        rw [abs_of_neg (by linarith)] at hq'
        exact hq' (by linarith)
      split
      · refine ⟨_, _, rfl, rfl, ?_⟩
        exact WithBot.coe_le_coe.2 (WithTop.coe_le_coe.2 (hr.nonneg hq0))
      · have : decide (q' < 0) = false := by simpa using hq0
        rw [this]
        exact ⟨_, _, rfl, rfl, WithBot.coe_le_coe.2 le_top⟩
  · rw [if_neg hq] at h
    obtain ⟨r, hr, rfl⟩ := h
    by_cases hq' : |q'| < 2 ^ (minExp - 1)
    · rw [if_pos hq'] at h'
      subst h'
      have hq0 : q < 0 := by
        by_contra hn
        push Not at hn
        rw [abs_of_nonneg hn] at hq
        exact hq (lt_of_le_of_lt hle (abs_lt.1 hq').2)
      split
      · refine ⟨_, _, rfl, rfl, ?_⟩
        have := hr.negate.nonneg (by linarith)
        exact WithBot.coe_le_coe.2 (WithTop.coe_le_coe.2 (by linarith))
      · have : decide (q < 0) = true := by simpa using hq0
        rw [this]
        exact ⟨_, _, rfl, rfl, bot_le⟩
    · rw [if_neg hq'] at h'
      obtain ⟨r', hr', rfl⟩ := h'
      have hm := hr.mono hp hr' hle
      have sgn : ∀ {q r : ℚ}, Rounded m p q r → (0 ≤ q → 0 ≤ r) ∧ (q < 0 → r ≤ 0) := fun h =>
        ⟨h.nonneg, fun hn => by have := h.negate.nonneg (by linarith); linarith⟩
      by_cases c1 : |r| < 2 ^ maxExp
      · rw [if_pos c1]
        by_cases c2 : |r'| < 2 ^ maxExp
        · rw [if_pos c2]
          exact ⟨_, _, rfl, rfl, WithBot.coe_le_coe.2 (WithTop.coe_le_coe.2 hm)⟩
        · rw [if_neg c2]
          have : decide (q' < 0) = false := by
            simp only [decide_eq_false_iff_not]
            intro hn
            have := (sgn hr').2 hn
            rw [abs_of_nonpos this] at c2
            have := (abs_lt.1 c1).1
            exact c2 (by linarith)
          rw [this]
          exact ⟨_, _, rfl, rfl, WithBot.coe_le_coe.2 le_top⟩
      · rw [if_neg c1]
        by_cases hn : q < 0
        · rw [decide_eq_true hn]
          split
          · exact ⟨_, _, rfl, rfl, bot_le⟩
          · unfold FXVal.ext
            exact ⟨_, _, rfl, rfl, bot_le⟩
        · rw [decide_eq_false hn]
          have h0 := (sgn hr).1 (by linarith)
          rw [abs_of_nonneg h0] at c1
          have c2 : ¬ |r'| < 2 ^ maxExp := by
            rw [abs_of_nonneg (h0.trans hm)]
            intro hlt
            exact c1 (lt_of_le_of_lt hm hlt)
          have : decide (q' < 0) = false := by
            simp only [decide_eq_false_iff_not]; linarith
          rw [if_neg c2, this]
          exact ⟨_, _, rfl, rfl, le_refl _⟩

theorem FRounds.exact {m : RoundingMode} {p : Nat} {q : ℚ} {v : FXVal} (hp : 1 ≤ p) (h : FRounds m p q v) {c k : ℤ} (hq : q = c * 2 ^ k)
    (hc : |(c : ℚ)| ≤ 2 ^ p) (h1 : q = 0 ∨ 2 ^ (minExp - 1) ≤ |q|) (h2 : |q| < 2 ^ maxExp) : v = .num q := by
  unfold FRounds at h
  split at h
  · rename_i hlt
    rcases h1 with h1 | h1
    · rw [h, h1]
    · exact absurd hlt (not_lt.2 h1)
  · obtain ⟨r, hr, rfl⟩ := h
    rw [hr.exact hp hq hc, if_pos h2]

theorem FRounds.negate {m : RoundingMode} {p : Nat} {q : ℚ} {v : FXVal} (h : FRounds m p q v) : FRounds m.flip p (-q) v.neg := by
  unfold FRounds at h ⊢
  rw [abs_neg]
  split at h
  · rename_i hlt
    rw [if_pos hlt, h]
    simp [FXVal.neg]
  · rename_i hlt
    rw [if_neg hlt]
    obtain ⟨r, hr, rfl⟩ := h
    refine ⟨-r, hr.negate, ?_⟩
    rw [abs_neg]
    split
    · rfl
    · have : q ≠ 0 := by
        rintro rfl
        rw [abs_zero] at hlt
        exact hlt (two_zpow_pos _)
      simp only [FXVal.neg, FXVal.inf.injEq]
      rcases lt_or_gt_of_ne this with h | h
      · simp [h, h.le]
      · simp [h, h.le]

end RMath
