import Verif.Props.FloatMachine

/-!
# Property C122, products below the normal range

The product of two doubles by way of Float is rounded twice, to 53 digits and to a double.  Below the normal range that is wrong exactly in
the cases described here.
-/

namespace RMath

/-! ## Proof -/

/-- every finite number of the format is a multiple of the least positive one -/
theorem value_units (c : Nat) : ∃ j : Nat, b64.value c = j * 2 ^ (-1074 : ℤ) := by
  obtain ⟨j, h⟩ := b64.value_multiple 0 c (.inl rfl)
  refine ⟨j, ?_⟩
  rw [h, b64_bias, b64_mb]
  norm_num

theorem value_small {c : Nat} (h : c ≤ 2 ^ 53) : b64.value c = c * 2 ^ (-1074 : ℤ) := by
  have := b64.value_mk 0 c (by rw [b64_mb]; exact h) (.inl rfl)
  rw [b64_bias, b64_mb] at this
  simpa using this

/-- rounding to a multiple of `2^-1074` -/
theorem nearest_low {t : ℚ} {c : Nat} (h1 : t ≤ 2 ^ (-1022 : ℤ)) (hc : |c * 2 ^ (-1074 : ℤ) - t| ≤ 2 ^ (-1075 : ℤ))
    (he : |c * 2 ^ (-1074 : ℤ) - t| = 2 ^ (-1075 : ℤ) → c % 2 = 0) : b64.Nearest t c := by
  have hu := two_zpow_pos (-1075 : ℤ)
  have e1 : (2 : ℚ) ^ (-1074 : ℤ) = 2 * 2 ^ (-1075 : ℤ) := by rw [show (-1074 : ℤ) = 1 + -1075 by norm_num, zadd]; norm_num
  have e2 : (2 : ℚ) ^ (-1022 : ℤ) = 2 ^ 53 * 2 ^ (-1075 : ℤ) := by
    rw [← zpow_natCast (2 : ℚ) 53, ← zpow_add₀ (by norm_num : (2 : ℚ) ≠ 0)]; norm_num
  have hcb : c ≤ 2 ^ 52 := by
    by_contra hn
    have : (2 ^ 52 + 1 : ℚ) ≤ c := by exact_mod_cast Nat.lt_of_not_le hn
    have := (abs_le.1 hc).2
    rw [e1] at this
    rw [e2] at h1
    nlinarith
  have hval := value_small (c := c) (by omega)
  left
  refine ⟨lt_of_le_of_lt hcb (by rw [b64_inf]; norm_num), ?_, fun c' _ => ?_⟩
  · refine lt_of_le_of_lt h1 ?_
    rw [b64_bias, b64_mb]
    have g1 : (2 : ℚ) ^ (-1022 : ℤ) < 2 ^ (970 : ℤ) := zpow_lt_iff.2 (by norm_num)
    have g2 : (2 : ℚ) ^ (1024 : ℤ) = 2 ^ 54 * 2 ^ (970 : ℤ) := by
      rw [← zpow_natCast (2 : ℚ) 54, ← zpow_add₀ (by norm_num : (2 : ℚ) ≠ 0)]; norm_num
    have g3 := two_zpow_pos (970 : ℤ)
    rw [show (((1023 : ℕ) : ℤ) + 1) = 1024 by norm_num, show (((1023 : ℕ) : ℤ) - (52 : ℕ) - 1) = 970 by norm_num, g2]
    clear e1 e2 hc he hval hu g2
    generalize (2 : ℚ) ^ (970 : ℤ) = A at *
    generalize (2 : ℚ) ^ (-1022 : ℤ) = B at *
    linarith
  · rw [hval]
    by_cases hcc : c' = c
    · rw [hcc, hval]
      exact ⟨le_refl _, fun _ h => absurd rfl h⟩
    · obtain ⟨j, hj⟩ := value_units c'
      have hjc : j ≠ c := by
        intro h
        rw [h, ← hval] at hj
        exact hcc (b64.value_inj.1 hj)
      have hd : (1 : ℚ) ≤ |(j : ℚ) - c| := by
        have : (1 : ℤ) ≤ |(j : ℤ) - c| := Int.one_le_abs (by omega)
        exact_mod_cast this
      have hs : 2 * 2 ^ (-1075 : ℤ) ≤ |(j : ℚ) * 2 ^ (-1074 : ℤ) - c * 2 ^ (-1074 : ℤ)| := by
        rw [← sub_mul, abs_mul, abs_of_pos (two_zpow_pos _), e1]
        nlinarith
      have ht := abs_sub_le ((j : ℚ) * 2 ^ (-1074 : ℤ)) t (c * 2 ^ (-1074 : ℤ))
      rw [abs_sub_comm t] at ht
      rw [hj]
      refine ⟨by linarith, fun h _ => he (by linarith)⟩

/-- rounding to 53 digits keeps to the same side of the multiples of `2^-1075` -/
theorem rounded_sides {q r : ℚ} (h : Rounded .toNearestEven 53 q r) {j : Nat} (hj : j ≤ 2 ^ 53) :
    (q ≤ j * 2 ^ (-1075 : ℤ) → r ≤ j * 2 ^ (-1075 : ℤ)) ∧ (j * 2 ^ (-1075 : ℤ) ≤ q → j * 2 ^ (-1075 : ℤ) ≤ r) := by
  have hm : Rounded .toNearestEven 53 ((j : ℚ) * 2 ^ (-1075 : ℤ)) (j * 2 ^ (-1075 : ℤ)) := by
    by_cases h0 : j = 0
    · left; simp [h0]
    · have hpos : 0 < (j : ℚ) * 2 ^ (-1075 : ℤ) := mul_pos (by exact_mod_cast Nat.pos_of_ne_zero h0) (two_zpow_pos _)
      obtain ⟨e, g1, g2⟩ := exists_binade hpos.ne'
      rw [abs_of_pos hpos] at g1 g2
      obtain ⟨r', hr', -⟩ := rounded_exists .toNearestEven (p := 53) (by norm_num) false (e := e + 1) (by simpa using g1) g2
      rw [show sgn false = 1 from rfl, one_mul] at hr'
      have := hr'.exact (by norm_num) (c := j) (k := -1075) (by rw [Int.cast_natCast]) (by
        rw [Int.cast_natCast, abs_of_nonneg (Nat.cast_nonneg j)]; exact_mod_cast hj)
      rwa [this] at hr'
  exact ⟨fun hle => h.mono (by norm_num) hm hle, fun hle => hm.mono (by norm_num) h hle⟩

theorem rounded_abs {q r : ℚ} (h : Rounded .toNearestEven 53 q r) : Rounded .toNearestEven 53 |q| |r| := by
  rcases le_or_gt 0 q with g | g
  · rw [abs_of_nonneg g, abs_of_nonneg (h.nonneg g)]
    exact h
  · have := h.negate
    have h2 := this.nonneg (by linarith)
    rw [abs_of_neg g, abs_of_nonpos (by linarith)]
    exact this

/-- Rounding a number below the normal range to 53 digits first is harmless unless that gives a number half way between two doubles. -/
theorem low_double {q r : ℚ} {c : Nat} (hq : |q| < 2 ^ (-1022 : ℤ)) (hr : Rounded .toNearestEven 53 q r) (hc : b64.Nearest |r| c) :
    b64.Nearest |q| c ↔ ∀ k : Nat, |r| = (2 * k + 1 : ℕ) * 2 ^ (-1075 : ℤ) →
      r = q ∨ (k % 2 = 0 ∧ |q| < |r|) ∨ (k % 2 = 1 ∧ |r| < |q|) := by
  have hu := two_zpow_pos (-1075 : ℤ)
  have e1 : (2 : ℚ) ^ (-1074 : ℤ) = 2 * 2 ^ (-1075 : ℤ) := by rw [show (-1074 : ℤ) = 1 + -1075 by norm_num, zadd]; norm_num
  have e2 : (2 : ℚ) ^ (-1022 : ℤ) = (2 ^ 53 : ℕ) * 2 ^ (-1075 : ℤ) := by
    rw [Nat.cast_pow, ← zpow_natCast ((2 : ℕ) : ℚ) 53, Nat.cast_ofNat, ← zpow_add₀ (by norm_num : (2 : ℚ) ≠ 0)]; norm_num
  have hR := rounded_abs hr
  have hsame : |r| = |q| → r = q := by
    intro h
    by_cases h0 : r = 0
    · rw [h0, abs_zero] at h
      rw [h0, abs_eq_zero.1 h.symm]
    · have hs := hr.sign h0
      rcases lt_or_ge q 0 with g | g
      · rw [abs_of_neg g, abs_of_neg (hs.1 g)] at h; linarith
      · rw [abs_of_nonneg g, abs_of_nonneg (not_lt.1 (fun k => not_lt.2 g (hs.2 k)))] at h; exact h
  have hsame' : r = q → |r| = |q| := fun h => by rw [h]
  have hQ0 := abs_nonneg q
  have hR0 := abs_nonneg r
  have hRle : |r| ≤ 2 ^ (-1022 : ℤ) := by
    rw [e2]
    exact (rounded_sides hR (le_refl _)).1 (by rw [← e2]; exact hq.le)
  have hne : (∀ k : Nat, |r| = (2 * k + 1 : ℕ) * 2 ^ (-1075 : ℤ) →
      r = q ∨ (k % 2 = 0 ∧ |q| < |r|) ∨ (k % 2 = 1 ∧ |r| < |q|)) ↔ (∀ k : Nat, |r| = (2 * k + 1 : ℕ) * 2 ^ (-1075 : ℤ) →
      |r| = |q| ∨ (k % 2 = 0 ∧ |q| < |r|) ∨ (k % 2 = 1 ∧ |r| < |q|)) := by
    constructor
    · intro h k hk
      rcases h k hk with h | h
      · exact .inl (hsame' h)
      · exact .inr h
    · intro h k hk
      rcases h k hk with h | h
      · exact .inl (hsame h)
      · exact .inr h
  rw [hne]
  clear hne hsame hsame'
  have sides := fun {j : Nat} hj => rounded_sides hR (j := j) hj
  clear hR hr
  generalize |q| = Q at *
  generalize |r| = R at *
  clear q r
  -- the half unit below `R`
  obtain ⟨n, hn1, hn2⟩ : ∃ n : Nat, n * 2 ^ (-1075 : ℤ) ≤ R ∧ R < (n + 1 : ℕ) * 2 ^ (-1075 : ℤ) := by
    refine ⟨⌊R / 2 ^ (-1075 : ℤ)⌋₊, ?_, ?_⟩
    · exact (le_div_iff₀ hu).1 (Nat.floor_le (div_nonneg hR0 hu.le))
    · have := Nat.lt_floor_add_one (R / 2 ^ (-1075 : ℤ))
      rw [div_lt_iff₀ hu] at this
      exact_mod_cast this
  have hnb : n ≤ 2 ^ 53 := by
    have h := le_trans hn1 hRle
    rw [e2] at h
    exact_mod_cast le_of_mul_le_mul_right h hu
  rw [e2] at hq hRle
  have nl : ∀ {t : ℚ} {c : Nat}, t ≤ (2 ^ 53 : ℕ) * 2 ^ (-1075 : ℤ) → |c * (2 * 2 ^ (-1075 : ℤ)) - t| ≤ 2 ^ (-1075 : ℤ) →
      (|c * (2 * 2 ^ (-1075 : ℤ)) - t| = 2 ^ (-1075 : ℤ) → c % 2 = 0) → b64.Nearest t c := by
    intro t c h1 h2 h3
    rw [← e1] at h2 h3
    rw [← e2] at h1
    exact nearest_low h1 h2 h3
  clear e1 e2
  generalize (2 : ℚ) ^ (-1075 : ℤ) = U at *
  have strict : ∀ {t : ℚ} {c : Nat}, t ≤ (2 ^ 53 : ℕ) * U → 2 * (c : ℚ) * U - U < t → t < 2 * (c : ℚ) * U + U → b64.Nearest t c := by
    intro t c h1 h2 h3
    have : |c * (2 * U) - t| < U := by
      rw [abs_lt]
      constructor <;> linarith
    exact nl h1 this.le (fun h => absurd h this.ne)
  -- `R = (2k+1)U` is possible for one `k` only
  have half : ∀ k : Nat, R = (2 * k + 1 : ℕ) * U → 2 * k + 1 = n := by
    intro k hk
    rw [hk] at hn1 hn2
    have h1 : n ≤ 2 * k + 1 := by exact_mod_cast le_of_mul_le_mul_right hn1 hu
    have h2 : 2 * k + 1 < n + 1 := by exact_mod_cast lt_of_mul_lt_mul_right hn2 hu.le
    omega
  rcases Nat.even_or_odd' n with ⟨m, rfl | rfl⟩
  · -- just above an even multiple
    push_cast at hn1 hn2
    have hcm : c = m := hc.unique (strict hRle (by linarith) (by linarith))
    subst hcm
    have hq2 : Q < 2 * (c : ℚ) * U + U := by
      rcases Nat.lt_or_ge (2 * c) (2 ^ 53) with g | g
      · by_contra hcon
        have := (sides (j := 2 * c + 1) (by omega)).2 (by push_cast; linarith)
        push_cast at this
        linarith
      · have : (((2 ^ 53 : ℕ) : ℚ)) ≤ 2 * c := by exact_mod_cast g
        nlinarith
    have hq1 : 2 * (c : ℚ) * U - U < Q := by
      rcases Nat.eq_zero_or_pos c with g | g
      · subst g; push_cast; linarith
      · by_contra hcon
        have hcast : ((2 * c - 1 : ℕ) : ℚ) = 2 * c - 1 := by push_cast [Nat.cast_sub (by omega : 1 ≤ 2 * c)]; ring
        have := (sides (j := 2 * c - 1) (by omega)).1 (by rw [hcast]; linarith)
        rw [hcast] at this
        linarith
    refine ⟨fun _ k hk => ?_, fun _ => strict hq.le hq1 hq2⟩
    have := half k hk
    omega
  · push_cast at hn1 hn2
    have hb : 2 * m + 2 ≤ 2 ^ 53 := by omega
    rcases lt_or_eq_of_le hn1 with hlt | heq
    · -- strictly between half way and an even multiple
      have hcm : c = m + 1 := hc.unique (strict hRle (by push_cast; linarith) (by push_cast; linarith))
      subst hcm
      have hq1 : (2 * (m : ℚ) + 1) * U < Q := by
        by_contra hcon
        have := (sides (j := 2 * m + 1) (by omega)).1 (by push_cast; linarith)
        push_cast at this
        linarith
      have hq2 : Q < (2 * (m : ℚ) + 2) * U := by
        by_contra hcon
        have := (sides (j := 2 * m + 2) hb).2 (by push_cast; linarith)
        push_cast at this
        linarith
      refine ⟨fun _ k hk => ?_, fun _ => strict hq.le (by push_cast; linarith) (by push_cast; linarith)⟩
      have := half k hk
      rw [hk] at hlt
      have : k = m := by omega
      subst this
      push_cast at hlt
      exact absurd hlt (lt_irrefl _)
    · -- half way
      have hR2 : R = (2 * m + 1 : ℕ) * U := by push_cast; exact heq.symm
      have hright : (∀ k : Nat, R = (2 * k + 1 : ℕ) * U → R = Q ∨ (k % 2 = 0 ∧ Q < R) ∨ (k % 2 = 1 ∧ R < Q)) ↔
          (R = Q ∨ (m % 2 = 0 ∧ Q < R) ∨ (m % 2 = 1 ∧ R < Q)) := by
        refine ⟨fun h => h m hR2, fun h k hk => ?_⟩
        have := half k hk
        have : k = m := by omega
        subst this
        exact h
      rw [hright]
      have hcR : c = if m % 2 = 0 then m else m + 1 := by
        refine hc.unique ?_
        split
        · rename_i g
          refine nl hRle ?_ (fun _ => g)
          rw [abs_le]; constructor <;> linarith
        · rename_i g
          refine nl hRle ?_ (fun _ => by omega)
          rw [abs_le]; push_cast; constructor <;> linarith
      rcases lt_trichotomy Q R with g | g | g
      · have hq1 : 2 * (m : ℚ) * U < Q := by
          by_contra hcon
          have := (sides (j := 2 * m) (by omega)).1 (by push_cast; linarith)
          push_cast at this
          linarith
        have hQ : b64.Nearest Q m := strict hq.le (by linarith) (by linarith)
        have e : b64.Nearest Q c ↔ c = m := ⟨fun h => h.unique hQ, fun h => h ▸ hQ⟩
        rw [e, hcR]
        by_cases hm : m % 2 = 0
        · simp [hm, g]
        · rw [if_neg hm]
          refine ⟨fun h => by omega, fun h => ?_⟩
          rcases h with h | h | h
          · exact absurd h g.ne'
          · exact absurd h.1 hm
          · exact absurd h.2 (not_lt.2 g.le)
      · rw [g]
        exact ⟨fun _ => .inl rfl, fun _ => hc⟩
      · have hq2 : Q < (2 * (m : ℚ) + 2) * U := by
          by_contra hcon
          have := (sides (j := 2 * m + 2) hb).2 (by push_cast; linarith)
          push_cast at this
          linarith
        have hQ : b64.Nearest Q (m + 1) := strict hq.le (by push_cast; linarith) (by push_cast; linarith)
        have e : b64.Nearest Q c ↔ c = m + 1 := ⟨fun h => h.unique hQ, fun h => h ▸ hQ⟩
        rw [e, hcR]
        by_cases hm : m % 2 = 0
        · rw [if_pos hm]
          refine ⟨fun h => by omega, fun h => ?_⟩
          rcases h with h | h | h
          · exact absurd h g.ne
          · exact absurd h.2 (not_lt.2 g.le)
          · omega
        · rw [if_neg hm]
          exact ⟨fun _ => .inr (.inr ⟨by omega, g⟩), fun _ => rfl⟩

/-- a number that is rounded to 53 digits, far from the limits of the exponent -/
theorem RoundedFrom.finite {q : ℚ} {z : FloatV} (h : RoundedFrom q z) {lo : ℤ} (hl : minExp - 1 ≤ lo) (hlow : (2 : ℚ) ^ lo ≤ |q|)
    (hhigh : |q| < 2 ^ (1024 : ℤ)) :
    ∃ r, Rounded .toNearestEven 53 q r ∧ FloatOk z ∧ z.form = .finite ∧ fval z = r ∧ z.neg = decide (q < 0) := by
  obtain ⟨v, hv, dz⟩ := h
  have hq0 : q ≠ 0 := by
    rintro rfl
    rw [abs_zero] at hlow
    exact absurd hlow (not_le.2 (two_zpow_pos _))
  unfold FRounds at hv
  rw [if_neg (not_lt.2 (le_trans (zpow_le_iff.2 hl) hlow))] at hv
  obtain ⟨r, hr, hvr⟩ := hv
  have hbig : |r| < 2 ^ maxExp := by
    obtain ⟨e, h1, h2⟩ := exists_binade hq0
    have key : |r| ≤ 2 ^ (e + 1) := by
      have hpos : 0 < |q| := abs_pos.2 hq0
      have := (rounded_abs hr).binade (by norm_num) hpos (e := e + 1) (by simpa using h1) h2
      exact this.2
    refine lt_of_le_of_lt key (zpow_lt_iff.2 ?_)
    have := zpow_lt_iff.1 (lt_of_le_of_lt h1 hhigh)
    unfold maxExp
    omega
  rw [if_pos hbig] at hvr
  subst hvr
  have hz' : FDen z ⟨r, 53, .toNearestEven⟩ := dz
  have hval : fval z = r := hz'.2.2.1
  have hr1 := hr.ne_zero (by norm_num) hlow
  have hf : z.form = .finite := by
    rcases hz'.2.1 with h | h
    · exact h
    · have : fval z = 0 := by unfold fval; rw [if_neg (by rw [h]; decide)]
      rw [← hval, this, abs_zero] at hr1
      exact absurd hr1 (not_le.2 (two_zpow_pos _))
  exact ⟨r, hr, hz'.1, hf, hval, neg_decide hz'.1 hf hval hr⟩

/-! ## C122 -/

/-- **C122** for products below the normal range, of any two numbers: let `r` be the product rounded to 53 digits.  If `r` is between half the
least positive double and that double, the result is `2^-1022`, whatever the sign; otherwise it is the double nearest to `r`.  It is the
product of IEEE 754 exactly if `r` is not in that gap, and, in case `r` is half way between `k` and `k+1` times the least double, if
`r` is the product itself or the product is on the side of the even one of `k` and `k+1`. -/
theorem C122_mul_low (x y : D) (hx : (parts64 x).2 < b64.inf) (hy : (parts64 y).2 < b64.inf) (h0 : f64val x * f64val y ≠ 0)
    (hlow : |f64val x * f64val y| < 2 ^ (-1022 : ℤ)) :
    ∃ d r, viaFloat fMul x y = .ok d ∧ Rounded .toNearestEven 53 (f64val x * f64val y) r ∧
      (2 ^ (-1075 : ℤ) < |r| ∧ |r| < 2 ^ (-1074 : ℤ) → d = 0x0010000000000000#64) ∧
      (¬ (2 ^ (-1075 : ℤ) < |r| ∧ |r| < 2 ^ (-1074 : ℤ)) → b64.Near r (parts64 d)) ∧
      (IeeeProd b64 (parts64 x) (parts64 y) (parts64 d) ↔ ¬ (2 ^ (-1075 : ℤ) < |r| ∧ |r| < 2 ^ (-1074 : ℤ)) ∧
        ∀ k : Nat, |r| = (2 * k + 1 : ℕ) * 2 ^ (-1075 : ℤ) → r = f64val x * f64val y ∨
          (k % 2 = 0 ∧ |f64val x * f64val y| < |r|) ∨ (k % 2 = 1 ∧ |r| < |f64val x * f64val y|)) := by
  obtain ⟨a, ea, ha⟩ := from64_shows x
  obtain ⟨b, eb, hb⟩ := from64_shows y
  obtain ⟨z, hz, -, -, -, f4⟩ := mul_forms ha hb
  obtain ⟨kx, hkx⟩ := f64val_grid x
  obtain ⟨ky, hky⟩ := f64val_grid y
  have hgrid : (2 : ℚ) ^ (-2148 : ℤ) ≤ |f64val x * f64val y| := by
    have hq : f64val x * f64val y = ((kx * ky : ℤ) : ℚ) * 2 ^ (-2148 : ℤ) := by
      rw [hkx, hky, Int.cast_mul, show (-2148 : ℤ) = -1074 + -1074 by norm_num, zadd]
      ring
    have hne : kx * ky ≠ 0 := by
      intro h
      rw [h] at hq
      exact h0 (by rw [hq]; simp)
    have : (1 : ℚ) ≤ |((kx * ky : ℤ) : ℚ)| := by exact_mod_cast Int.one_le_abs hne
    have hu := two_zpow_pos (-2148 : ℤ)
    rw [hq, abs_mul, abs_of_pos hu]
    nlinarith
  have eq : b64.val (parts64 x) * b64.val (parts64 y) = f64val x * f64val y := by rw [f64val_parts, f64val_parts]
  have f4' := f4 hx hy (by rw [eq]; exact h0)
  rw [eq] at f4'
  obtain ⟨r, hr, ok, hf, hv, hn⟩ := RoundedFrom.finite f4' (lo := -2148) (by decide) hgrid
    (lt_trans hlow (zpow_lt_iff.2 (by norm_num)))
  have hprod : ∀ d : D, IeeeProd b64 (parts64 x) (parts64 y) (parts64 d) ↔ b64.Near (f64val x * f64val y) (parts64 d) := by
    intro d
    rw [← eq]
    rw [← eq] at h0
    exact ⟨fun h => h.num hx hy h0, fun h => ⟨fun g => by omega, fun g => by omega, fun _ _ g => absurd g h0, fun _ _ _ => h⟩⟩
  have hr0 : r ≠ 0 := by
    have h1 := hr.ne_zero (by norm_num) hgrid
    rintro rfl
    rw [abs_zero] at h1
    exact absurd h1 (not_le.2 (two_zpow_pos _))
  by_cases hg : (2 : ℚ) ^ (-1075 : ℤ) < |r| ∧ |r| < 2 ^ (-1074 : ℤ)
  · obtain ⟨g1, g2, -⟩ := (C76_gap ok hf).1 (by rw [hv]; exact hg.1) (by rw [hv]; exact hg.2)
    refine ⟨mk64 false (2 ^ 52), r, via_eq ea eb hz g1, hr, fun _ => by decide, fun h => absurd hg h, ?_⟩
    rw [hprod]
    refine ⟨fun h => ?_, fun h => absurd hg h.1⟩
    have h2 := h.2
    rw [parts_mk64 (by norm_num)] at h2
    have h3 : b64.Nearest |f64val x * f64val y| 1 := by
      rw [hv] at g2
      refine (low_double hlow hr g2).2 fun k hk => ?_
      rw [hk] at hg
      have e1 : (2 : ℚ) ^ (-1074 : ℤ) = (2 : ℕ) * 2 ^ (-1075 : ℤ) := by rw [show (-1074 : ℤ) = 1 + -1075 by norm_num, zadd]; norm_num
      rw [e1] at hg
      have hu := two_zpow_pos (-1075 : ℤ)
      have i1 : 2 * k + 1 < 2 := by exact_mod_cast lt_of_mul_lt_mul_right hg.2 hu.le
      have i2 : k = 0 := by omega
      have := hg.1
      rw [i2] at this
      norm_num at this
    exact absurd (h2.unique h3) (by norm_num)
  · obtain ⟨c, t, g1, g2, -⟩ := C76_to_f64_partial ok hf (by rw [hv]; exact hg)
    rw [hv] at g2
    have hclt : c < 2 ^ 63 := lt_of_le_of_lt g2.le_inf inf64_lt
    refine ⟨_, r, via_eq ea eb hz g1, hr, fun h => absurd h hg, fun _ => ?_, ?_⟩
    · rw [parts_mk64 hclt]
      refine ⟨?_, g2⟩
      rw [hn]
      exact decide_eq_decide.2 (hr.sign hr0)
    · rw [hprod, parts_mk64 hclt, ← low_double hlow hr g2]
      exact ⟨fun h => ⟨hg, h.2⟩, fun h => ⟨hn, h.2⟩⟩

/-- `2^-537 · (-3/2 · 2^-538)` is delivered as `2^-1022`, where the nearest double is `-2^-1074`; and a product that is rounded twice the
wrong way. -/
theorem C122_low_violated :
    viaFloat fMul 0x1e60000000000000#64 0x9e58000000000000#64 = .ok 0x0010000000000000#64 ∧
    f64val 0x1e60000000000000#64 * f64val 0x9e58000000000000#64 = -(3 / 2) * (1 / 2) ^ 1075 ∧
    viaFloat fMul lowX lowY = .ok 0x4800000000004#64 ∧ |b64.value 0x4800000000003 - f64val lowX * f64val lowY| <
      |b64.value 0x4800000000004 - f64val lowX * f64val lowY| := by
  refine ⟨by decide +kernel, by decide +kernel, by decide +kernel, by decide +kernel⟩

example : (parts64 lowX).2 < b64.inf ∧ (parts64 lowY).2 < b64.inf ∧ f64val lowX * f64val lowY ≠ 0 ∧
    |f64val lowX * f64val lowY| < 1 / 2 ^ 1022 := by
  refine ⟨by decide, by decide, by decide +kernel, by decide +kernel⟩

end RMath
