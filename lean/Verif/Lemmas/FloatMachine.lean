import Verif.Lemmas.FloatConv

/-! # Conversion of a float to `f64` and `f32` -/

namespace RMath

theorem roundsTo_rne {x : ℚ} {k : ℤ} (h : RoundsTo .toNearestEven x k) : RneInt |x| k.natAbs := by
  have h0 : |(k : ℚ)| = (k.natAbs : ℚ) := by rw [Nat.cast_natAbs]; push_cast; rfl
  simp only [RoundsTo] at h
  unfold RneInt
  have hpar : k % 2 = 0 ↔ k.natAbs % 2 = 0 := by omega
  rcases le_total 0 x with hx | hx
  · rw [abs_of_nonneg hx, ← h0]
    have hk : 0 ≤ k := by
      by_contra hc
      have : (k : ℚ) ≤ -1 := by exact_mod_cast (by omega : k ≤ -1)
      have := (abs_le.1 h.1).2
      linarith
    have hk' : (0 : ℚ) ≤ k := by exact_mod_cast hk
    rw [abs_of_nonneg hk', abs_sub_comm]
    exact ⟨h.1, fun e => hpar.1 (h.2 e)⟩
  · rw [abs_of_nonpos hx, ← h0]
    have hk : k ≤ 0 := by
      by_contra hc
      have : (1 : ℚ) ≤ k := by exact_mod_cast (by omega : 1 ≤ k)
      have := (abs_le.1 h.1).1
      linarith
    have hk' : (k : ℚ) ≤ 0 := by exact_mod_cast hk
    rw [abs_of_nonpos hk', show -(k : ℚ) - -x = x - k by ring]
    exact ⟨h.1, fun e => hpar.1 (h.2 e)⟩

/-- Rounding to the right number of bits gives the nearest number of the format. -/
theorem fmt_core (F : Fmt) {q r : ℚ} {e : ℤ} {p : Nat} (h1 : 2 ^ e ≤ |q|) (h2 : |q| < 2 ^ (e + 1))
    (hpe : (p : ℤ) = if e < 1 - (F.bias : ℤ) then F.mb + F.bias + e else F.mb + 1)
    (hr : Rounded .toNearestEven p q r) :
    ∃ c, F.Nearest |q| (min c F.inf) ∧ F.value c = |r| ∧
      ∃ k : Nat, |r| = k * 2 ^ (max e (1 - (F.bias : ℤ)) - F.mb) := by
  have hqpos : 0 < |q| := lt_of_lt_of_le (two_zpow_pos _) h1
  rcases hr with ⟨h0, _⟩ | ⟨e', k, g1, g2, hrk, hk⟩
  · rw [h0, abs_zero] at hqpos; exact absurd hqpos (lt_irrefl _)
  · have he : e' = e + 1 := by
      have a := zpow_lt_iff.1 (lt_of_le_of_lt g1 h2)
      have b := zpow_lt_iff.1 (lt_of_le_of_lt h1 g2)
      omega
    subst he
    have hu : e + 1 - (p : ℤ) = max e (1 - (F.bias : ℤ)) - F.mb := by
      rw [hpe]; split <;> omega
    rw [hu] at hrk hk
    have hup := two_zpow_pos (max e (1 - (F.bias : ℤ)) - F.mb)
    have hrne := roundsTo_rne hk
    rw [abs_div, abs_of_pos hup] at hrne
    obtain ⟨i, hi⟩ := Int.eq_ofNat_of_zero_le (by omega : 0 ≤ max e (1 - (F.bias : ℤ)) - (1 - (F.bias : ℤ)))
    have hi' : (i : ℤ) + 1 - F.bias - F.mb = max e (1 - (F.bias : ℤ)) - F.mb := by
      have : (Int.ofNat i) = (i : ℤ) := rfl
      omega
    have hs : Scaled F |q| i (|q| / 2 ^ (max e (1 - (F.bias : ℤ)) - F.mb)) := by
      refine ⟨?_, by positivity, ?_, ?_⟩
      · rw [hi']; field_simp
      · rw [div_lt_iff₀ hup, ← zpow_natCast, ← zadd]
        refine lt_of_lt_of_le h2 (zpow_le_iff.2 ?_)
        push_cast; omega
      · by_cases hle : e ≤ 1 - (F.bias : ℤ)
        · left
          have : (Int.ofNat i) = (i : ℤ) := rfl
          omega
        · right
          rw [le_div_iff₀ hup, ← zpow_natCast, ← zadd]
          refine le_trans (zpow_le_iff.2 ?_) h1
          omega
    have habs : |r| = (k.natAbs : ℚ) * 2 ^ (max e (1 - (F.bias : ℤ)) - F.mb) := by
      rw [hrk, abs_mul, abs_of_pos hup, Nat.cast_natAbs]; push_cast; rfl
    refine ⟨rneCode F i k.natAbs, hs.nearest hrne, ?_, k.natAbs, habs⟩
    rw [hs.value hrne, hi', habs]

/-- The accuracy flag, for a magnitude coded in a format: an infinity is away from zero. -/
def fmtAcc (F : Fmt) (q : ℚ) (neg : Bool) (c : Nat) : Accuracy :=
  if c = F.inf then (if neg then .below else .above) else accOf q (sgn neg * F.value c)

/-- The significand in the top bits of the mantissa, shifted down without loss. -/
theorem top_exact {m L n : Nat} (hd : 2 ^ (32 * L - n) ∣ m) :
    ((m * 2 ^ n / 2 ^ (32 * L) : Nat) : ℚ) = (m : ℚ) * 2 ^ ((n : ℤ) - 32 * L) := by
  obtain ⟨k, hk⟩ := dvd_iff_int.1 hd
  have := floor_mag (m := m) (L := L) (n := n)
  rw [hk, Int.floor_natCast] at this
  rw [hk]
  exact_mod_cast this.symm

theorem sign_or64 (neg : Bool) {a b : Nat} (ha : a < 2 ^ 11) (hb : b < 2 ^ 52) (x : D) (hx : x.toNat = b) :
    (if neg then 1#64 <<< 63 else 0#64) ||| BitVec.ofNat 64 (a * 2 ^ 52) ||| x = mk64 neg (a * 2 ^ 52 + b) := by
  apply BitVec.eq_of_toNat_eq
  rw [mk64_toNat _ _ (by omega), BitVec.toNat_or, BitVec.toNat_or, hx, BitVec.toNat_ofNat,
    Nat.mod_eq_of_lt (by omega : a * 2 ^ 52 < 2 ^ 64), Nat.or_assoc, Nat.mul_comm a, ← Nat.two_pow_add_eq_or_of_lt hb]
  cases neg
  · simp
  · have : (if true = true then 1#64 <<< 63 else 0#64).toNat = 2 ^ 63 * 1 := by decide
    rw [this, ← Nat.two_pow_add_eq_or_of_lt (by omega)]
    simp

/-- What the code does with a finite rounded number. -/
theorem pack64 {z : FloatV} {m L : Nat} (h : IsFin z m L) (neg : Bool) (hp : z.prec ≤ 53) (hlo : -1022 ≤ z.exp - 1)
    (hhi : z.exp - 1 ≤ 1023) :
    ∃ c, (if neg then 1#64 <<< 63 else 0#64) ||| BitVec.ofNat 64 ((z.exp - 1 + 1023).toNat * 2 ^ 52) |||
        ((msb64 z.mant >>> 11) &&& ((1#64 <<< 52) - 1#64)) = mk64 neg c ∧
      c < b64.inf ∧ b64.value c = (m : ℚ) * 2 ^ (z.exp - 32 * L) := by
  have hd : 2 ^ (32 * L - 53) ∣ m := dvd_trans (pow_dvd_pow 2 (by omega)) h.dvd
  have hL := h.norm.pos
  have ht : (msb64 z.mant >>> 11).toNat = m * 2 ^ 53 / 2 ^ (32 * L) := by
    rw [BitVec.toNat_ushiftRight, h.mant, msb64_enc h.norm, Nat.shiftRight_eq_div_pow, Nat.div_div_eq_div_mul,
      show 2 ^ 64 = 2 ^ 53 * 2 ^ 11 by norm_num, ← Nat.mul_assoc, Nat.mul_div_mul_right _ _ (by norm_num)]
  have hM1 : 2 ^ 52 ≤ m * 2 ^ 53 / 2 ^ (32 * L) := by
    rw [Nat.le_div_iff_mul_le (by positivity)]
    have : 2 ^ 52 * 2 ^ (32 * L) = 2 ^ (32 * L - 1) * 2 ^ 53 := by
      rw [← Nat.pow_add, ← Nat.pow_add]; congr 1; omega
    rw [this]
    exact Nat.mul_le_mul_right _ h.norm.lo
  have hM2 : m * 2 ^ 53 / 2 ^ (32 * L) < 2 ^ 53 := by
    rw [Nat.div_lt_iff_lt_mul (by positivity), Nat.mul_comm]
    exact Nat.mul_lt_mul_of_pos_left h.norm.hi (by positivity)
  have hex := top_exact hd
  generalize m * 2 ^ 53 / 2 ^ (32 * L) = M at *
  obtain ⟨E, hE⟩ : ∃ E, E = (z.exp - 1 + 1023).toNat := ⟨_, rfl⟩
  have hE' : (E : ℤ) = z.exp - 1 + 1023 := by omega
  refine ⟨E * 2 ^ 52 + M % 2 ^ 52, ?_, ?_, ?_⟩
  · rw [← hE]
    exact sign_or64 neg (by omega) (Nat.mod_lt _ (by norm_num)) _ (by rw [bv_and_mask _ _ (by norm_num), ht])
  · rw [b64_inf]; omega
  · obtain ⟨i, rfl⟩ : ∃ i, E = i + 1 := ⟨E - 1, by omega⟩
    have e1 : (i + 1) * 2 ^ 52 + M % 2 ^ 52 = i * 2 ^ b64.mb + M := by rw [b64_mb]; omega
    rw [e1, b64.value_mk i M (by rw [b64_mb]; exact hM2.le) (Or.inr (by rw [b64_mb]; exact hM1)), hex, mul_assoc, ← zadd, b64_bias, b64_mb]
    congr 2
    push_cast at hE' ⊢
    omega

theorem packSub64 {z : FloatV} {m L k : Nat} (h : IsFin z m L) (neg : Bool) (hlo : z.exp - 1 < -1022)
    (hk : (m : ℚ) * 2 ^ (z.exp - 32 * L) = k * 2 ^ (-1074 : ℤ)) :
    ∃ c, (if neg then 1#64 <<< 63 else 0#64) ||| 0#64 |||
        (msb64 z.mant >>> (64 - (53 + 1022 + (z.exp - 1))).toNat) = mk64 neg c ∧
      c < b64.inf ∧ b64.value c = (m : ℚ) * 2 ^ (z.exp - 32 * L) := by
  obtain ⟨b1, b2⟩ := h.norm.bounds z.exp
  rw [hk] at b1 b2
  have hk0 : k ≠ 0 := by
    rintro rfl
    have := two_zpow_pos (z.exp - 1)
    simp at b1
    linarith
  have hk1 : (1 : ℚ) ≤ k := by exact_mod_cast Nat.one_le_iff_ne_zero.2 hk0
  have hexp : -1074 < z.exp := by
    apply zpow_lt_iff.1
    refine lt_of_le_of_lt ?_ b2
    have := two_zpow_pos (-1074 : ℤ)
    nlinarith
  obtain ⟨n, hn⟩ := Int.eq_ofNat_of_zero_le (by omega : 0 ≤ z.exp + 1074)
  have hn' : (n : ℤ) = z.exp + 1074 := hn.symm
  have hint : (m : ℚ) * 2 ^ ((n : ℤ) - 32 * L) = k := by
    have : (n : ℤ) - 32 * L = (z.exp - 32 * L) + 1074 := by omega
    rw [this, zadd, ← mul_assoc, hk, mul_assoc, ← zadd]; simp
  have ht : (msb64 z.mant >>> (64 - (53 + 1022 + (z.exp - 1))).toNat).toNat = k := by
    rw [show (64 - (53 + 1022 + (z.exp - 1))).toNat = 64 - n by omega]
    rw [BitVec.toNat_ushiftRight, h.mant, msb64_enc h.norm, Nat.shiftRight_eq_div_pow, Nat.div_div_eq_div_mul]
    have : 2 ^ 64 = 2 ^ n * 2 ^ (64 - n) := by rw [← Nat.pow_add]; congr 1; omega
    rw [this, ← Nat.mul_assoc, Nat.mul_div_mul_right _ _ (by positivity)]
    have h1 := floor_mag (m := m) (L := L) (n := n)
    rw [hint, Int.floor_natCast] at h1
    exact_mod_cast h1.symm
  have hklt : k < 2 ^ 52 := by
    have h3 : (k : ℚ) * 2 ^ (-1074 : ℤ) < 2 ^ (52 : ℤ) * 2 ^ (-1074 : ℤ) := by
      rw [← zadd]; exact lt_of_lt_of_le b2 (zpow_le_iff.2 (by omega))
    have h4 := lt_of_mul_lt_mul_right h3 (two_zpow_pos _).le
    exact_mod_cast h4
  refine ⟨0 * 2 ^ 52 + k, ?_, by rw [b64_inf]; omega, ?_⟩
  · have := sign_or64 neg (a := 0) (by norm_num) hklt _ ht
    simpa using this
  · rw [hk]
    have := b64.value_mk 0 k (by rw [b64_mb]; omega) (Or.inl rfl)
    rw [b64_mb, b64_bias] at this
    rw [this]
    norm_num

theorem fToF64_fin {x : FloatV} {m L : Nat} (h : IsFin x m L)
    (hx : ¬ ((2 : ℚ) ^ (-1075 : ℤ) < |fval x| ∧ |fval x| < 2 ^ (-1074 : ℤ))) :
    ∃ c, fToF64 x = .ok (mk64 x.neg c, fmtAcc b64 (fval x) x.neg c) ∧ b64.Nearest |fval x| c := by
  obtain ⟨b1, b2⟩ := h.norm.bounds x.exp
  rw [← h.abs] at b1 b2
  have hsg : fval x = sgn x.neg * |fval x| := by rw [h.abs, h.val]
  have hpos : 0 < |fval x| := lt_of_lt_of_le (two_zpow_pos _) b1
  have tiny : |fval x| ≤ 2 ^ (-1075 : ℤ) →
      (if x.neg then (mk64 true 0, Accuracy.above) else (mk64 false 0, .below)) = (mk64 x.neg 0, fmtAcc b64 (fval x) x.neg 0) ∧
      b64.Nearest |fval x| 0 := by
    intro ht
    refine ⟨?_, b64.nearest_tiny hpos.le (by rw [b64_bias, b64_mb]; exact le_trans ht (zpow_le_iff.2 (by norm_num)))⟩
    unfold fmtAcc accOf
    have hni : ¬ 0 = b64.inf := by rw [b64_inf]; norm_num
    simp only [if_neg hni]
    rw [b64.value_zero, mul_zero, hsg]
    cases x.neg
    · simp only [sgn, Bool.false_eq_true, if_false, one_mul]
      rw [if_pos hpos]
    · simp only [sgn, if_true, neg_mul, one_mul]
      rw [if_neg (by linarith), if_neg (by linarith)]
  unfold fToF64
  simp only [h.form, if_true, reduceCtorEq, if_false]
  obtain ⟨p, hp⟩ : ∃ p : ℤ, p = if x.exp - 1 < -1022 then 53 + 1022 + (x.exp - 1) else 53 := ⟨_, rfl⟩
  rw [← hp]
  by_cases c1 : x.exp - 1 < -1022 ∧ (p < 0 ∨ (p = 0 ∧ sticky x.mant (x.mant.length * 32 - 1) = 0))
  · rw [if_pos c1]
    have hle : |fval x| ≤ 2 ^ (-1075 : ℤ) := by
      rw [if_pos c1.1] at hp
      rcases c1.2 with hc | ⟨hc, hs⟩
      · exact le_trans b2.le (zpow_le_iff.2 (by omega))
      · rw [h.len, h.mant, sticky_canon (canon_enc m), val_enc] at hs
        have hdv : m % 2 ^ (L * 32 - 1) = 0 := by
          by_contra hne
          rw [if_neg hne] at hs; simp at hs
        have hlo := h.norm.lo
        have hhi := h.norm.hi
        have hL := h.norm.pos
        rw [Nat.mul_comm L] at hdv
        have hm : m = 2 ^ (32 * L - 1) := by
          have e2 : 2 ^ (32 * L) = 2 * 2 ^ (32 * L - 1) := by rw [← Nat.pow_succ']; congr 1; omega
          rw [e2] at hhi
          have hdm := Nat.div_add_mod m (2 ^ (32 * L - 1))
          rw [hdv] at hdm
          generalize 2 ^ (32 * L - 1) = P at *
          have hq : m / P < 2 := Nat.div_lt_of_lt_mul (by omega)
          have hq' : m / P ≠ 0 := by intro h0; rw [h0] at hdm; omega
          generalize m / P = t at *
          have : t = 1 := by omega
          rw [this] at hdm; omega
        rw [h.abs, hm, Nat.cast_pow, ← zpow_natCast, Nat.cast_ofNat, ← zadd]
        exact zpow_le_iff.2 (by push_cast; omega)
    obtain ⟨t1, t2⟩ := tiny hle
    exact ⟨0, by rw [t1], t2⟩
  · rw [if_neg c1]
    have hp1 : 1 ≤ p := by
      by_contra hc
      apply hx
      by_cases hs : x.exp - 1 < -1022
      · rw [if_pos hs] at hp
        have hp0 : p = 0 := by
          by_contra hne
          exact c1 ⟨hs, Or.inl (by omega)⟩
        have hst : ¬ sticky x.mant (x.mant.length * 32 - 1) = 0 := fun hh => c1 ⟨hs, Or.inr ⟨hp0, hh⟩⟩
        constructor
        · rw [h.len, h.mant, sticky_canon (canon_enc m), val_enc] at hst
          have hne : (2 : ℚ) ^ (-1075 : ℤ) ≠ |fval x| := by
            intro he
            apply hst
            rw [if_pos]
            have hL := h.norm.pos
            have : (m : ℚ) = ((2 ^ (L * 32 - 1) : Nat) : ℚ) := by
              rw [h.abs] at he
              have e3 : (m : ℚ) = 2 ^ (-1075 : ℤ) * 2 ^ (-(x.exp - 32 * (L : ℤ))) := by
                rw [he, mul_assoc, ← zadd]; simp
              rw [e3, Nat.cast_pow, ← zpow_natCast, Nat.cast_ofNat, ← zadd]
              congr 1; push_cast; omega
            have : m = 2 ^ (L * 32 - 1) := by exact_mod_cast this
            rw [this]; simp
          refine lt_of_le_of_ne (le_trans (zpow_le_iff.2 ?_) b1) hne
          omega
        · exact lt_of_lt_of_le b2 (zpow_le_iff.2 (by omega))
      · rw [if_neg hs] at hp; omega
    rw [if_neg (by omega)]
    obtain ⟨pn, hpn⟩ := Int.eq_ofNat_of_zero_le (by omega : 0 ≤ p)
    have hpn' : (pn : ℤ) = p := hpn.symm
    have hpt : p.toNat = pn := by omega
    rw [hpt]
    obtain ⟨z, hz, hzm, hzp, hzok, hzs, hzf⟩ := fSetFloat_result (z := { fDefault with prec := pn }) h (by simp only; omega)
    rw [hz]
    simp only [bind, Except.bind]
    have hcore : ∀ r, Rounded .toNearestEven pn (fval x) r → ∃ c, b64.Nearest |fval x| (min c b64.inf) ∧ b64.value c = |r| ∧
        ∃ k : Nat, |r| = k * 2 ^ (max (x.exp - 1) (-1022) - 52) := by
      intro r hr
      have hc := fmt_core b64 (e := x.exp - 1) (p := pn) b1 (by simpa using b2)
        (by rw [hpn', hp, b64_bias, b64_mb]; split <;> split <;> omega) hr
      rw [b64_bias, b64_mb] at hc
      simpa using hc
    have big : ∀ r, Rounded .toNearestEven pn (fval x) r → 2 ^ (1024 : ℤ) ≤ |r| →
        b64.Nearest |fval x| b64.inf ∧
        (if x.neg then (mk64 true b64.inf, Accuracy.below) else (mk64 false b64.inf, .above)) =
          (mk64 x.neg b64.inf, fmtAcc b64 (fval x) x.neg b64.inf) := by
      intro r hr hle
      obtain ⟨c, hn, hv, _⟩ := hcore r hr
      have hcb : b64.inf ≤ c := by
        rw [← b64.value_le, b64.value_inf, hv, b64_bias]; simpa using hle
      rw [Nat.min_eq_right hcb] at hn
      refine ⟨hn, ?_⟩
      unfold fmtAcc
      rw [if_pos rfl]
      cases x.neg <;> rfl
    cases hform : z.form
    · rw [hform] at hzf
      simp only at hzf
      exact absurd (le_trans (zpow_le_iff.2 (by have := h.emin; omega)) b1) (not_le.2 hzf.1)
    · rw [hform] at hzf
      simp only at hzf
      obtain ⟨_, hrd, hacc⟩ := hzf
      simp only [fDefault] at hrd
      obtain ⟨mz, Lz, hfz⟩ := hzok.fin hform
      obtain ⟨z1, z2⟩ := hfz.norm.bounds z.exp
      have hneg : z.neg = x.neg := by
        rw [hzs h.ne_zero, h.val]; exact sgn_mul_lt h.pos
      by_cases hbig : z.exp - 1 > 1023
      · rw [if_pos (Or.inr hbig)]
        obtain ⟨g1, g2⟩ := big _ hrd (by rw [hfz.abs]; exact le_trans (zpow_le_iff.2 (by omega)) z1)
        exact ⟨_, by rw [g2], g1⟩
      · rw [if_neg (by simp only [reduceCtorEq, false_or]; exact hbig)]
        obtain ⟨c, hn, hv, k, hk⟩ := hcore _ hrd
        have fin : ∀ c', c' < b64.inf → b64.value c' = (mz : ℚ) * 2 ^ (z.exp - 32 * Lz) →
            b64.Nearest |fval x| c' ∧ z.acc = fmtAcc b64 (fval x) x.neg c' := by
          intro c' hlt hv'
          have : c' = c := by rw [← b64.value_inj, hv', hv, hfz.abs]
          subst this
          rw [Nat.min_eq_left hlt.le] at hn
          refine ⟨hn, ?_⟩
          unfold fmtAcc
          rw [if_neg (by omega), hacc, hv', hfz.val, hneg]
        by_cases hsub : z.exp - 1 < -1022
        · rw [if_pos hsub]
          have hk' : (mz : ℚ) * 2 ^ (z.exp - 32 * Lz) = k * 2 ^ (-1074 : ℤ) := by
            rw [← hfz.abs, hk]
            have hxe : x.exp - 1 < -1022 := by
              have hre := rounded_exists .toNearestEven (p := pn) (by omega) x.neg b1 b2
              rw [← hsg] at hre
              obtain ⟨r, hr1, hr2, _⟩ := hre
              rw [← hrd.unique hr1, hfz.abs] at hr2
              have := zpow_lt_iff.1 (lt_of_le_of_lt hr2 z2)
              omega
            rw [max_eq_right (by omega)]
            norm_num
          obtain ⟨c', p1, p2, p3⟩ := packSub64 hfz x.neg hsub hk'
          obtain ⟨f1, f2⟩ := fin c' p2 p3
          exact ⟨c', by rw [p1, f2], f1⟩
        · rw [if_neg hsub]
          obtain ⟨c', p1, p2, p3⟩ := pack64 hfz x.neg (by rw [hzp]; simp only; rw [hp] at hpn'; split at hpn' <;> omega) (by omega) (by omega)
          obtain ⟨f1, f2⟩ := fin c' p2 p3
          exact ⟨c', by rw [p1, f2], f1⟩
    · rw [hform] at hzf
      simp only at hzf
      obtain ⟨⟨r, hr, hr'⟩, _⟩ := hzf
      rw [if_pos (Or.inl rfl)]
      obtain ⟨g1, g2⟩ := big r hr (le_trans (zpow_le_iff.2 (by unfold maxExp; norm_num)) hr')
      exact ⟨_, by rw [g2], g1⟩
    · rw [hform] at hzf; exact absurd hzf (by simp)

theorem sign_or32 (neg : Bool) {a b : Nat} (ha : a < 2 ^ 8) (hb : b < 2 ^ 23) (x : W) (hx : x.toNat = b) :
    (if neg then 1#32 <<< 31 else 0#32) ||| BitVec.ofNat 32 (a * 2 ^ 23) ||| x = mk32 neg (a * 2 ^ 23 + b) := by
  apply BitVec.eq_of_toNat_eq
  rw [mk32_toNat _ _ (by omega), BitVec.toNat_or, BitVec.toNat_or, hx, BitVec.toNat_ofNat,
    Nat.mod_eq_of_lt (by omega : a * 2 ^ 23 < 2 ^ 32), Nat.or_assoc, Nat.mul_comm a, ← Nat.two_pow_add_eq_or_of_lt hb]
  cases neg
  · simp
  · have : (if true = true then 1#32 <<< 31 else 0#32).toNat = 2 ^ 31 * 1 := by decide
    rw [this, ← Nat.two_pow_add_eq_or_of_lt (by omega)]
    simp

/-- What the code does with a finite rounded number. -/
theorem pack32 {z : FloatV} {m L : Nat} (h : IsFin z m L) (neg : Bool) (hp : z.prec ≤ 24) (hlo : -126 ≤ z.exp - 1)
    (hhi : z.exp - 1 ≤ 127) :
    ∃ c, (if neg then 1#32 <<< 31 else 0#32) ||| BitVec.ofNat 32 ((z.exp - 1 + 127).toNat * 2 ^ 23) |||
        ((msb32 z.mant >>> 8) &&& ((1#32 <<< 23) - 1#32)) = mk32 neg c ∧
      c < b32.inf ∧ b32.value c = (m : ℚ) * 2 ^ (z.exp - 32 * L) := by
  have hd : 2 ^ (32 * L - 24) ∣ m := dvd_trans (pow_dvd_pow 2 (by omega)) h.dvd
  have hL := h.norm.pos
  have ht : (msb32 z.mant >>> 8).toNat = m * 2 ^ 24 / 2 ^ (32 * L) := by
    rw [BitVec.toNat_ushiftRight, h.mant, msb32_enc h.norm, Nat.shiftRight_eq_div_pow, Nat.div_div_eq_div_mul,
      show 2 ^ 32 = 2 ^ 24 * 2 ^ 8 by norm_num, ← Nat.mul_assoc, Nat.mul_div_mul_right _ _ (by norm_num)]
  have hM1 : 2 ^ 23 ≤ m * 2 ^ 24 / 2 ^ (32 * L) := by
    rw [Nat.le_div_iff_mul_le (by positivity)]
    have : 2 ^ 23 * 2 ^ (32 * L) = 2 ^ (32 * L - 1) * 2 ^ 24 := by
      rw [← Nat.pow_add, ← Nat.pow_add]; congr 1; omega
    rw [this]
    exact Nat.mul_le_mul_right _ h.norm.lo
  have hM2 : m * 2 ^ 24 / 2 ^ (32 * L) < 2 ^ 24 := by
    rw [Nat.div_lt_iff_lt_mul (by positivity), Nat.mul_comm]
    exact Nat.mul_lt_mul_of_pos_left h.norm.hi (by positivity)
  have hex := top_exact hd
  generalize m * 2 ^ 24 / 2 ^ (32 * L) = M at *
  obtain ⟨E, hE⟩ : ∃ E, E = (z.exp - 1 + 127).toNat := ⟨_, rfl⟩
  have hE' : (E : ℤ) = z.exp - 1 + 127 := by omega
  refine ⟨E * 2 ^ 23 + M % 2 ^ 23, ?_, ?_, ?_⟩
  · rw [← hE]
    exact sign_or32 neg (by omega) (Nat.mod_lt _ (by norm_num)) _ (by rw [bv_and_mask _ _ (by norm_num), ht])
  · rw [b32_inf]; omega
  · obtain ⟨i, rfl⟩ : ∃ i, E = i + 1 := ⟨E - 1, by omega⟩
    have e1 : (i + 1) * 2 ^ 23 + M % 2 ^ 23 = i * 2 ^ b32.mb + M := by rw [b32_mb]; omega
    rw [e1, b32.value_mk i M (by rw [b32_mb]; exact hM2.le) (Or.inr (by rw [b32_mb]; exact hM1)), hex, mul_assoc, ← zadd, b32_bias, b32_mb]
    congr 2
    push_cast at hE' ⊢
    omega

theorem packSub32 {z : FloatV} {m L k : Nat} (h : IsFin z m L) (neg : Bool) (hlo : z.exp - 1 < -126)
    (hk : (m : ℚ) * 2 ^ (z.exp - 32 * L) = k * 2 ^ (-149 : ℤ)) :
    ∃ c, (if neg then 1#32 <<< 31 else 0#32) ||| 0#32 |||
        (msb32 z.mant >>> (32 - (24 + 126 + (z.exp - 1))).toNat) = mk32 neg c ∧
      c < b32.inf ∧ b32.value c = (m : ℚ) * 2 ^ (z.exp - 32 * L) := by
  obtain ⟨b1, b2⟩ := h.norm.bounds z.exp
  rw [hk] at b1 b2
  have hk0 : k ≠ 0 := by
    rintro rfl
    have := two_zpow_pos (z.exp - 1)
    simp at b1
    linarith
  have hk1 : (1 : ℚ) ≤ k := by exact_mod_cast Nat.one_le_iff_ne_zero.2 hk0
  have hexp : -149 < z.exp := by
    apply zpow_lt_iff.1
    refine lt_of_le_of_lt ?_ b2
    have := two_zpow_pos (-149 : ℤ)
    nlinarith
  obtain ⟨n, hn⟩ := Int.eq_ofNat_of_zero_le (by omega : 0 ≤ z.exp + 149)
  have hn' : (n : ℤ) = z.exp + 149 := hn.symm
  have hint : (m : ℚ) * 2 ^ ((n : ℤ) - 32 * L) = k := by
    have : (n : ℤ) - 32 * L = (z.exp - 32 * L) + 149 := by omega
    rw [this, zadd, ← mul_assoc, hk, mul_assoc, ← zadd]; simp
  have ht : (msb32 z.mant >>> (32 - (24 + 126 + (z.exp - 1))).toNat).toNat = k := by
    rw [show (32 - (24 + 126 + (z.exp - 1))).toNat = 32 - n by omega]
    rw [BitVec.toNat_ushiftRight, h.mant, msb32_enc h.norm, Nat.shiftRight_eq_div_pow, Nat.div_div_eq_div_mul]
    have : 2 ^ 32 = 2 ^ n * 2 ^ (32 - n) := by rw [← Nat.pow_add]; congr 1; omega
    rw [this, ← Nat.mul_assoc, Nat.mul_div_mul_right _ _ (by positivity)]
    have h1 := floor_mag (m := m) (L := L) (n := n)
    rw [hint, Int.floor_natCast] at h1
    exact_mod_cast h1.symm
  have hklt : k < 2 ^ 23 := by
    have h3 : (k : ℚ) * 2 ^ (-149 : ℤ) < 2 ^ (23 : ℤ) * 2 ^ (-149 : ℤ) := by
      rw [← zadd]; exact lt_of_lt_of_le b2 (zpow_le_iff.2 (by omega))
    have h4 := lt_of_mul_lt_mul_right h3 (two_zpow_pos _).le
    exact_mod_cast h4
  refine ⟨0 * 2 ^ 23 + k, ?_, by rw [b32_inf]; omega, ?_⟩
  · have := sign_or32 neg (a := 0) (by norm_num) hklt _ ht
    simpa using this
  · rw [hk]
    have := b32.value_mk 0 k (by rw [b32_mb]; omega) (Or.inl rfl)
    rw [b32_mb, b32_bias] at this
    rw [this]
    norm_num

theorem fToF32_fin {x : FloatV} {m L : Nat} (h : IsFin x m L)
    (hx : ¬ ((2 : ℚ) ^ (-150 : ℤ) < |fval x| ∧ |fval x| < 2 ^ (-149 : ℤ))) :
    ∃ c, fToF32 x = .ok (mk32 x.neg c, fmtAcc b32 (fval x) x.neg c) ∧ b32.Nearest |fval x| c := by
  obtain ⟨b1, b2⟩ := h.norm.bounds x.exp
  rw [← h.abs] at b1 b2
  have hsg : fval x = sgn x.neg * |fval x| := by rw [h.abs, h.val]
  have hpos : 0 < |fval x| := lt_of_lt_of_le (two_zpow_pos _) b1
  have tiny : |fval x| ≤ 2 ^ (-150 : ℤ) →
      (if x.neg then (mk32 true 0, Accuracy.above) else (mk32 false 0, .below)) = (mk32 x.neg 0, fmtAcc b32 (fval x) x.neg 0) ∧
      b32.Nearest |fval x| 0 := by
    intro ht
    refine ⟨?_, b32.nearest_tiny hpos.le (by rw [b32_bias, b32_mb]; exact le_trans ht (zpow_le_iff.2 (by norm_num)))⟩
    unfold fmtAcc accOf
    have hni : ¬ 0 = b32.inf := by rw [b32_inf]; norm_num
    simp only [if_neg hni]
    rw [b32.value_zero, mul_zero, hsg]
    cases x.neg
    · simp only [sgn, Bool.false_eq_true, if_false, one_mul]
      rw [if_pos hpos]
    · simp only [sgn, if_true, neg_mul, one_mul]
      rw [if_neg (by linarith), if_neg (by linarith)]
  unfold fToF32
  simp only [h.form, if_true, reduceCtorEq, if_false]
  obtain ⟨p, hp⟩ : ∃ p : ℤ, p = if x.exp - 1 < -126 then 24 + 126 + (x.exp - 1) else 24 := ⟨_, rfl⟩
  rw [← hp]
  by_cases c1 : x.exp - 1 < -126 ∧ (p < 0 ∨ (p = 0 ∧ sticky x.mant (x.mant.length * 32 - 1) = 0))
  · rw [if_pos c1]
    have hle : |fval x| ≤ 2 ^ (-150 : ℤ) := by
      rw [if_pos c1.1] at hp
      rcases c1.2 with hc | ⟨hc, hs⟩
      · exact le_trans b2.le (zpow_le_iff.2 (by omega))
      · rw [h.len, h.mant, sticky_canon (canon_enc m), val_enc] at hs
        have hdv : m % 2 ^ (L * 32 - 1) = 0 := by
          by_contra hne
          rw [if_neg hne] at hs; simp at hs
        have hlo := h.norm.lo
        have hhi := h.norm.hi
        have hL := h.norm.pos
        rw [Nat.mul_comm L] at hdv
        have hm : m = 2 ^ (32 * L - 1) := by
          have e2 : 2 ^ (32 * L) = 2 * 2 ^ (32 * L - 1) := by rw [← Nat.pow_succ']; congr 1; omega
          rw [e2] at hhi
          have hdm := Nat.div_add_mod m (2 ^ (32 * L - 1))
          rw [hdv] at hdm
          generalize 2 ^ (32 * L - 1) = P at *
          have hq : m / P < 2 := Nat.div_lt_of_lt_mul (by omega)
          have hq' : m / P ≠ 0 := by intro h0; rw [h0] at hdm; omega
          generalize m / P = t at *
          have : t = 1 := by omega
          rw [this] at hdm; omega
        rw [h.abs, hm, Nat.cast_pow, ← zpow_natCast, Nat.cast_ofNat, ← zadd]
        exact zpow_le_iff.2 (by push_cast; omega)
    obtain ⟨t1, t2⟩ := tiny hle
    exact ⟨0, by rw [t1], t2⟩
  · rw [if_neg c1]
    have hp1 : 1 ≤ p := by
      by_contra hc
      apply hx
      by_cases hs : x.exp - 1 < -126
      · rw [if_pos hs] at hp
        have hp0 : p = 0 := by
          by_contra hne
          exact c1 ⟨hs, Or.inl (by omega)⟩
        have hst : ¬ sticky x.mant (x.mant.length * 32 - 1) = 0 := fun hh => c1 ⟨hs, Or.inr ⟨hp0, hh⟩⟩
        constructor
        · rw [h.len, h.mant, sticky_canon (canon_enc m), val_enc] at hst
          have hne : (2 : ℚ) ^ (-150 : ℤ) ≠ |fval x| := by
            intro he
            apply hst
            rw [if_pos]
            have hL := h.norm.pos
            have : (m : ℚ) = ((2 ^ (L * 32 - 1) : Nat) : ℚ) := by
              rw [h.abs] at he
              have e3 : (m : ℚ) = 2 ^ (-150 : ℤ) * 2 ^ (-(x.exp - 32 * (L : ℤ))) := by
                rw [he, mul_assoc, ← zadd]; simp
              rw [e3, Nat.cast_pow, ← zpow_natCast, Nat.cast_ofNat, ← zadd]
              congr 1; push_cast; omega
            have : m = 2 ^ (L * 32 - 1) := by exact_mod_cast this
            rw [this]; simp
          refine lt_of_le_of_ne (le_trans (zpow_le_iff.2 ?_) b1) hne
          omega
        · exact lt_of_lt_of_le b2 (zpow_le_iff.2 (by omega))
      · rw [if_neg hs] at hp; omega
    rw [if_neg (by omega)]
    obtain ⟨pn, hpn⟩ := Int.eq_ofNat_of_zero_le (by omega : 0 ≤ p)
    have hpn' : (pn : ℤ) = p := hpn.symm
    have hpt : p.toNat = pn := by omega
    rw [hpt]
    obtain ⟨z, hz, hzm, hzp, hzok, hzs, hzf⟩ := fSetFloat_result (z := { fDefault with prec := pn }) h (by simp only; omega)
    rw [hz]
    simp only [bind, Except.bind]
    have hcore : ∀ r, Rounded .toNearestEven pn (fval x) r → ∃ c, b32.Nearest |fval x| (min c b32.inf) ∧ b32.value c = |r| ∧
        ∃ k : Nat, |r| = k * 2 ^ (max (x.exp - 1) (-126) - 23) := by
      intro r hr
      have hc := fmt_core b32 (e := x.exp - 1) (p := pn) b1 (by simpa using b2)
        (by rw [hpn', hp, b32_bias, b32_mb]; split <;> split <;> omega) hr
      rw [b32_bias, b32_mb] at hc
      simpa using hc
    have big : ∀ r, Rounded .toNearestEven pn (fval x) r → 2 ^ (128 : ℤ) ≤ |r| →
        b32.Nearest |fval x| b32.inf ∧
        (if x.neg then (mk32 true b32.inf, Accuracy.below) else (mk32 false b32.inf, .above)) =
          (mk32 x.neg b32.inf, fmtAcc b32 (fval x) x.neg b32.inf) := by
      intro r hr hle
      obtain ⟨c, hn, hv, _⟩ := hcore r hr
      have hcb : b32.inf ≤ c := by
        rw [← b32.value_le, b32.value_inf, hv, b32_bias]; simpa using hle
      rw [Nat.min_eq_right hcb] at hn
      refine ⟨hn, ?_⟩
      unfold fmtAcc
      rw [if_pos rfl]
      cases x.neg <;> rfl
    cases hform : z.form
    · rw [hform] at hzf
      simp only at hzf
      exact absurd (le_trans (zpow_le_iff.2 (by have := h.emin; omega)) b1) (not_le.2 hzf.1)
    · rw [hform] at hzf
      simp only at hzf
      obtain ⟨_, hrd, hacc⟩ := hzf
      simp only [fDefault] at hrd
      obtain ⟨mz, Lz, hfz⟩ := hzok.fin hform
      obtain ⟨z1, z2⟩ := hfz.norm.bounds z.exp
      have hneg : z.neg = x.neg := by
        rw [hzs h.ne_zero, h.val]; exact sgn_mul_lt h.pos
      by_cases hbig : z.exp - 1 > 127
      · rw [if_pos (Or.inr hbig)]
        obtain ⟨g1, g2⟩ := big _ hrd (by rw [hfz.abs]; exact le_trans (zpow_le_iff.2 (by omega)) z1)
        exact ⟨_, by rw [g2], g1⟩
      · rw [if_neg (by simp only [reduceCtorEq, false_or]; exact hbig)]
        obtain ⟨c, hn, hv, k, hk⟩ := hcore _ hrd
        have fin : ∀ c', c' < b32.inf → b32.value c' = (mz : ℚ) * 2 ^ (z.exp - 32 * Lz) →
            b32.Nearest |fval x| c' ∧ z.acc = fmtAcc b32 (fval x) x.neg c' := by
          intro c' hlt hv'
          have : c' = c := by rw [← b32.value_inj, hv', hv, hfz.abs]
          subst this
          rw [Nat.min_eq_left hlt.le] at hn
          refine ⟨hn, ?_⟩
          unfold fmtAcc
          rw [if_neg (by omega), hacc, hv', hfz.val, hneg]
        by_cases hsub : z.exp - 1 < -126
        · rw [if_pos hsub]
          have hk' : (mz : ℚ) * 2 ^ (z.exp - 32 * Lz) = k * 2 ^ (-149 : ℤ) := by
            rw [← hfz.abs, hk]
            have hxe : x.exp - 1 < -126 := by
              have hre := rounded_exists .toNearestEven (p := pn) (by omega) x.neg b1 b2
              rw [← hsg] at hre
              obtain ⟨r, hr1, hr2, _⟩ := hre
              rw [← hrd.unique hr1, hfz.abs] at hr2
              have := zpow_lt_iff.1 (lt_of_le_of_lt hr2 z2)
              omega
            rw [max_eq_right (by omega)]
            norm_num
          obtain ⟨c', p1, p2, p3⟩ := packSub32 hfz x.neg hsub hk'
          obtain ⟨f1, f2⟩ := fin c' p2 p3
          exact ⟨c', by rw [p1, f2], f1⟩
        · rw [if_neg hsub]
          obtain ⟨c', p1, p2, p3⟩ := pack32 hfz x.neg (by rw [hzp]; simp only; rw [hp] at hpn'; split at hpn' <;> omega) (by omega) (by omega)
          obtain ⟨f1, f2⟩ := fin c' p2 p3
          exact ⟨c', by rw [p1, f2], f1⟩
    · rw [hform] at hzf
      simp only at hzf
      obtain ⟨⟨r, hr, hr'⟩, _⟩ := hzf
      rw [if_pos (Or.inl rfl)]
      obtain ⟨g1, g2⟩ := big r hr (le_trans (zpow_le_iff.2 (by unfold maxExp; norm_num)) hr')
      exact ⟨_, by rw [g2], g1⟩
    · rw [hform] at hzf; exact absurd hzf (by simp)

/-- A normalised number whose mantissa has no bit but the top one is a power of two. -/
theorem IsFin.le_of_sticky {x : FloatV} {m L : Nat} (h : IsFin x m L) (hs : sticky x.mant (x.mant.length * 32 - 1) = 0) :
    |fval x| ≤ 2 ^ (x.exp - 1) := by
  rw [h.len, h.mant, sticky_canon (canon_enc m), val_enc] at hs
  have hdv : m % 2 ^ (L * 32 - 1) = 0 := by
    by_contra hne
    rw [if_neg hne] at hs; simp at hs
  have hlo := h.norm.lo
  have hhi := h.norm.hi
  have hL := h.norm.pos
  rw [Nat.mul_comm L] at hdv
  have hm : m = 2 ^ (32 * L - 1) := by
    have e2 : 2 ^ (32 * L) = 2 * 2 ^ (32 * L - 1) := by rw [← Nat.pow_succ']; congr 1; omega
    rw [e2] at hhi
    have hdm := Nat.div_add_mod m (2 ^ (32 * L - 1))
    rw [hdv] at hdm
    generalize 2 ^ (32 * L - 1) = P at *
    have hq : m / P < 2 := Nat.div_lt_of_lt_mul (by omega)
    have hq' : m / P ≠ 0 := by intro h0; rw [h0] at hdm; omega
    generalize m / P = t at *
    have : t = 1 := by omega
    rw [this] at hdm; omega
  rw [h.abs, hm, Nat.cast_pow, ← zpow_natCast, Nat.cast_ofNat, ← zadd]
  exact zpow_le_iff.2 (by push_cast; omega)

/-- Strictly between two powers of two. -/
theorem IsFin.between {x : FloatV} {m L : Nat} (h : IsFin x m L) {e : ℤ} (h1 : (2 : ℚ) ^ (e - 1) < |fval x|)
    (h2 : |fval x| < 2 ^ e) : x.exp = e ∧ ¬ sticky x.mant (x.mant.length * 32 - 1) = 0 := by
  obtain ⟨b1, b2⟩ := h.norm.bounds x.exp
  rw [← h.abs] at b1 b2
  have c1 := zpow_lt_iff.1 (lt_of_le_of_lt b1 h2)
  have c2 := zpow_lt_iff.1 (lt_trans h1 b2)
  have he : x.exp = e := by omega
  refine ⟨he, fun hs => ?_⟩
  have := h.le_of_sticky hs
  rw [he] at this
  exact absurd h1 (not_lt.2 this)

theorem Fmt.value_one (F : Fmt) : F.value 1 = 2 ^ (1 - (F.bias : ℤ) - F.mb) := by
  have h : 1 < 2 ^ F.mb := Nat.one_lt_two_pow (by have := F.hmb; omega)
  unfold Fmt.value
  simp only [Nat.div_eq_of_lt h, Nat.mod_eq_of_lt h, if_true, Nat.cast_one, one_mul]

theorem Fmt.value_normal (F : Fmt) : F.value (2 ^ F.mb) = 2 ^ F.mb * F.value 1 := by
  rw [F.value_one]
  unfold Fmt.value
  have h : 0 < 2 ^ F.mb := Nat.two_pow_pos _
  simp only [Nat.div_self h, Nat.mod_self, one_ne_zero, if_false, Nat.cast_zero, add_zero, Nat.cast_one]

/-- Between half the least positive number of the format and that number, the latter is the nearest one. -/
theorem Fmt.nearest_one (F : Fmt) {q : ℚ} (h1 : F.value 1 < 2 * q) (h2 : q < F.value 1) : F.Nearest q 1 := by
  left
  have hb := F.bias_pos
  have hm := F.hmb
  refine ⟨?_, ?_, ?_⟩
  · rw [F.inf_eq]
    have h : 1 < 2 ^ F.mb := Nat.one_lt_two_pow (by omega)
    nlinarith
  · refine lt_of_lt_of_le h2 ?_
    rw [F.value_one]
    have e1 : (2 : ℚ) ^ (1 - (F.bias : ℤ) - F.mb) ≤ 2 ^ (F.bias : ℤ) := zpow_le_iff.2 (by omega)
    have e2 : (2 : ℚ) ^ ((F.bias : ℤ) - F.mb - 1) ≤ 2 ^ (F.bias : ℤ) := zpow_le_iff.2 (by omega)
    have e3 : (2 : ℚ) ^ ((F.bias : ℤ) + 1) = 2 ^ (F.bias : ℤ) * 2 := by rw [zadd]; norm_num
    rw [e3]; linarith
  · intro c _
    have a1 : |F.value 1 - q| = F.value 1 - q := abs_of_pos (by linarith)
    rw [a1]
    rcases (show c = 0 ∨ c = 1 ∨ 1 < c by omega) with rfl | rfl | hc
    · have a2 : |F.value 0 - q| = q := by
        rw [F.value_zero, zero_sub, abs_neg, abs_of_pos]
        have := F.value_nonneg 1; linarith
      rw [a2]
      exact ⟨by linarith, fun h _ => by linarith⟩
    · rw [a1]; exact ⟨le_rfl, fun _ h => absurd rfl h⟩
    · have hv := F.value_lt.2 hc
      rw [abs_of_pos (by linarith)]
      exact ⟨by linarith, fun h _ => by linarith⟩

theorem fToF64_gap {x : FloatV} {m L : Nat} (h : IsFin x m L) (h1 : (2 : ℚ) ^ (-1075 : ℤ) < |fval x|)
    (h2 : |fval x| < 2 ^ (-1074 : ℤ)) : fToF64 x = .ok (mk64 false (2 ^ 52), if x.neg then .below else .above) := by
  obtain ⟨he, hs⟩ := h.between (e := -1074) (by simpa using h1) h2
  unfold fToF64
  simp only [h.form, if_true, reduceCtorEq, if_false, he, hs]
  cases x.neg <;> rfl

theorem fToF32_gap {x : FloatV} {m L : Nat} (h : IsFin x m L) (h1 : (2 : ℚ) ^ (-150 : ℤ) < |fval x|)
    (h2 : |fval x| < 2 ^ (-149 : ℤ)) : fToF32 x = .ok (mk32 x.neg (2 ^ 23), if x.neg then .below else .above) := by
  obtain ⟨he, hs⟩ := h.between (e := -149) (by simpa using h1) h2
  unfold fToF32
  simp only [h.form, if_true, reduceCtorEq, if_false, he, hs]
  cases x.neg <;> rfl

end RMath
