import Verif.Props.FloatMachine
import Verif.Props.RatFloat
import Verif.Model.Machine

/-!
# Property C123: sums, differences and products of singles by way of Float are those of the machine, bit for bit

`Float::from` of an `f32` has 53 digits, so the results are rounded twice: to 53 digits and to an `f32`.  For sums and differences that makes
no difference, products are exact in 53 digits.
-/

namespace RMath

/-- an operation on singles by way of Floats -/
def viaFloat32 (f : FloatV → FloatV → Res FloatV) (x y : W) : Res W := do
  let z ← f (← fFromF32 x) (← fFromF32 y)
  let r ← fToF32 z
  pure r.1

/-- sign and code of an `f32` -/
def parts32 (x : W) : Bool × Nat := (x.msb, x.toNat % 2 ^ 31)

/-! ## Proof -/

/-- the fields of a finite code -/
theorem split32 {c : Nat} (h : c < b32.inf) : ∃ i k : Nat, c = i * 2 ^ 23 + k ∧ k < 2 ^ 24 ∧ (i = 0 ∨ 2 ^ 23 ≤ k) ∧ i ≤ 253 ∧
    b32.value c = k * 2 ^ ((i : ℤ) - 149) := by
  have e : ∀ i : ℕ, ((i : ℤ) + 1 - b32.bias - b32.mb) = i - 149 := by
    intro i
    rw [show b32.bias = 127 from rfl, show b32.mb = 23 from rfl]
    push_cast
    ring
  rw [b32_inf] at h
  rcases b32.code_split c with ⟨h1, h2⟩ | ⟨i, k, rfl, h1, h2⟩
  · have h2 : c < 2 ^ 23 := h2
    refine ⟨0, c, by omega, by omega, .inl rfl, by omega, ?_⟩
    have := b32.value_mk 0 c (by show c ≤ 2 ^ 24; omega) (.inl rfl)
    rw [e, zero_mul, zero_add] at this
    exact this
  · have h1 : 2 ^ 23 ≤ k := h1
    have h2 : k < 2 ^ 24 := h2
    have h : i * 2 ^ 23 + k < 255 * 2 ^ 23 := h
    refine ⟨i, k, rfl, h2, .inr h1, by omega, ?_⟩
    have := b32.value_mk i k (by show k ≤ 2 ^ 24; omega) (.inr h1)
    rw [e] at this
    exact this

/-- a finite `f32` is an `f64` -/
theorem widen_code {c : Nat} (h : c < b32.inf) : ∃ c', c' < b64.inf ∧ b64.value c' = b32.value c ∧ (c' = 0 ↔ c = 0) := by
  obtain ⟨i, k, -, hk, -, hi, hv⟩ := split32 h
  by_cases hk0 : k = 0
  · refine ⟨0, b64.inf_pos, ?_, ?_⟩
    · rw [hv, hk0, b64.value_zero]; simp
    · rw [hk0] at hv
      have : b32.value c = b32.value 0 := by rw [hv, b32.value_zero]; simp
      rw [b32.value_inj] at this
      simp [this]
  · -- the significand with 53 digits
    have hlog := Nat.log2_self_le hk0
    have hlog' := Nat.lt_log2_self (n := k)
    have hl : k.log2 < 24 := (Nat.log2_lt hk0).2 hk
    set s := 52 - k.log2 with hs
    have hlow : 2 ^ 52 ≤ k * 2 ^ s := by
      have : 2 ^ k.log2 * 2 ^ s = 2 ^ 52 := by rw [← pow_add]; congr 1; omega
      rw [← this]
      exact Nat.mul_le_mul_right _ hlog
    have hhigh : k * 2 ^ s < 2 ^ 53 := by
      have : 2 ^ (k.log2 + 1) * 2 ^ s = 2 ^ 53 := by rw [← pow_add]; congr 1; omega
      rw [← this]
      exact Nat.mul_lt_mul_of_pos_right hlog' (by positivity)
    have hv' := b64.value_mk (i + 925 - s) (k * 2 ^ s) hhigh.le (.inr hlow)
    have hv'' : b64.value ((i + 925 - s) * 2 ^ 52 + k * 2 ^ s) = b32.value c := by
      refine Eq.trans hv' ?_
      rw [hv, show b64.bias = 1023 from rfl, show b64.mb = 52 from rfl]
      push_cast [Nat.cast_sub (by omega : s ≤ i + 925)]
      rw [mul_assoc, ← zpow_natCast (2 : ℚ) s, ← zpow_add₀ (by norm_num : (2 : ℚ) ≠ 0)]
      congr 2
      ring
    refine ⟨_, ?_, hv'', ?_⟩
    · rw [b64_inf]
      omega
    · constructor
      · intro h0
        omega
      · intro h0
        rw [h0, b32.value_zero] at hv
        rw [eq_comm, mul_eq_zero] at hv
        rcases hv with hv | hv
        · exact absurd (by exact_mod_cast hv) hk0
        · exact absurd hv (two_zpow_pos _).ne'

theorem parts_hwTo64 (x : W) : (parts64 (hwTo64 x)).1 = (parts32 x).1 ∧
    (b64.inf < (parts64 (hwTo64 x)).2 ↔ b32.inf < (parts32 x).2) ∧ ((parts64 (hwTo64 x)).2 = b64.inf ↔ (parts32 x).2 = b32.inf) ∧
    ((parts64 (hwTo64 x)).2 = 0 ↔ (parts32 x).2 = 0) ∧
    ((parts32 x).2 < b32.inf → b64.val (parts64 (hwTo64 x)) = b32.val (parts32 x)) := by
  have hlt : (parts32 x).2 < 2 ^ 31 := Nat.mod_lt _ (by norm_num)
  unfold hwTo64
  rw [show x.toNat % 2 ^ 31 = (parts32 x).2 from rfl, show x.msb = (parts32 x).1 from rfl]
  dsimp only
  have h32 := b32_inf
  have h64 := b64_inf
  by_cases h1 : b32.inf < (parts32 x).2
  · rw [if_pos h1, parts_mk64 (by omega)]
    refine ⟨rfl, by dsimp only; omega, by dsimp only; omega, by dsimp only; omega, by omega⟩
  rw [if_neg h1]
  by_cases h2 : (parts32 x).2 = b32.inf
  · rw [if_pos h2, parts_mk64 (by omega)]
    refine ⟨rfl, by dsimp only; omega, by dsimp only; omega, by dsimp only; omega, by omega⟩
  rw [if_neg h2]
  obtain ⟨c', g1, g2, g3⟩ := widen_code (c := (parts32 x).2) (by omega)
  have hden : fmtDen b32 ≠ 0 := by decide
  have e : rneBits b64 (fmtNum b32 (parts32 x).2) (fmtDen b32) = c' :=
    rneBits_unique b64 hden (b64.nearest_self c' g1) (by rw [g2, b32.value_eq])
  rw [e, parts_mk64 (by omega)]
  refine ⟨rfl, by dsimp only; omega, by dsimp only; omega, by dsimp only; omega, fun _ => ?_⟩
  rw [b64.val_sgn, b32.val_sgn, g2]

/-- what `Float::from` makes of a single -/
theorem from32_shows (x : W) : ∃ a, fFromF32 x = .ok a ∧ MachineF b32 a (parts32 x) := by
  obtain ⟨a, ha, h⟩ := from64_shows (hwTo64 x)
  obtain ⟨p1, p2, p3, p4, p5⟩ := parts_hwTo64 x
  refine ⟨a, ha, h.ok, h.prec, h.mode, h.nan.trans p2, h.inf.trans p3, h.zero.trans p4, fun g => (h.neg g).trans p1, fun g => ?_⟩
  rw [h.val (by omega), p5 g]

/-- What is near a number of the format, is rounded to it. -/
theorem near_close {i k : Nat} (hi : 1 ≤ i) (hi' : i ≤ 253) (hk : 2 ^ 23 ≤ k) (hk' : k < 2 ^ 24) {v : ℚ}
    (hv : |v - k * 2 ^ ((i : ℤ) - 149)| < 2 ^ ((i : ℤ) - 151)) : b32.Nearest v (i * 2 ^ 23 + k) := by
  have e : ∀ i : ℕ, ((i : ℤ) + 1 - b32.bias - b32.mb) = i - 149 := by
    intro i
    rw [show b32.bias = 127 from rfl, show b32.mb = 23 from rfl]
    push_cast
    ring
  have val : ∀ i k : Nat, k ≤ 2 ^ 24 → 2 ^ 23 ≤ k → b32.value (i * 2 ^ 23 + k) = k * 2 ^ ((i : ℤ) - 149) := by
    intro i k h1 h2
    have := b32.value_mk i k h1 (.inr h2)
    rwa [e] at this
  have hc := val i k hk'.le hk
  have hu := two_zpow_pos ((i : ℤ) - 151)
  have e1 : (2 : ℚ) ^ ((i : ℤ) - 149) = 4 * 2 ^ ((i : ℤ) - 151) := by
    rw [show (i : ℤ) - 149 = 2 + (i - 151) by ring, zpow_add₀ (by norm_num)]
    norm_num
  have e2 : (2 : ℚ) ^ ((i : ℤ) - 150) = 2 * 2 ^ ((i : ℤ) - 151) := by
    rw [show (i : ℤ) - 150 = 1 + (i - 151) by ring, zpow_add₀ (by norm_num)]
    norm_num
  have gap : ∀ c', c' ≠ i * 2 ^ 23 + k → 2 * 2 ^ ((i : ℤ) - 151) ≤ |b32.value c' - b32.value (i * 2 ^ 23 + k)| := by
    intro c' hne
    rcases Nat.lt_or_gt_of_ne hne with h | h
    · have hle : b32.value c' ≤ b32.value (i * 2 ^ 23 + k - 1) := b32.value_le.2 (by omega)
      have hd : b32.value (i * 2 ^ 23 + k - 1) + 2 * 2 ^ ((i : ℤ) - 151) ≤ b32.value (i * 2 ^ 23 + k) := by
        by_cases hk1 : k = 2 ^ 23
        · rw [show i * 2 ^ 23 + k - 1 = (i - 1) * 2 ^ 23 + (2 ^ 24 - 1) by omega, val _ _ (by norm_num) (by norm_num), hc, hk1]
          push_cast [Nat.cast_sub hi]
          rw [show (i : ℤ) - 1 - 149 = i - 150 by ring, e1, e2]
          linarith
        · rw [show i * 2 ^ 23 + k - 1 = i * 2 ^ 23 + (k - 1) by omega, val _ _ (by omega) (by omega), hc]
          push_cast [Nat.cast_sub (show 1 ≤ k by omega)]
          rw [e1]
          linarith
      rw [abs_sub_comm]
      exact le_trans (by linarith) (le_abs_self _)
    · have hle : b32.value (i * 2 ^ 23 + k + 1) ≤ b32.value c' := b32.value_le.2 (by omega)
      rw [Nat.add_assoc, val _ _ (by omega) (by omega)] at hle
      rw [hc]
      refine le_trans ?_ (le_abs_self _)
      push_cast at hle
      rw [e1] at hle ⊢
      linarith
  left
  refine ⟨by rw [b32_inf]; omega, ?_, fun c' _ => ?_⟩
  · have h1 : b32.value (i * 2 ^ 23 + k) ≤ b32.value (253 * 2 ^ 23 + (2 ^ 24 - 1)) := b32.value_le.2 (by omega)
    rw [val 253 _ (by norm_num) (by norm_num), hc] at h1
    have h2 := (abs_lt.1 hv).2
    have h3 : (2 : ℚ) ^ ((i : ℤ) - 151) ≤ 2 ^ (102 : ℤ) := zpow_le_iff.2 (by omega)
    rw [show ((b32.bias : ℕ) : ℤ) = 127 from rfl, show ((b32.mb : ℕ) : ℤ) = 23 from rfl]
    norm_num at h1 h3 ⊢
    linarith
  · rw [hc]
    have hb : |(k : ℚ) * 2 ^ ((i : ℤ) - 149) - v| < 2 ^ ((i : ℤ) - 151) := by rw [abs_sub_comm]; exact hv
    by_cases hne : c' = i * 2 ^ 23 + k
    · rw [hne, hc]
      exact ⟨le_rfl, fun _ h => absurd rfl h⟩
    · have g := gap c' hne
      rw [hc] at g
      have tri := abs_sub_abs_le_abs_sub (b32.value c' - k * 2 ^ ((i : ℤ) - 149)) (v - k * 2 ^ ((i : ℤ) - 149))
      rw [sub_sub_sub_cancel_right] at tri
      exact ⟨by linarith, fun h => by linarith⟩

/-- rounding a sum of two singles to 53 digits first makes no difference -/
theorem sum_double {x y : Bool × Nat} (hx : x.2 < b32.inf) (hy : y.2 < b32.inf) {r : ℚ}
    (hr : Rounded .toNearestEven 53 (b32.val x + b32.val y) r) {c : Nat} (hc : b32.Nearest |r| c) : b32.Nearest |b32.val x + b32.val y| c := by
  obtain ⟨i, k, hx2, hk, hik, hi, vx⟩ := split32 hx
  obtain ⟨j, l, hy2, hl, hjl, hj, vy⟩ := split32 hy
  wlog hji : j ≤ i generalizing x y i j k l
  · rw [add_comm] at hr ⊢
    exact this hy hx hr j l hy2 hl hjl hj vy i k hx2 hk hik hi vx (by omega)
  by_cases hd : i ≤ j + 28
  · -- the sum has at most 53 digits
    obtain ⟨n, rfl⟩ := Nat.exists_eq_add_of_le hji
    have hsg : ∀ s : Bool, sgn s = ((if s then -1 else 1 : ℤ) : ℚ) := by intro s; unfold sgn; split <;> norm_num
    have hq : b32.val x + b32.val y = (((if x.1 then -1 else 1) * (k * 2 ^ n) + (if y.1 then -1 else 1) * l : ℤ) : ℚ) * 2 ^ ((j : ℤ) - 149) := by
      rw [b32.val_sgn, b32.val_sgn, vx, vy, hsg, hsg]
      push_cast
      rw [show (j : ℤ) + n - 149 = n + (j - 149) by ring, zpow_add₀ (by norm_num), zpow_natCast]
      ring
    have hb : |(((if x.1 then -1 else 1) * (k * 2 ^ n) + (if y.1 then -1 else 1) * l : ℤ) : ℚ)| ≤ 2 ^ 53 := by
      have h1 : k * 2 ^ n ≤ 2 ^ 24 * 2 ^ 28 := Nat.mul_le_mul hk.le (Nat.pow_le_pow_right (by norm_num) (by omega))
      have h2 : |((if x.1 then -1 else 1) * (k * 2 ^ n) + (if y.1 then -1 else 1) * l : ℤ)| ≤ 2 ^ 53 := by
        have h1' : ((k : ℤ) * 2 ^ n) ≤ 2 ^ 24 * 2 ^ 28 := by exact_mod_cast h1
        have h0 : (0 : ℤ) ≤ k * 2 ^ n := by positivity
        rw [abs_le]
        generalize (k : ℤ) * 2 ^ n = t at *
        constructor <;> split <;> split <;> omega
      exact_mod_cast h2
    rwa [hr.exact (by norm_num) hq hb] at hc
  · -- the sum is so near to `x` that it is rounded to `x`
    have hk23 : 2 ^ 23 ≤ k := hik.resolve_left (by omega)
    have h5 : |b32.val y| < 2 ^ ((i : ℤ) - 154) := by
      have : |b32.val y| = l * 2 ^ ((j : ℤ) - 149) := by
        rw [b32.val_sgn, abs_mul, vy, abs_of_nonneg (by positivity : (0 : ℚ) ≤ l * 2 ^ ((j : ℤ) - 149))]
        rw [show |sgn y.1| = 1 by unfold sgn; split <;> norm_num, one_mul]
      rw [this]
      have hl' : (l : ℚ) < 2 ^ (24 : ℤ) := by
        norm_num
        exact_mod_cast hl
      calc (l : ℚ) * 2 ^ ((j : ℤ) - 149) < 2 ^ (24 : ℤ) * 2 ^ ((j : ℤ) - 149) := mul_lt_mul_of_pos_right hl' (two_zpow_pos _)
        _ = 2 ^ ((j : ℤ) - 125) := by rw [← zpow_add₀ (by norm_num)]; congr 1; ring
        _ ≤ _ := zpow_le_iff.2 (by omega)
    have hax : |b32.val x| = k * 2 ^ ((i : ℤ) - 149) := by
      rw [b32.val_sgn, abs_mul, vx, abs_of_nonneg (by positivity : (0 : ℚ) ≤ k * 2 ^ ((i : ℤ) - 149))]
      rw [show |sgn x.1| = 1 by unfold sgn; split <;> norm_num, one_mul]
    have hax' : |b32.val x| < 2 ^ ((i : ℤ) - 125) := by
      rw [hax]
      have hk' : (k : ℚ) < 2 ^ (24 : ℤ) := by
        norm_num
        exact_mod_cast hk
      calc (k : ℚ) * 2 ^ ((i : ℤ) - 149) < 2 ^ (24 : ℤ) * 2 ^ ((i : ℤ) - 149) := mul_lt_mul_of_pos_right hk' (two_zpow_pos _)
        _ = 2 ^ ((i : ℤ) - 125) := by rw [← zpow_add₀ (by norm_num)]; congr 1; ring
    have hu := two_zpow_pos ((i : ℤ) - 154)
    have e1 : (2 : ℚ) ^ ((i : ℤ) - 151) = 8 * 2 ^ ((i : ℤ) - 154) := by
      rw [show (i : ℤ) - 151 = 3 + (i - 154) by ring, zpow_add₀ (by norm_num)]
      norm_num
    have hq1 : |(|b32.val x + b32.val y| - |b32.val x|)| < 2 ^ ((i : ℤ) - 154) := by
      refine lt_of_le_of_lt (abs_abs_sub_abs_le_abs_sub _ _) ?_
      rwa [add_sub_cancel_left]
    have hqr : |r - (b32.val x + b32.val y)| ≤ 2 ^ ((i : ℤ) - 154) := by
      rcases hr with ⟨h0, h0'⟩ | ⟨e, m, g1, g2, g3, g4⟩
      · rw [h0, h0', sub_zero, abs_zero]; exact hu.le
      · have he : e ≤ i - 123 := by
          have h1 := abs_add_le (b32.val x) (b32.val y)
          have h2 : (2 : ℚ) ^ ((i : ℤ) - 124) = 2 * 2 ^ ((i : ℤ) - 125) := by
            rw [show (i : ℤ) - 124 = 1 + (i - 125) by ring, zpow_add₀ (by norm_num)]
            norm_num
          have h3 : (2 : ℚ) ^ ((i : ℤ) - 154) ≤ 2 ^ ((i : ℤ) - 125) := zpow_le_iff.2 (by omega)
          have h4 : (2 : ℚ) ^ (e - 1) < 2 ^ ((i : ℤ) - 124) := by linarith
          have := zpow_lt_iff.1 h4
          omega
        have g5 : |(b32.val x + b32.val y) / 2 ^ (e - (53 : ℕ)) - m| ≤ 1 / 2 := g4.1
        have hp := two_zpow_pos (e - ((53 : ℕ) : ℤ))
        have : |r - (b32.val x + b32.val y)| = |(b32.val x + b32.val y) / 2 ^ (e - ((53 : ℕ) : ℤ)) - m| * 2 ^ (e - ((53 : ℕ) : ℤ)) := by
          rw [abs_sub_comm, g3]
          conv_rhs => rw [← abs_of_pos hp, ← abs_mul, abs_of_pos hp, sub_mul, div_mul_cancel₀ _ hp.ne']
        rw [this]
        have h6 : (2 : ℚ) ^ (e - ((53 : ℕ) : ℤ)) ≤ 2 ^ ((i : ℤ) - 154) := zpow_le_iff.2 (by push_cast; omega)
        refine (mul_le_mul_of_nonneg_right g5 hp.le).trans ?_
        rw [one_div_mul_eq_div]
        exact (half_le_self hp.le).trans h6
    have hr1 : |(|r| - |b32.val x|)| < 2 ^ ((i : ℤ) - 151) := by
      have h1 := abs_abs_sub_abs_le_abs_sub r (b32.val x + b32.val y)
      have h2 := abs_add_le (|r| - |b32.val x + b32.val y|) (|b32.val x + b32.val y| - |b32.val x|)
      rw [sub_add_sub_cancel] at h2
      rw [e1]
      linarith
    have hq2 : |(|b32.val x + b32.val y| - |b32.val x|)| < 2 ^ ((i : ℤ) - 151) := by
      rw [e1]
      linarith
    rw [hax] at hr1 hq2
    rw [hc.unique (near_close (by omega) hi hk23 hk hr1)]
    exact near_close (by omega) hi hk23 hk hq2

theorem to32_nan {z : FloatV} (h : z.form = .nan) : fToF32 z = .ok (0x7fc00000#32, .exact) := by simp [fToF32, h]
theorem to32_inf {z : FloatV} (h : z.form = .inf) : fToF32 z = .ok (mk32 z.neg b32.inf, .exact) := (C76_special.2.1 h).2
theorem to32_zero {z : FloatV} (h : z.form = .zero) : fToF32 z = .ok (mk32 z.neg 0, .exact) := (C76_special.1 h).2

theorem parts_mk32 {s : Bool} {c : Nat} (h : c < 2 ^ 31) : parts32 (mk32 s c) = (s, c) :=
  Prod.ext (msb_mk32 s c h) (mk32_code s c h)

theorem mk32_parts (x : W) : mk32 (parts32 x).1 (parts32 x).2 = x := by
  unfold mk32 parts32
  apply BitVec.eq_of_toNat_eq
  rw [BitVec.toNat_ofNat, BitVec.msb_eq_decide]
  have := x.isLt
  by_cases h : 2 ^ (32 - 1) ≤ x.toNat
  · simp only [h, decide_true, if_true]; omega
  · simp only [h, decide_false, Bool.false_eq_true, if_false]; omega

theorem via32_eq {f : FloatV → FloatV → Res FloatV} {x y d : W} {a b z : FloatV} {t : Accuracy} (ha : fFromF32 x = .ok a)
    (hb : fFromF32 y = .ok b) (hz : f a b = .ok z) (hd : fToF32 z = .ok (d, t)) : viaFloat32 f x y = .ok d := by
  unfold viaFloat32
  rw [ha, hb]
  show (do let z ← f a b; let r ← fToF32 z; pure r.1) = _
  rw [hz]
  show (do let r ← fToF32 z; pure r.1) = _
  rw [hd]
  rfl

theorem nan32_bits : b32.inf < (parts32 0x7fc00000#32).2 := by decide
theorem inf32_lt : b32.inf < 2 ^ 31 := by decide

/-- a finite single is a multiple of the least one, and less than `2^128` -/
theorem val_grid {x : Bool × Nat} (h : x.2 < b32.inf) : (∃ k : ℤ, b32.val x = k * 2 ^ (-149 : ℤ)) ∧ |b32.val x| < 2 ^ (128 : ℤ) := by
  obtain ⟨i, k, -, hk, -, hi, hv⟩ := split32 h
  have hsg : sgn x.1 = ((if x.1 then -1 else 1 : ℤ) : ℚ) := by unfold sgn; split <;> norm_num
  have hab : |sgn x.1| = 1 := by unfold sgn; split <;> norm_num
  constructor
  · refine ⟨(if x.1 then -1 else 1) * (k * 2 ^ i), ?_⟩
    rw [b32.val_sgn, hv, hsg]
    push_cast
    rw [show (i : ℤ) - 149 = i + -149 by ring, zpow_add₀ (by norm_num), zpow_natCast]
    ring
  · rw [b32.val_sgn, abs_mul, hab, one_mul, abs_of_nonneg (b32.value_nonneg _)]
    have := b32.value_lt.2 h
    rw [b32.value_inf] at this
    exact this

/-- a number with 53 digits, to a single -/
theorem rounded_to32 {q : ℚ} {z : FloatV} (h : RoundedFrom q z) (hlow : (2 : ℚ) ^ (-298 : ℤ) ≤ |q|) (hhigh : |q| < 2 ^ (256 : ℤ)) :
    ∃ r, Rounded .toNearestEven 53 q r ∧ FloatOk z ∧ z.form = .finite ∧ fval z = r ∧ z.neg = decide (q < 0) := by
  obtain ⟨v, hv, dz⟩ := h
  have hq0 : q ≠ 0 := by
    rintro rfl
    rw [abs_zero] at hlow
    exact absurd hlow (not_le.2 (two_zpow_pos _))
  unfold FRounds at hv
  rw [if_neg (not_lt.2 (le_trans (zpow_le_iff.2 (by decide)) hlow))] at hv
  obtain ⟨r, hr, hvr⟩ := hv
  have hbig : |r| < 2 ^ maxExp := by
    obtain ⟨e, h1, h2⟩ := exists_binade hq0
    have key : |r| ≤ 2 ^ (e + 1) := by
      rcases lt_or_gt_of_ne hq0 with g | g
      · rw [abs_of_neg g] at h1 h2
        have := hr.negate.binade (by norm_num) (by linarith) (e := e + 1) (by simpa using h1) h2
        rw [← abs_neg, abs_of_nonneg (le_trans (two_zpow_pos _).le this.1)]
        exact this.2
      · rw [abs_of_pos g] at h1 h2
        have := hr.binade (by norm_num) g (e := e + 1) (by simpa using h1) h2
        rw [abs_of_nonneg (le_trans (two_zpow_pos _).le this.1)]
        exact this.2
    refine lt_of_le_of_lt key (zpow_lt_iff.2 ?_)
    have := zpow_lt_iff.1 (lt_of_le_of_lt h1 hhigh)
    unfold maxExp
    omega
  rw [if_pos hbig] at hvr
  subst hvr
  have hz' : FDen z ⟨r, 53, .toNearestEven⟩ := dz
  have hval : fval z = r := hz'.2.2.1
  have hr1 := hr.ne_zero (by norm_num) hlow
  have hf : z.form = .finite := by
    rcases hz'.2.1 with h | h
    · exact h
    · have : fval z = 0 := by unfold fval; rw [if_neg (by rw [h]; decide)]
      rw [← hval, this, abs_zero] at hr1
      exact absurd hr1 (not_le.2 (two_zpow_pos _))
  exact ⟨r, hr, hz'.1, hf, hval, neg_decide hz'.1 hf hval hr⟩

theorem sum_to32 {x y : Bool × Nat} (hx : x.2 < b32.inf) (hy : y.2 < b32.inf) (h0 : b32.val x + b32.val y ≠ 0) {z : FloatV}
    (hz : RoundedFrom (b32.val x + b32.val y) z) : ∃ d t, fToF32 z = .ok (d, t) ∧ b32.Near (b32.val x + b32.val y) (parts32 d) := by
  obtain ⟨⟨k, hk⟩, hxb⟩ := val_grid hx
  obtain ⟨⟨l, hl⟩, hyb⟩ := val_grid hy
  have hu := two_zpow_pos (-149 : ℤ)
  have hq : b32.val x + b32.val y = ((k + l : ℤ) : ℚ) * 2 ^ (-149 : ℤ) := by rw [hk, hl]; push_cast; ring
  have hkl : k + l ≠ 0 := by
    intro h
    rw [h] at hq
    exact h0 (by rw [hq]; simp)
  have hlow : (2 : ℚ) ^ (-149 : ℤ) ≤ |b32.val x + b32.val y| := by
    have : (1 : ℚ) ≤ |((k + l : ℤ) : ℚ)| := by exact_mod_cast Int.one_le_abs hkl
    rw [hq, abs_mul, abs_of_pos hu]
    nlinarith
  have hhigh : |b32.val x + b32.val y| < 2 ^ (129 : ℤ) := by
    have := abs_add_le (b32.val x) (b32.val y)
    norm_num at hxb hyb ⊢
    linarith
  obtain ⟨r, hr, ok, hf, hv, hn⟩ := rounded_to32 hz (le_trans (zpow_le_iff.2 (by norm_num)) hlow) (lt_trans hhigh (zpow_lt_iff.2 (by norm_num)))
  have hr1 := hr.ne_zero (by norm_num) hlow
  obtain ⟨c, a, h1, h2, -⟩ := C76_to_f32_partial ok hf (by
    rintro ⟨-, h⟩
    rw [hv] at h
    exact absurd (lt_of_le_of_lt hr1 h) (lt_irrefl _))
  rw [hv] at h2
  refine ⟨_, _, h1, ?_⟩
  rw [parts_mk32 (nearest32_lt h2)]
  exact ⟨hn, sum_double hx hy hr h2⟩

/-- from the kind of a sum to the single -/
theorem SumForm.to32 {x w : Bool × Nat} {z : FloatV} (h : SumForm b32 x w z) :
    ∃ d t, fToF32 z = .ok (d, t) ∧ IeeeSum b32 x w (parts32 d) := by
  by_cases hn : b32.inf < x.2 ∨ b32.inf < w.2 ∨ (x.2 = b32.inf ∧ w.2 = b32.inf ∧ x.1 ≠ w.1)
  · refine ⟨_, _, to32_nan (h.nan hn), fun _ => nan32_bits, fun g1 g2 g3 => ?_, fun g1 g2 => ?_, fun g1 g2 => ?_, fun g1 g2 => ?_⟩
    all_goals
      rcases hn with hn | hn | hn
      · omega
      · omega
      · first | omega | exact absurd hn.2 g3
  by_cases hx : x.2 = b32.inf
  · obtain ⟨g1, g2⟩ := h.infL hx (by omega) (fun k => hn (.inr (.inr ⟨hx, k⟩)))
    refine ⟨_, _, to32_inf g1, fun g => absurd g hn, fun _ _ _ => ?_, by omega, by omega, by omega⟩
    rw [parts_mk32 inf32_lt, g2, ← hx]
  by_cases hv : w.2 = b32.inf
  · obtain ⟨g1, g2⟩ := h.infR (by omega) hv
    refine ⟨_, _, to32_inf g1, fun g => absurd g hn, by omega, fun _ _ => ?_, by omega, by omega⟩
    rw [parts_mk32 inf32_lt, g2, ← hv]
  have lx : x.2 < b32.inf := by omega
  have lv : w.2 < b32.inf := by omega
  by_cases h0 : b32.val x + b32.val w = 0
  · obtain ⟨g1, g2⟩ := h.zero lx lv h0
    refine ⟨_, _, to32_zero g1, fun g => absurd g hn, by omega, by omega, fun _ _ _ => ?_, fun _ _ g => absurd h0 g⟩
    rw [parts_mk32 (by norm_num), g2]
  · obtain ⟨d, t, e, hd⟩ := sum_to32 lx lv h0 (h.num lx lv h0)
    exact ⟨d, t, e, fun g => absurd g hn, by omega, by omega, fun _ _ g => absurd g h0, fun _ _ _ => hd⟩

/-- a product of two singles has at most 48 digits -/
theorem prod_exact {x y : Bool × Nat} (hx : x.2 < b32.inf) (hy : y.2 < b32.inf) (h0 : b32.val x * b32.val y ≠ 0) {z : FloatV}
    (hz : RoundedFrom (b32.val x * b32.val y) z) : FloatOk z ∧ z.form = .finite ∧ fval z = b32.val x * b32.val y ∧
      z.neg = decide (b32.val x * b32.val y < 0) := by
  obtain ⟨i, k, hx2, hk, hik, hi, vx⟩ := split32 hx
  obtain ⟨j, l, hy2, hl, hjl, hj, vy⟩ := split32 hy
  have hsg : ∀ s : Bool, sgn s = ((if s then -1 else 1 : ℤ) : ℚ) := by intro s; unfold sgn; split <;> norm_num
  have hq : b32.val x * b32.val y = (((if x.1 then -1 else 1) * (if y.1 then -1 else 1) * (k * l) : ℤ) : ℚ) * 2 ^ ((i : ℤ) + j - 298) := by
    rw [b32.val_sgn, b32.val_sgn, vx, vy, hsg, hsg]
    push_cast
    rw [show (i : ℤ) + j - 298 = (i - 149) + (j - 149) by ring, zpow_add₀ (by norm_num)]
    ring
  have hb : |(((if x.1 then -1 else 1) * (if y.1 then -1 else 1) * (k * l) : ℤ) : ℚ)| ≤ 2 ^ 53 := by
    have h1 : k * l ≤ 2 ^ 24 * 2 ^ 24 := Nat.mul_le_mul hk.le hl.le
    have h2 : |((if x.1 then -1 else 1) * (if y.1 then -1 else 1) * (k * l) : ℤ)| ≤ 2 ^ 53 := by
      have h1' : ((k : ℤ) * l) ≤ 2 ^ 24 * 2 ^ 24 := by exact_mod_cast h1
      have h0 : (0 : ℤ) ≤ k * l := by positivity
      rw [abs_le]
      generalize (k : ℤ) * l = t at *
      constructor <;> split <;> split <;> omega
    exact_mod_cast h2
  obtain ⟨⟨k', hk'⟩, hxb⟩ := val_grid hx
  obtain ⟨⟨l', hl'⟩, hyb⟩ := val_grid hy
  have hlow : (2 : ℚ) ^ (-298 : ℤ) ≤ |b32.val x * b32.val y| := by
    have hq' : b32.val x * b32.val y = ((k' * l' : ℤ) : ℚ) * 2 ^ (-298 : ℤ) := by
      rw [hk', hl']
      rw [Int.cast_mul]
      rw [show (-298 : ℤ) = -149 + -149 by norm_num, zpow_add₀ (by norm_num)]
      ring
    have hne : k' * l' ≠ 0 := by
      intro h
      rw [h] at hq'
      exact h0 (by rw [hq']; simp)
    have : (1 : ℚ) ≤ |((k' * l' : ℤ) : ℚ)| := by exact_mod_cast Int.one_le_abs hne
    have hu := two_zpow_pos (-298 : ℤ)
    rw [hq', abs_mul, abs_of_pos hu]
    nlinarith
  have hhigh : |b32.val x * b32.val y| < 2 ^ (256 : ℤ) := by
    rw [abs_mul, show (256 : ℤ) = 128 + 128 by norm_num, zpow_add₀ (by norm_num)]
    exact mul_lt_mul'' hxb hyb (abs_nonneg _) (abs_nonneg _)
  obtain ⟨r, hr, ok, hf, hv, hn⟩ := rounded_to32 hz hlow hhigh
  exact ⟨ok, hf, by rw [hv, hr.exact (by norm_num) hq hb], hn⟩

/-! ## C123 -/

/-- **C123** for sums: for all singles, whatever they are, except `-0 + 0`, which is `-0` instead of `0`. -/
theorem C123_add (x y : W) : ∃ d, viaFloat32 fAdd x y = .ok d ∧
    (¬ (x = 0x80000000#32 ∧ y = 0#32) → IeeeSum b32 (parts32 x) (parts32 y) (parts32 d)) ∧
    (x = 0x80000000#32 ∧ y = 0#32 → d = 0x80000000#32) := by
  obtain ⟨a, ea, ha⟩ := from32_shows x
  obtain ⟨b, eb, hb⟩ := from32_shows y
  obtain ⟨z, hz, h1, h2⟩ := add_forms ha hb
  have hex : (x = 0x80000000#32 ∧ y = 0#32) ↔ (parts32 x = (true, 0) ∧ parts32 y = (false, 0)) := by
    constructor
    · rintro ⟨rfl, rfl⟩
      decide
    · rintro ⟨e1, e2⟩
      have k1 := mk32_parts x
      have k2 := mk32_parts y
      rw [e1] at k1
      rw [e2] at k2
      exact ⟨k1.symm, k2.symm⟩
  by_cases hc : x = 0x80000000#32 ∧ y = 0#32
  · obtain ⟨g1, g2⟩ := h2 (hex.1 hc)
    have e := to32_zero g1
    rw [g2] at e
    exact ⟨_, via32_eq ea eb hz e, fun h => absurd hc h, fun _ => rfl⟩
  · obtain ⟨d, t, e, hd⟩ := (h1 (fun h => hc (hex.2 h))).to32
    exact ⟨d, via32_eq ea eb hz e, fun _ => hd, fun h => absurd h hc⟩

/-- **C123** for differences: `x - y` is `x + (-y)`, except in two cases: `0 - y`, for a number `y` other than zero, and a number minus an
infinity.  The result is `y` then. -/
theorem C123_sub (x y : W) : ∃ d, viaFloat32 fSub x y = .ok d ∧
    (¬ ((parts32 x).2 = 0 ∧ (parts32 y).2 ≠ 0 ∧ (parts32 y).2 < b32.inf) ∧ ¬ ((parts32 x).2 < b32.inf ∧ (parts32 y).2 = b32.inf) →
      IeeeSum b32 (parts32 x) (opp (parts32 y)) (parts32 d)) ∧
    (((parts32 x).2 = 0 ∧ (parts32 y).2 ≠ 0 ∧ (parts32 y).2 < b32.inf) ∨ ((parts32 x).2 < b32.inf ∧ (parts32 y).2 = b32.inf) → d = y) := by
  obtain ⟨a, ea, ha⟩ := from32_shows x
  obtain ⟨b, eb, hb⟩ := from32_shows y
  obtain ⟨z, hz, h1, h2, h3⟩ := sub_forms ha hb
  by_cases hc : (parts32 x).2 = 0 ∧ (parts32 y).2 ≠ 0 ∧ (parts32 y).2 < b32.inf
  · have hr := h2 hc
    have e0 : b32.val (false, 0) = 0 := b32.val_zero_iff.2 rfl
    have hne : b32.val (parts32 y) ≠ 0 := fun h => hc.2.1 (b32.val_zero_iff.1 h)
    obtain ⟨d, t, e, hd⟩ := sum_to32 (x := (false, 0)) b32.inf_pos hc.2.2 (by rwa [e0, zero_add]) (by rwa [e0, zero_add])
    rw [e0, zero_add] at hd
    refine ⟨d, via32_eq ea eb hz e, fun h => absurd hc h.1, fun _ => ?_⟩
    rw [← mk32_parts d, b32.near_self hc.2.2 hc.2.1 hd, mk32_parts]
  by_cases hc' : (parts32 x).2 < b32.inf ∧ (parts32 y).2 = b32.inf
  · obtain ⟨g1, g2⟩ := h3 hc'
    have e := to32_inf g1
    rw [g2, ← hc'.2, mk32_parts] at e
    exact ⟨_, via32_eq ea eb hz e, fun h => absurd hc' h.2, fun _ => rfl⟩
  · obtain ⟨d, t, e, hd⟩ := (h1 ⟨hc, hc'⟩).to32
    exact ⟨d, via32_eq ea eb hz e, fun _ => hd, fun h => absurd h (not_or.2 ⟨hc, hc'⟩)⟩

/-- **C123** for products: for all singles, except numbers whose product is between half the least positive single and the least positive
single.  The result is `2^-126` then (with the sign of the product), instead of `2^-149`. -/
theorem C123_mul (x y : W) : ∃ d, viaFloat32 fMul x y = .ok d ∧
    (¬ ((parts32 x).2 < b32.inf ∧ (parts32 y).2 < b32.inf ∧ (2 : ℚ) ^ (-150 : ℤ) < |b32.val (parts32 x) * b32.val (parts32 y)| ∧
        |b32.val (parts32 x) * b32.val (parts32 y)| < 2 ^ (-149 : ℤ)) → IeeeProd b32 (parts32 x) (parts32 y) (parts32 d)) ∧
    ((parts32 x).2 < b32.inf → (parts32 y).2 < b32.inf → (2 : ℚ) ^ (-150 : ℤ) < |b32.val (parts32 x) * b32.val (parts32 y)| →
        |b32.val (parts32 x) * b32.val (parts32 y)| < 2 ^ (-149 : ℤ) →
      d = mk32 (decide (b32.val (parts32 x) * b32.val (parts32 y) < 0)) (2 ^ 23) ∧ b32.value (2 ^ 23) = 2 ^ (-126 : ℤ)) := by
  obtain ⟨a, ea, ha⟩ := from32_shows x
  obtain ⟨b, eb, hb⟩ := from32_shows y
  obtain ⟨z, hz, f1, f2, f3, f4⟩ := mul_forms ha hb
  generalize parts32 x = x at *
  generalize parts32 y = y at *
  have hi := b32.inf_pos
  by_cases hn : b32.inf < x.2 ∨ b32.inf < y.2 ∨ (x.2 = b32.inf ∧ y.2 = 0) ∨ (x.2 = 0 ∧ y.2 = b32.inf)
  · refine ⟨_, via32_eq ea eb hz (to32_nan (f1 hn)), fun _ => ⟨fun _ => nan32_bits, by omega, by omega, by omega⟩, by omega⟩
  by_cases hinf : x.2 = b32.inf ∨ y.2 = b32.inf
  · obtain ⟨g1, g2⟩ := f2 hinf (by omega) (by omega) (by omega) (by omega)
    refine ⟨_, via32_eq ea eb hz (to32_inf g1), fun _ => ⟨fun g => absurd g hn, fun _ _ _ _ _ => ?_, by omega, by omega⟩, by omega⟩
    rw [parts_mk32 inf32_lt, g2]
  have lx : x.2 < b32.inf := by omega
  have ly : y.2 < b32.inf := by omega
  by_cases h0 : b32.val x * b32.val y = 0
  · obtain ⟨g1, g2⟩ := f3 lx ly h0
    refine ⟨_, via32_eq ea eb hz (to32_zero g1), fun _ => ⟨fun g => absurd g hn, by omega, fun _ _ _ => ?_, fun _ _ g => absurd h0 g⟩, ?_⟩
    · rw [parts_mk32 (by norm_num), g2]
    · intro _ _ g
      rw [h0, abs_zero] at g
      exact absurd g (not_lt.2 (two_zpow_pos _).le)
  · obtain ⟨ok, hf, hv, hs⟩ := prod_exact lx ly h0 (f4 lx ly h0)
    by_cases hgap : (2 : ℚ) ^ (-150 : ℤ) < |b32.val x * b32.val y| ∧ |b32.val x * b32.val y| < 2 ^ (-149 : ℤ)
    · obtain ⟨e, -, -⟩ := (C76_gap ok hf).2 (by rw [hv]; exact hgap.1) (by rw [hv]; exact hgap.2)
      refine ⟨_, via32_eq ea eb hz e, fun g => absurd ⟨lx, ly, hgap⟩ g, fun _ _ _ _ => ⟨by rw [hs], ?_⟩⟩
      have := b32.value_normal
      rw [b32.value_one, show ((b32.bias : ℕ) : ℤ) = 127 from rfl, show b32.mb = 23 from rfl] at this
      rw [this]
      norm_num
    · obtain ⟨c, t, e, h2, -⟩ := C76_to_f32_partial ok hf (by rw [hv]; exact hgap)
      rw [hv] at h2
      refine ⟨_, via32_eq ea eb hz e, fun _ => ⟨fun g => absurd g hn, by omega, fun _ _ g => absurd g h0, fun _ _ _ => ?_⟩,
        fun _ _ g1 g2 => absurd ⟨g1, g2⟩ hgap⟩
      rw [parts_mk32 (nearest32_lt h2)]
      exact ⟨hs, h2⟩

/-- **C123 fails** for `-0 + 0`, which is `-0`, for `0 - 1`, which is `1`, for `1 - inf`, which is `inf`, and for the product of the
normal numbers `3/2 · 2^-100` and `2^-50`, which is `2^-126` instead of `2^-149`. -/
theorem C123_violated :
    (∃ d, viaFloat32 fAdd 0x80000000#32 0#32 = .ok d ∧ ¬ IeeeSum b32 (true, 0) (false, 0) (parts32 d)) ∧
    (∃ d, viaFloat32 fSub 0#32 0x3f800000#32 = .ok d ∧ ¬ IeeeSum b32 (false, 0) (true, 0x3f800000) (parts32 d)) ∧
    (∃ d, viaFloat32 fSub 0x3f800000#32 0x7f800000#32 = .ok d ∧ ¬ IeeeSum b32 (false, 0x3f800000) (true, 0x7f800000) (parts32 d)) ∧
    (viaFloat32 fMul 0x0dc00000#32 0x26800000#32 = .ok 0x00800000#32 ∧
      b32.val (false, 0x0dc00000) = 3 / 2 * 2 ^ (-100 : ℤ) ∧ b32.val (false, 0x26800000) = 2 ^ (-50 : ℤ) ∧
      ¬ IeeeProd b32 (false, 0x0dc00000) (false, 0x26800000) (parts32 0x00800000#32)) := by
  have v1 : b32.val (false, 0x0dc00000) = 3 / 2 * 2 ^ (-100 : ℤ) := by decide +kernel
  have v2 : b32.val (false, 0x26800000) = 2 ^ (-50 : ℤ) := by decide +kernel
  refine ⟨⟨0x80000000#32, by decide +kernel, fun h => ?_⟩, ⟨0x3f800000#32, by decide +kernel, fun h => ?_⟩,
    ⟨0x7f800000#32, by decide +kernel, fun h => ?_⟩, by decide +kernel, v1, v2, fun h => ?_⟩
  · exact absurd (h.zero (by decide) (by decide) (by decide +kernel)) (by decide)
  · have h0 : b32.val (false, 0) = 0 := b32.val_zero_iff.2 rfl
    have := h.num (by decide) (by decide)
    rw [h0, zero_add] at this
    exact absurd (b32.near_self (by decide) (by decide) (this (fun h => absurd (b32.val_zero_iff.1 h) (by decide)))) (by decide)
  · exact absurd (h.infR (by decide) (by decide)) (by decide)
  · have hn := (h.num (by decide) (by decide) (by rw [v1, v2]; positivity)).2
    have h1 : b32.Nearest |b32.val (false, 0x0dc00000) * b32.val (false, 0x26800000)| 1 := by
      have e : b32.value 1 = 2 ^ (-149 : ℤ) := by decide +kernel
      rw [v1, v2, abs_of_pos (by positivity)]
      exact b32.nearest_one (by rw [e]; norm_num) (by rw [e]; norm_num)
    exact absurd (hn.unique h1) (by decide)

example : parts32 0xbf800000#32 = (true, 0x3f800000) ∧ b32.val (true, 0x3f800000) = -1 ∧
    viaFloat32 fAdd 0x3f800000#32 0x33800000#32 = .ok 0x3f800000#32 ∧
    viaFloat32 fSub 0x3f800000#32 0xbf800000#32 = .ok 0x40000000#32 ∧
    viaFloat32 fMul 0x7f000000#32 0xc0000000#32 = .ok 0xff800000#32 ∧
    viaFloat32 fMul 0x0d800000#32 0x26800000#32 = .ok 0x00000000#32 := by
  refine ⟨by decide, by decide +kernel, by decide +kernel, by decide +kernel, by decide +kernel, by decide +kernel⟩

end RMath
