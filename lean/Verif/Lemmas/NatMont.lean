import Verif.Model.NatExp
import Verif.Lemmas.NatFun
import Mathlib.Data.BitVec
import Mathlib.Data.Nat.ModEq
import Mathlib.Tactic.LinearCombination

/-! Proofs about Montgomery multiplication. -/

namespace RMath

/-! ## the constant `-m⁻¹ mod 2^32` -/

theorem k0Loop_spec (m : W) (n : Nat) : ∀ (t k : W), m * k = 1 - t ^ 2 →
    m * k0Loop n t k = 1 - (t ^ 2 ^ n) ^ 2 := by
  induction n with
  | zero => intro t k h; rw [k0Loop, h]; simp
  | succ n ih =>
    intro t k h
    rw [k0Loop, ih (t * t) _ ?_]
    · congr 2
      rw [← pow_two, ← pow_mul]
      congr 1
      rw [pow_succ]; ring
    · have : m * (k * (t * t + 1#32)) = (m * k) * (t * t + 1#32) := by ring
      rw [this, h]
      have e1 : (1#32 : W) = 1 := rfl
      rw [e1]
      ring

theorem even_pow_zero {t : W} (h : t.toNat % 2 = 0) : t ^ 64 = 0 := by
  have : t = 2#32 * BitVec.ofNat 32 (t.toNat / 2) := by
    apply BitVec.eq_of_toNat_eq
    rw [BitVec.toNat_mul]
    simp only [BitVec.toNat_ofNat]
    have := t.isLt
    omega
  rw [this, mul_pow]
  have : (2#32 : W) ^ 64 = 0 := by
    have h8 : (2#32 : W) ^ 8 = 256#32 := by decide
    have h32 : (256#32 : W) ^ 8 = 0 := by decide
    rw [show 64 = 8 * 8 by norm_num, pow_mul, h8, h32]
  rw [this, zero_mul]

theorem negInv_spec {m : W} (h : m.toNat % 2 = 1) : m * negInv m = -1 := by
  unfold negInv
  have h1 := k0Loop_spec m 5 (m - 1#32) (2#32 - m) (by
    have e1 : (1#32 : W) = 1 := rfl
    have e2 : (2#32 : W) = 2 := rfl
    rw [e1, e2]; ring)
  have h2 : ((m - 1#32) ^ 2 ^ 5) ^ 2 = 0 := by
    rw [← pow_mul]
    apply even_pow_zero
    rw [BitVec.toNat_sub]
    simp only [BitVec.toNat_ofNat]
    have := m.isLt
    omega
  rw [h2] at h1
  rw [mul_neg, h1]; simp

theorem negInv_toNat {m : W} (h : m.toNat % 2 = 1) : (m.toNat * (negInv m).toNat + 1) % 2 ^ 32 = 0 := by
  have := congrArg BitVec.toNat (negInv_spec h)
  rw [BitVec.toNat_mul] at this
  have e : (-1 : W).toNat = 2 ^ 32 - 1 := rfl
  rw [e] at this
  omega

/-! ## one multiplication -/

theorem mont_low {h m0 k : W} (hk : (m0.toNat * k.toNat + 1) % 2 ^ 32 = 0) :
    (h.toNat + m0.toNat * (h * k).toNat) % 2 ^ 32 = 0 := by
  rw [BitVec.toNat_mul]
  have : (h.toNat + m0.toNat * (h.toNat * k.toNat % 2 ^ 32)) % 2 ^ 32
      = (h.toNat * (m0.toNat * k.toNat + 1)) % 2 ^ 32 := by
    rw [Nat.add_mod, Nat.mul_mod_mod, ← Nat.add_mod]
    congr 1; ring
  rw [this, Nat.mul_mod, hk]; simp

theorem carry_split (c c2 c3 : W) (hc : c.toNat ≤ 1) :
    (c + c2 + c3).toNat + 2 ^ 32 * (if c + c2 < c2 ∨ c + c2 + c3 < c3 then 1#32 else 0#32 : W).toNat
      = c.toNat + c2.toNat + c3.toNat := by
  have h1 := c2.isLt
  have h2 := c3.isLt
  have e1 : (c + c2).toNat = (c.toNat + c2.toNat) % 2 ^ 32 := BitVec.toNat_add _ _
  have e2 : (c + c2 + c3).toNat = ((c + c2).toNat + c3.toNat) % 2 ^ 32 := BitVec.toNat_add _ _
  simp only [BitVec.lt_def]
  split <;> simp only [BitVec.toNat_ofNat] <;> omega

theorem mont_bound {S BN B X M d t : Nat} (hS : S < BN + M) (hX : X < BN) (hd : d < B) (ht : t < B) (hB : 0 < B) :
    S + X * d + M * t < B * (BN + M) := by
  have h1 : X * d ≤ (BN - 1) * (B - 1) := Nat.mul_le_mul (by omega) (by omega)
  have h2 : M * t ≤ M * (B - 1) := Nat.mul_le_mul_left _ (by omega)
  obtain ⟨b, rfl⟩ : ∃ b, B = b + 1 := ⟨B - 1, by omega⟩
  obtain ⟨n, rfl⟩ : ∃ n, BN = n + 1 := ⟨BN - 1, by omega⟩
  simp only [Nat.add_sub_cancel] at h1 h2
  have : (b + 1) * (n + 1 + M) = n * b + n + b + 1 + M * b + M := by ring
  omega

theorem montLoop_spec {x m : Words} {k : W} {n : Nat} (hx : x.length = n) (hm : m.length = n) (hn : 0 < n)
    (hk : (val m * k.toNat + 1) % 2 ^ 32 = 0) (ds : Words) : ∀ (c : W) (w : Words), c.toNat ≤ 1 → w.length = n →
    val w + 2 ^ (32 * n) * c.toNat < 2 ^ (32 * n) + val m →
    (montLoop x m k c w ds).1.length = n ∧ (montLoop x m k c w ds).2.toNat ≤ 1 ∧
    val (montLoop x m k c w ds).1 + 2 ^ (32 * n) * (montLoop x m k c w ds).2.toNat < 2 ^ (32 * n) + val m ∧
    ∃ T, (val (montLoop x m k c w ds).1 + 2 ^ (32 * n) * (montLoop x m k c w ds).2.toNat) * 2 ^ (32 * ds.length)
      = val w + 2 ^ (32 * n) * c.toNat + val x * val ds + val m * T := by
  induction ds with
  | nil => intro c w hc hw hS; exact ⟨hw, hc, hS, 0, by simp [montLoop]⟩
  | cons d ds ih =>
    intro c w hc hw hS
    rw [montLoop]
    have h2 := addMulVVW_val (z := w) (x := x) (by rw [hw, hx]) d
    have l2 := addMulVVW_length (z := w) (x := x) (by rw [hw, hx]) d
    generalize addMulVVW w x d = r2 at *
    rw [hw] at l2
    generalize ht : r2.1.headD 0#32 * k = t
    have h3 := addMulVVW_val (z := r2.1) (x := m) (by rw [l2, hm]) t
    have l3 := addMulVVW_length (z := r2.1) (x := m) (by rw [l2, hm]) t
    generalize addMulVVW r2.1 m t = r3 at *
    rw [l2] at l3
    have hcs := carry_split c r2.2 r3.2 hc
    generalize hcy : c + r2.2 + r3.2 = cy at *
    generalize hfl : (if c + r2.2 < r2.2 ∨ cy < r3.2 then 1#32 else 0#32 : W) = fl at *
    have hfl1 : fl.toNat ≤ 1 := by rw [← hfl]; split <;> simp
    -- the low word vanishes
    obtain ⟨a, as, hra⟩ : ∃ a as, r3.1 = a :: as := by
      cases h : r3.1 with
      | nil => rw [h] at l3; simp at l3; omega
      | cons a as => exact ⟨a, as, rfl⟩
    obtain ⟨b, bs, hrb⟩ : ∃ b bs, r2.1 = b :: bs := by
      cases h : r2.1 with
      | nil => rw [h] at l2; simp at l2; omega
      | cons a as => exact ⟨a, as, rfl⟩
    obtain ⟨m0, ms, hmm⟩ : ∃ m0 ms, m = m0 :: ms := by
      cases h : m with
      | nil => rw [h] at hm; simp at hm; omega
      | cons a as => exact ⟨a, as, rfl⟩
    have hpow : 2 ^ (32 * n) = 2 ^ 32 * 2 ^ (32 * (n - 1)) := by
      rw [← pow32_succ]; congr 2; omega
    have hk0 : (m0.toNat * k.toNat + 1) % 2 ^ 32 = 0 := by
      rw [hmm, val_cons] at hk
      have : (m0.toNat + 2 ^ 32 * val ms) * k.toNat + 1 = m0.toNat * k.toNat + 1 + 2 ^ 32 * (val ms * k.toNat) := by ring
      rw [this, Nat.add_mul_mod_self_left] at hk
      exact hk
    have hlow := mont_low (h := b) hk0
    rw [hrb] at ht
    simp only [List.headD_cons] at ht
    rw [ht] at hlow
    have ha0 : a.toNat = 0 := by
      have e := h3
      rw [hra, hrb, hm, hpow] at e
      rw [hmm] at e
      simp only [val_cons] at e
      have e' : a.toNat + 2 ^ 32 * (val as + 2 ^ (32 * (n - 1)) * r3.2.toNat)
          = (b.toNat + m0.toNat * t.toNat) + 2 ^ 32 * (val bs + val ms * t.toNat) := by
        rw [Nat.mul_add, ← Nat.add_assoc, ← Nat.mul_assoc (2 ^ 32), e]; ring
      have := congrArg (· % 2 ^ 32) e'
      simp only [Nat.add_mul_mod_self_left] at this
      rw [hlow, Nat.mod_eq_of_lt a.isLt] at this
      exact this
    have hlas : as.length = n - 1 := by
      rw [hra] at l3; simp at l3; omega
    rw [hra]
    simp only [List.drop_succ_cons, List.drop_zero]
    have hwlen : (as ++ [cy]).length = n := by
      rw [List.length_append, List.length_singleton, hlas]; omega
    have hwval : val (as ++ [cy]) = val as + 2 ^ (32 * (n - 1)) * cy.toNat := by
      rw [val_append, hlas]; simp
    have hr3 : val r3.1 = 2 ^ 32 * val as := by rw [hra, val_cons, ha0, Nat.zero_add]
    rw [hr3, hm] at h3
    rw [hx] at h2
    have hstep : 2 ^ 32 * (val (as ++ [cy]) + 2 ^ (32 * n) * fl.toNat)
        = val w + 2 ^ (32 * n) * c.toNat + val x * d.toNat + val m * t.toNat := by
      rw [hwval]
      have e1 : 2 ^ 32 * (val as + 2 ^ (32 * (n - 1)) * cy.toNat + 2 ^ (32 * n) * fl.toNat)
          = 2 ^ 32 * val as + 2 ^ (32 * n) * (cy.toNat + 2 ^ 32 * fl.toNat) := by
        rw [hpow]; ring
      rw [e1, hcs]
      have e2 : 2 ^ (32 * n) * (c.toNat + r2.2.toNat + r3.2.toNat)
          = 2 ^ (32 * n) * c.toNat + 2 ^ (32 * n) * r2.2.toNat + 2 ^ (32 * n) * r3.2.toNat := by ring
      omega
    have hX := val_lt x
    rw [hx] at hX
    have hb := mont_bound hS hX d.isLt t.isLt (by norm_num)
    rw [← hstep] at hb
    have hS' := Nat.lt_of_mul_lt_mul_left hb
    obtain ⟨i1, i2, i3, T, i4⟩ := ih fl (as ++ [cy]) hfl1 hwlen hS'
    refine ⟨i1, i2, i3, t.toNat + 2 ^ 32 * T, ?_⟩
    rw [List.length_cons, pow32_succ]
    generalize montLoop x m k fl (as ++ [cy]) ds = R at *
    have e3 : (val R.1 + 2 ^ (32 * n) * R.2.toNat) * (2 ^ 32 * 2 ^ (32 * ds.length))
        = 2 ^ 32 * ((val R.1 + 2 ^ (32 * n) * R.2.toNat) * 2 ^ (32 * ds.length)) := by ring
    rw [e3, i4, val_cons]
    have e4 : 2 ^ 32 * (val (as ++ [cy]) + 2 ^ (32 * n) * fl.toNat + val x * val ds + val m * T)
        = 2 ^ 32 * (val (as ++ [cy]) + 2 ^ (32 * n) * fl.toNat) + 2 ^ 32 * (val x * val ds) + 2 ^ 32 * (val m * T) := by
      ring
    rw [e4, hstep]
    ring

theorem add_mul_modEq (a m t : Nat) : a + m * t ≡ a [MOD m] := by
  unfold Nat.ModEq
  rw [Nat.add_mul_mod_self_left]

/-- Montgomery multiplication: an `n`-word result, congruent to `x * y / 2^(32 n)`. -/
theorem montgomery_spec {x y m : Words} {k : W} {n : Nat} (hx : x.length = n) (hy : y.length = n) (hm : m.length = n)
    (hn : 0 < n) (hk : (val m * k.toNat + 1) % 2 ^ 32 = 0) :
    ∃ z, montgomery x y m k n = .ok z ∧ z.length = n ∧ val z * 2 ^ (32 * n) ≡ val x * val y [MOD val m] := by
  unfold montgomery
  rw [if_neg (by simp [hx, hy, hm])]
  simp only
  have hmpos : 0 < val m := by
    rcases Nat.eq_zero_or_pos (val m) with h | h
    · rw [h] at hk; simp at hk
    · exact h
  obtain ⟨h1, h2, h3, T, h4⟩ := montLoop_spec hx hm hn hk y 0#32 (List.replicate n 0#32) (by simp) (by simp)
    (by rw [val_replicate_zero]; simp only [BitVec.toNat_ofNat, Nat.zero_mod, Nat.mul_zero]; have := Nat.two_pow_pos (32 * n); omega)
  rw [val_replicate_zero, hy] at h4
  generalize montLoop x m k 0#32 (List.replicate n 0#32) y = R at *
  simp only [BitVec.toNat_ofNat, Nat.zero_mod, Nat.mul_zero, Nat.zero_add] at h4
  refine ⟨_, rfl, ?_⟩
  have hmod : (val R.1 + 2 ^ (32 * n) * R.2.toNat) * 2 ^ (32 * n) ≡ val x * val y [MOD val m] := by
    rw [h4]
    exact add_mul_modEq _ _ _
  by_cases hc : R.2 = 0#32
  · rw [if_neg (by simp [hc])]
    refine ⟨h1, ?_⟩
    rw [hc] at hmod
    simpa using hmod
  · rw [if_pos hc]
    have hc1 : R.2.toNat = 1 := by
      have : R.2.toNat ≠ 0 := fun h => hc (BitVec.eq_of_toNat_eq (by simpa using h))
      omega
    rw [hc1, Nat.mul_one] at h3 hmod
    have hs := subVV_val (x := R.1) (y := m) (by rw [h1, hm])
    have hl := subVV_length (x := R.1) (y := m) (by rw [h1, hm])
    refine ⟨by rw [hl, h1], ?_⟩
    obtain ⟨hs1, hs2⟩ := hs
    rw [h1] at hs1
    generalize subVV R.1 m = Z at *
    have hzlt := val_lt Z.1
    rw [hl, h1] at hzlt
    have hb1 : Z.2.toNat = 1 := by
      rcases Nat.eq_zero_or_pos Z.2.toNat with h | h
      · rw [h, Nat.mul_zero] at hs1; omega
      · omega
    rw [hb1, Nat.mul_one] at hs1
    have : (val Z.1 + val m) * 2 ^ (32 * n) ≡ val x * val y [MOD val m] := by rw [hs1]; exact hmod
    rw [Nat.add_mul] at this
    refine Nat.ModEq.trans ?_ this
    exact (add_mul_modEq _ _ _).symm

end RMath
