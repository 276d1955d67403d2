import Mathlib.FieldTheory.IsAlgClosed.AlgebraicClosure
import Mathlib.FieldTheory.Finite.Basic
import Verif.Lemmas.ModSqrt
import Verif.Model.Prime

/-! Proofs about the primality test. -/

namespace RMath

open NumberTheorySymbols jacobiSym

/-! ## powers of a base that may have leading zero words -/

theorem natRem_raw {v : Words} (hv : v ≠ []) {n : Nat} (hn : n ≠ 0) :
    natRem v (enc n) = .ok (enc (val v % n)) := by
  rw [← natRem_enc hn]
  unfold natRem opNatR
  rw [deepClone_enc, deepClone, trim_eq_enc hv]
  simp [isNan, hv, enc_ne_nil]

theorem expMontgomery_raw {v : Words} (hv : v ≠ []) (b : Nat) {n : Nat} (hodd : n % 2 = 1)
    (hlen : v.length ≤ (enc n).length) : expMontgomery v (enc b) (enc n) = .ok (enc (val v ^ b % n)) := by
  rw [← expMontgomery_enc (val v) b hodd]
  have hl2 : (enc (val v)).length ≤ (enc n).length := by
    apply enc_length_le (List.length_pos_iff.2 (enc_ne_nil n))
    exact lt_of_lt_of_le (val_lt v) (Nat.pow_le_pow_right (by norm_num) (by omega))
  have hc : deepClone v = enc (val v) := trim_eq_enc hv
  unfold expMontgomery
  simp only [if_neg (show ¬ v.length > (enc n).length by omega),
    if_neg (show ¬ (enc (val v)).length > (enc n).length by omega), deepClone_enc, hc]

theorem expBits_base {v : Words} (hv : v ≠ []) {n : Nat} (hn : n ≠ 0) (c : Nat) : ∀ (w : W) (u : Nat),
    expBits v (enc n) c w (enc u) = expBits (enc (val v)) (enc n) c w (enc u) := by
  induction c with
  | zero => intro w u; rfl
  | succ c ih =>
    intro w u
    rw [expBits, expBits]
    simp only [sqrV_enc]
    rw [mulKara_spec (enc_ne_nil _) hv, mulKara_spec (enc_ne_nil _) (enc_ne_nil _), val_enc, val_enc]
    simp only [if_neg (mt (len1_zero n).1 hn)]
    by_cases hb : w &&& 0x80000000#32 ≠ 0#32
    · simp only [if_pos hb, natRem_enc hn, bind, Except.bind]
      exact ih _ _
    · simp only [if_neg hb, natRem_enc hn, bind, Except.bind]
      exact ih _ _

theorem expBits_start {v : Words} (hv : v ≠ []) {n : Nat} (hn : n ≠ 0) (c : Nat) (w : W) :
    expBits v (enc n) (c + 1) w v = expBits (enc (val v)) (enc n) (c + 1) w (enc (val v)) := by
  rw [expBits, expBits]
  rw [sqrV_spec hv, sqrV_enc]
  rw [mulKara_spec (enc_ne_nil _) hv, mulKara_spec (enc_ne_nil _) (enc_ne_nil _), val_enc, val_enc]
  simp only [if_neg (mt (len1_zero n).1 hn)]
  by_cases hb : w &&& 0x80000000#32 ≠ 0#32
  · simp only [if_pos hb, natRem_enc hn, bind, Except.bind]
    exact expBits_base hv hn _ _ _
  · simp only [if_neg hb, natRem_enc hn, bind, Except.bind]
    exact expBits_base hv hn _ _ _

theorem natExp_raw (checks : Bool) {v : Words} {b n : Nat} (hb : b ≠ 0) (hbn : b < n) (hodd : n % 2 = 1)
    (hlen : v.length = (enc n).length) : natExp checks v (enc b) (enc n) = .ok (enc (val v ^ b % n)) := by
  have hv : v ≠ [] := by rw [← List.length_pos_iff, hlen, List.length_pos_iff]; exact enc_ne_nil n
  have hvn : isNan v = false := by simpa [isNan] using hv
  have hn1 : n ≠ 1 := by omega
  have hn0 : n ≠ 0 := by omega
  have hbl : (enc b).length ≤ (enc n).length := by
    apply enc_length_le (List.length_pos_iff.2 (enc_ne_nil n))
    have := val_lt (enc n)
    rw [val_enc] at this
    omega
  by_cases hb1 : b = 1
  · unfold natExp
    simp only [isNan_enc, Bool.or_false, hvn, Bool.false_eq_true, if_false]
    rw [if_neg (mt (len1_eq n 1#32).1 hn1), if_neg (mt (len1_eq b 0#32).1 hb), if_pos ((len1_eq b 1#32).2 hb1),
      if_neg (mt (len1_zero n).1 hn0), natRem_raw hv hn0, hb1, Nat.pow_one]
  by_cases hbig : 1 < (enc b).length
  · unfold natExp
    simp only [isNan_enc, Bool.or_false, hvn, Bool.false_eq_true, if_false]
    rw [if_neg (mt (len1_eq n 1#32).1 hn1), if_neg (mt (len1_eq b 0#32).1 hb), if_neg (mt (len1_eq b 1#32).1 hb1),
      if_pos ⟨Or.inl (by omega), hbig, Or.inl (by omega)⟩, if_pos]
    · exact expMontgomery_raw hv b hodd (by omega)
    · rw [and_one_eq, enc_head]; omega
  · rw [← natExp_enc checks (val v) b n (fun _ h => hbig h.1)]
    have hone : (enc b).length = 1 := by
      have := List.length_pos_iff.2 (enc_ne_nil b)
      omega
    unfold natExp
    simp only [isNan_enc, Bool.or_false, hvn, Bool.false_eq_true, if_false]
    rw [if_neg (mt (len1_eq n 1#32).1 hn1), if_neg (mt (len1_eq b 0#32).1 hb), if_neg (mt (len1_eq b 1#32).1 hb1),
      if_neg (fun h => hbig h.2.1)]
    rw [if_neg (mt (len1_eq n 1#32).1 hn1), if_neg (mt (len1_eq b 0#32).1 hb), if_neg (mt (len1_eq b 1#32).1 hb1),
      if_neg (fun h => hbig h.2.1)]
    obtain ⟨w, hw⟩ := List.length_eq_one_iff.1 hone
    have hwb : w.toNat = b := by
      have := val_enc b
      rw [hw] at this
      simpa using this
    rw [hw]
    simp only [List.reverse_singleton, expWords]
    by_cases hc : checks = true ∧ leadingZeros w + 1 ≥ 32
    · rw [if_pos hc, if_pos hc]
    · rw [if_neg hc, if_neg hc]
      obtain ⟨hl1, hl2, hl3⟩ := leadingZeros_toNat (v := w) (by rintro rfl; simp at hwb; omega)
      have hL : w.toNat.log2 ≠ 0 := by
        intro h0
        rw [h0] at hl3
        omega
      obtain ⟨c, hcc⟩ : ∃ c, expWidth (leadingZeros w + 1) = c + 1 :=
        ⟨w.toNat.log2 - 1, by rw [expWidth_eq (by omega)]; omega⟩
      rw [hcc, expBits_start hv hn0]

/-! ## Miller-Rabin -/

theorem eqv_one_enc (x : Nat) : eqv (enc x) [1#32] = decide (x = 1) := by
  rw [← enc_one, eqv_enc]

theorem mrWitness_spec {n : Nat} (hn : 2 < n) (t : Nat) : ∀ x, x < n →
    ∃ w, mrWitness (enc n) (enc (n - 1)) t (enc x) = .ok w ∧
      (w = false ↔ x = 1 ∨ ∃ i, i < t ∧ x ^ 2 ^ i % n = n - 1) := by
  induction t with
  | zero =>
    intro x hx
    refine ⟨_, rfl, ?_⟩
    rw [eqv_one_enc]
    simp
  | succ t ih =>
    intro x hx
    rw [mrWitness, sqrV_enc, remInner_enc (by omega)]
    simp only [bind, Except.bind, eqv_one_enc, eqv_enc]
    have hpow : ∀ i, x ^ 2 ^ (i + 1) % n = (x * x % n) ^ 2 ^ i % n := by
      intro i
      rw [← Nat.pow_mod, ← sq, ← pow_mul, pow_succ, mul_comm]
    by_cases hc : x * x % n = 1 ∧ x ≠ 1 ∧ x ≠ n - 1
    · rw [if_pos (by simpa [and_assoc] using hc)]
      refine ⟨true, rfl, ?_⟩
      simp only [Bool.true_eq_false, false_iff, not_or, not_exists, not_and]
      refine ⟨hc.2.1, ?_⟩
      rintro (_ | i) _
      · rw [pow_zero, pow_one, Nat.mod_eq_of_lt hx]; exact hc.2.2
      · rw [hpow, hc.1, one_pow, Nat.mod_eq_of_lt (by omega)]; omega
    · rw [if_neg (by simpa [and_assoc] using hc)]
      obtain ⟨w, hw, hiff⟩ := ih (x * x % n) (Nat.mod_lt _ (by omega))
      refine ⟨w, hw, hiff.trans ?_⟩
      constructor
      · rintro (h | ⟨i, hi, h⟩)
        · by_cases h1 : x = 1
          · exact Or.inl h1
          · right
            refine ⟨0, by omega, ?_⟩
            rw [pow_zero, pow_one, Nat.mod_eq_of_lt hx]
            by_contra h2
            exact hc ⟨h, h1, h2⟩
        · exact Or.inr ⟨i + 1, by omega, by rw [hpow]; exact h⟩
      · rintro (rfl | ⟨_ | i, hi, h⟩)
        · left; rw [Nat.mod_eq_of_lt (by omega)]
        · left
          rw [pow_zero, pow_one, Nat.mod_eq_of_lt hx] at h
          subst h
          obtain ⟨m, rfl⟩ : ∃ m, n = m + 2 := ⟨n - 2, by omega⟩
          rw [show (m + 2 - 1) * (m + 2 - 1) = 1 + (m + 2) * m by
            rw [show m + 2 - 1 = m + 1 by omega]; ring, Nat.add_mul_mod_self_left, Nat.mod_eq_of_lt (by omega)]
        · exact Or.inr ⟨i, by omega, by rw [← hpow]; exact h⟩

/-- square roots of 1 in a field, along repeated squaring -/
theorem sq_chain {K : Type*} [Field K] (t : Nat) (y : K) (h : y ^ 2 ^ t = 1) :
    y = 1 ∨ ∃ i, i < t ∧ y ^ 2 ^ i = -1 := by
  induction t with
  | zero => left; simpa using h
  | succ t ih =>
    rw [pow_succ, pow_mul] at h
    replace h := sq_eq_one_iff.1 h
    rcases h with h | h
    · rcases ih h with h | ⟨i, hi, h⟩
      · exact Or.inl h
      · exact Or.inr ⟨i, by omega, h⟩
    · exact Or.inr ⟨t, by omega, h⟩

theorem two_pow_odd_inj {t u t' u' : Nat} (h : 2 ^ t * u = 2 ^ t' * u') (hu : u % 2 = 1) (hu' : u' % 2 = 1) :
    t = t' ∧ u = u' := by
  have key : ∀ {t u t' u' : Nat}, 2 ^ t * u = 2 ^ t' * u' → u % 2 = 1 → u' % 2 = 1 → t ≤ t' → t = t' ∧ u = u' := by
    intro t u t' u' h hu hu' hle
    obtain ⟨d, rfl⟩ := Nat.exists_eq_add_of_le hle
    rw [pow_add, mul_assoc] at h
    have h := Nat.eq_of_mul_eq_mul_left (Nat.two_pow_pos t) h
    rcases d with _ | d
    · simpa using h
    · exfalso
      rw [h, pow_succ, mul_assoc, mul_left_comm, Nat.mul_mod_right] at hu
      omega
  rcases Nat.le_total t t' with hle | hle
  · exact key h hu hu' hle
  · obtain ⟨h1, h2⟩ := key h.symm hu' hu hle
    exact ⟨h1.symm, h2.symm⟩

theorem strong_of_prime {p a : Nat} (hp : p.Prime) (hp2 : p % 2 = 1) (ha : ¬ p ∣ a) : StrongProbablePrime p a := by
  have := Fact.mk hp
  have hp3 := hp.two_le
  obtain ⟨t, u, hu, htu⟩ := Nat.exists_eq_two_pow_mul_odd (n := p - 1) (by omega)
  refine ⟨t, u, htu, Nat.odd_iff.1 hu, ?_⟩
  have ha0 : (a : ZMod p) ≠ 0 := by rwa [Ne, ZMod.natCast_eq_zero_iff]
  have hf := ZMod.pow_card_sub_one_eq_one ha0
  rw [htu, mul_comm, pow_mul] at hf
  rcases sq_chain t _ hf with h | ⟨i, hi, h⟩
  · left
    have h2 : ((a ^ u : Nat) : ZMod p) = ((1 : Nat) : ZMod p) := by push_cast; exact h
    rw [ZMod.natCast_eq_natCast_iff'] at h2
    rwa [Nat.mod_eq_of_lt (by omega : 1 < p)] at h2
  · right
    refine ⟨i, hi, ?_⟩
    have h2 : ((a ^ (2 ^ i * u) : Nat) : ZMod p) = ((p - 1 : Nat) : ZMod p) := by
      rw [Nat.cast_sub (by omega)]
      push_cast
      rw [mul_comm, pow_mul, h]
      simp
    rw [ZMod.natCast_eq_natCast_iff'] at h2
    rwa [Nat.mod_eq_of_lt (by omega : p - 1 < p)] at h2

/-- `k` successive calls of `x.random(rng)`: the results and the unread draws -/
def drawMany (x : Words) : Nat → List (Option W) → Option (List Words × List (Option W))
  | 0, ds => some ([], ds)
  | k + 1, ds =>
    match natRandom x ds with
    | none => none
    | some (a, ds) => (drawMany x k ds).map fun r => (a :: r.1, r.2)

theorem natRandom_enc {n : Nat} (hn : n ≠ 0) (ds : List (Option W)) :
    natRandom (enc n) ds = randomLoop (enc n) (enc n).length (randomMask (enc n)) (ds.length + 1) ds := by
  unfold natRandom
  rw [if_neg]
  rw [← enc_zero]
  simp only [isNan_enc, Bool.false_or, eqv_enc]
  simpa using hn

section
variable {n t u : Nat} (hn : 2 < n) (hodd : n % 2 = 1) (htu : n - 1 = 2 ^ t * u) (hu : u % 2 = 1)
include hn hodd htu hu

theorem mrStep_spec (checks : Bool) {a : Words} (ha : a.length = (enc n).length) :
    ∃ w, (do
      let tmp ← natExp checks a (enc u) (enc n)
      mrWitness (enc n) (enc (n - 1)) t tmp : Res Bool) = .ok w ∧ (w = false ↔ StrongProbablePrime n (val a)) := by
  have hun : u < n := by
    have : 1 * u ≤ 2 ^ t * u := Nat.mul_le_mul_right _ Nat.one_le_two_pow
    omega
  rw [natExp_raw checks (by omega) hun hodd ha]
  simp only [bind, Except.bind]
  obtain ⟨w, hw, hiff⟩ := mrWitness_spec hn t (val a ^ u % n) (Nat.mod_lt _ (by omega))
  refine ⟨w, hw, hiff.trans ?_⟩
  have hpow : ∀ i, (val a ^ u % n) ^ 2 ^ i % n = val a ^ (2 ^ i * u) % n := by
    intro i
    rw [← Nat.pow_mod, ← pow_mul, mul_comm]
  simp only [hpow]
  constructor
  · intro h
    exact ⟨t, u, htu, hu, h⟩
  · rintro ⟨t', u', htu', hu', h⟩
    obtain ⟨rfl, rfl⟩ := two_pow_odd_inj (htu.symm.trans htu') hu hu'
    exact h

theorem mrRounds_spec (checks : Bool) (s : Nat) : ∀ ds, ∃ r,
    mrRounds checks (enc n) (enc (n - 1)) (enc u) t s ds = .ok r ∧
    (∀ rest, r = some (true, rest) ↔
      ∃ as, drawMany (enc n) s ds = some (as, rest) ∧ ∀ a ∈ as, StrongProbablePrime n (val a)) ∧
    (r = none → drawMany (enc n) s ds = none) := by
  induction s with
  | zero =>
    intro ds
    refine ⟨_, rfl, ?_, by simp⟩
    intro rest
    simp [drawMany]
  | succ s ih =>
    intro ds
    rw [mrRounds, drawMany, natRandom_enc (by omega)]
    rcases hd : randomLoop (enc n) (enc n).length (randomMask (enc n)) (ds.length + 1) ds with _ | ⟨a, ds'⟩
    · exact ⟨none, rfl, by simp, by simp⟩
    · obtain ⟨hl, -, -⟩ := randomLoop_some _ hd
      obtain ⟨w, hw, hiff⟩ := mrStep_spec hn hodd htu hu checks hl
      simp only
      simp only [bind, Except.bind] at hw ⊢
      rcases he : natExp checks a (enc u) (enc n) with e | tmp
      · rw [he] at hw; simp at hw
      rw [he] at hw
      simp only at hw ⊢
      rw [hw]
      simp only
      obtain ⟨r, hr, h1, h2⟩ := ih ds'
      cases w with
      | true =>
        refine ⟨some (false, ds'), rfl, ?_, by simp⟩
        intro rest
        simp only [Option.some.injEq, Prod.mk.injEq, Bool.false_eq_true, false_and, Option.map_eq_some_iff,
          Prod.exists, false_iff, not_exists, not_and]
        rintro as ⟨as', r', -, rfl, -⟩ hall
        have := hiff.2 (hall a (by simp))
        simp at this
      | false =>
        refine ⟨r, hr, ?_, ?_⟩
        · intro rest
          rw [h1]
          constructor
          · rintro ⟨as, h, hall⟩
            refine ⟨a :: as, by rw [h]; rfl, ?_⟩
            intro b hb
            rcases List.mem_cons.1 hb with rfl | hb
            · exact hiff.1 rfl
            · exact hall b hb
          · rintro ⟨as, h, hall⟩
            rw [Option.map_eq_some_iff] at h
            obtain ⟨⟨as', r'⟩, h3, h4⟩ := h
            simp only [Prod.mk.injEq] at h4
            obtain ⟨rfl, rfl⟩ := h4
            exact ⟨as', h3, fun b hb => hall b (by simp [hb])⟩
        · intro hnone
          rw [h2 hnone]; rfl

end

theorem millerRabin_spec {n : Nat} (hn : 2 < n) (hodd : n % 2 = 1) (h32 : OddPartFits (n - 1)) (checks : Bool)
    (s : Nat) (ds : List (Option W)) : ∃ r, millerRabin checks (enc n) s ds = .ok r ∧
    (∀ rest, r = some (true, rest) ↔
      ∃ as, drawMany (enc n) s ds = some (as, rest) ∧ ∀ a ∈ as, StrongProbablePrime n (val a)) ∧
    (r = none → drawMany (enc n) s ds = none) := by
  obtain ⟨t, u, hu, htu⟩ := Nat.exists_eq_two_pow_mul_odd (n := n - 1) (by omega)
  have hu1 := Nat.odd_iff.1 hu
  have ht : ShiftFits (2 ^ t * u) t := htu ▸ h32 t u htu hu1
  unfold millerRabin
  simp only [natSubW_odd hodd]
  have ht2 : traillingZeros (enc (n - 1)) = t := by rw [htu]; exact traillingZeros_eq hu1
  have hshr : natShr (enc (n - 1)) t = enc u := by
    simp only [natShr, opPrim, isNan_enc, Bool.false_eq_true, if_false, deepClone_enc]
    rw [htu, shrInner_odd_part hu1 ht]
  rw [ht2, hshr]
  exact mrRounds_spec hn hodd htu hu1 checks s ds

end RMath
