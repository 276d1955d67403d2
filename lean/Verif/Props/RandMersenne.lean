import Verif.Lemmas.TwistBits
import Verif.Props.RandCarry
import Mathlib.NumberTheory.LucasLehmer
import Mathlib.Data.Fintype.Pi
import Mathlib.Data.Fintype.Prod

/-!
# C136: the period of the Mersenne twisters

Whatever the seed, the words of `mt19937!` and of `mt19937_64!` repeat after exactly `2^19937 - 1` words and not earlier; within that period every
sequence of 623 words of 32 bits (of 311 words of 64 bits) occurs equally often, the zeros once less; and the streams of any two seeds are parts of the
same stream.
-/

namespace RMath

/-! ## Statement -/

/-- within `P` words of the stream every sequence of `d` words of `w` bits occurs `c` times, the zeros once less -/
def EquiDistributed (w d c P : ℕ) (Y : ℕ → ℕ) : Prop :=
  ∀ V : ℕ → ℕ, (∀ i < d, V i < 2 ^ w) →
    ((Finset.range P).filter fun k => ∀ i < d, Y (k + i) = V i).card = if ∀ i < d, V i = 0 then c - 1 else c

/-- the stream `Y'` is `Y` from some place on -/
def TranslateOf (Y Y' : ℕ → ℕ) : Prop := ∃ d, ∀ k, Y' k = Y (k + d)

/-- the claim about a preset -/
def PeriodClaim {b : Nat} (checks : Bool) (p : MtPar b) (w d c P : ℕ) (seed : BitVec b) : Prop :=
  ∃ g Y, mtNew (.ok seed) p = .ok g ∧ Delivers (mtSource b checks) g Y ∧ ExactPeriod P Y ∧ EquiDistributed w d c P Y ∧
    ∀ (checks' : Bool) (seed' : BitVec b) g' Y', mtNew (.ok seed') p = .ok g' → Delivers (mtSource b checks') g' Y' → TranslateOf Y Y'

/-! ## Proof: exactness of a period of prime length -/

theorem eventually_constant {P j K : ℕ} (hP : P.Prime) {Y : ℕ → ℕ} (hper : ∀ k, K ≤ k → Y (k + P) = Y k) (hj : ∀ k, K ≤ k → Y (k + j) = Y k)
    (h : ¬ P ∣ j) (k : ℕ) (hk : K ≤ k) : Y k = Y K := by
  have hcop : Nat.Coprime j P := ((Nat.Prime.coprime_iff_not_dvd hP).2 h).symm
  obtain ⟨u, -, hu⟩ := Nat.exists_mul_mod_eq_one_of_coprime hcop hP.one_lt
  have mulP : ∀ t k, K ≤ k → Y (k + t * P) = Y k := by
    intro t
    induction t with
    | zero => intro k _; rw [Nat.zero_mul, Nat.add_zero]
    | succ t ih => intro k hk; rw [Nat.succ_mul, ← Nat.add_assoc, hper _ (by omega), ih k hk]
  have mulj : ∀ t k, K ≤ k → Y (k + t * j) = Y k := by
    intro t
    induction t with
    | zero => intro k _; rw [Nat.zero_mul, Nat.add_zero]
    | succ t ih => intro k hk; rw [Nat.succ_mul, ← Nat.add_assoc, hj _ (by omega), ih k hk]
  have one : ∀ k, K ≤ k → Y (k + 1) = Y k := by
    intro k hk
    have e : u * j = j * u / P * P + 1 := by
      rw [Nat.mul_comm u j]
      have := Nat.div_add_mod (j * u) P
      rw [hu, Nat.mul_comm] at this
      exact this.symm
    have h1 := mulj u k hk
    rw [e, Nat.add_comm _ 1, ← Nat.add_assoc, mulP _ _ (by omega)] at h1
    exact h1
  induction k, hk using Nat.le_induction with
  | base => rfl
  | succ k hk ih => rw [one k hk, ih]

theorem twisted_constant {w n m r a c K : ℕ} {X : ℕ → ℕ} (h : Twisted w n m r a X) (hw : 0 < w) (ha : 2 ^ (w - 1) ≤ a) (ha' : a < 2 ^ w)
    (hc : ∀ k, K ≤ k → X k = c) : c = 0 := by
  have e := h.rec' K
  have hlt : c < 2 ^ w := by rw [← hc K le_rfl]; exact h.lt K
  rw [hc (K + n) (by omega), hc (K + m) (by omega), hc (K + 1) (by omega), hc K le_rfl, Nat.div_add_mod', Nat.xor_assoc] at e
  have e0 : c / 2 ^^^ (if c % 2 = 1 then a else 0) = 0 := by
    have := congrArg (fun x => c ^^^ x) e
    simp only [← Nat.xor_assoc, Nat.xor_self, Nat.zero_xor] at this
    exact this.symm
  refine twist_inj hw ha ha' hlt (Nat.two_pow_pos w) ?_
  rw [e0]
  simp

/-! ## Proof: all states occur -/

theorem sameFrom_forth {w n m r a : ℕ} {X X' : ℕ → ℕ} (hX : Twisted w n m r a X) (hX' : Twisted w n m r a X') (hm0 : 0 < m) (hm : m < n) {k : ℕ}
    (h : SameFrom n r X X' k) (j : ℕ) (hj : k < j) : X j = X' j := by
  obtain ⟨h0, h1⟩ := h
  refine twist_forth hX hX' (by omega) hm (k + 1) (fun i hi hi' => ?_) j hj
  by_cases e : i = k + n
  · rw [e, hX.rec', hX'.rec', h0, h1 (k + 1) (by omega) (by omega), h1 (k + m) (by omega) (by omega)]
  · exact h1 i (by omega) (by omega)

/-- the part of a state that matters -/
def stateOf {w n m r a : ℕ} {X : ℕ → ℕ} (h : Twisted w n m r a X) (hr : r ≤ w) (k : ℕ) : Fin (2 ^ (w - r)) × (Fin (n - 1) → Fin (2 ^ w)) :=
  (⟨X k / 2 ^ r, by
    rw [Nat.div_lt_iff_lt_mul (Nat.two_pow_pos r), ← Nat.pow_add, Nat.sub_add_cancel hr]
    exact h.lt k⟩, fun i => ⟨X (k + 1 + i), h.lt _⟩)

theorem stateOf_eq {w n m r a : ℕ} {X X' : ℕ → ℕ} {h : Twisted w n m r a X} {h' : Twisted w n m r a X'} {hr : r ≤ w} {k k' : ℕ}
    (e : stateOf h hr k = stateOf h' hr k') : SameFrom n r X (fun j => X' (j + k' - k)) k := by
  have e1 := congrArg (fun s => (s.1 : ℕ)) e
  refine ⟨?_, fun j hj hj' => ?_⟩
  · simp only [stateOf] at e1
    show _ = X' (k + k' - k) / 2 ^ r
    rw [e1, show k + k' - k = k' by omega]
  · have e2 := congrArg (fun s => ((s.2 ⟨j - (k + 1), by omega⟩ : Fin _) : ℕ)) e
    simp only [stateOf] at e2
    rw [show k + 1 + (j - (k + 1)) = j by omega] at e2
    show _ = X' (j + k' - k)
    rw [e2, show k' + 1 + (j - (k + 1)) = j + k' - k by omega]

/-- a sequence with the longest period there can be -/
structure Longest (w n m r a P : ℕ) (X : ℕ → ℕ) : Prop where
  tw : Twisted w n m r a X
  per : ∀ k, 2 ≤ k → X (k + P) = X k
  least : ∀ j K, (∀ k, K ≤ k → X (k + j) = X k) → P ∣ j
  big : 1 < P
  size : P + 1 = 2 ^ (w - r) * (2 ^ w) ^ (n - 1)

theorem Longest.state_inj {w n m r a P : ℕ} {X : ℕ → ℕ} (h : Longest w n m r a P X) (hr : r ≤ w) (hm0 : 0 < m) (hm : m < n) {k k' : ℕ}
    (hkk : k < k') (hP : k' < k + P) : stateOf h.tw hr k ≠ stateOf h.tw hr k' := by
  intro e
  obtain ⟨d, rfl⟩ : ∃ d, k' = k + d := ⟨k' - k, by omega⟩
  have hs : SameFrom n r X (fun j => X (j + d)) k := by
    obtain ⟨h0, h1⟩ := stateOf_eq e
    exact ⟨by simpa [show k + (k + d) - k = k + d by omega] using h0, fun j hj hj' => by
      have := h1 j hj hj'
      simp only [show j + (k + d) - k = j + d by omega] at this
      exact this⟩
  have := h.least d (k + 1) fun j hj => (sameFrom_forth h.tw (h.tw.shift d) hm0 hm hs j hj).symm
  have := Nat.le_of_dvd (by omega) this
  omega

theorem Longest.state_ne_zero {w n m r a P : ℕ} {X : ℕ → ℕ} (h : Longest w n m r a P X) (hr : r ≤ w) (hm0 : 0 < m) (hm : m < n) (k : ℕ) :
    stateOf h.tw hr k ≠ stateOf (Twisted.zero w n m r a) hr 0 := by
  intro e
  have hs : SameFrom n r X (fun _ => 0) k := stateOf_eq e
  have hz := sameFrom_forth h.tw (Twisted.zero w n m r a) hm0 hm hs
  have := h.least 1 (k + 1) fun j hj => by rw [hz j hj, hz (j + 1) (by omega)]
  have := Nat.le_of_dvd (by omega) this
  have := h.big
  omega

theorem Longest.state_image {w n m r a P : ℕ} {X : ℕ → ℕ} (h : Longest w n m r a P X) (hr : r ≤ w) (hm0 : 0 < m) (hm : m < n) (K : ℕ) :
    (Finset.range P).image (fun k => stateOf h.tw hr (K + k)) = Finset.univ.erase (stateOf (Twisted.zero w n m r a) hr 0) := by
  refine Finset.eq_of_subset_of_card_le (fun s hs => ?_) ?_
  · obtain ⟨k, -, rfl⟩ := Finset.mem_image.1 hs
    exact Finset.mem_erase.2 ⟨h.state_ne_zero hr hm0 hm _, Finset.mem_univ _⟩
  · rw [Finset.card_erase_of_mem (Finset.mem_univ _), Finset.card_univ, Finset.card_image_of_injOn, Finset.card_range]
    · rw [Fintype.card_prod, Fintype.card_fin, Fintype.card_fun, Fintype.card_fin, Fintype.card_fin, ← h.size]
      omega
    · intro k hk k' hk' e
      simp only [Finset.coe_range, Set.mem_Iio] at hk hk'
      rcases lt_trichotomy k k' with hlt | rfl | hlt
      · exact absurd e (h.state_inj hr hm0 hm (by omega) (by omega))
      · rfl
      · exact absurd e.symm (h.state_inj hr hm0 hm (by omega) (by omega))

theorem Longest.count {w n m r a P : ℕ} {X : ℕ → ℕ} (h : Longest w n m r a P X) (hr : r ≤ w) (hm0 : 0 < m) (hm : m < n) (K : ℕ)
    (U : Fin (n - 1) → Fin (2 ^ w)) :
    ((Finset.range P).filter fun k => ∀ i : Fin (n - 1), X (K + k + 1 + i) = U i).card =
      if ∀ i, (U i : ℕ) = 0 then 2 ^ (w - r) - 1 else 2 ^ (w - r) := by
  have h1 : ((Finset.range P).filter fun k => ∀ i : Fin (n - 1), X (K + k + 1 + i) = U i).card =
      (((Finset.range P).image (fun k => stateOf h.tw hr (K + k))).filter fun s => s.2 = U).card := by
    rw [Finset.filter_image, Finset.card_image_of_injOn]
    · congr 1
      refine Finset.filter_congr fun k _ => ?_
      simp only [stateOf, funext_iff, Fin.ext_iff]
    · intro k hk k' hk' e
      simp only [Finset.coe_filter, Finset.mem_range, Set.mem_ofPred_eq] at hk hk'
      rcases lt_trichotomy k k' with hlt | rfl | hlt
      · exact absurd e (h.state_inj hr hm0 hm (by omega) (by omega))
      · rfl
      · exact absurd e.symm (h.state_inj hr hm0 hm (by omega) (by omega))
  rw [h1, h.state_image hr hm0 hm K, Finset.filter_erase]
  have hall : ((Finset.univ : Finset (Fin (2 ^ (w - r)) × (Fin (n - 1) → Fin (2 ^ w)))).filter fun s => s.2 = U).card = 2 ^ (w - r) := by
    have : ((Finset.univ : Finset (Fin (2 ^ (w - r)) × (Fin (n - 1) → Fin (2 ^ w)))).filter fun s => s.2 = U) =
        (Finset.univ : Finset (Fin (2 ^ (w - r)))).image fun t => (t, U) := by
      ext ⟨t, u⟩
      simp [eq_comm]
    rw [this, Finset.card_image_of_injective _ (fun t t' e => by simpa using e), Finset.card_univ, Fintype.card_fin]
  by_cases hU : ∀ i, (U i : ℕ) = 0
  · rw [if_pos hU, Finset.card_erase_of_mem, hall]
    simp only [Finset.mem_filter, Finset.mem_univ, true_and, stateOf]
    funext i
    exact Fin.ext (hU i).symm
  · rw [if_neg hU, Finset.erase_eq_of_notMem, hall]
    simp only [Finset.mem_filter, Finset.mem_univ, true_and, stateOf]
    intro e
    exact hU fun i => by rw [← e]

/-- any other sequence that is not zero runs along this one -/
theorem Longest.meets {w n m r a P : ℕ} {X X' : ℕ → ℕ} (h : Longest w n m r a P X) (h' : Longest w n m r a P X') (hr : r ≤ w) (hm0 : 0 < m) (hm : m < n)
    (K : ℕ) : ∃ d, ∀ j, K < j → X' j = X (j + d) := by
  have : stateOf h'.tw hr K ∈ (Finset.range P).image (fun k => stateOf h.tw hr (K + k)) := by
    rw [h.state_image hr hm0 hm K]
    exact Finset.mem_erase.2 ⟨h'.state_ne_zero hr hm0 hm _, Finset.mem_univ _⟩
  obtain ⟨d, -, e⟩ := Finset.mem_image.1 this
  refine ⟨d, fun j hj => ?_⟩
  have hs : SameFrom n r X' (fun j => X (j + d)) K := by
    obtain ⟨h0, h1⟩ := stateOf_eq e.symm
    exact ⟨by simpa [show K + (K + d) - K = K + d by omega] using h0, fun j hj hj' => by
      have := h1 j hj hj'
      simp only [show j + (K + d) - K = j + d by omega] at this
      exact this⟩
  exact sameFrom_forth h'.tw (h.tw.shift d) hm0 hm hs j hj

/-! ## Proof: from the states to the words delivered -/

theorem words_surj {w : ℕ} {τ : ℕ → ℕ} (h : KeepsWords w τ) {v : ℕ} (hv : v < 2 ^ w) : ∃ u < 2 ^ w, τ u = v := by
  have : (Finset.range (2 ^ w)).image τ = Finset.range (2 ^ w) := by
    refine Finset.eq_of_subset_of_card_le (fun x hx => ?_) ?_
    · obtain ⟨u, hu, rfl⟩ := Finset.mem_image.1 hx
      exact Finset.mem_range.2 (h.1 u (Finset.mem_range.1 hu))
    · rw [Finset.card_image_of_injOn]
      rw [Finset.coe_range]
      exact h.2
  have hv' : v ∈ (Finset.range (2 ^ w)).image τ := by rw [this]; exact Finset.mem_range.2 hv
  obtain ⟨u, hu, e⟩ := Finset.mem_image.1 hv'
  exact ⟨u, Finset.mem_range.1 hu, e⟩

theorem Longest.distributed {w n m r a P : ℕ} {X : ℕ → ℕ} (h : Longest w n m r a P X) (hr : r ≤ w) (hm0 : 0 < m) (hm : m < n) {τ : ℕ → ℕ}
    (hτ : KeepsWords w τ) (h0 : τ 0 = 0) : EquiDistributed w (n - 1) (2 ^ (w - r)) P fun k => τ (X (k + n)) := by
  intro V hV
  choose! u hu1 hu2 using fun i (hi : i < n - 1) => words_surj hτ (hV i hi)
  have := h.count hr hm0 hm (n - 1) (fun i => ⟨u i, hu1 i i.2⟩)
  have e1 : (∀ i < n - 1, V i = 0) ↔ ∀ i : Fin (n - 1), ((⟨u i, hu1 i i.2⟩ : Fin (2 ^ w)) : ℕ) = 0 := by
    constructor
    · intro hz i
      refine hτ.2 (show u i < 2 ^ w from hu1 i i.2) (Nat.two_pow_pos w) ?_
      rw [hu2 i i.2, hz i i.2, h0]
    · intro hz i hi
      have : u i = 0 := hz ⟨i, hi⟩
      rw [← hu2 i hi, this, h0]
  rw [if_congr e1 rfl rfl, ← this]
  congr 1
  refine Finset.filter_congr fun k _ => ?_
  constructor
  · intro hk i
    have := hk i i.2
    rw [← hu2 i i.2] at this
    have := hτ.2 (show X (k + i + n) < 2 ^ w from h.tw.lt _) (show u i < 2 ^ w from hu1 i i.2) this
    rw [show n - 1 + k + 1 + (i : ℕ) = k + i + n by omega]
    exact this
  · intro hk i hi
    have := hk ⟨i, hi⟩
    simp only at this
    rw [show n - 1 + k + 1 + i = k + i + n by omega] at this
    simp only
    rw [this, hu2 i hi]

/-- everything that follows from the repetition -/
theorem mt_longest {b : Nat} (hb : b = 32 ∨ b = 64) {checks : Bool} {seed : BitVec b} {p : MtPar b} {g : Mt b}
    (hnew : mtNew (.ok seed) p = .ok g) (hn3 : 3 ≤ p.n.toNat) (ha : 2 ^ (p.w.toNat - 1) ≤ p.a.toNat) (hmn : p.m.toNat < p.n.toNat)
    (hu : 0 < p.u.toNat) (hs : 0 < p.s.toNat) (ht : 0 < p.t.toNat) {P : ℕ} (hP : P.Prime)
    (hsize : P + 1 = 2 ^ (p.w.toNat - p.r.toNat) * (2 ^ p.w.toNat) ^ (p.n.toNat - 1))
    (hrep : ∀ X, Twisted p.w.toNat p.n.toNat p.m.toNat p.r.toNat p.a.toNat X → ∀ k, 1 ≤ k → X (k + (P + 1)) = X (k + 1)) :
    ∃ X, Longest p.w.toNat p.n.toNat p.m.toNat p.r.toNat p.a.toNat P X ∧
      Delivers (mtSource b checks) g fun k =>
        mtTemperCode p.u.toNat p.d.toNat p.s.toNat p.bm.toNat p.t.toNat p.c.toNat p.l.toNat (X (k + p.n.toNat)) := by
  have hv := (mtNew_ok hb hnew).1
  obtain ⟨X, hX, hT, hD⟩ := mt_words (checks := checks) hb hnew (by omega)
  rw [Nat.mod_eq_of_lt hmn] at hX hT
  have per : ∀ k, 2 ≤ k → X (k + P) = X k := by
    intro k hk
    have := hrep X hT (k - 1) (by omega)
    rwa [show k - 1 + (P + 1) = k + P by omega, show k - 1 + 1 = k by omega] at this
  refine ⟨X, ⟨hT, per, fun j K hj => ?_, hP.one_lt, hsize⟩, hD⟩
  by_contra hno
  have hc := eventually_constant (K := K + 2) hP (fun k hk => per k (by omega)) (fun k hk => hj k (by omega)) hno
  have hw : 0 < p.w.toNat := lt_trans hv.r0 hv.rw'
  have hz := twisted_constant hT hw ha hv.a hc
  obtain ⟨i, -, hi⟩ := C134_no_zeros_partial hb hnew hn3 (Or.inr ha) hu hs ht hD (K + 2)
  apply hi
  have : X (K + 2 + i + p.n.toNat) = 0 := by rw [hc _ (by omega), hz]
  rw [this]
  simp [mtTemperCode]

theorem mt_conclude {b : Nat} (hb : b = 32 ∨ b = 64) {checks : Bool} {seed : BitVec b} {p : MtPar b} {g : Mt b}
    (hnew : mtNew (.ok seed) p = .ok g) (hn3 : 3 ≤ p.n.toNat) (ha : 2 ^ (p.w.toNat - 1) ≤ p.a.toNat) (hm0 : 0 < p.m.toNat) (hmn : p.m.toNat < p.n.toNat)
    (hu : 0 < p.u.toNat) (hs : 0 < p.s.toNat) (ht : 0 < p.t.toNat) {P : ℕ} (hP : P.Prime)
    (hsize : P + 1 = 2 ^ (p.w.toNat - p.r.toNat) * (2 ^ p.w.toNat) ^ (p.n.toNat - 1))
    (hrep : ∀ X, Twisted p.w.toNat p.n.toNat p.m.toNat p.r.toNat p.a.toNat X → ∀ k, 1 ≤ k → X (k + (P + 1)) = X (k + 1)) :
    ∃ Y, Delivers (mtSource b checks) g Y ∧ ExactPeriod P Y ∧ EquiDistributed p.w.toNat (p.n.toNat - 1) (2 ^ (p.w.toNat - p.r.toNat)) P Y ∧
      ∀ (checks' : Bool) (seed' : BitVec b) g' Y', mtNew (.ok seed') p = .ok g' → Delivers (mtSource b checks') g' Y' → TranslateOf Y Y' := by
  have hv := (mtNew_ok hb hnew).1
  have hτ := (C134_temper hb hnew).2 ⟨hu, hs, ht⟩
  obtain ⟨X, hX, hD⟩ := mt_longest (checks := checks) hb hnew hn3 ha hmn hu hs ht hP hsize hrep
  refine ⟨_, hD, ⟨hP.pos, fun k => ?_, fun j ⟨K, hj⟩ => ?_⟩, hX.distributed hv.rw'.le hm0 hmn hτ (by simp [mtTemperCode]), ?_⟩
  · simp only
    rw [show k + P + p.n.toNat = k + p.n.toNat + P by omega, hX.per _ (by omega)]
  · refine hX.least j (K + p.n.toNat) fun k hk => ?_
    have := hj (k - p.n.toNat) (by omega)
    simp only at this
    rw [show k - p.n.toNat + j + p.n.toNat = k + j by omega, show k - p.n.toNat + p.n.toNat = k by omega] at this
    exact hτ.2 (show X (k + j) < _ from hX.tw.lt _) (show X k < _ from hX.tw.lt _) this
  · intro checks' seed' g' Y' hnew' hY'
    obtain ⟨X', hX', hD'⟩ := mt_longest (checks := checks') hb hnew' hn3 ha hmn hu hs ht hP hsize hrep
    obtain rfl := delivers_unique hY' hD'
    obtain ⟨d, hd⟩ := hX.meets hX' hv.rw'.le hm0 hmn 0
    refine ⟨d, fun k => ?_⟩
    simp only
    rw [hd _ (by omega), show k + p.n.toNat + d = k + d + p.n.toNat by omega]

theorem mersenne_19937 : (mersenne 19937).Prime := lucas_lehmer_sufficiency _ (by norm_num) (by norm_num)

theorem period_size {k w r n P : ℕ} (h : k = w - r + w * (n - 1)) (hP : P + 1 = 2 ^ k) : P + 1 = 2 ^ (w - r) * (2 ^ w) ^ (n - 1) := by
  rw [hP, h, Nat.pow_add, Nat.pow_mul]

theorem period32 {checks : Bool} {P : ℕ} (hP : P.Prime) (hT : P + 1 = 2 ^ 19937) (seed : BitVec 32) :
    PeriodClaim checks mt19937Par 32 623 2 P seed := by
  obtain ⟨g, hg⟩ : ∃ g, mtNew (.ok seed) mt19937Par = .ok g := ⟨_, rfl⟩
  obtain ⟨Y, h1, h2, h3, h4⟩ := mt_conclude (checks := checks) (p := mt19937Par) (Or.inl rfl) hg (by decide) (by decide) (by decide) (by decide) (by decide)
    (by decide) (by decide) hP (period_size (by decide) hT) (fun X hX k hk => hX.repeats32 hT k hk)
  exact ⟨g, Y, hg, h1, h2, h3, h4⟩

theorem period64 {checks : Bool} {P : ℕ} (hP : P.Prime) (hT : P + 1 = 2 ^ 19937) (seed : BitVec 64) :
    PeriodClaim checks mt19937Par64 64 311 (2 ^ 33) P seed := by
  obtain ⟨g, hg⟩ : ∃ g, mtNew (.ok seed) mt19937Par64 = .ok g := ⟨_, rfl⟩
  obtain ⟨Y, h1, h2, h3, h4⟩ := mt_conclude (checks := checks) (p := mt19937Par64) (Or.inr rfl) hg (by decide) (by decide) (by decide) (by decide) (by decide)
    (by decide) (by decide) hP (period_size (by decide) hT) (fun X hX k hk => hX.repeats64 hT k hk)
  exact ⟨g, Y, hg, h1, h2, h3, h4⟩

theorem mersenne_succ' (k : ℕ) : 2 ^ k - 1 + 1 = 2 ^ k := Nat.sub_add_cancel Nat.one_le_two_pow

theorem mersenne_19937' : (2 ^ 19937 - 1).Prime := mersenne_19937

/-! ## Theorems -/

/-- **C136**: `mt19937!` with any seed: the period is `2^19937 - 1`, and every sequence of 623 words occurs twice in it, the zeros once. -/
theorem C136_mt19937 {checks : Bool} (seed : BitVec 32) : PeriodClaim checks mt19937Par 32 623 2 (2 ^ 19937 - 1) seed :=
  period32 mersenne_19937' (mersenne_succ' _) seed

/-- **C136**: `mt19937_64!` with any seed: the period is `2^19937 - 1`, and every sequence of 311 words occurs `2^33` times in it, the zeros once
less. -/
theorem C136_mt19937_64 {checks : Bool} (seed : BitVec 64) : PeriodClaim checks mt19937Par64 64 311 (2 ^ 33) (2 ^ 19937 - 1) seed :=
  period64 mersenne_19937' (mersenne_succ' _) seed

/-- every sequence of words occurs -/
theorem EquiDistributed.occurs {w d c P : ℕ} {Y : ℕ → ℕ} (h : EquiDistributed w d c P Y) (hc : 2 ≤ c) {V : ℕ → ℕ} (hV : ∀ i < d, V i < 2 ^ w) :
    ∃ k < P, ∀ i < d, Y (k + i) = V i := by
  have h1 := h V hV
  have h2 : 0 < ((Finset.range P).filter fun k => ∀ i < d, Y (k + i) = V i).card := by
    rw [h1]
    split <;> omega
  obtain ⟨k, hk⟩ := Finset.card_pos.1 h2
  rw [Finset.mem_filter, Finset.mem_range] at hk
  exact ⟨k, hk.1, hk.2⟩

/-- **C136**: whatever the seed, `mt19937!` delivers any 623 given words in a row somewhere, and `mt19937_64!` any 311. -/
theorem C136_occurs {checks : Bool} :
    (∀ (seed : BitVec 32) (V : ℕ → ℕ), (∀ i < 623, V i < 2 ^ 32) → ∃ g Y, mtNew (.ok seed) mt19937Par = .ok g ∧
      Delivers (mtSource 32 checks) g Y ∧ ∃ k, ∀ i < 623, Y (k + i) = V i) ∧
    (∀ (seed : BitVec 64) (V : ℕ → ℕ), (∀ i < 311, V i < 2 ^ 64) → ∃ g Y, mtNew (.ok seed) mt19937Par64 = .ok g ∧
      Delivers (mtSource 64 checks) g Y ∧ ∃ k, ∀ i < 311, Y (k + i) = V i) := by
  constructor
  · intro seed V hV
    obtain ⟨g, Y, hg, hY, -, h, -⟩ := C136_mt19937 (checks := checks) seed
    obtain ⟨k, -, hk⟩ := h.occurs le_rfl hV
    exact ⟨g, Y, hg, hY, k, hk⟩
  · intro seed V hV
    obtain ⟨g, Y, hg, hY, -, h, -⟩ := C136_mt19937_64 (checks := checks) seed
    obtain ⟨k, -, hk⟩ := h.occurs (by norm_num) hV
    exact ⟨g, Y, hg, hY, k, hk⟩

example : EquiDistributed 1 1 2 3 fun k => if k % 3 = 0 then 0 else 1 := by
  intro V hV
  have h0 := hV 0 (by norm_num)
  have e : ∀ Q : ℕ → Prop, (∀ i < 1, Q i) ↔ Q 0 := fun Q => ⟨fun h => h 0 (by norm_num), fun h i hi => by rwa [show i = 0 by omega]⟩
  simp only [e]
  rcases (show V 0 = 0 ∨ V 0 = 1 by omega) with h | h <;> rw [h] <;> decide
example : TranslateOf (fun k => k) (fun k => k + 5) := ⟨5, fun _ => rfl⟩
example : Twisted 32 624 397 31 0x9908b0df fun _ => 0 := Twisted.zero _ _ _ _ _

end RMath
