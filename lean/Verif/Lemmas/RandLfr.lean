import Verif.Lemmas.Rand

/-! Proofs about the lagged Fibonacci generator. -/

namespace RMath

/-- the conditions that `new` checks -/
structure LfrPar {b : Nat} (w s r : BitVec b) : Prop where
  w0 : 0 < w.toNat
  wb : w.toNat ≤ b
  s0 : 0 < s.toNat
  sr : s.toNat < r.toNat

theorem bits_lt {b : Nat} (hb : b = 32 ∨ b = 64) : b < 2 ^ b := by rcases hb with rfl | rfl <;> decide

theorem lfrNew_ok {b : Nat} (hb : b = 32 ∨ b = 64) {x : BitVec b} {w s r : BitVec b} :
    (LfrPar w s r → lfrNew (.ok x) w s r = .ok ⟨w, s, r, x, false, 0#b, 0#b, []⟩) ∧
    ∀ sd g, lfrNew sd w s r = .ok g → LfrPar w s r ∧ ∃ x, sd = .ok x ∧ g = ⟨w, s, r, x, false, 0#b, 0#b, []⟩ := by
  have hbb := bits_lt hb
  constructor
  · rintro ⟨h1, h2, h3, h4⟩
    unfold lfrNew
    have c1 : ¬ (w = 0#b ∨ s = 0#b ∨ r = 0#b) := by
      rintro (rfl | rfl | rfl) <;> simp at h1 h3 h4
    have c2 : ¬ (r ≤ s) := by rw [BitVec.le_def]; omega
    have c3 : ¬ (BitVec.ofNat b b < w) := by
      rw [BitVec.lt_def, BitVec.toNat_ofNat, Nat.mod_eq_of_lt hbb]; omega
    rw [if_neg c1, if_neg c2, if_neg c3]
    rfl
  · intro sd g h
    unfold lfrNew at h
    split at h
    · cases h
    rename_i c1
    split at h
    · cases h
    rename_i c2
    split at h
    · cases h
    rename_i c3
    simp only [not_or] at c1
    rw [BitVec.le_def] at c2
    rw [BitVec.lt_def, BitVec.toNat_ofNat, Nat.mod_eq_of_lt hbb] at c3
    refine ⟨⟨toNat_ne_zero c1.1, by omega, toNat_ne_zero c1.2.1, by omega⟩, ?_⟩
    cases sd with
    | error e => cases h
    | ok x => exact ⟨x, rfl, by simpa [Except.map] using h.symm⟩

/-- the number of words of the seeding sequence in one word of the generator -/
theorem lfr_n {b : Nat} (hb : b = 32 ∨ b = 64) {w : BitVec b} (w0 : 0 < w.toNat) (hw : w.toNat ≤ b) :
    ((w + 31#b) >>> 5).toNat = if w.toNat ≤ 32 then 1 else 2 := by
  rw [BitVec.toNat_ushiftRight, BitVec.toNat_add, BitVec.toNat_ofNat, Nat.shiftRight_eq_div_pow]
  rcases hb with rfl | rfl
  · rw [if_pos hw]; omega
  · split <;> omega

/-- The state after the initialisation. -/
theorem lfrInit_spec {b : Nat} (hb : b = 32 ∨ b = 64) {g : Lfr b} (hp : LfrPar g.w g.s g.r) (hr : g.ready = false) :
    ∃ l, lfrInit g = .ok { g with state := l, carry := if l.getLastD 0#b = 0#b then 1#b else 0#b, idx := 0#b, ready := true } ∧
      l.length = g.r.toNat ∧
      ∀ j, j < g.r.toNat → ∃ v, l[j]? = some v ∧ v.toNat = swcInit g.w.toNat (lfrL b g.seed.toNat) j := by
  obtain ⟨l, e, hl, hs⟩ := lfrFill_spec hb hp.wb (lfr_n hb hp.w0 hp.wb) g.seed.toNat g.r.toNat 0 g.seed rfl
  refine ⟨l, ?_, hl, fun j hj => ?_⟩
  · unfold lfrInit
    rw [if_neg (by simp [hr])]
    simp only [e, bind, Except.bind]
  · obtain ⟨v, h1, h2⟩ := hs j hj
    exact ⟨v, h1, by rw [h2, Nat.zero_add]⟩

theorem atR_ok {α : Type} {l : List α} {i : ℕ} {x : α} (h : l[i]? = some x) : atR l i = .ok x := by
  unfold atR; rw [h]

theorem setR_ok {α : Type} {l : List α} {i : ℕ} (x : α) (h : i < l.length) : setR l i x = .ok (l.set i x) := if_pos h

theorem addChk_ok {b : Nat} {checks : Bool} {x y : BitVec b} (h : checks = true → x.toNat + y.toNat < 2 ^ b) :
    addChk checks x y = .ok (x + y) := by
  unfold addChk; rw [if_neg]; rintro ⟨h1, h2⟩; have := h h1; omega

theorem subChk_ok {b : Nat} {checks : Bool} {x y : BitVec b} (h : checks = true → y.toNat ≤ x.toNat) :
    subChk checks x y = .ok (x - y) := by
  unfold subChk; rw [if_neg]; rintro ⟨h1, h2⟩; have := h h1; omega

/-- The position of the short lag. -/
theorem lfr_ps {b : Nat} (hb : b = 32 ∨ b = 64) {checks : Bool} {s r idx : BitVec b}
    (sr : s.toNat < r.toNat) (hi : idx.toNat < r.toNat) (hc : checks = true → r.toNat + s.toNat ≤ 2 ^ b) :
    ∃ ps : BitVec b, (if idx < s then (do let t ← addChk checks r idx; subChk checks t s) else subChk checks idx s) = .ok ps ∧
      ps.toNat = if idx.toNat < s.toNat then r.toNat + idx.toNat - s.toNat else idx.toNat - s.toNat := by
  have hs := s.isLt; have hr := r.isLt; have hx := idx.isLt
  by_cases h : idx < s
  · rw [if_pos h]
    rw [BitVec.lt_def] at h
    rw [if_pos h, addChk_ok (fun h' => by have := hc h'; omega)]
    simp only [bind, Except.bind]
    refine ⟨r + idx - s, subChk_ok ?_, ?_⟩
    · intro h'
      have := hc h'
      rw [BitVec.toNat_add, Nat.mod_eq_of_lt (by omega)]; omega
    · rw [BitVec.toNat_sub, BitVec.toNat_add]
      rcases hb with rfl | rfl <;> omega
  · rw [if_neg h]
    rw [BitVec.lt_def] at h
    rw [if_neg h]
    refine ⟨idx - s, subChk_ok (fun _ => by omega), ?_⟩
    rw [BitVec.toNat_sub]
    rcases hb with rfl | rfl <;> omega

/-- One draw, without overflow: the word and the new state. -/
theorem lfrGen_step {b : Nat} (hb : b = 32 ∨ b = 64) {checks : Bool} {g : Lfr b} (hp : LfrPar g.w g.s g.r)
    (hr : g.ready = true) (hi : g.idx.toNat < g.r.toNat) (hl : g.state.length = g.r.toNat)
    (hc : checks = true → g.r.toNat + g.s.toNat ≤ 2 ^ b)
    {xs x : BitVec b} (hx : g.state[g.idx.toNat]? = some x)
    (hxs : g.state[if g.idx.toNat < g.s.toNat then g.r.toNat + g.idx.toNat - g.s.toNat else g.idx.toNat - g.s.toNat]? = some xs)
    (hov : checks = true → x.toNat + g.carry.toNat < 2 ^ b) :
    ∃ xi c, lfrGen checks g = .ok (xi, { g with carry := c, state := g.state.set g.idx.toNat xi, idx := if g.r.toNat ≤ g.idx.toNat + 1 then 0#b else g.idx + 1#b }) ∧
      (xi, c) = (if x + g.carry ≤ xs then (xs - x - g.carry, 0#b)
        else ((if g.w = BitVec.ofNat b b then 0#b else 1#b <<< g.w.toNat) - x - g.carry + xs, 1#b)) := by
  obtain ⟨ps, e1, v1⟩ := lfr_ps hb hp.sr hi hc
  have hrlt := g.r.isLt
  have h1 : (1#b : BitVec b).toNat = 1 := by rcases hb with rfl | rfl <;> rfl
  have e3 : addChk checks g.idx 1#b = .ok (g.idx + 1#b) := addChk_ok (fun _ => by rw [h1]; omega)
  have e4 : (g.r ≤ g.idx + 1#b) ↔ g.r.toNat ≤ g.idx.toNat + 1 := by
    rw [BitVec.le_def, BitVec.toNat_add, h1, Nat.mod_eq_of_lt (by omega)]
  have hinit : lfrInit g = .ok g := by unfold lfrInit; rw [if_pos hr]
  have e5 : atR g.state ps.toNat = .ok xs := atR_ok (by rw [v1]; exact hxs)
  refine ⟨_, _, ?_, Prod.mk.eta.symm⟩
  unfold lfrGen
  simp only [hinit, bind, Except.bind] at e1 ⊢
  by_cases hlt : g.idx < g.s
  · rw [if_pos hlt] at e1
    rw [if_pos hlt]
    simp only [e1, e5, atR_ok hx, addChk_ok hov, e3, setR_ok _ (show g.idx.toNat < g.state.length by omega), e4]
    rfl
  · rw [if_neg hlt] at e1
    rw [if_neg hlt]
    simp only [e1, e5, atR_ok hx, addChk_ok hov, e3, setR_ok _ (show g.idx.toNat < g.state.length by omega), e4]
    rfl

/-! ## Every history: no panic, words below `2^w` -/

/-- The invariant of the states that `new`, `gen` and `reset` produce. -/
structure LfrOk {b : Nat} (w s r : BitVec b) (g : Lfr b) : Prop where
  hw : g.w = w
  hs : g.s = s
  hr : g.r = r
  cl : g.carry.toNat ≤ 1
  ready : g.ready = true → g.state.length = r.toNat ∧ g.idx.toNat < r.toNat ∧ ∀ x ∈ g.state, x.toNat < 2 ^ w.toNat

/-- The arithmetic of one draw, for a word size below that of the type. -/
theorem lfr_arith {b : Nat} (hb : b = 32 ∨ b = 64) {w x xs carry xi c : BitVec b} (hw : w.toNat < b)
    (hx : x.toNat < 2 ^ w.toNat) (hxs : xs.toNat < 2 ^ w.toNat) (hcar : carry.toNat ≤ 1)
    (h : (xi, c) = (if x + carry ≤ xs then (xs - x - carry, 0#b)
        else ((if w = BitVec.ofNat b b then 0#b else 1#b <<< w.toNat) - x - carry + xs, 1#b))) :
    (xi.toNat : ℤ) = ((xs.toNat : ℤ) - x.toNat - carry.toNat) % 2 ^ w.toNat ∧
      c.toNat = (if (xs.toNat : ℤ) - x.toNat - carry.toNat < 0 then 1 else 0) ∧ xi.toNat < 2 ^ w.toNat := by
  have hbb := bits_lt hb
  have hne : w ≠ BitVec.ofNat b b := by
    intro hc; rw [hc, BitVec.toNat_ofNat, Nat.mod_eq_of_lt hbb] at hw; omega
  rw [if_neg hne] at h
  have h1 : (1#b : BitVec b).toNat = 1 := by rcases hb with rfl | rfl <;> rfl
  have hp2 : 2 * 2 ^ w.toNat ≤ 2 ^ b := by
    rw [← Nat.pow_succ']; exact Nat.pow_le_pow_right (by decide) hw
  have hp1 : 1 ≤ 2 ^ w.toNat := Nat.one_le_two_pow
  have hsh : (1#b <<< w.toNat).toNat = 2 ^ w.toNat := by
    rw [BitVec.toNat_shiftLeft, h1, Nat.shiftLeft_eq, one_mul, Nat.mod_eq_of_lt (by omega)]
  have hsum : (x + carry).toNat = x.toNat + carry.toNat := by
    rw [BitVec.toNat_add, Nat.mod_eq_of_lt]
    have : 2 ≤ 2 ^ b := by rcases hb with rfl | rfl <;> decide
    omega
  have hcast : ((2 : ℤ) ^ w.toNat) = ((2 ^ w.toNat : ℕ) : ℤ) := by push_cast; rfl
  rw [hcast]
  generalize hP : 2 ^ w.toNat = P at *
  by_cases hle : x + carry ≤ xs
  · rw [if_pos hle] at h
    rw [BitVec.le_def, hsum] at hle
    obtain ⟨rfl, rfl⟩ := Prod.mk.inj h
    have hv : (xs - x - carry).toNat = xs.toNat - x.toNat - carry.toNat := by
      rw [BitVec.toNat_sub, BitVec.toNat_sub]
      rcases hb with rfl | rfl <;> omega
    rw [hv]
    refine ⟨?_, ?_, by omega⟩
    · rw [Int.emod_eq_of_lt (by omega) (by omega)]; omega
    · rw [if_neg (by omega)]; simp
  · rw [if_neg hle] at h
    rw [BitVec.le_def, hsum] at hle
    obtain ⟨rfl, rfl⟩ := Prod.mk.inj h
    have hv : (1#b <<< w.toNat - x - carry + xs).toNat = P + xs.toNat - x.toNat - carry.toNat := by
      rw [BitVec.toNat_add, BitVec.toNat_sub, BitVec.toNat_sub, hsh]
      rcases hb with rfl | rfl <;> omega
    rw [hv]
    refine ⟨?_, ?_, by omega⟩
    · rw [← Int.add_emod_right, Int.emod_eq_of_lt (by omega) (by omega)]; omega
    · rw [if_pos (by omega), h1]

theorem mem_of_getElem? {α : Type} {l : List α} {i : ℕ} {x : α} (h : l[i]? = some x) : x ∈ l := List.mem_of_getElem? h

theorem exists_getElem? {α : Type} {l : List α} {i : ℕ} (h : i < l.length) : ∃ x, l[i]? = some x := ⟨l[i], List.getElem?_eq_getElem h⟩

theorem swcInit_lt (w : ℕ) (L : ℕ → ℕ) (i : ℕ) : swcInit w L i < 2 ^ w := Nat.mod_lt _ (Nat.two_pow_pos w)

theorem lfrInit_ok {b : Nat} (hb : b = 32 ∨ b = 64) {w s r : BitVec b} (hp : LfrPar w s r) {g : Lfr b} (h : LfrOk w s r g) :
    ∃ g', lfrInit g = .ok g' ∧ LfrOk w s r g' ∧ g'.ready = true := by
  cases hr : g.ready with
  | true => exact ⟨g, by unfold lfrInit; rw [if_pos hr], h, hr⟩
  | false =>
    obtain ⟨l, e, hl, hs⟩ := lfrInit_spec hb (g := g) (by rw [h.hw, h.hs, h.hr]; exact hp) hr
    refine ⟨_, e, ⟨h.hw, h.hs, h.hr, ?_, fun _ => ⟨by rw [hl, h.hr], ?_, ?_⟩⟩, rfl⟩
    · simp only; split <;> rcases hb with rfl | rfl <;> simp
    · simp only [BitVec.toNat_ofNat, Nat.zero_mod]; have := hp.sr; omega
    · intro x hx
      obtain ⟨j, hj, rfl⟩ := List.getElem_of_mem hx
      simp only at hj
      obtain ⟨v, hv, hv'⟩ := hs j (by omega)
      rw [List.getElem?_eq_getElem hj, Option.some.injEq] at hv
      rw [hv, hv', h.hw]
      exact swcInit_lt _ _ _

theorem lfrGen_init {b : Nat} {checks : Bool} {g g' : Lfr b} (h : lfrInit g = .ok g') (hr : g'.ready = true) :
    lfrGen checks g = lfrGen checks g' := by
  have : lfrInit g' = .ok g' := by unfold lfrInit; rw [if_pos hr]
  unfold lfrGen
  rw [h, this]

theorem lfrGen_ok {b : Nat} (hb : b = 32 ∨ b = 64) {checks : Bool} {w s r : BitVec b} (hp : LfrPar w s r)
    (hc : checks = true → w.toNat < b ∧ r.toNat + s.toNat ≤ 2 ^ b) {g : Lfr b} (h : LfrOk w s r g) :
    ∃ x g', lfrGen checks g = .ok (x, g') ∧ x.toNat < 2 ^ w.toNat ∧ LfrOk w s r g' := by
  obtain ⟨g1, e1, h1, r1⟩ := lfrInit_ok hb hp h
  rw [lfrGen_init e1 r1]
  obtain ⟨hl, hi, hlt⟩ := h1.ready r1
  have hp1 : LfrPar g1.w g1.s g1.r := by rw [h1.hw, h1.hs, h1.hr]; exact hp
  obtain ⟨x, hx⟩ := exists_getElem? (l := g1.state) (i := g1.idx.toNat) (by omega)
  obtain ⟨xs, hxs⟩ := exists_getElem? (l := g1.state)
    (i := if g1.idx.toNat < g1.s.toNat then g1.r.toNat + g1.idx.toNat - g1.s.toNat else g1.idx.toNat - g1.s.toNat)
    (by have := hp1.sr; rw [h1.hr] at *; split <;> omega)
  have hxl := hlt x (mem_of_getElem? hx)
  have hcl := h1.cl
  obtain ⟨xi, c, e2, e3⟩ := lfrGen_step hb (checks := checks) hp1 r1 (by rw [h1.hr]; exact hi) (by rw [h1.hr]; exact hl)
    (fun hch => by rw [h1.hr, h1.hs]; exact (hc hch).2) hx hxs
    (fun hch => by
      have hp2 : 2 * 2 ^ w.toNat ≤ 2 ^ b := by
        rw [← Nat.pow_succ']; exact Nat.pow_le_pow_right (by decide) (hc hch).1
      have : 2 ≤ 2 ^ b := by rcases hb with rfl | rfl <;> decide
      omega)
  have hb1 : (1#b : BitVec b).toNat = 1 := by rcases hb with rfl | rfl <;> rfl
  have hxi : xi.toNat < 2 ^ w.toNat := by
    by_cases hwb : w.toNat < b
    · exact (lfr_arith hb hwb hxl (hlt xs (mem_of_getElem? hxs)) hcl (by rw [← h1.hw]; exact e3)).2.2
    · rw [show w.toNat = b by have := hp.wb; omega]; exact xi.isLt
  refine ⟨xi, _, e2, hxi, h1.hw, h1.hs, h1.hr, ?_, fun _ => ⟨by simp [hl], ?_, ?_⟩⟩
  · have : c = 0#b ∨ c = 1#b := by
      split at e3 <;> obtain ⟨-, rfl⟩ := Prod.mk.inj e3
      · left; rfl
      · right; rfl
    rcases this with rfl | rfl
    · simp
    · simp [hb1]
  · simp only
    rw [h1.hr]
    split
    · have := hp.sr; simp only [BitVec.toNat_ofNat, Nat.zero_mod]; omega
    · have := r.isLt
      rw [BitVec.toNat_add, hb1, Nat.mod_eq_of_lt (by omega)]; omega
  · intro y hy
    rcases List.mem_or_eq_of_mem_set hy with hy | rfl
    · exact hlt y hy
    · exact hxi

theorem lfrReset_ok {b : Nat} (hb : b = 32 ∨ b = 64) {w s r : BitVec b} (hp : LfrPar w s r) {g : Lfr b} (h : LfrOk w s r g)
    (x : BitVec b) : ∃ g', lfrReset g x = .ok g' ∧ LfrOk w s r g' := by
  obtain ⟨g', e, h', _⟩ := lfrInit_ok hb hp (g := { g with seed := x, ready := false })
    ⟨h.hw, h.hs, h.hr, h.cl, fun hc => absurd hc (by simp)⟩
  exact ⟨g', e, h'⟩

/-! ## The recurrence -/

/-- The state after `k` draws. -/
structure LfrAt {b : Nat} (w s r : BitVec b) (X C : ℕ → ℕ) (k : ℕ) (g : Lfr b) : Prop where
  hw : g.w = w
  hs : g.s = s
  hr : g.r = r
  ready : g.ready = true
  len : g.state.length = r.toNat
  carry : g.carry.toNat = C k
  at' : ∃ B, B * r.toNat + g.idx.toNat = k ∧ g.idx.toNat < r.toNat ∧
    ∀ j, j < r.toNat → ∃ v, g.state[j]? = some v ∧ v.toNat = X (B * r.toNat + j + if j < g.idx.toNat then r.toNat else 0)

theorem swc_bounds {w s r : ℕ} {L X C : ℕ → ℕ} (hs : s < r) (h : SwcSeq w s r (swcInit w L) X C) :
    (∀ i, X i < 2 ^ w) ∧ ∀ k, C k ≤ 1 := by
  obtain ⟨h1, h2, h3⟩ := h
  constructor
  · intro i
    by_cases hi : i < r
    · rw [h1 i hi]; exact swcInit_lt _ _ _
    · have := (h3 (i - r)).1
      rw [show i - r + r = i by omega] at this
      have h5 : (0 : ℤ) < 2 ^ w := by positivity
      have h6 := Int.emod_lt_of_pos ((X (i - s) : ℤ) - X (i - r) - C (i - r)) h5
      rw [← this] at h6
      exact_mod_cast h6
  · intro k
    cases k with
    | zero => rw [h2]; split <;> omega
    | succ k => rw [(h3 k).2]; split <;> omega

/-- One draw moves the state on, if the recurrence makes the same word and carry as the code. -/
theorem lfrGen_move {b : Nat} (hb : b = 32 ∨ b = 64) {checks : Bool} {w s r : BitVec b} (hp : LfrPar w s r)
    (hc : checks = true → r.toNat + s.toNat ≤ 2 ^ b) {X C : ℕ → ℕ} (k : ℕ) (g : Lfr b) (h : LfrAt w s r X C k g)
    (hno : checks = true → X k + C k < 2 ^ b)
    (hstep : ∀ x xs carry xi c : BitVec b, x.toNat = X k → xs.toNat = X (k + r.toNat - s.toNat) → carry.toNat = C k →
      (xi, c) = (if x + carry ≤ xs then (xs - x - carry, 0#b)
        else ((if w = BitVec.ofNat b b then 0#b else 1#b <<< w.toNat) - x - carry + xs, 1#b)) →
      xi.toNat = X (k + r.toNat) ∧ c.toNat = C (k + 1)) :
    ∃ g', lfrGen checks g = .ok (BitVec.ofNat b (X (k + r.toNat)), g') ∧ LfrAt w s r X C (k + 1) g' := by
  obtain ⟨B, hk, hi, hst⟩ := h.at'
  have hsr := hp.sr
  have hs0 := hp.s0
  have hp1 : LfrPar g.w g.s g.r := by rw [h.hw, h.hs, h.hr]; exact hp
  obtain ⟨x, hx, vx⟩ := hst g.idx.toNat hi
  rw [if_neg (by omega), Nat.add_zero, hk] at vx
  have hps : ∃ xs, g.state[if g.idx.toNat < g.s.toNat then g.r.toNat + g.idx.toNat - g.s.toNat else g.idx.toNat - g.s.toNat]? = some xs ∧
      xs.toNat = X (k + r.toNat - s.toNat) := by
    rw [h.hs, h.hr]
    split
    · obtain ⟨v, hv, hv'⟩ := hst (r.toNat + g.idx.toNat - s.toNat) (by omega)
      refine ⟨v, hv, ?_⟩
      rw [hv', if_neg (by omega)]
      congr 1; omega
    · obtain ⟨v, hv, hv'⟩ := hst (g.idx.toNat - s.toNat) (by omega)
      refine ⟨v, hv, ?_⟩
      rw [hv', if_pos (by omega)]
      congr 1; omega
  obtain ⟨xs, hxs, vxs⟩ := hps
  have hb1 : (1#b : BitVec b).toNat = 1 := by rcases hb with rfl | rfl <;> rfl
  obtain ⟨xi, c, e2, e3⟩ := lfrGen_step hb (checks := checks) hp1 h.ready (by rw [h.hr]; exact hi) (by rw [h.hr]; exact h.len)
    (fun hch => by rw [h.hr, h.hs]; exact hc hch) hx hxs (fun hch => by rw [vx, h.carry]; exact hno hch)
  obtain ⟨hxi, a2⟩ := hstep x xs g.carry xi c vx vxs h.carry (by rw [← h.hw]; exact e3)
  have hxi' : xi = BitVec.ofNat b (X (k + r.toNat)) := by rw [← hxi, BitVec.ofNat_toNat]; simp
  rw [← hxi']
  refine ⟨_, e2, h.hw, h.hs, h.hr, h.ready, by simp [h.len], a2, ?_⟩
  simp only [h.hr]
  have hrl := r.isLt
  have hinc : (g.idx + 1#b).toNat = g.idx.toNat + 1 := by
    rw [BitVec.toNat_add, hb1, Nat.mod_eq_of_lt (by omega)]
  have hset : ∀ j, j < r.toNat → j ≠ g.idx.toNat → (g.state.set g.idx.toNat xi)[j]? = g.state[j]? := by
    intro j _ hne
    rw [List.getElem?_set_ne (by omega)]
  have hset' : (g.state.set g.idx.toNat xi)[g.idx.toNat]? = some xi := by
    rw [List.getElem?_set_self (by rw [h.len]; exact hi)]
  by_cases hw' : r.toNat ≤ g.idx.toNat + 1
  · rw [if_pos hw']
    have hz : (0#b : BitVec b).toNat = 0 := by simp
    refine ⟨B + 1, ?_, by rw [hz]; omega, ?_⟩
    · rw [hz, Nat.add_mul]; omega
    · intro j hj
      rw [hz, if_neg (by omega)]
      by_cases hji : j = g.idx.toNat
      · refine ⟨xi, by rw [hji]; exact hset', ?_⟩
        rw [hxi]; congr 1; rw [Nat.add_mul]; omega
      · obtain ⟨v, hv, hv'⟩ := hst j hj
        refine ⟨v, by rw [hset j hj hji]; exact hv, ?_⟩
        rw [hv', if_pos (by omega)]; congr 1; rw [Nat.add_mul]; omega
  · rw [if_neg hw', hinc]
    refine ⟨B, by omega, by omega, ?_⟩
    intro j hj
    by_cases hji : j = g.idx.toNat
    · refine ⟨xi, by rw [hji]; exact hset', ?_⟩
      rw [hxi, if_pos (by omega)]; congr 1; omega
    · obtain ⟨v, hv, hv'⟩ := hst j hj
      refine ⟨v, by rw [hset j hj hji]; exact hv, ?_⟩
      rw [hv']
      congr 2
      by_cases hlt : j < g.idx.toNat
      · rw [if_pos hlt, if_pos (by omega)]
      · rw [if_neg hlt, if_neg (by omega)]

theorem lfrGen_at {b : Nat} (hb : b = 32 ∨ b = 64) {checks : Bool} {w s r : BitVec b} (hp : LfrPar w s r) (hwb : w.toNat < b)
    (hc : checks = true → r.toNat + s.toNat ≤ 2 ^ b) {L X C : ℕ → ℕ}
    (hX : SwcSeq w.toNat s.toNat r.toNat (swcInit w.toNat L) X C) (k : ℕ) (g : Lfr b) (h : LfrAt w s r X C k g) :
    ∃ g', lfrGen checks g = .ok (BitVec.ofNat b (X (k + r.toNat)), g') ∧ LfrAt w s r X C (k + 1) g' := by
  obtain ⟨bX, bC⟩ := swc_bounds hp.sr hX
  refine lfrGen_move hb hp hc k g h (fun _ => ?_) ?_
  · have hp2 : 2 * 2 ^ w.toNat ≤ 2 ^ b := by
      rw [← Nat.pow_succ']; exact Nat.pow_le_pow_right (by decide) hwb
    have h2b : 2 ≤ 2 ^ b := by rcases hb with rfl | rfl <;> decide
    have := bX k
    have := bC k
    omega
  · intro x xs carry xi c vx vxs vc e3
    obtain ⟨a1, a2, a3⟩ := lfr_arith (xi := xi) (c := c) hb hwb (by rw [vx]; exact bX _) (by rw [vxs]; exact bX _)
      (by rw [vc]; exact bC _) e3
    obtain ⟨r1, r2⟩ := hX.2.2 k
    rw [vx, vxs, vc] at a1 a2
    refine ⟨?_, by rw [a2, r2]⟩
    have : (xi.toNat : ℤ) = X (k + r.toNat) := by rw [a1, r1]
    exact_mod_cast this

/-- With overflow checks, the greatest word and a carry make the draw panic. -/
theorem lfrGen_panics {b : Nat} (hb : b = 32 ∨ b = 64) {w s r : BitVec b} (hp : LfrPar w s r)
    (hc : r.toNat + s.toNat ≤ 2 ^ b) {X C : ℕ → ℕ} (k : ℕ) (g : Lfr b) (h : LfrAt w s r X C k g)
    (hov : X k + C k = 2 ^ b) : lfrGen true g = .error .panic := by
  obtain ⟨B, hk, hi, hst⟩ := h.at'
  have hsr := hp.sr
  have hs0 := hp.s0
  have hp1 : LfrPar g.w g.s g.r := by rw [h.hw, h.hs, h.hr]; exact hp
  obtain ⟨x, hx, vx⟩ := hst g.idx.toNat hi
  rw [if_neg (by omega), Nat.add_zero, hk] at vx
  have hps : ∃ xs, g.state[if g.idx.toNat < g.s.toNat then g.r.toNat + g.idx.toNat - g.s.toNat else g.idx.toNat - g.s.toNat]? = some xs ∧
      xs.toNat = X (k + r.toNat - s.toNat) := by
    rw [h.hs, h.hr]
    split
    · obtain ⟨v, hv, hv'⟩ := hst (r.toNat + g.idx.toNat - s.toNat) (by omega)
      refine ⟨v, hv, ?_⟩
      rw [hv', if_neg (by omega)]
      congr 1; omega
    · obtain ⟨v, hv, hv'⟩ := hst (g.idx.toNat - s.toNat) (by omega)
      refine ⟨v, hv, ?_⟩
      rw [hv', if_pos (by omega)]
      congr 1; omega
  obtain ⟨xs, hxs, vxs⟩ := hps
  obtain ⟨ps, e1, v1⟩ := lfr_ps hb (checks := true) hp1.sr (by rw [h.hr]; exact hi) (fun _ => by rw [h.hr, h.hs]; exact hc)
  have hinit : lfrInit g = .ok g := by unfold lfrInit; rw [if_pos h.ready]
  have e5 : atR g.state ps.toNat = .ok xs := atR_ok (by rw [v1]; exact hxs)
  have e6 : addChk true x g.carry = .error .panic := by
    unfold addChk; rw [if_pos ⟨rfl, by rw [vx, h.carry]; omega⟩]
  unfold lfrGen
  simp only [hinit, bind, Except.bind] at e1 ⊢
  by_cases hlt : g.idx < g.s
  · rw [if_pos hlt] at e1
    rw [if_pos hlt]
    simp only [e1, e5, atR_ok hx, e6]
  · rw [if_neg hlt] at e1
    rw [if_neg hlt]
    simp only [e1, e5, atR_ok hx, e6]

/-- The arithmetic of one draw, for words as long as the type. -/
theorem lfr_arith_full {b : Nat} (hb : b = 32 ∨ b = 64) {w x xs carry xi c : BitVec b} (hw : w.toNat = b) (hcar : carry.toNat ≤ 1)
    (h : (xi, c) = (if x + carry ≤ xs then (xs - x - carry, 0#b)
        else ((if w = BitVec.ofNat b b then 0#b else 1#b <<< w.toNat) - x - carry + xs, 1#b))) :
    (xi.toNat : ℤ) = ((xs.toNat : ℤ) - x.toNat - carry.toNat) % 2 ^ b ∧
      c.toNat = (if x.toNat + carry.toNat = 2 ^ b then 0 else if (xs.toNat : ℤ) - x.toNat - carry.toNat < 0 then 1 else 0) := by
  have hwe : w = BitVec.ofNat b b := by rw [← BitVec.toNat_inj, BitVec.toNat_ofNat, Nat.mod_eq_of_lt (bits_lt hb), hw]
  rw [if_pos hwe] at h
  have hx := x.isLt
  have hxs := xs.isLt
  have hle : x + carry ≤ xs ↔ (x.toNat + carry.toNat) % 2 ^ b ≤ xs.toNat := by rw [BitVec.le_def, BitVec.toNat_add]
  have hv : (xs - x - carry).toNat = (2 ^ b - carry.toNat + (2 ^ b - x.toNat + xs.toNat)) % 2 ^ b := by
    rw [BitVec.toNat_sub, BitVec.toNat_sub, Nat.add_mod_mod]
  have hv' : (0#b - x - carry + xs) = xs - x - carry := by
    apply BitVec.eq_of_toNat_eq
    simp only [BitVec.toNat_add, BitVec.toNat_sub, BitVec.toNat_ofNat]
    rcases hb with rfl | rfl <;> omega
  rw [hv'] at h
  have hz : (0#b : BitVec b).toNat = 0 := by simp
  have h1 : (1#b : BitVec b).toNat = 1 := by rcases hb with rfl | rfl <;> rfl
  have key : (((2 ^ b - carry.toNat + (2 ^ b - x.toNat + xs.toNat)) % 2 ^ b : ℕ) : ℤ) =
      ((xs.toNat : ℤ) - x.toNat - carry.toNat) % 2 ^ b := by
    have h2 : 2 ≤ 2 ^ b := by rcases hb with rfl | rfl <;> decide
    have hcast : ((2 : ℤ) ^ b) = ((2 ^ b : ℕ) : ℤ) := by push_cast; rfl
    rw [hcast, Int.natCast_mod, Nat.cast_add, Nat.cast_add, Nat.cast_sub (by omega), Nat.cast_sub (by omega)]
    generalize (2 ^ b : ℕ) = P
    rw [show ((P : ℤ) - carry.toNat + ((P : ℤ) - x.toNat + xs.toNat)) = ((xs.toNat : ℤ) - x.toNat - carry.toNat) + P + P by ring,
      Int.add_emod_right, Int.add_emod_right]
  have h2 : 2 ≤ 2 ^ b := by rcases hb with rfl | rfl <;> decide
  by_cases hc : x + carry ≤ xs
  · rw [if_pos hc] at h
    obtain ⟨rfl, rfl⟩ := Prod.mk.inj h
    refine ⟨by rw [hv]; exact key, ?_⟩
    rw [hle] at hc
    rw [hz]
    by_cases hs : x.toNat + carry.toNat = 2 ^ b
    · rw [if_pos hs]
    · rw [if_neg hs, if_neg]
      rw [Nat.mod_eq_of_lt (by omega)] at hc
      omega
  · rw [if_neg hc] at h
    obtain ⟨rfl, rfl⟩ := Prod.mk.inj h
    refine ⟨by rw [hv]; exact key, ?_⟩
    rw [hle] at hc
    rw [h1, if_neg, if_pos]
    · have := Nat.mod_le (x.toNat + carry.toNat) (2 ^ b); omega
    · intro hs; rw [hs, Nat.mod_self] at hc; omega

theorem swcLossy_bounds {w s r : ℕ} {L X C : ℕ → ℕ} (h : SwcLossySeq w s r (swcInit w L) X C) :
    (∀ i, X i < 2 ^ w) ∧ ∀ k, C k ≤ 1 := by
  obtain ⟨h1, h2, h3⟩ := h
  constructor
  · intro i
    by_cases hi : i < r
    · rw [h1 i hi]; exact swcInit_lt _ _ _
    · have := (h3 (i - r)).1
      rw [show i - r + r = i by omega] at this
      have h5 : (0 : ℤ) < 2 ^ w := by positivity
      have h6 := Int.emod_lt_of_pos ((X (i - s) : ℤ) - X (i - r) - C (i - r)) h5
      rw [← this] at h6
      exact_mod_cast h6
  · intro k
    cases k with
    | zero => rw [h2]; split <;> omega
    | succ k => rw [(h3 k).2]; split <;> [omega; (split <;> omega)]

/-- One draw for words as long as the type: the recurrence with the lost carry. -/
theorem lfrGen_at_full {b : Nat} (hb : b = 32 ∨ b = 64) {checks : Bool} {w s r : BitVec b} (hp : LfrPar w s r) (hwb : w.toNat = b)
    (hc : checks = true → r.toNat + s.toNat ≤ 2 ^ b) {L X C : ℕ → ℕ}
    (hX : SwcLossySeq b s.toNat r.toNat (swcInit b L) X C) (k : ℕ) (hno : checks = true → X k + C k ≠ 2 ^ b) (g : Lfr b)
    (h : LfrAt w s r X C k g) :
    ∃ g', lfrGen checks g = .ok (BitVec.ofNat b (X (k + r.toNat)), g') ∧ LfrAt w s r X C (k + 1) g' := by
  obtain ⟨bX, bC⟩ := swcLossy_bounds hX
  have b1 := bX k
  have b2 := bC k
  refine lfrGen_move hb hp hc k g h (fun hch => by have := hno hch; omega) ?_
  intro x xs carry xi c vx vxs vc e3
  obtain ⟨a1, a2⟩ := lfr_arith_full (xi := xi) (c := c) hb hwb (by rw [vc]; exact b2) e3
  obtain ⟨r1, r2⟩ := hX.2.2 k
  rw [vx, vxs, vc] at a1 a2
  refine ⟨?_, by rw [a2, r2]⟩
  have : (xi.toNat : ℤ) = X (k + r.toNat) := by rw [a1, r1]
  exact_mod_cast this

/-- The initialised state is the state after no draw. -/
theorem lfrInit_at {b : Nat} (hb : b = 32 ∨ b = 64) {w s r : BitVec b} (hp : LfrPar w s r) {x : BitVec b} {X C : ℕ → ℕ}
    (hX1 : ∀ i, i < r.toNat → X i = swcInit w.toNat (lfrL b x.toNat) i) (hX2 : C 0 = if X (r.toNat - 1) = 0 then 1 else 0) :
    ∃ g, lfrInit ⟨w, s, r, x, false, 0#b, 0#b, []⟩ = .ok g ∧ LfrAt w s r X C 0 g := by
  obtain ⟨l, e, hl, hs⟩ := lfrInit_spec hb (g := ⟨w, s, r, x, false, 0#b, 0#b, []⟩) hp rfl
  have hsr := hp.sr
  have hb1 : (1#b : BitVec b).toNat = 1 := by rcases hb with rfl | rfl <;> rfl
  refine ⟨_, e, rfl, rfl, rfl, rfl, hl, ?_, 0, by simp, by simp; omega, fun j hj => ?_⟩
  · simp only at hl hs ⊢
    obtain ⟨v, hv, hv'⟩ := hs (r.toNat - 1) (by omega)
    have hlast : l.getLastD 0#b = v := by
      rw [List.getLastD_eq_getLast?, List.getLast?_eq_getElem?, hl, hv]; rfl
    rw [hlast, hX2, hX1 _ (by omega), ← hv']
    by_cases h0 : v = 0#b
    · rw [if_pos h0, if_pos (by rw [h0]; simp), hb1]
    · rw [if_neg h0, if_neg (by have := toNat_ne_zero h0; omega)]; simp
  · obtain ⟨v, hv, hv'⟩ := hs j hj
    exact ⟨v, hv, by rw [hv', Nat.zero_mul, Nat.zero_add]; simp [hX1 j hj]⟩

end RMath
