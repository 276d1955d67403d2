import Verif.Lemmas.RandLfr

/-! Proofs about the Mersenne twister. -/

namespace RMath

/-- the conditions that `new` checks, as far as they are needed -/
structure MtValid {b : Nat} (p : MtPar b) : Prop where
  wb : p.w.toNat ≤ b
  m0 : 0 < p.m.toNat
  mn : p.m.toNat ≤ p.n.toNat
  r0 : 0 < p.r.toNat
  rw' : p.r.toNat < p.w.toNat
  a : p.a.toNat < 2 ^ p.w.toNat
  u : p.u.toNat < p.w.toNat
  s : p.s.toNat < p.w.toNat
  t : p.t.toNat < p.w.toNat
  l : p.l.toNat < p.w.toNat

theorem ite_err {ε α : Type} {c : Prop} [Decidable c] {e : ε} {t : Except ε α} {g : α} (h : (if c then .error e else t) = .ok g) :
    ¬ c ∧ t = .ok g := by
  by_cases hc : c
  · rw [if_pos hc] at h; cases h
  · rw [if_neg hc] at h; exact ⟨hc, h⟩

theorem mtNew_ok {b : Nat} (hb : b = 32 ∨ b = 64) {p : MtPar b} {sd : Except RandErr (BitVec b)} {g : Mt b}
    (h : mtNew sd p = .ok g) :
    MtValid p ∧ (∃ x, sd = .ok x ∧ g = ⟨p, p.n, x, false, []⟩) ∧ ∀ x, mtNew (.ok x) p = .ok ⟨p, p.n, x, false, []⟩ := by
  have hbb := bits_lt hb
  unfold mtNew at h
  obtain ⟨c0, h⟩ := ite_err h
  obtain ⟨c1, h⟩ := ite_err h
  obtain ⟨c2, h⟩ := ite_err h
  obtain ⟨c3, h⟩ := ite_err h
  obtain ⟨c4, h⟩ := ite_err h
  obtain ⟨c5, h⟩ := ite_err h
  obtain ⟨c6, h⟩ := ite_err h
  obtain ⟨c7, h⟩ := ite_err h
  obtain ⟨c8, h⟩ := ite_err h
  obtain ⟨c9, h⟩ := ite_err h
  obtain ⟨c10, h⟩ := ite_err h
  obtain ⟨c11, h⟩ := ite_err h
  obtain ⟨c12, h⟩ := ite_err h
  have hnew : ∀ x, mtNew (.ok x) p = .ok ⟨p, p.n, x, false, []⟩ := by
    intro x
    unfold mtNew
    rw [if_neg c0, if_neg c1, if_neg c2, if_neg c3, if_neg c4, if_neg c5, if_neg c6, if_neg c7, if_neg c8, if_neg c9, if_neg c10, if_neg c11, if_neg c12]
    rfl
  simp only [not_or] at c0
  rw [BitVec.lt_def, BitVec.toNat_ofNat, Nat.mod_eq_of_lt hbb] at c2
  rw [BitVec.lt_def] at c1
  rw [BitVec.le_def] at c3 c4 c5 c6 c7
  have hwb : p.w.toNat ≤ b := by omega
  rw [BitVec.lt_def, maskW_toNat hb hwb] at c8
  have := Nat.two_pow_pos p.w.toNat
  refine ⟨⟨hwb, toNat_ne_zero c0.2.1, by omega, toNat_ne_zero c0.2.2.1, by omega, by omega, by omega, by omega, by omega,
    by omega⟩, ?_, hnew⟩
  cases sd with
  | error e => cases h
  | ok x => exact ⟨x, rfl, by simpa [Except.map] using h.symm⟩

/-! ## One step -/

theorem and_upper {b : Nat} (x : BitVec b) (r : ℕ) : x &&& (BitVec.allOnes b <<< r) = (x >>> r) <<< r := by
  apply BitVec.eq_of_getLsbD_eq
  intro i hi
  simp only [BitVec.getLsbD_and, BitVec.getLsbD_shiftLeft, BitVec.getLsbD_allOnes, BitVec.getLsbD_ushiftRight]
  by_cases h : i < r
  · simp [h]
  · simp only [hi, decide_true, h, decide_false, Bool.not_false, Bool.true_and]
    rw [show r + (i - r) = i by omega]
    simp only [show i - r < b by omega, decide_true, Bool.and_true]

theorem and_lower {b : Nat} (x : BitVec b) {r : ℕ} (hr : r < b) : (x &&& ~~~(BitVec.allOnes b <<< r)).toNat = x.toNat % 2 ^ r := by
  have : x &&& ~~~(BitVec.allOnes b <<< r) = x &&& BitVec.ofNat b (2 ^ r - 1) := by
    apply BitVec.eq_of_getLsbD_eq
    intro i hi
    simp only [BitVec.getLsbD_and, BitVec.getLsbD_not, BitVec.getLsbD_shiftLeft, BitVec.getLsbD_allOnes, BitVec.getLsbD_ofNat,
      Nat.testBit_two_pow_sub_one]
    by_cases h : i < r
    · simp [h, hi]
    · simp [h, hi, show i - r < b by omega]
  rw [this, BitVec.toNat_and, BitVec.toNat_ofNat, Nat.mod_eq_of_lt, Nat.and_two_pow_sub_one_eq_mod]
  have h1 : 2 ^ r < 2 ^ b := Nat.pow_lt_pow_right (by decide) hr
  have := Nat.two_pow_pos r
  omega

theorem mtTwist_toNat {b : Nat} (p : MtPar b) (r0 : 0 < p.r.toNat) (hr : p.r.toNat < b) (hi lo src : BitVec b) :
    (mtTwist p hi lo src).toNat = src.toNat ^^^ ((hi.toNat / 2 ^ p.r.toNat * 2 ^ p.r.toNat + lo.toNat % 2 ^ p.r.toNat) / 2) ^^^
      (if lo.toNat % 2 = 1 then p.a.toNat else 0) := by
  have hup : (hi &&& (BitVec.allOnes b <<< p.r.toNat)).toNat = hi.toNat / 2 ^ p.r.toNat * 2 ^ p.r.toNat := by
    rw [and_upper, BitVec.toNat_shiftLeft, BitVec.toNat_ushiftRight, Nat.shiftRight_eq_div_pow, Nat.shiftLeft_eq,
      Nat.mod_eq_of_lt]
    exact lt_of_le_of_lt (Nat.div_mul_le_self _ _) hi.isLt
  have hy : ((hi &&& (BitVec.allOnes b <<< p.r.toNat)) ||| (lo &&& ~~~(BitVec.allOnes b <<< p.r.toNat))).toNat =
      hi.toNat / 2 ^ p.r.toNat * 2 ^ p.r.toNat + lo.toNat % 2 ^ p.r.toNat := by
    rw [BitVec.toNat_or, hup, and_lower lo hr, ← Nat.shiftLeft_eq,
      Nat.shiftLeft_add_eq_or_of_lt (Nat.mod_lt _ (Nat.two_pow_pos _))]
  have hy2 : (hi.toNat / 2 ^ p.r.toNat * 2 ^ p.r.toNat + lo.toNat % 2 ^ p.r.toNat) % 2 = lo.toNat % 2 := by
    obtain ⟨k, hk⟩ : ∃ k, p.r.toNat = k + 1 := ⟨p.r.toNat - 1, by omega⟩
    rw [hk, Nat.pow_succ, ← Nat.mul_assoc, Nat.add_mod, Nat.mul_mod_left, Nat.zero_add, Nat.mod_mod,
      Nat.mod_mod_of_dvd _ (Nat.dvd_mul_left _ _)]
  have h1 : (1#b : BitVec b).toNat = 1 := by rw [BitVec.toNat_ofNat, Nat.mod_eq_of_lt (Nat.one_lt_two_pow (by omega))]
  unfold mtTwist
  simp only
  rw [BitVec.toNat_xor, BitVec.toNat_xor, BitVec.toNat_ushiftRight, hy, Nat.shiftRight_eq_div_pow, Nat.pow_one]
  congr 1
  have hc : (0#b < ((hi &&& (BitVec.allOnes b <<< p.r.toNat)) ||| (lo &&& ~~~(BitVec.allOnes b <<< p.r.toNat))) &&& 1#b) ↔
      lo.toNat % 2 = 1 := by
    rw [BitVec.lt_def, BitVec.toNat_and, hy, h1, Nat.and_one_is_mod, hy2]
    simp only [BitVec.toNat_ofNat, Nat.zero_mod]
    omega
  by_cases h : lo.toNat % 2 = 1
  · rw [if_pos (hc.2 h), if_pos h]
  · rw [if_neg (fun hh => h (hc.1 hh)), if_neg h]; simp

theorem mtTwist_lt {b : Nat} {p : MtPar b} (hv : MtValid p) {hi lo src : BitVec b} (h1 : hi.toNat < 2 ^ p.w.toNat)
    (h2 : lo.toNat < 2 ^ p.w.toNat) (h3 : src.toNat < 2 ^ p.w.toNat) : (mtTwist p hi lo src).toNat < 2 ^ p.w.toNat := by
  have hr : p.r.toNat < b := by have := hv.rw'; have := hv.wb; omega
  rw [mtTwist_toNat p hv.r0 hr]
  refine Nat.xor_lt_two_pow (Nat.xor_lt_two_pow h3 ?_) ?_
  · have e1 : hi.toNat / 2 ^ p.r.toNat * 2 ^ p.r.toNat + lo.toNat % 2 ^ p.r.toNat < 2 ^ p.w.toNat := by
      rw [← Nat.shiftLeft_eq, Nat.shiftLeft_add_eq_or_of_lt (Nat.mod_lt _ (Nat.two_pow_pos _))]
      refine Nat.or_lt_two_pow ?_ (lt_of_le_of_lt (Nat.mod_le _ _) h2)
      rw [Nat.shiftLeft_eq]
      exact lt_of_le_of_lt (Nat.div_mul_le_self _ _) h1
    exact lt_of_le_of_lt (Nat.div_le_self _ _) e1
  · split
    · exact hv.a
    · exact Nat.two_pow_pos _

/-- the tempering of the code, on numbers -/
theorem mtTemper_toNat {b : Nat} (p : MtPar b) (z : BitVec b) :
    (mtTemper p z).toNat =
      mtTemperCode p.u.toNat p.d.toNat p.s.toNat p.bm.toNat p.t.toNat p.c.toNat p.l.toNat z.toNat := by
  unfold mtTemper mtTemperCode
  simp only [BitVec.toNat_xor, BitVec.toNat_and, BitVec.toNat_ushiftRight, Nat.shiftRight_eq_div_pow]

theorem mtTemperCode_lt {w u d s b t c l z : ℕ} (h : z < 2 ^ w) : mtTemperCode u d s b t c l z < 2 ^ w := by
  have step : ∀ {z : ℕ} (k m : ℕ), z < 2 ^ w → z ^^^ (z / 2 ^ k &&& m) < 2 ^ w := fun {z} k m hz =>
    Nat.xor_lt_two_pow hz (lt_of_le_of_lt (Nat.and_le_left.trans (Nat.div_le_self _ _)) hz)
  unfold mtTemperCode
  have h3 := step t c (step s b (step u d h))
  exact Nat.xor_lt_two_pow h3 (lt_of_le_of_lt (Nat.div_le_self _ _) h3)

/-! ## Regeneration keeps the sizes -/

structure MtSizes {b : Nat} (p : MtPar b) (st : List (BitVec b)) : Prop where
  len : st.length = p.n.toNat
  lt : ∀ x ∈ st, x.toNat < 2 ^ p.w.toNat

theorem MtSizes.get {b : Nat} {p : MtPar b} {st : List (BitVec b)} (h : MtSizes p st) {i : ℕ} (hi : i < p.n.toNat) :
    ∃ x, atR st i = .ok x ∧ x.toNat < 2 ^ p.w.toNat := by
  obtain ⟨x, hx⟩ := exists_getElem? (l := st) (i := i) (by rw [h.len]; exact hi)
  exact ⟨x, atR_ok hx, h.lt x (mem_of_getElem? hx)⟩

theorem MtSizes.set {b : Nat} {p : MtPar b} {st : List (BitVec b)} (h : MtSizes p st) {i : ℕ} (hi : i < p.n.toNat) {x : BitVec b}
    (hx : x.toNat < 2 ^ p.w.toNat) : ∃ st', setR st i x = .ok st' ∧ MtSizes p st' := by
  refine ⟨st.set i x, setR_ok _ (by rw [h.len]; exact hi), by simp [h.len], fun y hy => ?_⟩
  rcases List.mem_or_eq_of_mem_set hy with hy | rfl
  · exact h.lt y hy
  · exact hx

theorem mtLoop_sizes {b : Nat} {p : MtPar b} (hv : MtValid p) (src : ℕ → ℕ) :
    ∀ (k i : ℕ) (st : List (BitVec b)), MtSizes p st → i + k < p.n.toNat → (∀ j, i ≤ j → j < i + k → src j < p.n.toNat) →
      ∃ st', mtLoop p src i k st = .ok st' ∧ MtSizes p st'
  | 0, _, st, h, _, _ => ⟨st, rfl, h⟩
  | k + 1, i, st, h, hi, hs => by
    obtain ⟨x1, e1, l1⟩ := h.get (i := i) (by omega)
    obtain ⟨x2, e2, l2⟩ := h.get (i := i + 1) (by omega)
    obtain ⟨x3, e3, l3⟩ := h.get (i := src i) (hs i (by omega) (by omega))
    obtain ⟨st1, e4, h4⟩ := h.set (i := i) (by omega) (mtTwist_lt hv l1 l2 l3)
    obtain ⟨st2, e5, h5⟩ := mtLoop_sizes hv src k (i + 1) st1 h4 (by omega) (fun j h1 h2 => hs j (by omega) (by omega))
    exact ⟨st2, by simp only [mtLoop, e1, e2, e3, e4, e5, bind, Except.bind], h5⟩

theorem mtRegen_sizes {b : Nat} {p : MtPar b} (hv : MtValid p) {st : List (BitVec b)} (h : MtSizes p st) :
    ∃ st', mtRegen p st = .ok st' ∧ MtSizes p st' := by
  have hm0 := hv.m0; have hmn := hv.mn
  obtain ⟨s1, e1, h1⟩ := mtLoop_sizes hv (fun i => i + p.m.toNat) (p.n.toNat - p.m.toNat) 0 st h (by omega)
    (fun j _ hj => by omega)
  obtain ⟨s2, e2, h2⟩ := mtLoop_sizes hv (fun i => i - (p.n.toNat - p.m.toNat)) (p.n.toNat - 1 - (p.n.toNat - p.m.toNat))
    (p.n.toNat - p.m.toNat) s1 h1 (by omega) (fun j _ hj => by omega)
  obtain ⟨x1, e3, l1⟩ := h2.get (i := p.n.toNat - 1) (by omega)
  obtain ⟨x2, e4, l2⟩ := h2.get (i := 0) (by omega)
  obtain ⟨x3, e5, l3⟩ := h2.get (i := p.m.toNat - 1) (by omega)
  obtain ⟨s3, e6, h6⟩ := h2.set (i := p.n.toNat - 1) (by omega) (mtTwist_lt hv l1 l2 l3)
  exact ⟨s3, by simp only [mtRegen, e1, e2, e3, e4, e5, e6, bind, Except.bind], h6⟩

/-- The invariant of the states that `new`, `gen` and `reset` produce. -/
structure MtOk {b : Nat} (p : MtPar b) (g : Mt b) : Prop where
  par : g.par = p
  ready : g.ready = true → MtSizes p g.state ∧ g.idx.toNat ≤ p.n.toNat

theorem mtFill_sizes {b : Nat} (hb : b = 32 ∨ b = 64) {p : MtPar b} (hv : MtValid p) :
    ∀ (k i : ℕ) (x : BitVec b), (mtFill p i k x).length = k ∧ ∀ y ∈ mtFill p i k x, y.toNat < 2 ^ p.w.toNat
  | 0, _, _ => by simp [mtFill]
  | k + 1, i, x => by
    obtain ⟨h1, h2⟩ := mtFill_sizes hb hv k (i + 1) ((((x ^^^ (x >>> (p.w - 2#b).toNat)) * p.f) + BitVec.ofNat b i) &&& maskW p.w)
    unfold mtFill
    refine ⟨by simp only [List.length_cons, h1], fun y hy => ?_⟩
    rcases List.mem_cons.1 hy with rfl | hy
    · rw [and_mask hb hv.wb]; exact Nat.mod_lt _ (Nat.two_pow_pos _)
    · exact h2 y hy

theorem mtInit_ok {b : Nat} (hb : b = 32 ∨ b = 64) {p : MtPar b} (hv : MtValid p) {g : Mt b} (h : MtOk p g) :
    MtOk p (mtInit g) ∧ (mtInit g).ready = true := by
  unfold mtInit
  by_cases hr : g.ready = true
  · rw [if_pos hr]; exact ⟨h, hr⟩
  · rw [if_neg hr]
    obtain ⟨h1, h2⟩ := mtFill_sizes hb hv (p.n.toNat - 1) 1 (g.seed &&& maskW p.w)
    have hm0 := hv.m0; have hmn := hv.mn
    refine ⟨⟨h.par, fun _ => ⟨⟨?_, ?_⟩, ?_⟩⟩, rfl⟩
    · simp only [h.par, List.length_cons, h1]; omega
    · simp only [h.par]
      intro y hy
      rcases List.mem_cons.1 hy with rfl | hy
      · rw [and_mask hb hv.wb]; exact Nat.mod_lt _ (Nat.two_pow_pos _)
      · exact h2 y hy
    · simp only [h.par]; omega

theorem mtInit_of_ready {b : Nat} {g : Mt b} (h : g.ready = true) : mtInit g = g := by unfold mtInit; rw [if_pos h]

theorem mtGen_init {b : Nat} {checks : Bool} {g : Mt b} (h : (mtInit g).ready = true) : mtGen checks g = mtGen checks (mtInit g) := by
  unfold mtGen; rw [mtInit_of_ready h]

theorem mtGen_ok {b : Nat} (hb : b = 32 ∨ b = 64) {checks : Bool} {p : MtPar b} (hv : MtValid p) {g : Mt b} (h : MtOk p g) :
    ∃ x g', mtGen checks g = .ok (x, g') ∧ x.toNat < 2 ^ p.w.toNat ∧ MtOk p g' := by
  obtain ⟨h1, hr⟩ := mtInit_ok hb hv h
  rw [mtGen_init hr]
  generalize hG : mtInit g = G at h1 hr
  obtain ⟨hs, hi⟩ := h1.ready hr
  have hm0 := hv.m0; have hmn := hv.mn
  have hb1 : (1#b : BitVec b).toNat = 1 := by rcases hb with rfl | rfl <;> rfl
  have hnl := p.n.isLt
  have fin : ∀ (st : List (BitVec b)) (idx : BitVec b), MtSizes p st → idx.toNat < p.n.toNat →
      ∃ z, atR st idx.toNat = .ok z ∧ addChk checks idx 1#b = .ok (idx + 1#b) ∧ (mtTemper p z).toNat < 2 ^ p.w.toNat ∧
        (idx + 1#b).toNat ≤ p.n.toNat := by
    intro st idx hst hidx
    obtain ⟨z, ez, lz⟩ := hst.get hidx
    refine ⟨z, ez, addChk_ok (fun _ => by rw [hb1]; omega), ?_, ?_⟩
    · rw [mtTemper_toNat]; exact mtTemperCode_lt lz
    · rw [BitVec.toNat_add, hb1, Nat.mod_eq_of_lt (by omega)]; omega
  unfold mtGen
  simp only [mtInit_of_ready hr, h1.par, bind, Except.bind, pure, Except.pure]
  by_cases hc : p.n ≤ G.idx
  · rw [if_pos hc]
    obtain ⟨st, e1, h2⟩ := mtRegen_sizes hv hs
    obtain ⟨z, e2, e3, lz, li⟩ := fin st 0#b h2 (by simp; omega)
    simp only [e1, e2, e3, h1.par]
    exact ⟨_, _, rfl, lz, rfl, fun _ => ⟨h2, li⟩⟩
  · rw [if_neg hc]
    rw [BitVec.le_def] at hc
    obtain ⟨z, e2, e3, lz, li⟩ := fin G.state G.idx hs (by omega)
    simp only [e2, e3, h1.par]
    exact ⟨_, _, rfl, lz, rfl, fun _ => ⟨hs, li⟩⟩

theorem mtReset_ok {b : Nat} (hb : b = 32 ∨ b = 64) {p : MtPar b} (hv : MtValid p) {g : Mt b} (h : MtOk p g) (x : BitVec b) :
    ∃ g', mtReset g x = .ok g' ∧ MtOk p g' :=
  ⟨_, rfl, (mtInit_ok hb hv (g := { g with seed := x, ready := false }) ⟨h.par, fun hc => absurd hc (by simp)⟩).1⟩

/-! ## The recurrence -/

/-- `st` holds a block of the sequence, with the first `i` words replaced by those of the next block. -/
structure MtBlock {b : Nat} (X : ℕ → ℕ) (K n i : ℕ) (st : List (BitVec b)) : Prop where
  len : st.length = n
  get : ∀ j, j < n → ∃ v, st[j]? = some v ∧ v.toNat = X (K + j + if j < i then n else 0)

theorem MtBlock.step {b : Nat} {X : ℕ → ℕ} {K n i : ℕ} {st : List (BitVec b)} (h : MtBlock X K n i st) (hi : i < n)
    {v : BitVec b} (hv : v.toNat = X (K + i + n)) : setR st i v = .ok (st.set i v) ∧ MtBlock X K n (i + 1) (st.set i v) := by
  refine ⟨setR_ok _ (by rw [h.len]; exact hi), by simp [h.len], fun j hj => ?_⟩
  by_cases hji : j = i
  · subst hji
    exact ⟨v, List.getElem?_set_self (by rw [h.len]; exact hi), by rw [hv, if_pos (by omega)]⟩
  · obtain ⟨u, hu, hu'⟩ := h.get j hj
    refine ⟨u, by rw [List.getElem?_set_ne (by omega)]; exact hu, ?_⟩
    rw [hu']
    congr 2
    by_cases hlt : j < i
    · rw [if_pos hlt, if_pos (by omega)]
    · rw [if_neg hlt, if_neg (by omega)]

/-- the recurrence of the twister, as the code realises it: `m mod n` stands for the middle word -/
def MtRec {b : Nat} (p : MtPar b) (X : ℕ → ℕ) : Prop :=
  ∀ k, X (k + p.n.toNat) = X (k + p.m.toNat % p.n.toNat) ^^^
    ((X k / 2 ^ p.r.toNat * 2 ^ p.r.toNat + X (k + 1) % 2 ^ p.r.toNat) / 2) ^^^
    (if X (k + 1) % 2 = 1 then p.a.toNat else 0)

theorem mtLoop_block {b : Nat} {p : MtPar b} (hv : MtValid p) {X : ℕ → ℕ} (hX : MtRec p X) (K : ℕ) (src : ℕ → ℕ) :
    ∀ (k i : ℕ) (st : List (BitVec b)), MtBlock X K p.n.toNat i st → i + k < p.n.toNat →
      (∀ j, i ≤ j → j < i + k → src j < p.n.toNat ∧
        src j + (if src j < j then p.n.toNat else 0) = j + p.m.toNat % p.n.toNat) →
      ∃ st', mtLoop p src i k st = .ok st' ∧ MtBlock X K p.n.toNat (i + k) st'
  | 0, _, st, h, _, _ => ⟨st, rfl, h⟩
  | k + 1, i, st, h, hi, hs => by
    have hr : p.r.toNat < b := by have := hv.rw'; have := hv.wb; omega
    obtain ⟨x1, e1, l1⟩ := h.get i (by omega)
    obtain ⟨x2, e2, l2⟩ := h.get (i + 1) (by omega)
    obtain ⟨hs1, hs2⟩ := hs i (by omega) (by omega)
    obtain ⟨x3, e3, l3⟩ := h.get (src i) hs1
    rw [if_neg (by omega), Nat.add_zero] at l1 l2
    rw [Nat.add_assoc, hs2] at l3
    obtain ⟨e4, h4⟩ := h.step (i := i) (v := mtTwist p x1 x2 x3) (by omega) (by
      rw [mtTwist_toNat p hv.r0 hr, l1, l2, l3, hX, Nat.add_assoc, Nat.add_assoc])
    obtain ⟨st2, e5, h5⟩ := mtLoop_block hv hX K src k (i + 1) _ h4 (by omega) (fun j h1 h2 => hs j (by omega) (by omega))
    refine ⟨st2, by simp only [mtLoop, atR_ok e1, atR_ok e2, atR_ok e3, e4, e5, bind, Except.bind], ?_⟩
    rw [show i + (k + 1) = i + 1 + k by omega]; exact h5

theorem mtRegen_block {b : Nat} {p : MtPar b} (hv : MtValid p) (hn : 2 ≤ p.n.toNat) {X : ℕ → ℕ} (hX : MtRec p X) {K : ℕ}
    {st : List (BitVec b)} (h : MtBlock X K p.n.toNat 0 st) :
    ∃ st', mtRegen p st = .ok st' ∧ MtBlock X (K + p.n.toNat) p.n.toNat 0 st' := by
  have hm0 := hv.m0; have hmn := hv.mn
  have hr : p.r.toNat < b := by have := hv.rw'; have := hv.wb; omega
  have hm : p.m.toNat % p.n.toNat = if p.m.toNat = p.n.toNat then 0 else p.m.toNat := by
    split
    · rename_i h; rw [h, Nat.mod_self]
    · rw [Nat.mod_eq_of_lt (by omega)]
  obtain ⟨s1, e1, h1⟩ := mtLoop_block hv hX K (fun i => i + p.m.toNat) (p.n.toNat - p.m.toNat) 0 st h (by omega)
    (fun j _ hj => by
      refine ⟨by omega, ?_⟩
      rw [if_neg (by omega), hm, if_neg (by omega)]; omega)
  rw [Nat.zero_add] at h1
  obtain ⟨s2, e2, h2⟩ := mtLoop_block hv hX K (fun i => i - (p.n.toNat - p.m.toNat)) (p.n.toNat - 1 - (p.n.toNat - p.m.toNat))
    (p.n.toNat - p.m.toNat) s1 h1 (by omega) (fun j h1 hj => by
      refine ⟨by omega, ?_⟩
      rw [hm]
      by_cases hc : p.m.toNat = p.n.toNat
      · rw [if_pos hc, if_neg (by omega)]; omega
      · rw [if_neg hc, if_pos (by omega)]; omega)
  rw [show p.n.toNat - p.m.toNat + (p.n.toNat - 1 - (p.n.toNat - p.m.toNat)) = p.n.toNat - 1 by omega] at h2
  obtain ⟨x1, e3, l1⟩ := h2.get (p.n.toNat - 1) (by omega)
  obtain ⟨x2, e4, l2⟩ := h2.get 0 (by omega)
  obtain ⟨x3, e5, l3⟩ := h2.get (p.m.toNat - 1) (by omega)
  rw [if_neg (by omega), Nat.add_zero] at l1
  rw [if_pos (by omega), Nat.add_zero, show K + p.n.toNat = K + (p.n.toNat - 1) + 1 by omega] at l2
  have l3' : x3.toNat = X (K + (p.n.toNat - 1) + p.m.toNat % p.n.toNat) := by
    rw [l3, hm]
    by_cases hc : p.m.toNat = p.n.toNat
    · rw [if_pos hc, if_neg (by omega)]; congr 1; omega
    · rw [if_neg hc, if_pos (by omega)]; congr 1; omega
  obtain ⟨e6, h6⟩ := h2.step (i := p.n.toNat - 1) (v := mtTwist p x1 x2 x3) (by omega) (by
      rw [mtTwist_toNat p hv.r0 hr, l1, l2, l3', hX])
  refine ⟨_, by simp only [mtRegen, e1, e2, atR_ok e3, atR_ok e4, atR_ok e5, e6, bind, Except.bind], h6.len, fun j hj => ?_⟩
  obtain ⟨v, hv, hv'⟩ := h6.get j hj
  refine ⟨v, hv, ?_⟩
  rw [hv', if_pos (by omega), if_neg (by omega)]
  congr 1; omega

/-- The state after `k` draws. -/
structure MtAt {b : Nat} (p : MtPar b) (X : ℕ → ℕ) (k : ℕ) (g : Mt b) : Prop where
  par : g.par = p
  ready : g.ready = true
  block : ∃ K, MtBlock X K p.n.toNat 0 g.state ∧ K + g.idx.toNat = p.n.toNat + k ∧ g.idx.toNat ≤ p.n.toNat

theorem mtGen_at {b : Nat} (hb : b = 32 ∨ b = 64) {checks : Bool} {p : MtPar b} (hv : MtValid p) (hn : 2 ≤ p.n.toNat)
    {X : ℕ → ℕ} (hX : MtRec p X) (k : ℕ) (g : Mt b) (h : MtAt p X k g) :
    ∃ g', mtGen checks g = .ok (BitVec.ofNat b
        (mtTemperCode p.u.toNat p.d.toNat p.s.toNat p.bm.toNat p.t.toNat p.c.toNat p.l.toNat (X (p.n.toNat + k))), g') ∧
      MtAt p X (k + 1) g' := by
  obtain ⟨K, hB, hK, hi⟩ := h.block
  have hb1 : (1#b : BitVec b).toNat = 1 := by rcases hb with rfl | rfl <;> rfl
  have hnl := p.n.isLt
  have fin : ∀ (st : List (BitVec b)) (idx : BitVec b) (K : ℕ), MtBlock X K p.n.toNat 0 st → idx.toNat < p.n.toNat →
      K + idx.toNat = p.n.toNat + k →
      ∃ z, atR st idx.toNat = .ok z ∧ addChk checks idx 1#b = .ok (idx + 1#b) ∧ mtTemper p z = BitVec.ofNat b
        (mtTemperCode p.u.toNat p.d.toNat p.s.toNat p.bm.toNat p.t.toNat p.c.toNat p.l.toNat (X (p.n.toNat + k))) ∧
        (idx + 1#b).toNat = idx.toNat + 1 := by
    intro st idx K hst hidx hk
    obtain ⟨z, ez, lz⟩ := hst.get idx.toNat hidx
    rw [if_neg (by omega), Nat.add_zero, hk] at lz
    refine ⟨z, atR_ok ez, addChk_ok (fun _ => by rw [hb1]; omega), ?_, ?_⟩
    · rw [← lz, ← mtTemper_toNat, BitVec.ofNat_toNat]; simp
    · rw [BitVec.toNat_add, hb1, Nat.mod_eq_of_lt (by omega)]
  unfold mtGen
  simp only [mtInit_of_ready h.ready, h.par, bind, Except.bind, pure, Except.pure]
  by_cases hc : p.n ≤ g.idx
  · rw [if_pos hc]
    rw [BitVec.le_def] at hc
    obtain ⟨st, e1, h2⟩ := mtRegen_block hv hn hX hB
    obtain ⟨z, e2, e3, lz, li⟩ := fin st 0#b (K + p.n.toNat) h2 (by simp; omega) (by simp; omega)
    simp only [e1, e2, e3, h.par, lz]
    refine ⟨_, rfl, rfl, h.ready, _, h2, ?_, ?_⟩
    · rw [li]; simp; omega
    · rw [li]; simp; omega
  · rw [if_neg hc]
    rw [BitVec.le_def] at hc
    obtain ⟨z, e2, e3, lz, li⟩ := fin g.state g.idx K hB (by omega) hK
    simp only [e2, e3, h.par, lz]
    refine ⟨_, rfl, rfl, h.ready, K, hB, ?_, ?_⟩
    · rw [li]; omega
    · rw [li]; omega

/-! ## The initial words -/

theorem mtFill_spec {b : Nat} (hb : b = 32 ∨ b = 64) {p : MtPar b} (hv : MtValid p) {X : ℕ → ℕ}
    (hX : ∀ i, i + 1 < p.n.toNat → X (i + 1) = (p.f.toNat * (X i ^^^ (X i / 2 ^ (p.w.toNat - 2))) + (i + 1)) % 2 ^ p.w.toNat) :
    ∀ (k i : ℕ) (x : BitVec b), x.toNat = X i → i + k < p.n.toNat →
      ∀ j, j < k → ∃ v, (mtFill p (i + 1) k x)[j]? = some v ∧ v.toNat = X (i + 1 + j)
  | 0, _, _, _, _, j, hj => absurd hj (by omega)
  | k + 1, i, x, hx, hi, j, hj => by
    have h2 : (p.w - 2#b).toNat = p.w.toNat - 2 := by
      have := hv.r0; have := hv.rw'
      have h2b : (2#b : BitVec b).toNat = 2 := by rcases hb with rfl | rfl <;> rfl
      have := p.w.isLt
      rw [BitVec.toNat_sub, h2b]
      rcases hb with rfl | rfl <;> omega
    have hval : ((((x ^^^ (x >>> (p.w - 2#b).toNat)) * p.f) + BitVec.ofNat b (i + 1)) &&& maskW p.w).toNat = X (i + 1) := by
      rw [and_mask hb hv.wb, BitVec.toNat_add, BitVec.toNat_mul, BitVec.toNat_xor, BitVec.toNat_ushiftRight, h2, hx,
        Nat.shiftRight_eq_div_pow, BitVec.toNat_ofNat, Nat.mod_add_mod, Nat.add_mod_mod,
        Nat.mod_mod_of_dvd _ (Nat.pow_dvd_pow 2 hv.wb), hX i (by omega), Nat.mul_comm]
    rcases j with _ | j
    · exact ⟨_, rfl, hval⟩
    · obtain ⟨v, hv1, hv2⟩ := mtFill_spec hb hv hX k (i + 1) _ hval (by omega) j (by omega)
      refine ⟨v, ?_, by rw [hv2]; congr 1; omega⟩
      unfold mtFill
      simpa using hv1

theorem mtInit_at {b : Nat} (hb : b = 32 ∨ b = 64) {p : MtPar b} (hv : MtValid p) {x : BitVec b} {X : ℕ → ℕ}
    (h0 : X 0 = x.toNat % 2 ^ p.w.toNat)
    (hX : ∀ i, i + 1 < p.n.toNat → X (i + 1) = (p.f.toNat * (X i ^^^ (X i / 2 ^ (p.w.toNat - 2))) + (i + 1)) % 2 ^ p.w.toNat) :
    MtAt p X 0 (mtInit ⟨p, p.n, x, false, []⟩) := by
  have hm0 := hv.m0; have hmn := hv.mn
  unfold mtInit
  rw [if_neg (by simp)]
  have hl := (mtFill_sizes hb hv (p.n.toNat - 1) 1 (x &&& maskW p.w)).1
  refine ⟨rfl, rfl, 0, ⟨?_, fun j hj => ?_⟩, by simp, le_refl _⟩
  · simp only [List.length_cons, hl]; omega
  · rw [if_neg (by omega), Nat.zero_add, Nat.add_zero]
    rcases j with _ | j
    · exact ⟨_, rfl, by rw [and_mask hb hv.wb, h0]⟩
    · obtain ⟨v, hv1, hv2⟩ := mtFill_spec hb hv hX (p.n.toNat - 1) 0 (x &&& maskW p.w) (by rw [and_mask hb hv.wb, h0]) (by omega)
        j (by omega)
      refine ⟨v, ?_, by rw [hv2]; congr 1; omega⟩
      simpa using hv1

end RMath
