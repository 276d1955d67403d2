import Verif.Lemmas.RandMt

/-!
# Random number generators

Words have `b` bits, `b` = 32 or 64.  A history is a list of calls: `gen`, or `reset` with the answer of the seed source.
`checks` tells whether the build has overflow checks.
-/

namespace RMath

/-! ## C63: linear congruential generator -/

/-- the words of a stream, as numbers -/
theorem map_toNat_ofNat {b : Nat} {X : ℕ → ℕ} (h : ∀ k, X k < 2 ^ b) (N : ℕ) :
    ((List.range N).map (fun k => BitVec.ofNat b (X k))).map BitVec.toNat = (List.range N).map X := by
  rw [List.map_map]
  apply List.map_congr_left
  intro k _
  simp only [Function.comp, BitVec.toNat_ofNat]
  exact Nat.mod_eq_of_lt (h k)

/-- **C63, what the code does**: `a x + c` is computed modulo `2^b` first. -/
theorem C63_lcg_wrapping {b : Nat} {a c m seed : BitVec b} {g : Lcg b} (hnew : lcgNew (.ok seed) a c m = .ok g) {X : ℕ → ℕ}
    (h0 : X 0 = seed.toNat) (hX : ∀ k, X (k + 1) = (a.toNat * X k + c.toNat) % 2 ^ b % m.toNat) (N : ℕ) :
    ∃ out g', runCalls (lcgSource b) g (List.replicate N .gen) = .ok (out, g') ∧
      out.map BitVec.toNat = (List.range N).map (fun k => X (k + 1)) := by
  obtain ⟨hm, h⟩ := ite_err (show (if m = 0#b then Except.error RandErr.divisorIsZero else
    (Except.ok seed).map fun x => (⟨a, c, m, x⟩ : Lcg b)) = .ok g from hnew)
  simp only [Except.map, Except.ok.injEq] at h
  subst h
  have hlt : ∀ k, X (k + 1) < 2 ^ b := fun k => by
    rw [hX]; exact lt_of_lt_of_le (Nat.mod_lt _ (toNat_ne_zero hm)) m.isLt.le
  obtain ⟨g', e, _⟩ := runCalls_stream (src := lcgSource b) (out := fun k => BitVec.ofNat b (X (k + 1)))
    (I := fun k g => ∃ x, g = (⟨a, c, m, x⟩ : Lcg b) ∧ x.toNat = X k) (by
      rintro k g ⟨x, rfl, hx⟩
      obtain ⟨y, ey, hy⟩ := lcgGen_toNat (g := ⟨a, c, m, x⟩) hm
      have hy' : y.toNat = X (k + 1) := by rw [hy, hX, ← hx]
      refine ⟨⟨a, c, m, y⟩, ?_, y, rfl, hy'⟩
      show lcgGen _ = _
      rw [ey, ← hy', BitVec.ofNat_toNat]; simp) N 0 ⟨a, c, m, seed⟩ ⟨seed, rfl, h0.symm⟩
  refine ⟨_, g', e, ?_⟩
  simp only [Nat.zero_add]
  exact map_toNat_ofNat hlt N

/-- **C63, part**: the whole stream follows the documented recurrence `x' = (a x + c) mod m` if no product overflows. -/
theorem C63_lcg_partial {b : Nat} {a c m seed : BitVec b} {g : Lcg b} (hnew : lcgNew (.ok seed) a c m = .ok g) {X : ℕ → ℕ}
    (hX : LcgSeq a.toNat c.toNat m.toNat seed.toNat X) (h1 : a.toNat * seed.toNat + c.toNat < 2 ^ b)
    (h2 : a.toNat * (m.toNat - 1) + c.toNat < 2 ^ b) (N : ℕ) :
    ∃ out g', runCalls (lcgSource b) g (List.replicate N .gen) = .ok (out, g') ∧
      out.map BitVec.toNat = (List.range N).map (fun k => X (k + 1)) := by
  obtain ⟨hm, _⟩ := ite_err (show (if m = 0#b then Except.error RandErr.divisorIsZero else
    (Except.ok seed).map fun x => (⟨a, c, m, x⟩ : Lcg b)) = .ok g from hnew)
  refine C63_lcg_wrapping hnew hX.1 (fun k => ?_) N
  suffices h : a.toNat * X k + c.toNat < 2 ^ b by rw [hX.2, Nat.mod_eq_of_lt h]
  cases k with
  | zero => rw [hX.1]; exact h1
  | succ k =>
    have hlt : X (k + 1) ≤ m.toNat - 1 := by
      rw [hX.2]; have := Nat.mod_lt (a.toNat * X k + c.toNat) (toNat_ne_zero hm); omega
    exact lt_of_le_of_lt (Nat.add_le_add_right (Nat.mul_le_mul_left _ hlt) _) h2

example : ∃ g, lcgNew (.ok 3#64) 48271#64 11#64 2147483647#64 = .ok g ∧ 48271 * 3 + 11 < 2 ^ 64 ∧ 48271 * (2147483647 - 1) + 11 < 2 ^ 64 :=
  ⟨_, rfl, by decide, by decide⟩

/-- `minstd_rand0!`: multiplier 16807, modulus 2³¹ - 1; the product is reduced modulo `2^32` first. -/
theorem C63_minstd0_wrapping {seed : W} {g : Lcg 32} (hnew : minstdRand0 (.ok seed) = .ok g) {X : ℕ → ℕ}
    (h0 : X 0 = seed.toNat) (hX : ∀ k, X (k + 1) = 16807 * X k % 2 ^ 32 % (2 ^ 31 - 1)) (N : ℕ) :
    ∃ out g', runCalls (lcgSource 32) g (List.replicate N .gen) = .ok (out, g') ∧
      out.map BitVec.toNat = (List.range N).map (fun k => X (k + 1)) :=
  C63_lcg_wrapping (a := 16807#32) (c := 0#32) (m := 2147483647#32) hnew h0 hX N

/-- `minstd_rand!`: multiplier 48271, modulus 2³¹ - 1. -/
theorem C63_minstd_wrapping {seed : W} {g : Lcg 32} (hnew : minstdRand (.ok seed) = .ok g) {X : ℕ → ℕ}
    (h0 : X 0 = seed.toNat) (hX : ∀ k, X (k + 1) = 48271 * X k % 2 ^ 32 % (2 ^ 31 - 1)) (N : ℕ) :
    ∃ out g', runCalls (lcgSource 32) g (List.replicate N .gen) = .ok (out, g') ∧
      out.map BitVec.toNat = (List.range N).map (fun k => X (k + 1)) :=
  C63_lcg_wrapping (a := 48271#32) (c := 0#32) (m := 2147483647#32) hnew h0 hX N

example : (∃ g, minstdRand0 (.ok 7#32) = .ok g) ∧ ∃ g, minstdRand (.ok 7#32) = .ok g := ⟨⟨_, rfl⟩, ⟨_, rfl⟩⟩

/-- reducing modulo `2^32` first changes the remainder modulo `2^31 - 1` -/
theorem wrap_wrong {t : ℕ} (h1 : t < 4294967296 * 1000000000) (h2 : 2 ^ 32 ≤ t) : t % 4294967296 % 2147483647 ≠ t % 2147483647 := by
  have hq := Nat.div_add_mod t 4294967296
  have hr := Nat.mod_lt t (show 0 < 4294967296 by decide)
  have hq1 : 1 ≤ t / 4294967296 := (Nat.le_div_iff_mul_le (by decide)).2 (by omega)
  have hq2 : t / 4294967296 < 1000000000 := (Nat.div_lt_iff_lt_mul (by decide)).2 (by omega)
  generalize t / 4294967296 = q at *
  generalize t % 4294967296 = r at *
  have e : t = (r + 2 * q) + 2147483647 * (2 * q) := by omega
  rw [e, Nat.add_mul_mod_self_left]
  have hj := Nat.div_add_mod r 2147483647
  have hr' := Nat.mod_lt r (show 0 < 2147483647 by decide)
  generalize r / 2147483647 = j at *
  generalize r % 2147483647 = r' at *
  have e2 : r + 2 * q = (r' + 2 * q) + 2147483647 * j := by omega
  rw [e2, Nat.add_mul_mod_self_left]
  rcases Nat.lt_or_ge (r' + 2 * q) 2147483647 with h | h
  · rw [Nat.mod_eq_of_lt h]; omega
  · rw [Nat.mod_eq_sub_mod h, Nat.mod_eq_of_lt (by omega)]; omega

/-- `minstd_rand0!` is off at every word of at least 255546, since the product does not fit in 32 bits. -/
theorem C63_minstd0_wrong {x y : W} {g : Lcg 32} (hx : x.toNat < 2147483647) (h : 2 ^ 32 ≤ 16807 * x.toNat)
    (e : lcgGen ⟨16807#32, 0#32, 2147483647#32, x⟩ = .ok (y, g)) : y.toNat ≠ 16807 * x.toNat % 2147483647 := by
  obtain ⟨z, ez, hz⟩ := lcgGen_toNat (g := ⟨16807#32, 0#32, 2147483647#32, x⟩) (show (2147483647#32 : W) ≠ 0#32 by decide)
  rw [ez] at e
  obtain ⟨rfl, -⟩ := Prod.mk.inj (Except.ok.inj e)
  have hz' : z.toNat = (16807 * x.toNat + 0) % 4294967296 % 2147483647 := hz
  rw [hz', Nat.add_zero]
  exact wrap_wrong (by omega) h

/-- `minstd_rand!`, likewise. -/
theorem C63_minstd_wrong {x y : W} {g : Lcg 32} (hx : x.toNat < 2147483647) (h : 2 ^ 32 ≤ 48271 * x.toNat)
    (e : lcgGen ⟨48271#32, 0#32, 2147483647#32, x⟩ = .ok (y, g)) : y.toNat ≠ 48271 * x.toNat % 2147483647 := by
  obtain ⟨z, ez, hz⟩ := lcgGen_toNat (g := ⟨48271#32, 0#32, 2147483647#32, x⟩) (show (2147483647#32 : W) ≠ 0#32 by decide)
  rw [ez] at e
  obtain ⟨rfl, -⟩ := Prod.mk.inj (Except.ok.inj e)
  have hz' : z.toNat = (48271 * x.toNat + 0) % 4294967296 % 2147483647 := hz
  rw [hz', Nat.add_zero]
  exact wrap_wrong (by omega) h

/-- **C63 fails**: with seed 1, the third word of `minstd_rand0!` is not 16807³ mod 2147483647 = 1622650073. -/
theorem C63_violated : ∃ g, minstdRand0 (.ok 1#32) = .ok g ∧
    (runCalls (lcgSource 32) g [.gen, .gen, .gen]).map Prod.fst = .ok [16807#32, 282475249#32, 1622647863#32] ∧
    16807 * 282475249 % 2147483647 = 1622650073 := ⟨_, rfl, by decide, by decide⟩

/-! ## C64: the words stay in range, no call panics -/

/-- **C64, linear congruential**: after any history no panic, and every word is below `m`. -/
theorem C64_lcg {b : Nat} {sd : Except RandErr (BitVec b)} {a c m : BitVec b} {g : Lcg b} (hnew : lcgNew sd a c m = .ok g)
    (cs : List (RandCall b)) : ∃ out g', runCalls (lcgSource b) g cs = .ok (out, g') ∧ ∀ x ∈ out, x.toNat < m.toNat := by
  obtain ⟨hm, h⟩ := ite_err (show (if m = 0#b then Except.error RandErr.divisorIsZero else
    sd.map fun x => (⟨a, c, m, x⟩ : Lcg b)) = .ok g from hnew)
  have hg : g.m = m := by
    cases sd with
    | error e => cases h
    | ok x => simp only [Except.map, Except.ok.injEq] at h; rw [← h]
  obtain ⟨out, g', e, ho, _⟩ := runCalls_inv (src := lcgSource b) (I := fun g => g.m = m) (P := fun x => x.toNat < m.toNat)
    (by
      intro g hg
      obtain ⟨y, ey, hy⟩ := lcgGen_toNat (g := g) (by rw [hg]; exact hm)
      refine ⟨y, _, ey, ?_, hg⟩
      rw [hy, hg]; exact Nat.mod_lt _ (toNat_ne_zero hm))
    (fun g x hg => ⟨_, rfl, hg⟩) cs g hg
  exact ⟨out, g', e, ho⟩

/-- A modulus of zero is refused. -/
theorem C64_lcg_zero {b : Nat} (sd : Except RandErr (BitVec b)) (a c : BitVec b) :
    lcgNew sd a c 0#b = .error .divisorIsZero := if_pos rfl

/-- **C64, lagged Fibonacci, part**: after any history no panic, and every word is below `2^w`; with overflow checks, only
for a word size below that of the type (and lags whose sum fits in the type). -/
theorem C64_lfr_partial {b : Nat} (hb : b = 32 ∨ b = 64) {checks : Bool} {sd : Except RandErr (BitVec b)} {w s r : BitVec b}
    {g : Lfr b} (hnew : lfrNew sd w s r = .ok g) (hc : checks = true → w.toNat < b ∧ r.toNat + s.toNat ≤ 2 ^ b)
    (cs : List (RandCall b)) :
    ∃ out g', runCalls (lfrSource b checks) g cs = .ok (out, g') ∧ ∀ x ∈ out, x.toNat < 2 ^ w.toNat := by
  obtain ⟨hp, x, -, rfl⟩ := (lfrNew_ok hb (x := 0#b)).2 sd g hnew
  obtain ⟨out, g', e, ho, _⟩ := runCalls_inv (src := lfrSource b checks) (I := LfrOk w s r) (P := fun x => x.toNat < 2 ^ w.toNat)
    (fun g hg => lfrGen_ok hb hp hc hg) (fun g x hg => lfrReset_ok hb hp hg x) cs ⟨w, s, r, x, false, 0#b, 0#b, []⟩
    ⟨rfl, rfl, rfl, by simp, fun h => by simp at h⟩
  exact ⟨out, g', e, ho⟩

example : ∃ g, ranlux48Base (.ok 7#64) = .ok g ∧ (48#64).toNat < 64 ∧ (12#64).toNat + (5#64).toNat ≤ 2 ^ 64 :=
  ⟨_, rfl, by decide, by decide⟩

/-- **C64 fails** for words as long as the type: seed 0, lags 1 and 3, the seventh draw panics (with overflow checks). -/
theorem C64_lfr_violated : ∃ g, lfrNew (.ok 0#32) 32#32 1#32 3#32 = .ok g ∧
    runCalls (lfrSource 32 true) g (List.replicate 7 .gen) = .error .panic := ⟨_, rfl, by decide +kernel⟩

/-- **C64, Mersenne twister**: after any history no panic, and every word is below `2^w`. -/
theorem C64_mt {b : Nat} (hb : b = 32 ∨ b = 64) {checks : Bool} {sd : Except RandErr (BitVec b)} {p : MtPar b} {g : Mt b}
    (hnew : mtNew sd p = .ok g) (cs : List (RandCall b)) :
    ∃ out g', runCalls (mtSource b checks) g cs = .ok (out, g') ∧ ∀ x ∈ out, x.toNat < 2 ^ p.w.toNat := by
  obtain ⟨hv, ⟨x, -, rfl⟩, -⟩ := mtNew_ok hb hnew
  obtain ⟨out, g', e, ho, _⟩ := runCalls_inv (src := mtSource b checks) (I := MtOk p) (P := fun x => x.toNat < 2 ^ p.w.toNat)
    (fun g hg => mtGen_ok hb hv hg) (fun g x hg => mtReset_ok hb hv hg x) cs ⟨p, p.n, x, false, []⟩
    ⟨rfl, fun h => by simp at h⟩
  exact ⟨out, g', e, ho⟩

example : (∃ g, mtNew (.ok 5489#32) mt19937Par = .ok g) ∧ ∃ g, mtNew (.ok 1#64) mt19937Par64 = .ok g := ⟨⟨_, rfl⟩, _, rfl⟩

/-! ## C65: reset replays the stream -/

/-- **C65, linear congruential** -/
theorem C65_lcg {b : Nat} {sd : Except RandErr (BitVec b)} {a c m : BitVec b} {g g1 : Lcg b} (hnew : lcgNew sd a c m = .ok g)
    {cs : List (RandCall b)} {out : List (BitVec b)} (hrun : runCalls (lcgSource b) g cs = .ok (out, g1)) (seed : BitVec b) :
    ∃ g2 gn, lcgReset g1 seed = .ok g2 ∧ lcgNew (.ok seed) a c m = .ok gn ∧
      ∀ cs', (runCalls (lcgSource b) g2 cs').map Prod.fst = (runCalls (lcgSource b) gn cs').map Prod.fst := by
  obtain ⟨hm, h⟩ := ite_err (show (if m = 0#b then Except.error RandErr.divisorIsZero else
    sd.map fun x => (⟨a, c, m, x⟩ : Lcg b)) = .ok g from hnew)
  have hg : g.a = a ∧ g.c = c ∧ g.m = m := by
    cases sd with
    | error e => cases h
    | ok x => simp only [Except.map, Except.ok.injEq] at h; rw [← h]; exact ⟨rfl, rfl, rfl⟩
  have hg1 := runCalls_keep (src := lcgSource b) (I := fun g => g.a = a ∧ g.c = c ∧ g.m = m)
    (by
      intro g x g' hi e
      obtain ⟨y, ey, -⟩ := lcgGen_toNat (g := g) (by rw [hi.2.2]; exact hm)
      have e' : lcgGen g = .ok (x, g') := e
      rw [ey] at e'
      obtain ⟨-, rfl⟩ := Prod.mk.inj (Except.ok.inj e')
      exact hi)
    (by
      intro g x g' hi e
      have e' : Except.ok { g with x := x } = Except.ok g' := e
      rw [← Except.ok.inj e']; exact hi) cs g g1 out hg hrun
  refine ⟨{ g1 with x := seed }, ⟨a, c, m, seed⟩, rfl, by unfold lcgNew; rw [if_neg hm]; rfl, fun cs' => ?_⟩
  obtain ⟨h1, h2, h3⟩ := hg1
  rw [show ({ g1 with x := seed } : Lcg b) = ⟨a, c, m, seed⟩ by rw [← h1, ← h2, ← h3]]

/-- the parameters are constant -/
theorem lfrInit_par {b : Nat} {g g' : Lfr b} (h : lfrInit g = .ok g') : g'.w = g.w ∧ g'.s = g.s ∧ g'.r = g.r := by
  unfold lfrInit at h
  by_cases hr : g.ready = true
  · rw [if_pos hr] at h
    rw [← Except.ok.inj h]; exact ⟨rfl, rfl, rfl⟩
  · rw [if_neg hr] at h
    simp only [bind, Except.bind] at h
    split at h
    · cases h
    · rw [← Except.ok.inj h]; exact ⟨rfl, rfl, rfl⟩

/-- **C65, lagged Fibonacci** -/
theorem C65_lfr {b : Nat} (hb : b = 32 ∨ b = 64) {checks : Bool} {sd : Except RandErr (BitVec b)} {w s r : BitVec b}
    {g g1 : Lfr b} (hnew : lfrNew sd w s r = .ok g) {cs : List (RandCall b)} {out : List (BitVec b)}
    (hrun : runCalls (lfrSource b checks) g cs = .ok (out, g1)) (seed : BitVec b) :
    ∃ g2 gn, lfrReset g1 seed = .ok g2 ∧ lfrNew (.ok seed) w s r = .ok gn ∧
      ∀ cs', (runCalls (lfrSource b checks) g2 cs').map Prod.fst = (runCalls (lfrSource b checks) gn cs').map Prod.fst := by
  obtain ⟨hp, x, -, rfl⟩ := (lfrNew_ok hb (x := 0#b)).2 sd g hnew
  have hg1 : g1.w = w ∧ g1.s = s ∧ g1.r = r := by
    refine runCalls_keep (src := lfrSource b checks) (I := fun g => g.w = w ∧ g.s = s ∧ g.r = r) ?_ ?_ cs _ g1 out ⟨rfl, rfl, rfl⟩ hrun
    · intro g y g' hi e
      have e' : lfrGen checks g = .ok (y, g') := e
      unfold lfrGen at e'
      simp only [bind, Except.bind] at e'
      cases h0 : lfrInit g with
      | error _ => rw [h0] at e'; cases e'
      | ok G =>
        rw [h0] at e'
        have hG := lfrInit_par h0
        rw [hi.1, hi.2.1, hi.2.2] at hG
        simp only at e'
        repeat' split at e'
        all_goals first | (cases e'; exact hG) | cases e'
    · intro g y g' hi e
      have := lfrInit_par (show lfrInit { g with seed := y, ready := false } = .ok g' from e)
      simpa [hi.1, hi.2.1, hi.2.2] using this
  obtain ⟨l, e, -⟩ := lfrInit_spec hb (g := ⟨w, s, r, seed, false, 0#b, 0#b, []⟩) hp rfl
  have key : ∀ (g : Lfr b) (y : BitVec b), g.w = w → g.s = s → g.r = r →
      lfrReset g y = lfrInit ⟨w, s, r, y, false, 0#b, 0#b, []⟩ := by
    intro g y h1 h2 h3
    unfold lfrReset lfrInit
    simp only [h1, h2, h3]
    rfl
  refine ⟨_, _, (key g1 seed hg1.1 hg1.2.1 hg1.2.2).trans e, (lfrNew_ok hb).1 hp, fun cs' => ?_⟩
  refine runCalls_same (R := fun g g' => (g.w = g'.w ∧ g.s = g'.s ∧ g.r = g'.r) ∧ lfrInit g = lfrInit g') ?_ ?_ cs' _ _
    ⟨⟨rfl, rfl, rfl⟩, ?_⟩
  · rintro g g' ⟨_, h⟩
    show lfrGen checks g = lfrGen checks g'
    unfold lfrGen
    rw [h]
  · rintro g g' y ⟨⟨h1, h2, h3⟩, _⟩
    show lfrReset g y = lfrReset g' y
    unfold lfrReset lfrInit
    simp only [h1, h2, h3]
    rfl
  · rw [e]
    unfold lfrInit
    rw [if_pos rfl]

/-- **C65, Mersenne twister** -/
theorem C65_mt {b : Nat} (hb : b = 32 ∨ b = 64) {checks : Bool} {sd : Except RandErr (BitVec b)} {p : MtPar b}
    {g g1 : Mt b} (hnew : mtNew sd p = .ok g) {cs : List (RandCall b)} {out : List (BitVec b)}
    (hrun : runCalls (mtSource b checks) g cs = .ok (out, g1)) (seed : BitVec b) :
    ∃ g2 gn, mtReset g1 seed = .ok g2 ∧ mtNew (.ok seed) p = .ok gn ∧
      ∀ cs', (runCalls (mtSource b checks) g2 cs').map Prod.fst = (runCalls (mtSource b checks) gn cs').map Prod.fst := by
  obtain ⟨hv, ⟨x, -, rfl⟩, hok⟩ := mtNew_ok hb hnew
  have hg1 : MtOk p g1 := by
    refine runCalls_keep (src := mtSource b checks) (I := MtOk p) ?_ ?_ cs _ g1 out ⟨rfl, fun h => by simp at h⟩ hrun
    · intro g y g' hi e
      obtain ⟨y', G, e', _, hG⟩ := mtGen_ok hb (checks := checks) hv hi
      have : mtGen checks g = .ok (y, g') := e
      rw [e'] at this
      obtain ⟨-, rfl⟩ := Prod.mk.inj (Except.ok.inj this)
      exact hG
    · intro g y g' hi e
      obtain ⟨G, e', hG⟩ := mtReset_ok hb hv hi y
      have : mtReset g y = .ok g' := e
      rw [e'] at this
      rw [← Except.ok.inj this]; exact hG
  have key : ∀ (g : Mt b) (y : BitVec b), g.par = p → mtReset g y = .ok (mtInit ⟨p, p.n, y, false, []⟩) := by
    intro g y h1
    unfold mtReset mtInit
    simp only [h1]
    rfl
  refine ⟨_, _, key g1 seed hg1.par, hok seed, fun cs' => ?_⟩
  refine runCalls_same (R := fun g g' => g.par = g'.par ∧ mtInit g = mtInit g') ?_ ?_ cs' _ _ ⟨?_, ?_⟩
  · rintro g g' ⟨_, h⟩
    show mtGen checks g = mtGen checks g'
    unfold mtGen
    rw [h]
  · rintro g g' y ⟨h1, _⟩
    show mtReset g y = mtReset g' y
    unfold mtReset mtInit
    simp only [h1]
    rfl
  · unfold mtInit; rfl
  · exact mtInit_of_ready (by unfold mtInit; rfl)

/-- The hypotheses of C65 hold after a draw, a failing and a successful reset, and another draw. -/
example : ∃ g out g1, ranlux24Base (.ok 19780503#64) = .ok g ∧
    runCalls (lfrSource 64 true) g [.gen, .reset (.error .innerErr), .gen, .reset (.ok 5#64), .gen] = .ok (out, g1) := by
  obtain ⟨out, g1, h, _⟩ := C64_lfr_partial (b := 64) (checks := true) (Or.inr rfl) (sd := .ok 19780503#64) (w := 24#64)
    (s := 10#64) (r := 24#64) rfl (fun _ => ⟨by decide, by decide⟩)
    [.gen, .reset (.error .innerErr), .gen, .reset (.ok 5#64), .gen]
  exact ⟨_, out, g1, rfl, h⟩

/-! ## C66: subtract with carry -/

/-- **C66, part**: for a word size below that of the type, the `k`-th word drawn is word `r + k` of the subtract-with-carry
sequence.  The first words come from the sequence `40014 x mod 2147483563`, computed in words of `b` bits. -/
theorem C66_lfr_partial {b : Nat} (hb : b = 32 ∨ b = 64) {checks : Bool} {seed w s r : BitVec b} {g : Lfr b}
    (hnew : lfrNew (.ok seed) w s r = .ok g) (hw : w.toNat < b) (hc : checks = true → r.toNat + s.toNat ≤ 2 ^ b)
    {L X C : ℕ → ℕ} (hL0 : L 0 = seed.toNat) (hL : ∀ k, L (k + 1) = 40014 * L k % 2 ^ b % 2147483563)
    (hX : SwcSeq w.toNat s.toNat r.toNat (swcInit w.toNat L) X C) (N : ℕ) :
    ∃ out g', runCalls (lfrSource b checks) g (List.replicate N .gen) = .ok (out, g') ∧
      out.map BitVec.toNat = (List.range N).map (fun k => X (k + r.toNat)) := by
  obtain ⟨hp, x, hx, rfl⟩ := (lfrNew_ok hb (x := 0#b)).2 _ g hnew
  cases hx
  have hLL : L = lfrL b seed.toNat := by
    funext k
    induction k with
    | zero => exact hL0
    | succ k ih => rw [hL, ih]; rfl
  rw [hLL] at hX
  obtain ⟨bX, _⟩ := swc_bounds hp.sr hX
  obtain ⟨G, e, hG⟩ := lfrInit_at hb hp hX.1 hX.2.1
  have hlt : ∀ k, X (k + r.toNat) < 2 ^ b := fun k => lt_of_lt_of_le (bX _) (Nat.pow_le_pow_right (by decide) hp.wb)
  obtain ⟨g', e', _⟩ := runCalls_stream (src := lfrSource b checks) (out := fun k => BitVec.ofNat b (X (k + r.toNat)))
    (I := LfrAt w s r X C) (fun k g hg => lfrGen_at hb hp hw hc hX k g hg) N 0 G hG
  simp only [Nat.zero_add] at e'
  cases N with
  | zero => exact ⟨[], _, rfl, rfl⟩
  | succ N =>
    refine ⟨_, g', ?_, map_toNat_ofNat hlt (N + 1)⟩
    rw [← e', List.replicate_succ]
    simp only [runCalls]
    rw [show (lfrSource b checks).gen ⟨w, s, r, seed, false, 0#b, 0#b, []⟩ = (lfrSource b checks).gen G from lfrGen_init e hG.ready]

/-- **C66 for words as long as the type**, described exactly: without overflow checks, word `k` is word `r + k` of the
sequence that loses the carry when the word is the greatest one and there is a carry. -/
theorem C66_full_size {b : Nat} (hb : b = 32 ∨ b = 64) {seed w s r : BitVec b} {g : Lfr b}
    (hnew : lfrNew (.ok seed) w s r = .ok g) (hw : w.toNat = b)
    {L X C : ℕ → ℕ} (hL0 : L 0 = seed.toNat) (hL : ∀ k, L (k + 1) = 40014 * L k % 2 ^ b % 2147483563)
    (hX : SwcLossySeq b s.toNat r.toNat (swcInit b L) X C) (N : ℕ) :
    ∃ out g', runCalls (lfrSource b false) g (List.replicate N .gen) = .ok (out, g') ∧
      out.map BitVec.toNat = (List.range N).map (fun k => X (k + r.toNat)) := by
  obtain ⟨hp, x, hx, rfl⟩ := (lfrNew_ok hb (x := 0#b)).2 _ g hnew
  cases hx
  have hLL : L = lfrL b seed.toNat := by
    funext k
    induction k with
    | zero => exact hL0
    | succ k ih => rw [hL, ih]; rfl
  rw [hLL] at hX
  obtain ⟨bX, _⟩ := swcLossy_bounds hX
  obtain ⟨G, e, hG⟩ := lfrInit_at hb hp (x := seed) (X := X) (C := C) (by rw [hw]; exact hX.1) hX.2.1
  have hlt : ∀ k, X (k + r.toNat) < 2 ^ b := fun k => bX _
  obtain ⟨g', e', _⟩ := runCalls_stream (src := lfrSource b false) (out := fun k => BitVec.ofNat b (X (k + r.toNat)))
    (I := LfrAt w s r X C) (fun k g hg => lfrGen_at_full hb hp hw (by simp) hX k (by simp) g hg) N 0 G hG
  simp only [Nat.zero_add] at e'
  cases N with
  | zero => exact ⟨[], _, rfl, rfl⟩
  | succ N =>
    refine ⟨_, g', ?_, map_toNat_ofNat hlt (N + 1)⟩
    rw [← e', List.replicate_succ]
    simp only [runCalls]
    rw [show (lfrSource b false).gen ⟨w, s, r, seed, false, 0#b, 0#b, []⟩ = (lfrSource b false).gen G from lfrGen_init e hG.ready]

/-- **C66 for words as long as the type, part**: the first `N` draws are right in every build if the textbook sequence does
not meet its greatest word together with a carry before; with overflow checks, the draw that meets them panics.  Missing: what
comes after such a meeting, where the code loses the carry (`C66_full_size`, `C66_violated`). -/
theorem C66_full_size_partial {b : Nat} (hb : b = 32 ∨ b = 64) {checks : Bool} {seed w s r : BitVec b} {g : Lfr b}
    (hnew : lfrNew (.ok seed) w s r = .ok g) (hw : w.toNat = b) (hc : checks = true → r.toNat + s.toNat ≤ 2 ^ b)
    {L X C : ℕ → ℕ} (hL0 : L 0 = seed.toNat) (hL : ∀ k, L (k + 1) = 40014 * L k % 2 ^ b % 2147483563)
    (hX : SwcSeq b s.toNat r.toNat (swcInit b L) X C) (N : ℕ) (hN : ∀ k, k < N → X k + C k ≠ 2 ^ b) :
    ∃ out g', runCalls (lfrSource b checks) g (List.replicate N .gen) = .ok (out, g') ∧
      out.map BitVec.toNat = (List.range N).map (fun k => X (k + r.toNat)) ∧
      (checks = true → X N + C N = 2 ^ b → (lfrSource b checks).gen g' = .error .panic) := by
  obtain ⟨hp, x, hx, rfl⟩ := (lfrNew_ok hb (x := 0#b)).2 _ g hnew
  cases hx
  have hLL : L = lfrL b seed.toNat := by
    funext k
    induction k with
    | zero => exact hL0
    | succ k ih => rw [hL, ih]; rfl
  rw [hLL] at hX
  obtain ⟨bX, bC⟩ := swc_bounds hp.sr hX
  obtain ⟨G, e, hG⟩ := lfrInit_at hb hp (x := seed) (X := X) (C := C) (by rw [hw]; exact hX.1) hX.2.1
  have hlt : ∀ k, X (k + r.toNat) < 2 ^ b := fun k => bX _
  have hmove : ∀ k g, k < N → LfrAt w s r X C k g →
      ∃ g', lfrGen checks g = .ok (BitVec.ofNat b (X (k + r.toNat)), g') ∧ LfrAt w s r X C (k + 1) g' := by
    intro k g hk hg
    have b1 := bX k
    have b2 := bC k
    have b3 := hN k hk
    refine lfrGen_move hb hp hc k g hg (fun _ => by omega) ?_
    intro x xs carry xi c vx vxs vc e3
    obtain ⟨a1, a2⟩ := lfr_arith_full (xi := xi) (c := c) hb hw (by rw [vc]; exact b2) e3
    obtain ⟨r1, r2⟩ := hX.2.2 k
    rw [vx, vxs, vc] at a1 a2
    refine ⟨?_, by rw [a2, if_neg b3, r2]⟩
    have : (xi.toNat : ℤ) = X (k + r.toNat) := by rw [a1, r1]
    exact_mod_cast this
  obtain ⟨g', e', hI⟩ := runCalls_stream_lt (src := lfrSource b checks) (out := fun k => BitVec.ofNat b (X (k + r.toNat)))
    (I := LfrAt w s r X C) hmove N 0 G (by omega) hG
  simp only [Nat.zero_add] at e' hI
  have hpanic : ∀ g, LfrAt w s r X C N g → checks = true → X N + C N = 2 ^ b → lfrGen checks g = .error .panic :=
    fun g hg hch hover => by subst hch; exact lfrGen_panics hb hp (hc rfl) N g hg hover
  cases N with
  | zero => exact ⟨[], _, rfl, rfl, fun hch hov => (lfrGen_init e hG.ready).trans (hpanic G hG hch hov)⟩
  | succ N =>
    refine ⟨_, g', ?_, map_toNat_ofNat hlt (N + 1), fun hch hov => hpanic g' hI hch hov⟩
    rw [← e', List.replicate_succ]
    simp only [runCalls]
    rw [show (lfrSource b checks).gen ⟨w, s, r, seed, false, 0#b, 0#b, []⟩ = (lfrSource b checks).gen G from lfrGen_init e hG.ready]

/-- Such sequences exist, for every initial segment. -/
theorem swc_exists (w s r : ℕ) (hs : s < r) (hs0 : 0 < s) (init : ℕ → ℕ) : ∃ X C, SwcSeq w s r init X C := by
  -- the table of the words up to `r + k` and the carry, step by step
  let step : (ℕ → ℕ) × ℕ → ℕ → (ℕ → ℕ) × ℕ := fun p k =>
    let d : ℤ := (p.1 (k + r - s) : ℤ) - p.1 k - p.2
    (fun i => if i = k + r then (d % 2 ^ w).toNat else p.1 i, if d < 0 then 1 else 0)
  let T : ℕ → (ℕ → ℕ) × ℕ := fun n => Nat.rec (init, if init (r - 1) = 0 then 1 else 0) (fun k p => step p k) n
  have hT : ∀ k, T (k + 1) = step (T k) k := fun _ => rfl
  have stable : ∀ k j i, i < k + r → (T (k + j)).1 i = (T k).1 i := by
    intro k j i hi
    induction j with
    | zero => rfl
    | succ j ih =>
      rw [← Nat.add_assoc, hT]
      show (if i = k + j + r then _ else (T (k + j)).1 i) = _
      rw [if_neg (by omega), ih]
  have stable' : ∀ k n i, k ≤ n → i < k + r → (T n).1 i = (T k).1 i := by
    intro k n i hk hi
    obtain ⟨j, rfl⟩ := Nat.exists_eq_add_of_le hk
    exact stable k j i hi
  refine ⟨fun i => (T (i + 1)).1 i, fun k => (T k).2, fun i hi => ?_, ?_, fun k => ?_⟩
  · exact stable' 0 (i + 1) i (by omega) (by omega)
  · have h : (T (r - 1 + 1)).1 (r - 1) = init (r - 1) := stable' 0 (r - 1 + 1) (r - 1) (by omega) (by omega)
    simp only [h]
    rfl
  · simp only
    have e1 : (T (k + r - s + 1)).1 (k + r - s) = (T k).1 (k + r - s) := by
      rcases Nat.le_total k (k + r - s + 1) with h | h
      · exact stable' k _ _ h (by omega)
      · exact (stable' _ k _ h (by omega : k + r - s < k + r - s + 1 + r)).symm
    have e2 : (T (k + 1)).1 k = (T k).1 k := stable' k (k + 1) k (by omega) (by omega)
    have e3 : (T (k + r + 1)).1 (k + r) = (T (k + 1)).1 (k + r) := stable' (k + 1) (k + r + 1) (k + r) (by omega) (by omega)
    simp only [e1, e2, e3]
    rw [hT]
    simp only [step, if_pos]
    refine ⟨?_, trivial⟩
    rw [Int.toNat_of_nonneg (Int.emod_nonneg _ (by positivity))]

example : ∃ g L X C, lfrNew (.ok 19780503#32) 24#32 10#32 24#32 = .ok g ∧ L 0 = 19780503 ∧
    (∀ k, L (k + 1) = 40014 * L k % 2 ^ 32 % 2147483563) ∧ SwcSeq 24 10 24 (swcInit 24 L) X C := by
  obtain ⟨X, C, h⟩ := swc_exists 24 10 24 (by decide) (by decide) (swcInit 24 (lfrL 32 19780503))
  exact ⟨_, lfrL 32 19780503, X, C, rfl, rfl, fun _ => rfl, h⟩

/-- Sequences with a lost carry exist as well. -/
theorem lossy_exists (w s r : ℕ) (hs : s < r) (hs0 : 0 < s) (init : ℕ → ℕ) : ∃ X C, SwcLossySeq w s r init X C := by
  let step : (ℕ → ℕ) × ℕ → ℕ → (ℕ → ℕ) × ℕ := fun p k =>
    let d : ℤ := (p.1 (k + r - s) : ℤ) - p.1 k - p.2
    (fun i => if i = k + r then (d % 2 ^ w).toNat else p.1 i, if p.1 k + p.2 = 2 ^ w then 0 else if d < 0 then 1 else 0)
  let T : ℕ → (ℕ → ℕ) × ℕ := fun n => Nat.rec (init, if init (r - 1) = 0 then 1 else 0) (fun k p => step p k) n
  have hT : ∀ k, T (k + 1) = step (T k) k := fun _ => rfl
  have stable' : ∀ k n i, k ≤ n → i < k + r → (T n).1 i = (T k).1 i := by
    intro k n i hk hi
    obtain ⟨j, rfl⟩ := Nat.exists_eq_add_of_le hk
    induction j with
    | zero => rfl
    | succ j ih =>
      rw [← Nat.add_assoc, hT]
      show (if i = k + j + r then _ else (T (k + j)).1 i) = _
      rw [if_neg (by omega), ih (by omega)]
  refine ⟨fun i => (T (i + 1)).1 i, fun k => (T k).2, fun i hi => ?_, ?_, fun k => ?_⟩
  · exact stable' 0 (i + 1) i (by omega) (by omega)
  · have h : (T (r - 1 + 1)).1 (r - 1) = init (r - 1) := stable' 0 (r - 1 + 1) (r - 1) (by omega) (by omega)
    simp only [h]
    rfl
  · simp only
    have e1 : (T (k + r - s + 1)).1 (k + r - s) = (T k).1 (k + r - s) := by
      rcases Nat.le_total k (k + r - s + 1) with h | h
      · exact stable' k _ _ h (by omega)
      · exact (stable' _ k _ h (by omega : k + r - s < k + r - s + 1 + r)).symm
    have e2 : (T (k + 1)).1 k = (T k).1 k := stable' k (k + 1) k (by omega) (by omega)
    have e3 : (T (k + r + 1)).1 (k + r) = (T (k + 1)).1 (k + r) := stable' (k + 1) (k + r + 1) (k + r) (by omega) (by omega)
    simp only [e1, e2, e3]
    rw [hT]
    simp only [step, if_pos]
    refine ⟨?_, trivial⟩
    rw [Int.toNat_of_nonneg (Int.emod_nonneg _ (by positivity))]

example : ∃ g L X C, lfrNew (.ok 0#32) 32#32 1#32 3#32 = .ok g ∧ L 0 = 0 ∧
    (∀ k, L (k + 1) = 40014 * L k % 2 ^ 32 % 2147483563) ∧ SwcLossySeq 32 1 3 (swcInit 32 L) X C := by
  obtain ⟨X, C, h⟩ := lossy_exists 32 1 3 (by decide) (by decide) (swcInit 32 (lfrL 32 0))
  exact ⟨_, lfrL 32 0, X, C, rfl, rfl, fun _ => rfl, h⟩

/-- The condition on the textbook sequence can be met: in the first two steps no carry is lost. -/
example : ∃ g L X C, lfrNew (.ok 7#32) 32#32 1#32 3#32 = .ok g ∧ L 0 = 7 ∧
    (∀ k, L (k + 1) = 40014 * L k % 2 ^ 32 % 2147483563) ∧ SwcSeq 32 1 3 (swcInit 32 L) X C ∧ ∀ k, k < 2 → X k + C k ≠ 2 ^ 32 := by
  obtain ⟨X, C, h⟩ := swc_exists 32 1 3 (by decide) (by decide) (swcInit 32 (lfrL 32 7))
  refine ⟨_, lfrL 32 7, X, C, rfl, rfl, fun _ => rfl, h, fun k hk => ?_⟩
  have hb := (swc_bounds (by decide) h).2 k
  have hx : X k = swcInit 32 (lfrL 32 7) k := h.1 k (by omega)
  have : swcInit 32 (lfrL 32 7) k < 2147483563 := by
    rcases (show k = 0 ∨ k = 1 by omega) with rfl | rfl <;> decide
  omega

/-- **C66 fails** for words as long as the type, without overflow checks: seed 0, lags 1 and 3, the carry is lost in the
seventh draw and the eighth word is wrong. -/
theorem C66_violated : ∃ g out, lfrNew (.ok 0#32) 32#32 1#32 3#32 = .ok g ∧
    (runCalls (lfrSource 32 false) g (List.replicate 8 .gen)).map Prod.fst = .ok out ∧
    ∀ L X C, LcgSeq 40014 0 2147483563 0 L → SwcSeq 32 1 3 (swcInit 32 L) X C → (out.map BitVec.toNat)[7]? ≠ some (X 10) := by
  refine ⟨_, _, rfl, (by decide +kernel :
    (runCalls (lfrSource 32 false) ⟨32#32, 1#32, 3#32, 0#32, false, 0#32, 0#32, []⟩ (List.replicate 8 .gen)).map Prod.fst =
      .ok [4294967295#32, 4294967294#32, 4294967294#32, 4294967295#32, 0#32, 2#32, 2#32, 2#32]), ?_⟩
  intro L X C hL ⟨h1, h2, h3⟩
  have hL0 : ∀ k, L k = 0 := by
    intro k
    induction k with
    | zero => exact hL.1
    | succ k ih => rw [hL.2, ih]
  have hi : ∀ i, i < 3 → X i = 0 := by
    intro i hi
    rw [h1 i hi, swcInit, if_pos (by decide), hL0]
  have c0 : C 0 = 1 := by rw [h2, if_pos (hi 2 (by decide))]
  have x0 := hi 0 (by decide)
  have x1 := hi 1 (by decide)
  have x2 := hi 2 (by decide)
  obtain ⟨a0, b0⟩ := h3 0
  obtain ⟨a1, b1⟩ := h3 1
  obtain ⟨a2, b2⟩ := h3 2
  obtain ⟨a3, b3⟩ := h3 3
  obtain ⟨a4, b4⟩ := h3 4
  obtain ⟨a5, b5⟩ := h3 5
  obtain ⟨a6, b6⟩ := h3 6
  obtain ⟨a7, b7⟩ := h3 7
  norm_num at a0 b0 a1 b1 a2 b2 a3 b3 a4 b4 a5 b5 a6 b6 a7 b7
  rw [x0, x2, c0] at a0 b0
  norm_num at a0 b0
  have x3 : X 3 = 4294967295 := by omega
  rw [x3, x1, b0] at a1 b1
  norm_num at a1 b1
  have x4 : X 4 = 4294967294 := by omega
  rw [x4, x2, b1] at a2 b2
  norm_num at a2 b2
  have x5 : X 5 = 4294967294 := by omega
  rw [x5, x3, b2] at a3 b3
  norm_num at a3 b3
  have x6 : X 6 = 4294967295 := by omega
  rw [x6, x4, b3] at a4 b4
  norm_num at a4 b4
  have x7 : X 7 = 0 := by omega
  rw [x7, x5, b4] at a5 b5
  norm_num at a5 b5
  have x8 : X 8 = 2 := by omega
  rw [x8, x6, b5] at a6 b6
  norm_num at a6 b6
  have x9 : X 9 = 2 := by omega
  rw [x9, x7, b6] at a7 b7
  norm_num at a7 b7
  have x10 : X 10 = 1 := by omega
  rw [x10]
  decide

/-! ## C67: Mersenne twister -/

/-- **C67, what the code does** for all parameters that `new` accepts with `n ≥ 2`: the `k`-th word drawn is the tempered word
`n + k` of the twisted sequence that starts with the seed, with `m mod n` for the middle word (`m = n` is accepted, too). -/
theorem C67_mt_wrapped {b : Nat} (hb : b = 32 ∨ b = 64) {checks : Bool} {seed : BitVec b} {p : MtPar b} {g : Mt b}
    (hnew : mtNew (.ok seed) p = .ok g) (hn : 2 ≤ p.n.toNat) {X : ℕ → ℕ}
    (hX : MtSeq p.w.toNat p.n.toNat (p.m.toNat % p.n.toNat) p.r.toNat p.a.toNat p.f.toNat seed.toNat X) (N : ℕ) :
    ∃ out g', runCalls (mtSource b checks) g (List.replicate N .gen) = .ok (out, g') ∧
      out.map BitVec.toNat = (List.range N).map (fun k =>
        mtTemperCode p.u.toNat p.d.toNat p.s.toNat p.bm.toNat p.t.toNat p.c.toNat p.l.toNat (X (k + p.n.toNat))) := by
  obtain ⟨hv, ⟨x, hx, rfl⟩, -⟩ := mtNew_ok hb hnew
  cases hx
  obtain ⟨h0, h1, h2⟩ := hX
  have hm0 := hv.m0
  have hrec : MtRec p X := h2
  have hm := Nat.mod_lt p.m.toNat (show 0 < p.n.toNat by omega)
  have hG := mtInit_at hb hv h0 h1
  obtain ⟨g', e', _⟩ := runCalls_stream (src := mtSource b checks)
    (out := fun k => BitVec.ofNat b (mtTemperCode p.u.toNat p.d.toNat p.s.toNat p.bm.toNat p.t.toNat p.c.toNat p.l.toNat
      (X (p.n.toNat + k))))
    (I := MtAt p X) (fun k g hg => mtGen_at hb hv hn hrec k g hg) N 0 _ hG
  simp only [Nat.zero_add] at e'
  -- all the words are below `2^w`
  have bX : ∀ k, X k < 2 ^ p.w.toNat := by
    intro k
    induction k using Nat.strong_induction_on with
    | _ k ih =>
      by_cases hk : k < p.n.toNat
      · cases k with
        | zero => rw [h0]; exact Nat.mod_lt _ (Nat.two_pow_pos _)
        | succ k => rw [h1 k hk]; exact Nat.mod_lt _ (Nat.two_pow_pos _)
      · have hr : p.r.toNat < b := by have := hv.rw'; have := hv.wb; omega
        have hp2 : 2 ^ p.w.toNat ≤ 2 ^ b := Nat.pow_le_pow_right (by decide) hv.wb
        have i1 := ih (k - p.n.toNat) (by omega)
        have i2 := ih (k - p.n.toNat + 1) (by omega)
        have i3 := ih (k - p.n.toNat + p.m.toNat % p.n.toNat) (by omega)
        have := mtTwist_lt hv (hi := BitVec.ofNat b (X (k - p.n.toNat))) (lo := BitVec.ofNat b (X (k - p.n.toNat + 1)))
          (src := BitVec.ofNat b (X (k - p.n.toNat + p.m.toNat % p.n.toNat)))
          (by rw [BitVec.toNat_ofNat, Nat.mod_eq_of_lt (by omega)]; exact i1)
          (by rw [BitVec.toNat_ofNat, Nat.mod_eq_of_lt (by omega)]; exact i2)
          (by rw [BitVec.toNat_ofNat, Nat.mod_eq_of_lt (by omega)]; exact i3)
        rw [mtTwist_toNat p hv.r0 hr] at this
        simp only [BitVec.toNat_ofNat] at this
        rw [Nat.mod_eq_of_lt (show X (k - p.n.toNat) < 2 ^ b by omega),
          Nat.mod_eq_of_lt (show X (k - p.n.toNat + 1) < 2 ^ b by omega),
          Nat.mod_eq_of_lt (show X (k - p.n.toNat + p.m.toNat % p.n.toNat) < 2 ^ b by omega), ← h2] at this
        rwa [show k - p.n.toNat + p.n.toNat = k by omega] at this
  cases N with
  | zero => exact ⟨[], _, rfl, rfl⟩
  | succ N =>
    refine ⟨_, g', ?_, (?_ : ((List.range (N + 1)).map (fun k => BitVec.ofNat b (mtTemperCode p.u.toNat p.d.toNat p.s.toNat
      p.bm.toNat p.t.toNat p.c.toNat p.l.toNat (X (p.n.toNat + k))))).map BitVec.toNat = _)⟩
    rotate_left
    · rw [map_toNat_ofNat (X := fun k => mtTemperCode p.u.toNat p.d.toNat p.s.toNat p.bm.toNat p.t.toNat p.c.toNat p.l.toNat
        (X (p.n.toNat + k))) (fun k => lt_of_lt_of_le (mtTemperCode_lt (bX _)) (Nat.pow_le_pow_right (by decide) hv.wb))]
      apply List.map_congr_left
      intro k _
      rw [Nat.add_comm]
    · rw [← e', List.replicate_succ]
      simp only [runCalls]
      rw [show (mtSource b checks).gen ⟨p, p.n, seed, false, []⟩ =
        (mtSource b checks).gen (mtInit ⟨p, p.n, seed, false, []⟩) from mtGen_init hG.ready]

/-- **C67, part**: for `m < n` (for `m = n`, which `new` accepts, the documented recurrence defines a word by itself) the
`k`-th word drawn is the tempered word `n + k` of the twisted sequence that starts with the seed. -/
theorem C67_mt_partial {b : Nat} (hb : b = 32 ∨ b = 64) {checks : Bool} {seed : BitVec b} {p : MtPar b} {g : Mt b}
    (hnew : mtNew (.ok seed) p = .ok g) (hm : p.m.toNat < p.n.toNat) {X : ℕ → ℕ}
    (hX : MtSeq p.w.toNat p.n.toNat p.m.toNat p.r.toNat p.a.toNat p.f.toNat seed.toNat X) (N : ℕ) :
    ∃ out g', runCalls (mtSource b checks) g (List.replicate N .gen) = .ok (out, g') ∧
      out.map BitVec.toNat = (List.range N).map (fun k =>
        mtTemperCode p.u.toNat p.d.toNat p.s.toNat p.bm.toNat p.t.toNat p.c.toNat p.l.toNat (X (k + p.n.toNat))) := by
  have := (mtNew_ok hb hnew).1.m0
  exact C67_mt_wrapped hb hnew (by omega) (by rw [Nat.mod_eq_of_lt hm]; exact hX) N

/-- Such sequences exist. -/
theorem mt_exists (w n m r a f seed : ℕ) (hm : m < n) (hn : 2 ≤ n) : ∃ X, MtSeq w n m r a f seed X := by
  let init : ℕ → ℕ := fun i => Nat.rec (seed % 2 ^ w) (fun i x => (f * (x ^^^ (x / 2 ^ (w - 2))) + (i + 1)) % 2 ^ w) i
  let step : (ℕ → ℕ) → ℕ → (ℕ → ℕ) := fun p k i =>
    if i = k + n then p (k + m) ^^^ ((p k / 2 ^ r * 2 ^ r + p (k + 1) % 2 ^ r) / 2) ^^^ (if p (k + 1) % 2 = 1 then a else 0)
    else p i
  let T : ℕ → (ℕ → ℕ) := fun n => Nat.rec init (fun k p => step p k) n
  have hT : ∀ k, T (k + 1) = step (T k) k := fun _ => rfl
  have stable : ∀ k j i, i < k + n → T (k + j) i = T k i := by
    intro k j i hi
    induction j with
    | zero => rfl
    | succ j ih =>
      rw [← Nat.add_assoc, hT]
      show (if i = k + j + n then _ else T (k + j) i) = _
      rw [if_neg (by omega), ih]
  have stable' : ∀ k l i, i < k + n → i < l + n → T l i = T k i := by
    intro k l i hk hl
    rcases Nat.le_total k l with h | h
    · obtain ⟨j, rfl⟩ := Nat.exists_eq_add_of_le h
      exact stable k j i hk
    · obtain ⟨j, rfl⟩ := Nat.exists_eq_add_of_le h
      exact (stable l j i hl).symm
  refine ⟨fun i => T (i + 1) i, stable' 0 1 0 (by omega) (by omega), fun i hi => ?_, fun k => ?_⟩
  · simp only
    rw [stable' 0 (i + 1 + 1) (i + 1) (by omega) (by omega), stable' 0 (i + 1) i (by omega) (by omega)]
    rfl
  · simp only
    simp only [stable' (k + 1) (k + n + 1) (k + n) (by omega) (by omega), stable' k (k + m + 1) (k + m) (by omega) (by omega),
      stable' k (k + 1) k (by omega) (by omega), stable' k (k + 1 + 1) (k + 1) (by omega) (by omega)]
    rw [hT]
    simp only [step, if_pos]

example : ∃ g X, mtNew (.ok 5489#32) mt19937Par = .ok g ∧ (397#32).toNat < (624#32).toNat ∧
    MtSeq 32 624 397 31 0x9908b0df 1812433253 5489 X := by
  obtain ⟨X, h⟩ := mt_exists 32 624 397 31 0x9908b0df 1812433253 5489 (by decide) (by decide)
  exact ⟨_, X, rfl, by decide, h⟩

/-! ## C68: iterators -/

/-- **C68, latch**: an iterator that holds an error answers every number of `next` with nothing and touches neither the source
nor the error. -/
theorem C68_latched {σ α : Type} (gen : σ → Except RandErr α × σ) (it : RandIter σ) (e : RandErr) (h : it.lastErr = some e)
    (N : ℕ) : runIter gen it (List.replicate N .next) = (List.replicate N none, it) := by
  have h1 : iterNext gen it = (none, it) := by unfold iterNext; rw [h]
  induction N with
  | zero => rfl
  | succ N ih => simp only [List.replicate_succ, runIter, h1, ih]

/-- **C68, delivery**: from an iterator without error, over a source that delivers `x 0, …, x (k-1)` and then fails with `e`,
`next` delivers these words in order and then nothing, for ever; the source is called `k + 1` times, and the error is kept. -/
theorem C68_delivers {σ α : Type} (gen : σ → Except RandErr α × σ) (x : ℕ → α) (st : ℕ → σ) (k : ℕ) (e : RandErr)
    (hok : ∀ i, i < k → gen (st i) = (.ok (x i), st (i + 1))) (herr : gen (st k) = (.error e, st (k + 1))) (N : ℕ) :
    runIter gen (iterNew (st 0)) (List.replicate (k + 1 + N) .next) =
      ((List.range k).map (fun i => some (x i)) ++ List.replicate (N + 1) none, ⟨st (k + 1), some e⟩) := by
  have key : ∀ j i, i + j = k → runIter gen (iterNew (st i)) (List.replicate (j + 1 + N) .next) =
      ((List.range' i j).map (fun i => some (x i)) ++ List.replicate (N + 1) none, ⟨st (k + 1), some e⟩) := by
    intro j
    induction j with
    | zero =>
      intro i hi
      have hi' : i = k := by omega
      subst hi'
      have h1 : iterNext gen (iterNew (st i)) = (none, ⟨st (i + 1), some e⟩) := by
        unfold iterNext iterNew
        simp only [herr]
      rw [show 0 + 1 + N = N + 1 by omega, List.replicate_succ]
      simp only [runIter, h1, C68_latched gen ⟨st (i + 1), some e⟩ e rfl N]
      simp [List.replicate_succ]
    | succ j ih =>
      intro i hi
      have h1 : iterNext gen (iterNew (st i)) = (some (x i), iterNew (st (i + 1))) := by
        unfold iterNext iterNew
        simp only [hok i (by omega)]
      rw [show j + 1 + 1 + N = (j + 1 + N) + 1 by omega, List.replicate_succ]
      simp only [runIter, h1, ih (i + 1) (by omega)]
      simp [List.range'_succ]
  have := key k 0 (by omega)
  rw [this, List.range_eq_range']

/-- **C68, clearing**: after `clear_error` the iterator is as new, over the source as it stands. -/
theorem C68_cleared {σ α : Type} (gen : σ → Except RandErr α × σ) (it : RandIter σ) (cs : List IterCall) :
    runIter gen it (.clear :: cs) = runIter gen (iterNew it.inner) cs := rfl

/-- an error is held after any history exactly if the last call of the source failed and nothing was cleared since -/
theorem C68_history {σ α : Type} (gen : σ → Except RandErr α × σ) (s : σ) (cs : List IterCall) (N : ℕ) :
    (runIter gen (runIter gen (iterNew s) cs).2 (List.replicate N .next)).1 =
      (match (runIter gen (iterNew s) cs).2.lastErr with
        | some _ => List.replicate N none
        | none => (runIter gen (iterNew (runIter gen (iterNew s) cs).2.inner) (List.replicate N .next)).1) := by
  generalize (runIter gen (iterNew s) cs).2 = it
  cases h : it.lastErr with
  | some e => simp only [C68_latched gen it e h N]
  | none =>
    have : it = iterNew it.inner := by cases it; simp only at h; rw [h]; rfl
    rw [← this]

/-- a source that fails at every third call -/
def sampleSource : ℕ → Except RandErr ℕ × ℕ := fun n => (if n % 3 = 2 then .error .innerErr else .ok (10 * n), n + 1)

example : (∀ i, i < 2 → sampleSource i = (.ok (10 * i), i + 1)) ∧ sampleSource 2 = (.error .innerErr, 3) := by
  refine ⟨?_, rfl⟩
  intro i hi
  unfold sampleSource
  rw [if_neg (by omega)]

/-! ## C69: random bytes of the operating system -/

theorem foldl_push (q : List Byte) (l : List Byte) : l.foldl (fun q x => x :: q) q = l.reverse ++ q := by
  induction l generalizing q with
  | nil => rfl
  | cons x l ih => simp [ih]

/-- **C69**: over any sequence of requests, with any results of the system call (errors and short reads), there is no panic,
every successful request gets as many bytes as it asked for, and the bytes handed out, followed by the bytes still buffered
(oldest first), are exactly the bytes obtained from the system, in order. -/
theorem C69_random_bytes (rs : List (ℕ × Option (List Byte))) (q : List Byte)
    (hsys : ∀ p ∈ rs, ∀ l, p.2 = some l → l.length ≤ p.1) :
    ∃ outs q', runRandom q rs = .ok (outs, q') ∧
      List.Forall₂ (fun (p : ℕ × Option (List Byte)) o => ∀ l, o = some l → l.length = p.1) rs outs ∧
      (outs.map (Option.getD · [])).flatten ++ q'.reverse = q.reverse ++ (rs.map (fun p => p.2.getD [])).flatten := by
  induction rs generalizing q with
  | nil => exact ⟨[], q, rfl, .nil, by simp⟩
  | cons p rs ih =>
    obtain ⟨n, sys⟩ := p
    have hl : (sys.getD []).length ≤ n := by
      cases sys with
      | none => simp
      | some l => exact hsys _ (List.mem_cons_self ..) l rfl
    have hs' : ∀ p ∈ rs, ∀ l, p.2 = some l → l.length ≤ p.1 := fun p hp => hsys p (List.mem_cons_of_mem _ hp)
    by_cases hn : ((sys.getD []).reverse ++ q).length < n
    · obtain ⟨outs, q', e, hf, hb⟩ := ih ((sys.getD []).reverse ++ q) hs'
      refine ⟨none :: outs, q', ?_, .cons (by simp) hf, ?_⟩
      · simp only [runRandom, genRandom, foldl_push]
        rw [if_neg (by omega), if_pos hn]
        simp only [bind, Except.bind, e]
      · simp only [List.map_cons, Option.getD_none, List.flatten_cons, List.nil_append, hb]
        simp
    · obtain ⟨outs, q', e, hf, hb⟩ := ih (((sys.getD []).reverse ++ q).take (((sys.getD []).reverse ++ q).length - n)) hs'
      refine ⟨some (((sys.getD []).reverse ++ q).reverse.take n) :: outs, q', ?_, .cons ?_ hf, ?_⟩
      · simp only [runRandom, genRandom, foldl_push]
        rw [if_neg (by omega), if_neg hn]
        simp only [bind, Except.bind, e]
      · rintro l hl'
        rw [← Option.some.inj hl', List.length_take, List.length_reverse]; omega
      · simp only [List.map_cons, Option.getD_some, List.flatten_cons, List.append_assoc, hb]
        rw [List.reverse_take, ← List.append_assoc, show ((sys.getD []).reverse ++ q).length -
          (((sys.getD []).reverse ++ q).length - n) = n by omega, List.take_append_drop]
        simp

/-- A request succeeds exactly if the bytes buffered and the bytes read are enough. -/
theorem C69_succeeds {q : List Byte} {n : ℕ} {sys : Option (List Byte)} (h : (sys.getD []).length ≤ n) :
    (∃ l q', genRandom q n sys = .ok (some l, q')) ↔ n ≤ q.length + (sys.getD []).length := by
  unfold genRandom
  simp only [foldl_push]
  rw [if_neg (by omega)]
  have hlen : ((sys.getD []).reverse ++ q).length = (sys.getD []).length + q.length := by simp
  by_cases hn : ((sys.getD []).reverse ++ q).length < n
  · rw [if_pos hn]
    constructor
    · rintro ⟨l, q', h⟩; cases h
    · intro h'; omega
  · rw [if_neg hn]
    exact ⟨fun _ => by omega, fun _ => ⟨_, _, rfl⟩⟩

/-- A failed read, a short one and a full one: the third request is served from the buffer first. -/
example : runRandom [] [(4, none), (4, some [1#8, 2#8]), (4, some [3#8, 4#8, 5#8, 6#8])] =
    .ok ([none, none, some [1#8, 2#8, 3#8, 4#8]], [6#8, 5#8]) := by decide

/-- **C69, words**: `gen` of the system generator reads its `len` bytes as a number, least significant byte first. -/
theorem C69_crypto {q q' : List Byte} {len : ℕ} {sys : Option (List Byte)} {l : List Byte}
    (h : genRandom q len sys = .ok (some l, q')) :
    cryptoGen len q sys = .ok (.ok (l.foldr (fun x acc => x.toNat + 256 * acc) 0), q') := by
  unfold cryptoGen
  simp only [h, bind, Except.bind]

/-! ## C81: the predefined generators -/

/-- **C81, part**: `ranlux24_base!` on 64-bit words delivers the published stream, for every seed that is not too large. -/
theorem C81_ranlux24_partial {checks : Bool} {seed : BitVec 64} {g : Lfr 64} (hnew : ranlux24Base (.ok seed) = .ok g)
    (hs : 40014 * seed.toNat < 2 ^ 64) {L X C : ℕ → ℕ} (hL : LcgSeq 40014 0 2147483563 seed.toNat L)
    (hX : SwcSeq 24 10 24 (swcInit 24 L) X C) (N : ℕ) :
    ∃ out g', runCalls (lfrSource 64 checks) g (List.replicate N .gen) = .ok (out, g') ∧
      out.map BitVec.toNat = (List.range N).map (fun k => X (k + 24)) := by
  refine C66_lfr_partial (Or.inr rfl) hnew (by decide) (fun _ => by decide) hL.1 (fun k => ?_) hX N
  suffices h : 40014 * L k < 2 ^ 64 by rw [hL.2, Nat.add_zero, Nat.mod_eq_of_lt h]
  cases k with
  | zero => rw [hL.1]; exact hs
  | succ k =>
    have : L (k + 1) < 2147483563 := by rw [hL.2]; exact Nat.mod_lt _ (by decide)
    omega

/-- **C81, part**: `ranlux48_base!` on 64-bit words, likewise. -/
theorem C81_ranlux48_partial {checks : Bool} {seed : BitVec 64} {g : Lfr 64} (hnew : ranlux48Base (.ok seed) = .ok g)
    (hs : 40014 * seed.toNat < 2 ^ 64) {L X C : ℕ → ℕ} (hL : LcgSeq 40014 0 2147483563 seed.toNat L)
    (hX : SwcSeq 48 5 12 (swcInit 48 L) X C) (N : ℕ) :
    ∃ out g', runCalls (lfrSource 64 checks) g (List.replicate N .gen) = .ok (out, g') ∧
      out.map BitVec.toNat = (List.range N).map (fun k => X (k + 12)) := by
  refine C66_lfr_partial (Or.inr rfl) hnew (by decide) (fun _ => by decide) hL.1 (fun k => ?_) hX N
  suffices h : 40014 * L k < 2 ^ 64 by rw [hL.2, Nat.add_zero, Nat.mod_eq_of_lt h]
  cases k with
  | zero => rw [hL.1]; exact hs
  | succ k =>
    have : L (k + 1) < 2147483563 := by rw [hL.2]; exact Nat.mod_lt _ (by decide)
    omega

/-- the published seeding sequence -/
def pubL (seed : ℕ) : ℕ → ℕ
  | 0 => seed
  | k + 1 => (40014 * pubL seed k + 0) % 2147483563

example : ∃ g X C, ranlux24Base (.ok 19780503#64) = .ok g ∧ 40014 * (19780503#64).toNat < 2 ^ 64 ∧
    LcgSeq 40014 0 2147483563 19780503 (pubL 19780503) ∧ SwcSeq 24 10 24 (swcInit 24 (pubL 19780503)) X C := by
  obtain ⟨X, C, h⟩ := swc_exists 24 10 24 (by decide) (by decide) (swcInit 24 (pubL 19780503))
  exact ⟨_, X, C, rfl, by decide, ⟨rfl, fun _ => rfl⟩, h⟩

/-- **C81 fails** on 32-bit words: `ranlux24_base!` with the published default seed starts with 9529736 instead of 15039276,
the first word of the published stream. -/
theorem C81_ranlux24_violated : ∃ g, ranlux24Base (.ok 19780503#32) = .ok g ∧
    (runCalls (lfrSource 32 true) g [.gen]).map Prod.fst = .ok [9529736#32] ∧
    ∀ X C, SwcSeq 24 10 24 (swcInit 24 (pubL 19780503)) X C → X 24 = 15039276 := by
  refine ⟨_, rfl, by decide +kernel, ?_⟩
  intro X C ⟨h1, h2, h3⟩
  have x14 : X 14 = swcInit 24 (pubL 19780503) 14 := h1 14 (by decide)
  have x0 : X 0 = swcInit 24 (pubL 19780503) 0 := h1 0 (by decide)
  have x23 : X 23 = swcInit 24 (pubL 19780503) 23 := h1 23 (by decide)
  have c0 : C 0 = 0 := by
    rw [h2, show 24 - 1 = 23 from rfl, x23, if_neg (by decide +kernel)]
  have := (h3 0).1
  simp only [Nat.zero_add, show 24 - 10 = 14 from rfl] at this
  rw [x14, x0, c0, show swcInit 24 (pubL 19780503) 14 = 13398366 from by decide +kernel,
    show swcInit 24 (pubL 19780503) 0 = 15136306 from by decide +kernel] at this
  norm_num at this
  omega

/-- the published initial words of the twister -/
def pubMt (seed : ℕ) : ℕ → ℕ
  | 0 => seed % 2 ^ 32
  | i + 1 => (1812433253 * (pubMt seed i ^^^ (pubMt seed i / 2 ^ (32 - 2))) + (i + 1)) % 2 ^ 32

/-- **C81 fails** for `mt19937!`: the state is right, but the tempering shifts to the right where the published one shifts to
the left.  With the published default seed the first word is 2587734007 instead of 3499211612. -/
theorem C81_mt19937_violated {checks : Bool} : ∃ g g', mtNew (.ok 5489#32) mt19937Par = .ok g ∧
    runCalls (mtSource 32 checks) g [.gen] = .ok ([2587734007#32], g') ∧
    ∀ X, MtSeq 32 624 397 31 0x9908b0df 1812433253 5489 X →
      mtTemperSpec 32 11 0xffffffff 7 0x9d2c5680 15 0xefc60000 18 (X 624) = 3499211612 := by
  have key : ∀ X, MtSeq 32 624 397 31 0x9908b0df 1812433253 5489 X → X 624 = 2601187879 := by
    intro X ⟨h0, h1, h2⟩
    have hi : ∀ i, i < 624 → X i = pubMt 5489 i := by
      intro i hi
      induction i with
      | zero => exact h0
      | succ i ih => rw [h1 i hi, ih (by omega)]; rfl
    have := h2 0
    simp only [Nat.zero_add] at this
    rw [this, hi 397 (by decide), hi 0 (by decide), hi 1 (by decide)]
    decide +kernel
  obtain ⟨X, hX⟩ := mt_exists 32 624 397 31 0x9908b0df 1812433253 5489 (by decide) (by decide)
  obtain ⟨out, g', e, ho⟩ := C67_mt_partial (b := 32) (checks := checks) (Or.inl rfl) (p := mt19937Par) (seed := 5489#32) rfl (by decide) hX 1
  refine ⟨_, g', rfl, ?_, fun X hX => ?_⟩
  · have hv : out.map BitVec.toNat = [2587734007] := by
      rw [ho]
      show [mtTemperCode 11 0xffffffff 7 0x9d2c5680 15 0xefc60000 18 (X 624)] = _
      rw [key X hX]
      decide
    have : out = [2587734007#32] := by
      cases out with
      | nil => simp at hv
      | cons y l =>
        simp only [List.map_cons, List.cons.injEq, List.map_eq_nil_iff] at hv
        rw [hv.2, show y = 2587734007#32 from BitVec.eq_of_toNat_eq hv.1]
    rw [← this]
    exact e
  · rw [key X hX]; decide

/-- the published initial words of the 64-bit twister -/
def pubMt64 (seed : ℕ) : ℕ → ℕ
  | 0 => seed % 2 ^ 64
  | i + 1 => (6364136223846793005 * (pubMt64 seed i ^^^ (pubMt64 seed i / 2 ^ (64 - 2))) + (i + 1)) % 2 ^ 64

/-- **C81 fails** for `mt19937_64!` as for `mt19937!`.  With the published default seed the first word is 2619703321363679332
instead of 14514284786278117030. -/
theorem C81_mt19937_64_violated {checks : Bool} : ∃ g g', mtNew (.ok 5489#64) mt19937Par64 = .ok g ∧
    runCalls (mtSource 64 checks) g [.gen] = .ok ([2619703321363679332#64], g') ∧
    ∀ X, MtSeq 64 312 156 31 0xb5026f5aa96619e9 6364136223846793005 5489 X →
      mtTemperSpec 64 29 0x5555555555555555 17 0x71d67fffeda60000 37 0xfff7eee000000000 43 (X 312) =
        14514284786278117030 := by
  have key : ∀ X, MtSeq 64 312 156 31 0xb5026f5aa96619e9 6364136223846793005 5489 X → X 312 = 2619718836730839568 := by
    intro X ⟨h0, h1, h2⟩
    have hi : ∀ i, i < 312 → X i = pubMt64 5489 i := by
      intro i hi
      induction i with
      | zero => exact h0
      | succ i ih => rw [h1 i hi, ih (by omega)]; rfl
    have := h2 0
    simp only [Nat.zero_add] at this
    rw [this, hi 156 (by decide), hi 0 (by decide), hi 1 (by decide)]
    decide +kernel
  obtain ⟨X, hX⟩ := mt_exists 64 312 156 31 0xb5026f5aa96619e9 6364136223846793005 5489 (by decide) (by decide)
  obtain ⟨out, g', e, ho⟩ := C67_mt_partial (b := 64) (checks := checks) (Or.inr rfl) (p := mt19937Par64) (seed := 5489#64) rfl (by decide) hX 1
  refine ⟨_, g', rfl, ?_, fun X hX => ?_⟩
  · have hv : out.map BitVec.toNat = [2619703321363679332] := by
      rw [ho]
      show [mtTemperCode 29 0x5555555555555555 17 0x71d67fffeda60000 37 0xfff7eee000000000 43 (X 312)] = _
      rw [key X hX]
      decide
    have : out = [2619703321363679332#64] := by
      cases out with
      | nil => simp at hv
      | cons y l =>
        simp only [List.map_cons, List.cons.injEq, List.map_eq_nil_iff] at hv
        rw [hv.2, show y = 2619703321363679332#64 from BitVec.eq_of_toNat_eq hv.1]
    rw [← this]
    exact e
  · rw [key X hX]; decide

theorem xorShift_inj {s b z z' : ℕ} (hs : 0 < s) (h : z ^^^ (z / 2 ^ s &&& b) = z' ^^^ (z' / 2 ^ s &&& b)) : z = z' := by
  have hd : z ^^^ z' = (z ^^^ z') / 2 ^ s &&& b := by
    apply Nat.eq_of_testBit_eq
    intro i
    have hi := congrArg (fun n => n.testBit i) h
    simp only [Nat.testBit_xor, Nat.testBit_and, Nat.testBit_div_two_pow] at hi ⊢
    revert hi
    cases z.testBit i <;> cases z'.testBit i <;> cases z.testBit (i + s) <;> cases z'.testBit (i + s) <;> cases b.testBit i <;> simp
  by_contra hne
  have h0 : z ^^^ z' ≠ 0 := fun h0 => hne (by
    have := congrArg (fun n => n ^^^ z') h0
    simpa [Nat.xor_assoc] using this)
  have h1 : (z ^^^ z') / 2 ^ s &&& b ≤ (z ^^^ z') / 2 ^ s := Nat.and_le_left
  have h2 : (z ^^^ z') / 2 ^ s < z ^^^ z' := Nat.div_lt_self (by omega) (Nat.one_lt_two_pow (by omega))
  omega

theorem mtTemperCode_inj {u d s b t c l : ℕ} (hu : 0 < u) (hs : 0 < s) (ht : 0 < t) (hl : 0 < l) :
    Function.Injective (mtTemperCode u d s b t c l) := by
  intro z z' h
  have hl' : ∀ {x y : ℕ}, x ^^^ x / 2 ^ l = y ^^^ y / 2 ^ l → x = y := by
    intro x y h
    refine xorShift_inj (b := 2 ^ (x + y) - 1) hl ?_
    have hx : ∀ n, n ≤ x + y → n / 2 ^ l &&& (2 ^ (x + y) - 1) = n / 2 ^ l := by
      intro n hn
      rw [Nat.and_two_pow_sub_one_eq_mod]
      exact Nat.mod_eq_of_lt (lt_of_le_of_lt (le_trans (Nat.div_le_self _ _) hn) Nat.lt_two_pow_self)
    rw [hx x (by omega), hx y (by omega)]
    exact h
  exact xorShift_inj hu (xorShift_inj hs (xorShift_inj ht (hl' h)))

/-- **C81, part**: `mt19937!` draws the published stream up to one fixed translation `τ` of its words: for every seed, the
`k`-th published word is `τ` of the `k`-th word drawn. -/
theorem C81_mt19937_partial : ∃ τ : ℕ → ℕ, ∀ (checks : Bool) (seed : BitVec 32) (X : ℕ → ℕ),
    MtSeq 32 624 397 31 0x9908b0df 1812433253 seed.toNat X → ∀ N, ∃ g out g', mtNew (.ok seed) mt19937Par = .ok g ∧
      runCalls (mtSource 32 checks) g (List.replicate N .gen) = .ok (out, g') ∧
      out.map (fun w => τ w.toNat) = (List.range N).map (fun k =>
        mtTemperSpec 32 11 0xffffffff 7 0x9d2c5680 15 0xefc60000 18 (X (k + 624))) := by
  have hinj : Function.Injective (mtTemperCode 11 0xffffffff 7 0x9d2c5680 15 0xefc60000 18) :=
    mtTemperCode_inj (by decide) (by decide) (by decide) (by decide)
  obtain ⟨inv, hinv⟩ := hinj.hasLeftInverse
  refine ⟨fun w => mtTemperSpec 32 11 0xffffffff 7 0x9d2c5680 15 0xefc60000 18 (inv w), ?_⟩
  intro checks seed X hX N
  obtain ⟨out, g', e, ho⟩ := C67_mt_partial (b := 32) (checks := checks) (Or.inl rfl) (p := mt19937Par) (seed := seed) rfl
    (by decide) hX N
  refine ⟨_, out, g', rfl, e, ?_⟩
  have := congrArg (List.map (fun w => mtTemperSpec 32 11 0xffffffff 7 0x9d2c5680 15 0xefc60000 18 (inv w))) ho
  rw [List.map_map, List.map_map] at this
  exact this.trans (List.map_congr_left fun k _ => congrArg _ (hinv (X (k + 624))))

/-- **C81, part**: the same for `mt19937_64!`. -/
theorem C81_mt19937_64_partial : ∃ τ : ℕ → ℕ, ∀ (checks : Bool) (seed : BitVec 64) (X : ℕ → ℕ),
    MtSeq 64 312 156 31 0xb5026f5aa96619e9 6364136223846793005 seed.toNat X → ∀ N, ∃ g out g',
      mtNew (.ok seed) mt19937Par64 = .ok g ∧
      runCalls (mtSource 64 checks) g (List.replicate N .gen) = .ok (out, g') ∧
      out.map (fun w => τ w.toNat) = (List.range N).map (fun k =>
        mtTemperSpec 64 29 0x5555555555555555 17 0x71d67fffeda60000 37 0xfff7eee000000000 43 (X (k + 312))) := by
  have hinj : Function.Injective (mtTemperCode 29 0x5555555555555555 17 0x71d67fffeda60000 37 0xfff7eee000000000 43) :=
    mtTemperCode_inj (by decide) (by decide) (by decide) (by decide)
  obtain ⟨inv, hinv⟩ := hinj.hasLeftInverse
  refine ⟨fun w => mtTemperSpec 64 29 0x5555555555555555 17 0x71d67fffeda60000 37 0xfff7eee000000000 43 (inv w), ?_⟩
  intro checks seed X hX N
  obtain ⟨out, g', e, ho⟩ := C67_mt_partial (b := 64) (checks := checks) (Or.inr rfl) (p := mt19937Par64) (seed := seed) rfl
    (by decide) hX N
  refine ⟨_, out, g', rfl, e, ?_⟩
  have := congrArg (List.map (fun w => mtTemperSpec 64 29 0x5555555555555555 17 0x71d67fffeda60000 37 0xfff7eee000000000 43 (inv w))) ho
  rw [List.map_map, List.map_map] at this
  exact this.trans (List.map_congr_left fun k _ => congrArg _ (hinv (X (k + 312))))

/-- sequences for the two presets exist for every seed -/
example (seed : BitVec 32) : ∃ X, MtSeq 32 624 397 31 0x9908b0df 1812433253 seed.toNat X :=
  mt_exists _ _ _ _ _ _ _ (by decide) (by decide)
example (seed : BitVec 64) : ∃ X, MtSeq 64 312 156 31 0xb5026f5aa96619e9 6364136223846793005 seed.toNat X :=
  mt_exists _ _ _ _ _ _ _ (by decide) (by decide)

end RMath
