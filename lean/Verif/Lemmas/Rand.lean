import Verif.Model.Rand
import Verif.SpecRand
import Mathlib.Tactic.Ring
import Mathlib.Tactic.Linarith
import Mathlib.Data.Nat.Bitwise

/-! Proofs about the random number generators. -/

namespace RMath

theorem maskW_toNat {b : Nat} (hb : b = 32 ∨ b = 64) {w : BitVec b} (hw : w.toNat ≤ b) : (maskW w).toNat = 2 ^ w.toNat - 1 := by
  have key : ∀ b k : Nat, b = 2 ^ k → b < 2 ^ b → ∀ w : BitVec b, w.toNat ≤ b → (maskW w).toNat = 2 ^ w.toNat - 1 := by
    intro b k hbk hbb w hw
    unfold maskW
    by_cases h : w = BitVec.ofNat b b
    · rw [if_pos h, h, BitVec.toNat_allOnes, BitVec.toNat_ofNat, Nat.mod_eq_of_lt hbb]
    · rw [if_neg h]
      have hne : w.toNat ≠ b := by
        intro hc; apply h; apply BitVec.eq_of_toNat_eq; rw [BitVec.toNat_ofNat, Nat.mod_eq_of_lt hbb, hc]
      have hlt : w.toNat < b := by omega
      have h1 : (w &&& BitVec.ofNat b (b - 1)).toNat = w.toNat := by
        rw [BitVec.toNat_and, BitVec.toNat_ofNat, Nat.mod_eq_of_lt (by omega)]
        have : b - 1 = 2 ^ k - 1 := by rw [← hbk]
        rw [this, Nat.and_two_pow_sub_one_eq_mod, ← hbk, Nat.mod_eq_of_lt hlt]
      rw [h1]
      have h2 : 2 ^ w.toNat < 2 ^ b := Nat.pow_lt_pow_right (by decide) hlt
      have h3 : 1 ≤ 2 ^ w.toNat := Nat.one_le_two_pow
      have h4 : 1 < 2 ^ b := by omega
      rw [BitVec.toNat_sub, BitVec.toNat_shiftLeft, BitVec.toNat_ofNat, Nat.mod_eq_of_lt h4, Nat.shiftLeft_eq, one_mul,
        Nat.mod_eq_of_lt h2, show 2 ^ b - 1 + 2 ^ w.toNat = (2 ^ w.toNat - 1) + 2 ^ b by omega, Nat.add_mod_right,
        Nat.mod_eq_of_lt (by omega)]
  rcases hb with rfl | rfl
  · exact key 32 5 (by decide) (by decide) w hw
  · exact key 64 6 (by decide) (by decide) w hw

theorem and_mask {b : Nat} (hb : b = 32 ∨ b = 64) {w : BitVec b} (hw : w.toNat ≤ b) (x : BitVec b) :
    (x &&& maskW w).toNat = x.toNat % 2 ^ w.toNat := by
  rw [BitVec.toNat_and, maskW_toNat hb hw, Nat.and_two_pow_sub_one_eq_mod]

/-! ## Histories -/

theorem runCalls_inv {b : Nat} {σ : Type} {src : Source b σ} {I : σ → Prop} {P : BitVec b → Prop}
    (hg : ∀ g, I g → ∃ x g', src.gen g = .ok (x, g') ∧ P x ∧ I g')
    (hr : ∀ g x, I g → ∃ g', src.reset g x = .ok g' ∧ I g') :
    ∀ (cs : List (RandCall b)) (g : σ), I g → ∃ out g', runCalls src g cs = .ok (out, g') ∧ (∀ x ∈ out, P x) ∧ I g'
  | [], g, h => ⟨[], g, rfl, by simp, h⟩
  | .gen :: cs, g, h => by
    obtain ⟨x, g1, e1, hx, h1⟩ := hg g h
    obtain ⟨out, g2, e2, ho, h2⟩ := runCalls_inv hg hr cs g1 h1
    refine ⟨x :: out, g2, ?_, ?_, h2⟩
    · simp only [runCalls, e1, e2, bind, Except.bind]
    · intro y hy
      rcases List.mem_cons.1 hy with rfl | hy
      · exact hx
      · exact ho y hy
  | .reset (.ok x) :: cs, g, h => by
    obtain ⟨g1, e1, h1⟩ := hr g x h
    obtain ⟨out, g2, e2, ho, h2⟩ := runCalls_inv hg hr cs g1 h1
    exact ⟨out, g2, by simp only [runCalls, e1, e2, bind, Except.bind], ho, h2⟩
  | .reset (.error _) :: cs, g, h => by
    obtain ⟨out, g2, e2, ho, h2⟩ := runCalls_inv hg hr cs g h
    exact ⟨out, g2, by simp only [runCalls, e2], ho, h2⟩

/-- What holds of a state and is kept by the calls that return holds after every history. -/
theorem runCalls_keep {b : Nat} {σ : Type} {src : Source b σ} {I : σ → Prop}
    (hg : ∀ g x g', I g → src.gen g = .ok (x, g') → I g') (hr : ∀ g x g', I g → src.reset g x = .ok g' → I g') :
    ∀ (cs : List (RandCall b)) (g g' : σ) (out : List (BitVec b)), I g → runCalls src g cs = .ok (out, g') → I g'
  | [], g, g', out, h, e => by simp only [runCalls, Except.ok.injEq, Prod.mk.injEq] at e; rw [← e.2]; exact h
  | .gen :: cs, g, g', out, h, e => by
    simp only [runCalls, bind, Except.bind] at e
    cases e1 : src.gen g with
    | error x => rw [e1] at e; cases e
    | ok p =>
      rw [e1] at e
      simp only at e
      cases e2 : runCalls src p.2 cs with
      | error x => rw [e2] at e; cases e
      | ok q =>
        rw [e2] at e
        simp only [Except.ok.injEq, Prod.mk.injEq] at e
        rw [← e.2]
        exact runCalls_keep hg hr cs p.2 q.2 q.1 (hg g p.1 p.2 h e1) e2
  | .reset (.ok x) :: cs, g, g', out, h, e => by
    simp only [runCalls, bind, Except.bind] at e
    cases e1 : src.reset g x with
    | error x => rw [e1] at e; cases e
    | ok g1 =>
      rw [e1] at e
      exact runCalls_keep hg hr cs g1 g' out (hr g x g1 h e1) e
  | .reset (.error _) :: cs, g, g', out, h, e => by
    simp only [runCalls] at e
    exact runCalls_keep hg hr cs g g' out h e

/-- States that the calls cannot tell apart give the same words. -/
theorem runCalls_same {b : Nat} {σ : Type} {src : Source b σ} {R : σ → σ → Prop}
    (hg : ∀ g g', R g g' → src.gen g = src.gen g') (hr : ∀ g g' x, R g g' → src.reset g x = src.reset g' x) :
    ∀ (cs : List (RandCall b)) (g g' : σ), R g g' →
      (runCalls src g cs).map Prod.fst = (runCalls src g' cs).map Prod.fst
  | [], g, g', h => rfl
  | .gen :: cs, g, g', h => by simp only [runCalls, hg g g' h]
  | .reset (.ok x) :: cs, g, g', h => by simp only [runCalls, hr g g' x h]
  | .reset (.error _) :: cs, g, g', h => by
    simp only [runCalls]
    exact runCalls_same hg hr cs g g' h

/-- Like `runCalls_stream` below, for a bounded number of draws. -/
theorem runCalls_stream_lt {b : Nat} {σ : Type} {src : Source b σ} {I : ℕ → σ → Prop} {out : ℕ → BitVec b} {M : ℕ}
    (hg : ∀ k g, k < M → I k g → ∃ g', src.gen g = .ok (out k, g') ∧ I (k + 1) g') :
    ∀ (N k : ℕ) (g : σ), k + N ≤ M → I k g → ∃ g', runCalls src g (List.replicate N .gen) =
      .ok ((List.range N).map (fun j => out (k + j)), g') ∧ I (k + N) g'
  | 0, k, g, _, h => ⟨g, by simp [runCalls], by simpa using h⟩
  | N + 1, k, g, hN, h => by
    obtain ⟨g1, e1, h1⟩ := hg k g (by omega) h
    obtain ⟨g2, e2, h2⟩ := runCalls_stream_lt hg N (k + 1) g1 (by omega) h1
    refine ⟨g2, ?_, ?_⟩
    · simp only [List.replicate_succ, runCalls, e1, e2, bind, Except.bind, List.range_succ_eq_map, List.map_cons,
        List.map_map, Nat.add_zero, Except.ok.injEq, Prod.mk.injEq, List.cons.injEq, true_and, and_true]
      apply List.map_congr_left
      intro j _
      simp only [Function.comp, Nat.succ_eq_add_one]
      congr 1; omega
    · rw [show k + (N + 1) = k + 1 + N by omega]; exact h2

/-- Drawing `N` words in a row. -/
theorem runCalls_stream {b : Nat} {σ : Type} {src : Source b σ} {I : ℕ → σ → Prop} {out : ℕ → BitVec b}
    (hg : ∀ k g, I k g → ∃ g', src.gen g = .ok (out k, g') ∧ I (k + 1) g') :
    ∀ (N k : ℕ) (g : σ), I k g → ∃ g', runCalls src g (List.replicate N .gen) =
      .ok ((List.range N).map (fun j => out (k + j)), g') ∧ I (k + N) g'
  | 0, k, g, h => ⟨g, by simp [runCalls], by simpa using h⟩
  | N + 1, k, g, h => by
    obtain ⟨g1, e1, h1⟩ := hg k g h
    obtain ⟨g2, e2, h2⟩ := runCalls_stream hg N (k + 1) g1 h1
    refine ⟨g2, ?_, ?_⟩
    · simp only [List.replicate_succ, runCalls, e1, e2, bind, Except.bind, List.range_succ_eq_map, List.map_cons,
        List.map_map, Nat.add_zero, Except.ok.injEq, Prod.mk.injEq, List.cons.injEq, true_and, and_true]
      apply List.map_congr_left
      intro j _
      simp only [Function.comp]
      congr 1
      omega
    · rw [show k + (N + 1) = k + 1 + N by omega]; exact h2

/-! ## Linear congruential generator -/

theorem lcgGen_toNat {b : Nat} {g : Lcg b} (h : g.m ≠ 0#b) :
    ∃ x, lcgGen g = .ok (x, { g with x := x }) ∧ x.toNat = (g.a.toNat * g.x.toNat + g.c.toNat) % 2 ^ b % g.m.toNat := by
  refine ⟨(g.a * g.x + g.c) % g.m, by unfold lcgGen; rw [if_neg h], ?_⟩
  rw [BitVec.toNat_umod, BitVec.toNat_add, BitVec.toNat_mul, Nat.mod_add_mod]

theorem toNat_ne_zero {b : Nat} {m : BitVec b} (h : m ≠ 0#b) : 0 < m.toNat := by
  rcases Nat.eq_zero_or_pos m.toNat with h0 | h0
  · exact absurd (BitVec.eq_of_toNat_eq (by simpa using h0)) h
  · exact h0

/-! ## Lagged Fibonacci generator: the initial words -/

/-- the seeding sequence, in words of `b` bits -/
def lfrL (b : Nat) (x : ℕ) : ℕ → ℕ
  | 0 => x
  | k + 1 => 40014 * lfrL b x k % 2 ^ b % 2147483563

theorem lfrL_lt (b : Nat) (x k : ℕ) : lfrL b x (k + 1) < 2147483563 := Nat.mod_lt _ (by decide)

theorem lfrL_add (b : Nat) (x k : ℕ) : ∀ j, lfrL b (lfrL b x k) j = lfrL b x (k + j)
  | 0 => rfl
  | j + 1 => by rw [← Nat.add_assoc]; simp only [lfrL]; rw [lfrL_add b x k j]

theorem lfrLcg {b : Nat} (hb : b = 32 ∨ b = 64) (x : BitVec b) :
    ∃ y, lcgGen ⟨40014#b, 0#b, 2147483563#b, x⟩ = .ok (y, ⟨40014#b, 0#b, 2147483563#b, y⟩) ∧ y.toNat = lfrL b x.toNat 1 := by
  have hm : (2147483563#b) ≠ 0#b := by rcases hb with rfl | rfl <;> decide
  obtain ⟨y, h1, h2⟩ := lcgGen_toNat (g := ⟨40014#b, 0#b, 2147483563#b, x⟩) hm
  refine ⟨y, h1, ?_⟩
  rw [h2]
  rcases hb with rfl | rfl <;> simp [lfrL]

theorem lfrWord_spec {b : Nat} (hb : b = 32 ∨ b = 64) (x : BitVec b) {n : ℕ} (hn : n = 1 ∨ n = 2 ∧ b = 64) :
    ∃ s y, lfrWord n ⟨40014#b, 0#b, 2147483563#b, x⟩ 0#b 1#b = .ok (s, ⟨40014#b, 0#b, 2147483563#b, y⟩) ∧
      y.toNat = lfrL b x.toNat n ∧
      s.toNat = if n = 1 then lfrL b x.toNat 1 else lfrL b x.toNat 1 + 2 ^ 32 * lfrL b x.toNat 2 := by
  obtain ⟨y1, e1, v1⟩ := lfrLcg hb x
  rcases hn with rfl | ⟨rfl, rfl⟩
  · refine ⟨y1, y1, ?_, v1, by rw [if_pos rfl, v1]⟩
    simp only [lfrWord, e1, bind, Except.bind]
    simp
  · obtain ⟨y2, e2, v2⟩ := lfrLcg hb y1
    rw [v1, lfrL_add] at v2
    have hm : maskW 32#64 + 1#64 = 4294967296#64 := by decide
    refine ⟨y1 + y2 * 4294967296#64, y2, ?_, v2, ?_⟩
    · simp only [lfrWord, e1, e2, bind, Except.bind]
      simp [hm]
    · have b1 := lfrL_lt 64 x.toNat 0
      have b2 := lfrL_lt 64 x.toNat 1
      rw [if_neg (by decide), ← v2, ← show y1.toNat = _ from v1]
      rw [← show y1.toNat = _ from v1] at b1
      rw [← show y2.toNat = _ from v2] at b2
      rw [BitVec.toNat_add, BitVec.toNat_mul]
      have : (4294967296#64 : BitVec 64).toNat = 2 ^ 32 := by decide
      rw [this]
      omega

theorem lfrFill_spec {b : Nat} (hb : b = 32 ∨ b = 64) {w : BitVec b} (hw : w.toNat ≤ b) {n : ℕ}
    (hn : n = if w.toNat ≤ 32 then 1 else 2) (x : ℕ) :
    ∀ (k i : ℕ) (y : BitVec b), y.toNat = lfrL b x (n * i) →
      ∃ l, lfrFill w n k ⟨40014#b, 0#b, 2147483563#b, y⟩ = .ok l ∧ l.length = k ∧
        ∀ j, j < k → ∃ v, l[j]? = some v ∧ v.toNat = swcInit w.toNat (lfrL b x) (i + j)
  | 0, i, y, h => ⟨[], rfl, rfl, fun j hj => absurd hj (by omega)⟩
  | k + 1, i, y, h => by
    have hn' : n = 1 ∨ n = 2 ∧ b = 64 := by
      by_cases hc : w.toNat ≤ 32
      · left; rw [hn, if_pos hc]
      · right; refine ⟨by rw [hn, if_neg hc], ?_⟩
        rcases hb with rfl | rfl <;> omega
    obtain ⟨s, z, e1, v1, v2⟩ := lfrWord_spec hb y hn'
    have hz : z.toNat = lfrL b x (n * (i + 1)) := by rw [v1, h, lfrL_add, Nat.mul_add, Nat.mul_one]
    obtain ⟨l, e2, hl, hs⟩ := lfrFill_spec hb hw hn x k (i + 1) z hz
    refine ⟨(maskW w &&& s) :: l, ?_, by simp [hl], ?_⟩
    · simp only [lfrFill, e1, e2, bind, Except.bind]
    · intro j hj
      rcases j with _ | j
      · refine ⟨maskW w &&& s, rfl, ?_⟩
        rw [BitVec.and_comm, and_mask hb hw, v2]
        unfold swcInit
        congr 1
        rw [h, lfrL_add, lfrL_add]
        by_cases hc : w.toNat ≤ 32
        · have : n = 1 := by rw [hn, if_pos hc]
          rw [if_pos this, if_pos hc, this]; congr 1; omega
        · have : n = 2 := by rw [hn, if_neg hc]
          rw [if_neg (by omega), if_neg hc, this]; rfl
      · obtain ⟨v, hv, hv'⟩ := hs j (by omega)
        exact ⟨v, by simpa using hv, by rw [hv']; congr 1; omega⟩

end RMath
