import Verif.Props.Residue
import Verif.Props.NatFun
import Mathlib.Data.Fin.Tuple.Basic
import Mathlib.Logic.Equiv.Fin.Basic
import Mathlib.SetTheory.Cardinal.Finite

/-!
# C105: random numbers are unbiased

The number of ways in which a source of words can make `random` return a value does not depend on the value.  A source that
delivers every sequence of words equally likely makes every value equally likely.
-/

namespace RMath

/-- the results of `N` successful draws -/
def drawn {N : Nat} (f : Fin N → W) : List (Option W) := (List.ofFn f).map some

theorem drawn_append {L N : Nat} (g : Fin L → W) (h : Fin N → W) : drawn (Fin.append g h) = drawn g ++ drawn h := by
  simp [drawn, List.ofFn_fin_append]

theorem drawWords_some_append (v : Words) (rest : List (Option W)) :
    drawWords v.length (v.map some ++ rest) = some (v, rest) := by
  induction v with
  | nil => simp [drawWords]
  | cons x v ih => simp [drawWords, ih]

theorem randomLoop_group {n fuel : Nat} (g : Fin (enc n).length → W) (rest : List (Option W)) :
    randomLoop (enc n) (enc n).length (randomMask (enc n)) (fuel + 1) (drawn g ++ rest) =
      if val (List.ofFn g) % 2 ^ bitLen n < n then some (maskLast (List.ofFn g) (randomMask (enc n)), rest)
      else randomLoop (enc n) (enc n).length (randomMask (enc n)) fuel rest := by
  have hl : (List.ofFn g).length = (enc n).length := List.length_ofFn
  have hd := drawWords_some_append (List.ofFn g) rest
  rw [hl] at hd
  rw [randomLoop, drawn, hd]
  obtain ⟨hm1, hm2⟩ := maskLast_val hl
  have hne : maskLast (List.ofFn g) (randomMask (enc n)) ≠ [] := by
    rw [← List.length_pos_iff, hm2, hl, List.length_pos_iff]; exact enc_ne_nil n
  simp only
  rw [ltOp_of_length_eq hne (by rw [hm2, hl]), val_enc, hm1]
  simp

theorem val_ofFn_inj {L : Nat} {g h : Fin L → W} (e : val (List.ofFn g) = val (List.ofFn h)) : g = h := by
  induction L with
  | zero => exact funext fun i => i.elim0
  | succ L ih =>
    rw [List.ofFn_succ, List.ofFn_succ, val_cons, val_cons] at e
    have h1 := (g 0).isLt
    have h2 := (h 0).isLt
    have e0 : g 0 = h 0 := BitVec.eq_of_toNat_eq (by omega)
    have e1 := ih (g := fun i => g i.succ) (h := fun i => h i.succ) (by omega)
    funext i
    refine Fin.cases e0 (fun i => ?_) i
    exact congrFun e1 i

theorem val_ofFn_surj : ∀ (L x : Nat), x < 2 ^ (32 * L) → ∃ g : Fin L → W, val (List.ofFn g) = x := by
  intro L
  induction L with
  | zero =>
    intro x hx
    exact ⟨fun i => i.elim0, by simp at hx; subst hx; rfl⟩
  | succ L ih =>
    intro x hx
    obtain ⟨g, hg⟩ := ih (x / 2 ^ 32) (by rw [Nat.div_lt_iff_lt_mul (by decide), ← Nat.pow_add]; exact hx)
    refine ⟨Fin.cons (BitVec.ofNat 32 x) g, ?_⟩
    rw [List.ofFn_succ, val_cons]
    simp only [Fin.cons_zero, Fin.cons_succ, BitVec.toNat_ofNat]
    rw [hg]
    omega

/-- the words of a group and the number they form -/
noncomputable def groupEquiv (L : Nat) : (Fin L → W) ≃ Fin (2 ^ (32 * L)) :=
  Equiv.ofBijective (fun g => ⟨val (List.ofFn g), by simpa using val_lt (List.ofFn g)⟩) (by
    constructor
    · intro g h e
      exact val_ofFn_inj (by simpa using e)
    · intro x
      obtain ⟨g, hg⟩ := val_ofFn_surj L x.1 x.2
      exact ⟨g, Fin.ext hg⟩)

/-- counting the numbers below a multiple of `m` by their remainders -/
theorem card_mod (m k : Nat) (hm : 0 < m) (S : Nat → Prop) :
    Nat.card {x : Fin (m * k) // S (x.1 % m)} = Nat.card {y : Fin m // S y.1} * k := by
  have e : {x : Fin (m * k) // S (x.1 % m)} ≃ {y : Fin m // S y.1} × Fin k :=
    { toFun := fun x => (⟨⟨x.1.1 % m, Nat.mod_lt _ hm⟩, x.2⟩, ⟨x.1.1 / m, Nat.div_lt_of_lt_mul x.1.2⟩)
      invFun := fun p => ⟨⟨p.1.1.1 + m * p.2.1, by
        have h1 := p.1.1.2
        have h2 := p.2.2
        calc p.1.1.1 + m * p.2.1 < m + m * p.2.1 := by omega
          _ = m * (p.2.1 + 1) := by ring
          _ ≤ m * k := Nat.mul_le_mul_left _ h2⟩, by
        have h1 := p.1.1.2
        simp only [Nat.add_mul_mod_self_left, Nat.mod_eq_of_lt h1]
        exact p.1.2⟩
      left_inv := fun x => by
        apply Subtype.ext
        apply Fin.ext
        simp [Nat.mod_add_div]
      right_inv := fun p => by
        have h1 := p.1.1.2
        refine Prod.ext (Subtype.ext (Fin.ext ?_)) (Fin.ext ?_)
        · simp [Nat.mod_eq_of_lt h1]
        · simp [Nat.add_mul_div_left _ _ hm, Nat.div_eq_of_lt h1] }
  rw [Nat.card_congr e, Nat.card_prod, Nat.card_fin]

theorem card_group {L b : Nat} (hb : b ≤ 32 * L) (S : Nat → Prop) :
    Nat.card {g : Fin L → W // S (val (List.ofFn g) % 2 ^ b)} = Nat.card {y : Fin (2 ^ b) // S y.1} * 2 ^ (32 * L - b) := by
  rw [← card_mod (2 ^ b) (2 ^ (32 * L - b)) (Nat.two_pow_pos b) S]
  have hp : 2 ^ b * 2 ^ (32 * L - b) = 2 ^ (32 * L) := by rw [← Nat.pow_add]; congr 1; omega
  rw [hp]
  exact Nat.card_congr ((groupEquiv L).subtypeEquiv fun g => Iff.rfl)

theorem card_eq_one_val {b a : Nat} (ha : a < 2 ^ b) : Nat.card {y : Fin (2 ^ b) // y.1 = a} = 1 := by
  rw [Nat.card_eq_one_iff_exists]
  exact ⟨⟨⟨a, ha⟩, rfl⟩, fun y => Subtype.ext (Fin.ext y.2)⟩

theorem card_ge {b n : Nat} (hn : n ≤ 2 ^ b) : Nat.card {y : Fin (2 ^ b) // ¬ y.1 < n} = 2 ^ b - n := by
  have e : {y : Fin (2 ^ b) // ¬ y.1 < n} ≃ Fin (2 ^ b - n) :=
    { toFun := fun y => ⟨y.1.1 - n, by have := y.1.2; have := y.2; omega⟩
      invFun := fun i => ⟨⟨i.1 + n, by have := i.2; omega⟩, by simp⟩
      left_inv := fun y => Subtype.ext (Fin.ext (by have := y.2; simp; omega))
      right_inv := fun i => Fin.ext (by simp) }
  rw [Nat.card_congr e, Nat.card_fin]

theorem card_append {L N : Nat} (P : (Fin (L + N) → W) → Prop) (A : (Fin L → W) → Prop) (Q : (Fin N → W) → Prop)
    (h : ∀ g k, P (Fin.append g k) ↔ A g ∧ Q k) :
    Nat.card {f // P f} = Nat.card {g // A g} * Nat.card {k // Q k} := by
  rw [← Nat.card_prod]
  have e1 : {p : (Fin L → W) × (Fin N → W) // A p.1 ∧ Q p.2} ≃ {f // P f} :=
    (Fin.appendEquiv L N).subtypeEquiv fun p => (h p.1 p.2).symm
  exact Nat.card_congr (e1.symm.trans Equiv.subtypeProdEquivProd)

/-- the sequences on which the loop draws exactly `k + 1` groups and returns `a` -/
theorem card_returns {n : Nat} (a : Nat) (ha : a < n) : ∀ (k N fuel : Nat), N = k * (enc n).length → k < fuel →
    Nat.card {f : Fin ((enc n).length + N) → W //
      ∃ r, randomLoop (enc n) (enc n).length (randomMask (enc n)) fuel (drawn f) = some (r, []) ∧ val r = a} =
    2 ^ (32 * (enc n).length - bitLen n) * ((2 ^ bitLen n - n) * 2 ^ (32 * (enc n).length - bitLen n)) ^ k := by
  have hbl := canon_bitLen (canon_enc n)
  rw [val_enc] at hbl
  have hlt : n < 2 ^ bitLen n := by rw [bitLen, if_neg (by omega)]; exact Nat.lt_log2_self
  intro k
  induction k with
  | zero =>
    intro N fuel hN hf
    rw [Nat.zero_mul] at hN
    subst hN
    obtain ⟨fuel, rfl⟩ : ∃ m, fuel = m + 1 := ⟨fuel - 1, by omega⟩
    rw [card_append _ (fun g => val (List.ofFn g) % 2 ^ bitLen n = a) (fun _ => True)]
    · rw [card_group (by omega) (fun x => x = a), card_eq_one_val (by omega)]
      simp
    · intro g h
      have hh : drawn h = [] := by simp [drawn]
      rw [drawn_append, randomLoop_group, hh]
      obtain ⟨hm1, -⟩ := maskLast_val (n := n) (v := List.ofFn g) List.length_ofFn
      by_cases hc : val (List.ofFn g) % 2 ^ bitLen n < n
      · simp [hc, hm1]
      · have : randomLoop (enc n) (enc n).length (randomMask (enc n)) fuel [] = none := by
          cases fuel with
          | zero => rfl
          | succ fuel =>
            obtain ⟨m, hm⟩ : ∃ m, (enc n).length = m + 1 := ⟨(enc n).length - 1, by
              have := List.length_pos_iff.2 (enc_ne_nil n); omega⟩
            rw [hm, randomLoop, drawWords]
        simp only [hc, if_false, this]
        simp
        omega
  | succ k ih =>
    intro N fuel hN hf
    obtain ⟨fuel, rfl⟩ : ∃ m, fuel = m + 1 := ⟨fuel - 1, by omega⟩
    obtain ⟨N', rfl⟩ : ∃ N', N = (enc n).length + N' := ⟨k * (enc n).length, by rw [hN]; ring⟩
    rw [card_append _ (fun g => ¬ val (List.ofFn g) % 2 ^ bitLen n < n) (fun h =>
      ∃ r, randomLoop (enc n) (enc n).length (randomMask (enc n)) fuel (drawn h) = some (r, []) ∧ val r = a)]
    · rw [card_group (by omega) (fun x => ¬ x < n), card_ge (by omega), ih N' fuel (by rw [Nat.add_mul] at hN; omega) (by omega)]
      ring
    · intro g h
      rw [drawn_append, randomLoop_group]
      have hne : drawn h ≠ [] := by
        have := List.length_pos_iff.2 (enc_ne_nil n)
        rw [← List.length_pos_iff]
        simp [drawn]
        omega
      by_cases hc : val (List.ofFn g) % 2 ^ bitLen n < n
      · simp [hc, hne]
      · simp [hc]

/-- the sequences of `k` groups on which the loop is still running -/
theorem card_running {n : Nat} (hn : n ≠ 0) : ∀ (k N fuel : Nat), N = k * (enc n).length → k < fuel →
    Nat.card {f : Fin N → W //
      randomLoop (enc n) (enc n).length (randomMask (enc n)) fuel (drawn f) = none} =
    ((2 ^ bitLen n - n) * 2 ^ (32 * (enc n).length - bitLen n)) ^ k := by
  have hbl := canon_bitLen (canon_enc n)
  rw [val_enc] at hbl
  have hlt : n < 2 ^ bitLen n := by rw [bitLen, if_neg (by omega)]; exact Nat.lt_log2_self
  have hpos := List.length_pos_iff.2 (enc_ne_nil n)
  intro k
  induction k with
  | zero =>
    intro N fuel hN hf
    rw [Nat.zero_mul] at hN
    subst hN
    obtain ⟨fuel, rfl⟩ : ∃ m, fuel = m + 1 := ⟨fuel - 1, by omega⟩
    have : ∀ f : Fin 0 → W, randomLoop (enc n) (enc n).length (randomMask (enc n)) (fuel + 1) (drawn f) = none := by
      intro f
      obtain ⟨m, hm⟩ : ∃ m, (enc n).length = m + 1 := ⟨(enc n).length - 1, by omega⟩
      rw [hm, randomLoop]
      simp [drawn, drawWords]
    simp [this]
  | succ k ih =>
    intro N fuel hN hf
    obtain ⟨fuel, rfl⟩ : ∃ m, fuel = m + 1 := ⟨fuel - 1, by omega⟩
    obtain ⟨N', rfl⟩ : ∃ N', N = (enc n).length + N' := ⟨k * (enc n).length, by rw [hN]; ring⟩
    rw [card_append _ (fun g => ¬ val (List.ofFn g) % 2 ^ bitLen n < n) (fun h =>
      randomLoop (enc n) (enc n).length (randomMask (enc n)) fuel (drawn h) = none)]
    · rw [card_group (by omega) (fun x => ¬ x < n), card_ge (by omega), ih N' fuel (by rw [Nat.add_mul] at hN; omega) (by omega)]
      ring
    · intro g h
      rw [drawn_append, randomLoop_group]
      by_cases hc : val (List.ofFn g) % 2 ^ bitLen n < n
      · simp [hc]
      · simp [hc]

/-- **C105**: of all sequences of `N = (k + 1) · len` words, the number of those that `n.random` reads completely and answers
with `a` is the same for every `a` below `n`: the top `32 · len - bits` bits of a group are free, and every one of the `k`
groups before the last is one of the groups out of range. -/
theorem C105_uniform (n : Words) (hn : Canon n) (k N a : Nat) (hN : N = (k + 1) * n.length) (ha : a < val n) :
    Nat.card {f : Fin N → W // ∃ r, natRandom n ((List.ofFn f).map some) = some (r, []) ∧ val r = a} =
      2 ^ (32 * n.length - bitsLen n) * ((2 ^ bitsLen n - val n) * 2 ^ (32 * n.length - bitsLen n)) ^ k := by
  obtain ⟨n, rfl⟩ := canon_iff_enc.1 hn
  rw [val_enc] at ha ⊢
  rw [bitsLen_enc]
  obtain rfl : N = (enc n).length + k * (enc n).length := by rw [hN]; ring
  have hpos := List.length_pos_iff.2 (enc_ne_nil n)
  rw [← card_returns a ha k _ ((enc n).length + k * (enc n).length + 1) rfl (by
    have : k * 1 ≤ k * (enc n).length := Nat.mul_le_mul_left _ hpos
    omega)]
  unfold natRandom
  have h0 : (isNan (enc n) || eqv (enc n) [0#32]) = false := by
    rw [← enc_zero]; simp only [isNan_enc, Bool.false_or, eqv_enc]; simp; omega
  simp only [h0, List.length_map, List.length_ofFn]
  rfl

/-- **C105**: no value is preferred. -/
theorem C105_unbiased (n : Words) (hn : Canon n) (k N a b : Nat) (hN : N = (k + 1) * n.length) (ha : a < val n)
    (hb : b < val n) :
    Nat.card {f : Fin N → W // ∃ r, natRandom n ((List.ofFn f).map some) = some (r, []) ∧ val r = a} =
    Nat.card {f : Fin N → W // ∃ r, natRandom n ((List.ofFn f).map some) = some (r, []) ∧ val r = b} := by
  rw [C105_uniform n hn k N a hN ha, C105_uniform n hn k N b hN hb]

/-- **C105**: after `k` groups of words, at most `1/2^k` of all sequences of words leave the call without an answer. -/
theorem C105_running (n : Words) (hn : Canon n) (h0 : val n ≠ 0) (k N : Nat) (hN : N = k * n.length) :
    Nat.card {f : Fin N → W // natRandom n ((List.ofFn f).map some) = none} * 2 ^ k ≤ 2 ^ (32 * N) := by
  obtain ⟨n, rfl⟩ := canon_iff_enc.1 hn
  rw [val_enc] at h0
  have hpos := List.length_pos_iff.2 (enc_ne_nil n)
  have hc := card_running h0 k N (N + 1) hN (by
    have : k * 1 ≤ k * (enc n).length := Nat.mul_le_mul_left _ hpos
    omega)
  have hz : (isNan (enc n) || eqv (enc n) [0#32]) = false := by
    rw [← enc_zero]; simp only [isNan_enc, Bool.false_or, eqv_enc]; simp; omega
  have : Nat.card {f : Fin N → W // natRandom (enc n) ((List.ofFn f).map some) = none} =
      ((2 ^ bitLen n - n) * 2 ^ (32 * (enc n).length - bitLen n)) ^ k := by
    rw [← hc]
    unfold natRandom
    simp only [hz, List.length_map, List.length_ofFn]
    rfl
  rw [this, hN, ← Nat.mul_pow, show 32 * (k * (enc n).length) = (32 * (enc n).length) * k by ring, Nat.pow_mul]
  apply Nat.pow_le_pow_left
  have hbl := canon_bitLen (canon_enc n)
  rw [val_enc] at hbl
  have hb1 := bitLen_pos n
  have hhalf : 2 ^ (bitLen n - 1) ≤ n := by
    rw [bitLen, if_neg h0]; simpa using Nat.log2_self_le h0
  have hsplit : 2 ^ bitLen n = 2 * 2 ^ (bitLen n - 1) := by rw [← Nat.pow_succ']; congr 1; omega
  calc (2 ^ bitLen n - n) * 2 ^ (32 * (enc n).length - bitLen n) * 2
      = ((2 ^ bitLen n - n) * 2) * 2 ^ (32 * (enc n).length - bitLen n) := by ring
    _ ≤ 2 ^ bitLen n * 2 ^ (32 * (enc n).length - bitLen n) := Nat.mul_le_mul_right _ (by omega)
    _ = 2 ^ (32 * (enc n).length) := by rw [← Nat.pow_add]; congr 1; omega

theorem drawWords_delivered : ∀ (m : Nat) (ds : List (Option W)),
    drawWords m ((delivered ds).map some) = (drawWords m ds).map fun p => (p.1, (delivered p.2).map some) := by
  intro m ds
  induction ds generalizing m with
  | nil => cases m <;> simp [drawWords, delivered]
  | cons d ds ih =>
    cases m with
    | zero => simp [drawWords]
    | succ m =>
      cases d with
      | none => rw [drawWords]; simpa [delivered] using ih (m + 1)
      | some x => simp [delivered, drawWords, ih m, Function.comp_def]

theorem drawWords_length {m : Nat} : ∀ {ds : List (Option W)} {v rest}, drawWords m ds = some (v, rest) →
    rest.length + m ≤ ds.length ∧ (delivered rest).length + m = (delivered ds).length := by
  intro ds
  induction ds generalizing m with
  | nil => intro v rest h; cases m <;> simp_all [drawWords, delivered]
  | cons d ds ih =>
    intro v rest h
    cases m with
    | zero => simp [drawWords] at h; obtain ⟨-, rfl⟩ := h; simp
    | succ m =>
      cases d with
      | none =>
        rw [drawWords] at h
        have := ih h
        simp only [List.length_cons, delivered]; omega
      | some x =>
        simp only [drawWords, Option.map_eq_some_iff, Prod.mk.injEq] at h
        obtain ⟨⟨v', r'⟩, h1, -, h3⟩ := h
        have := ih h1
        simp only at h3
        subst h3
        simp only [List.length_cons, delivered]; omega

theorem randomLoop_delivered (self : Words) {num : Nat} (hnum : 0 < num) (mask : W) : ∀ (f g : Nat) (ds : List (Option W)),
    ds.length < f → (delivered ds).length < g →
    randomLoop self num mask g ((delivered ds).map some) =
      (randomLoop self num mask f ds).map fun p => (p.1, (delivered p.2).map some) := by
  intro f
  induction f with
  | zero => intro g ds h; omega
  | succ f ih =>
    intro g ds hf hg
    obtain ⟨g, rfl⟩ : ∃ m, g = m + 1 := ⟨g - 1, by omega⟩
    rw [randomLoop, randomLoop, drawWords_delivered]
    rcases h : drawWords num ds with _ | ⟨v, rest⟩
    · simp
    · have hl := drawWords_length h
      simp only [Option.map_some]
      by_cases hc : ltOp (maskLast v mask) self
      · simp [hc]
      · simp only [hc, Bool.false_eq_true, if_false]
        exact ih g rest (by omega) (by omega)

/-- **C105**: draws that fail have no influence on the number: the call answers what it would answer to the words delivered
alone. -/
theorem C105_failures (n : Words) (ds : List (Option W)) :
    (natRandom n ds).map Prod.fst = (natRandom n ((delivered ds).map some)).map Prod.fst := by
  unfold natRandom
  by_cases h0 : (isNan n || eqv n [0#32]) = true
  · simp [h0]
  · rw [if_neg h0, if_neg h0]
    have hpos : 0 < n.length := by
      cases n with
      | nil => simp [isNan] at h0
      | cons => simp
    rw [randomLoop_delivered n hpos _ (ds.length + 1) _ ds (by omega) (by simp)]
    simp [Function.comp_def]

/-- **C105** for `BigInt`: the values from zero to `n`, zero included and `n` excluded, are equally frequent. -/
theorem C105_bigint (n : BInt) (hn : CanonI n) (k N : Nat) (a : Int) (hN : N = (k + 1) * n.nat.length)
    (ha : (0 ≤ a ∧ a < ival n) ∨ (ival n < a ∧ a ≤ 0)) :
    Nat.card {f : Fin N → W // ∃ r, bRandom n ((List.ofFn f).map some) = some (r, []) ∧ ival r = a} =
      2 ^ (32 * n.nat.length - bitsLen n.nat) *
        ((2 ^ bitsLen n.nat - val n.nat) * 2 ^ (32 * n.nat.length - bitsLen n.nat)) ^ k := by
  have hab : a.natAbs < val n.nat := by
    unfold ival at ha
    split at ha <;> omega
  rw [← C105_uniform n.nat hn.1 k N a.natAbs hN hab]
  have h0 : ival n ≠ 0 := by omega
  have hz : (bIsNan n || bEqW n 0#32) = false := by
    obtain ⟨b, rfl⟩ := canonI_iff_encI.1 hn
    rw [ival_encI] at h0
    simpa using h0
  have hzero : ∀ w : Words, eqv w [0#32] = true → val w = 0 := by
    intro w he
    unfold eqv at he
    by_cases hw : isNan w
    · rw [if_pos hw] at he; simp at he
    · rw [if_neg hw] at he
      have : w = [0#32] := by simpa using he
      rw [this]; rfl
  have key : ∀ w : Words, (ival ⟨w, if eqv w [0#32] then false else n.neg⟩ = a ↔ val w = a.natAbs) := by
    intro w
    unfold ival at ha ⊢
    by_cases he : eqv w [0#32] = true
    · have := hzero w he
      simp only [he, if_true, Bool.false_eq_true, if_false, this]
      split at ha <;> omega
    · simp only [he]
      split at ha <;> rename_i hs <;> simp only [hs] <;> simp <;> omega
  congr 1
  apply congrArg
  funext f
  unfold bRandom
  simp only [hz, Bool.false_eq_true, if_false, Option.map_eq_some_iff, Prod.mk.injEq, eq_iff_iff]
  constructor
  · rintro ⟨r, ⟨⟨w, d⟩, h1, h2, h3⟩, h4⟩
    subst h2
    exact ⟨w, by simp only at h3; rw [← h3]; exact h1, (key w).1 h4⟩
  · rintro ⟨w, h1, h2⟩
    exact ⟨_, ⟨(w, []), h1, rfl, rfl⟩, (key w).2 h2⟩

/-- 5 of the 8 values of three bits are below 5 -/
example : Canon [5#32] ∧ (3 : Nat) < val [5#32] ∧ bitsLen [5#32] = 3 := ⟨by unfold Canon; decide, by decide, by decide⟩

/-- of the sequences of one word, 2^29 give 3 -/
example : Nat.card {f : Fin 1 → W // ∃ r, natRandom [5#32] ((List.ofFn f).map some) = some (r, []) ∧ val r = 3} = 2 ^ 29 := by
  rw [C105_uniform [5#32] (by unfold Canon; decide) 0 1 3 (by decide) (by decide)]
  decide

example : natRandom [5#32] [some 7#32, none, some 0xfffffffb#32] = some ([3#32], []) := by decide

end RMath
