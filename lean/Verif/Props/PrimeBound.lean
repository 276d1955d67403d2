import Verif.Lemmas.Rabin
import Verif.Lemmas.PrimeTest
import Verif.Props.RandomUniform

/-!
# C106: how often the primality test accepts a composite number

The documentation of `probably_prime_test(n)` promises that the probability of an error of its Miller-Rabin part is at
most `2^-n`.  Probability is the share of the sequences of words the source can deliver.
-/

namespace RMath

theorem randomLoop_fuel (self : Words) {num : Nat} (hnum : 0 < num) (mask : W) : ∀ (f g : Nat) (ds : List (Option W)),
    ds.length < f → ds.length < g → randomLoop self num mask f ds = randomLoop self num mask g ds := by
  intro f
  induction f with
  | zero => intro g ds h; omega
  | succ f ih =>
    intro g ds hf hg
    obtain ⟨g, rfl⟩ : ∃ m, g = m + 1 := ⟨g - 1, by omega⟩
    rw [randomLoop, randomLoop]
    rcases h : drawWords num ds with _ | ⟨v, rest⟩
    · rfl
    · have hl := drawWords_length h
      simp only
      rw [ih g rest (by omega) (by omega)]

theorem drawMany_length {x : Words} : ∀ {k : Nat} {ds as rest}, drawMany x k ds = some (as, rest) → as.length = k := by
  intro k
  induction k with
  | zero => intro ds as rest h; simp [drawMany] at h; simp [h.1]
  | succ k ih =>
    intro ds as rest h
    rw [drawMany] at h
    split at h
    · simp at h
    · rw [Option.map_eq_some_iff] at h
      obtain ⟨⟨as', r'⟩, h1, h2⟩ := h
      simp only [Prod.mk.injEq] at h2
      obtain ⟨rfl, rfl⟩ := h2
      simp [ih h1]

/-- a group of words outside the range does not count as a draw -/
theorem drawMany_group {n : Nat} (hn : n ≠ 0) {N : Nat} (g : Fin (enc n).length → W) (h : Fin N → W) (s : Nat) :
    drawMany (enc n) (s + 1) (drawn (Fin.append g h)) =
      if val (List.ofFn g) % 2 ^ bitLen n < n then
        (drawMany (enc n) s (drawn h)).map fun r => (maskLast (List.ofFn g) (randomMask (enc n)) :: r.1, r.2)
      else drawMany (enc n) (s + 1) (drawn h) := by
  have hpos := List.length_pos_iff.2 (enc_ne_nil n)
  rw [drawMany, drawMany, natRandom_enc hn, natRandom_enc hn, drawn_append, randomLoop_group]
  by_cases hc : val (List.ofFn g) % 2 ^ bitLen n < n
  · simp only [hc, if_true]
  · simp only [hc, if_false]
    rw [randomLoop_fuel (enc n) hpos _ _ ((drawn h).length + 1) (drawn h) (by simp [drawn]; omega) (by omega)]

/-- too few words for a draw -/
theorem drawMany_short {n : Nat} (hn : n ≠ 0) {s N : Nat} (hN : N < (enc n).length) (f : Fin N → W) :
    drawMany (enc n) (s + 1) (drawn f) = none := by
  rw [drawMany, natRandom_enc hn, randomLoop]
  rcases h : drawWords (enc n).length (drawn f) with _ | ⟨v, rest⟩
  · rfl
  · have := (drawWords_length h).1
    simp [drawn] at this
    omega

instance finite_words (N : Nat) : Finite (Fin N → W) := Finite.of_equiv _ (groupEquiv N).symm

theorem card_all (N : Nat) : Nat.card (Fin N → W) = 2 ^ (32 * N) := by
  rw [Nat.card_congr (groupEquiv N), Nat.card_fin]

theorem card_le_of_cover {α : Type} [Finite α] (P Q R : α → Prop) (h : ∀ a, P a → Q a ∨ R a) :
    Nat.card {a // P a} ≤ Nat.card {a // Q a} + Nat.card {a // R a} := by
  have h1 : {a | P a} ⊆ {a | Q a} ∪ {a | R a} := fun a ha => h a ha
  calc Nat.card {a // P a} = Set.ncard {a | P a} := Nat.card_coe_set_eq _
    _ ≤ Set.ncard ({a | Q a} ∪ {a | R a}) := Set.ncard_le_ncard h1
    _ ≤ Set.ncard {a | Q a} + Set.ncard {a | R a} := Set.ncard_union_le _ _
    _ = _ := by rw [← Nat.card_coe_set_eq, ← Nat.card_coe_set_eq]; rfl

/-- Draws from a set of at most one in `c` of the numbers below `n`: at most one in `c^s` of the sequences makes `s` successive
calls all return numbers of the set. -/
theorem card_drawMany {n : Nat} (hn : n ≠ 0) (c : Nat) (S : Nat → Prop) (hS : c * Nat.card {a : Fin n // S a.1} ≤ n) :
    ∀ (N s : Nat), Nat.card {f : Fin N → W // ∃ as rest, drawMany (enc n) s (drawn f) = some (as, rest) ∧
      ∀ a ∈ as, S (val a)} * c ^ s ≤ 2 ^ (32 * N) := by
  have hbl := canon_bitLen (canon_enc n)
  rw [val_enc] at hbl
  have hlt : n < 2 ^ bitLen n := by rw [bitLen, if_neg hn]; exact Nat.lt_log2_self
  have hpos := List.length_pos_iff.2 (enc_ne_nil n)
  intro N
  induction N using Nat.strong_induction_on with
  | _ N ih =>
  intro s
  cases s with
  | zero =>
    rw [pow_zero, mul_one, ← card_all]
    exact Nat.card_le_card_of_injective (fun f => f.1) Subtype.val_injective
  | succ s =>
  by_cases hN : N < (enc n).length
  · have : IsEmpty {f : Fin N → W // ∃ as rest, drawMany (enc n) (s + 1) (drawn f) = some (as, rest) ∧
        ∀ a ∈ as, S (val a)} := by
      constructor
      rintro ⟨f, as, rest, h, -⟩
      rw [drawMany_short hn hN] at h
      simp at h
    rw [Nat.card_of_isEmpty]; simp
  obtain ⟨M, rfl⟩ : ∃ M, N = (enc n).length + M := ⟨N - (enc n).length, by omega⟩
  set L := (enc n).length with hL
  set b := bitLen n with hb
  have hval : ∀ g : Fin L → W, val (maskLast (List.ofFn g) (randomMask (enc n))) = val (List.ofFn g) % 2 ^ b := by
    intro g
    exact (maskLast_val (List.length_ofFn)).1
  -- the sequences whose first group is a draw, and those whose first group is not
  have hA : Nat.card {g : Fin L → W // val (List.ofFn g) % 2 ^ b < n ∧ S (val (List.ofFn g) % 2 ^ b)} * c ≤
      n * 2 ^ (32 * L - b) := by
    rw [card_group (by omega) (fun y => y < n ∧ S y)]
    have e : {y : Fin (2 ^ b) // y.1 < n ∧ S y.1} ≃ {a : Fin n // S a.1} :=
      { toFun := fun y => ⟨⟨y.1.1, y.2.1⟩, y.2.2⟩
        invFun := fun a => ⟨⟨a.1.1, by have := a.1.2; omega⟩, a.1.2, a.2⟩
        left_inv := fun y => rfl
        right_inv := fun a => rfl }
    rw [Nat.card_congr e]
    calc _ = (c * Nat.card {a : Fin n // S a.1}) * 2 ^ (32 * L - b) := by ring
      _ ≤ _ := Nat.mul_le_mul_right _ hS
  have hB : Nat.card {g : Fin L → W // ¬ val (List.ofFn g) % 2 ^ b < n} = (2 ^ b - n) * 2 ^ (32 * L - b) := by
    rw [card_group (by omega) (fun y => ¬ y < n), card_ge (by omega)]
  have hcover := card_le_of_cover
    (fun f : Fin (L + M) → W => ∃ as rest, drawMany (enc n) (s + 1) (drawn f) = some (as, rest) ∧ ∀ a ∈ as, S (val a))
    (fun f => (val (List.ofFn fun i => f (Fin.castAdd M i)) % 2 ^ b < n ∧
        S (val (List.ofFn fun i => f (Fin.castAdd M i)) % 2 ^ b)) ∧
      ∃ as rest, drawMany (enc n) s (drawn fun i => f (Fin.natAdd L i)) = some (as, rest) ∧ ∀ a ∈ as, S (val a))
    (fun f => ¬ val (List.ofFn fun i => f (Fin.castAdd M i)) % 2 ^ b < n ∧
      ∃ as rest, drawMany (enc n) (s + 1) (drawn fun i => f (Fin.natAdd L i)) = some (as, rest) ∧ ∀ a ∈ as, S (val a))
    (by
      rintro f ⟨as, rest, h, hall⟩
      have hf : f = Fin.append (fun i => f (Fin.castAdd M i)) (fun i => f (Fin.natAdd L i)) :=
        (Fin.append_castAdd_natAdd).symm
      rw [hf, drawMany_group hn] at h
      by_cases hc : val (List.ofFn fun i => f (Fin.castAdd M i)) % 2 ^ b < n
      · left
        rw [if_pos hc, Option.map_eq_some_iff] at h
        obtain ⟨⟨as', r'⟩, h1, h2⟩ := h
        simp only [Prod.mk.injEq] at h2
        obtain ⟨rfl, rfl⟩ := h2
        refine ⟨⟨hc, ?_⟩, as', _, h1, fun a ha => hall a (by simp [ha])⟩
        rw [← hval]
        exact hall _ (by simp)
      · right
        rw [if_neg hc] at h
        exact ⟨hc, as, rest, h, hall⟩)
  have e1 := card_append (L := L) (N := M)
    (fun f => (val (List.ofFn fun i => f (Fin.castAdd M i)) % 2 ^ b < n ∧
        S (val (List.ofFn fun i => f (Fin.castAdd M i)) % 2 ^ b)) ∧
      ∃ as rest, drawMany (enc n) s (drawn fun i => f (Fin.natAdd L i)) = some (as, rest) ∧ ∀ a ∈ as, S (val a))
    (fun g => val (List.ofFn g) % 2 ^ b < n ∧ S (val (List.ofFn g) % 2 ^ b))
    (fun h => ∃ as rest, drawMany (enc n) s (drawn h) = some (as, rest) ∧ ∀ a ∈ as, S (val a))
    (fun g h => by simp only [Fin.append_left, Fin.append_right])
  have e2 := card_append (L := L) (N := M)
    (fun f => ¬ val (List.ofFn fun i => f (Fin.castAdd M i)) % 2 ^ b < n ∧
      ∃ as rest, drawMany (enc n) (s + 1) (drawn fun i => f (Fin.natAdd L i)) = some (as, rest) ∧ ∀ a ∈ as, S (val a))
    (fun g => ¬ val (List.ofFn g) % 2 ^ b < n)
    (fun h => ∃ as rest, drawMany (enc n) (s + 1) (drawn h) = some (as, rest) ∧ ∀ a ∈ as, S (val a))
    (fun g h => by simp only [Fin.append_left, Fin.append_right])
  rw [e1, e2, hB] at hcover
  have i1 := ih M (by omega) s
  have i2 := ih M (by omega) (s + 1)
  revert hcover hA i1 i2
  generalize Nat.card {g : Fin L → W // val (List.ofFn g) % 2 ^ b < n ∧ S (val (List.ofFn g) % 2 ^ b)} = cA
  generalize Nat.card {h : Fin M → W // ∃ as rest, drawMany (enc n) s (drawn h) = some (as, rest) ∧
    ∀ a ∈ as, S (val a)} = c1
  generalize Nat.card {h : Fin M → W // ∃ as rest, drawMany (enc n) (s + 1) (drawn h) = some (as, rest) ∧
    ∀ a ∈ as, S (val a)} = c2
  intro hA hcover i1 i2
  calc _ ≤ (cA * c1 + (2 ^ b - n) * 2 ^ (32 * L - b) * c2) * c ^ (s + 1) := Nat.mul_le_mul_right _ hcover
    _ = (cA * c) * (c1 * c ^ s) + (2 ^ b - n) * 2 ^ (32 * L - b) * (c2 * c ^ (s + 1)) := by ring
    _ ≤ (n * 2 ^ (32 * L - b)) * 2 ^ (32 * M) + (2 ^ b - n) * 2 ^ (32 * L - b) * 2 ^ (32 * M) :=
        Nat.add_le_add (Nat.mul_le_mul hA i1) (Nat.mul_le_mul_left _ i2)
    _ = (n + (2 ^ b - n)) * 2 ^ (32 * L - b) * 2 ^ (32 * M) := by ring
    _ = 2 ^ (32 * (L + M)) := by
        rw [Nat.add_sub_cancel' hlt.le, ← pow_add, ← pow_add]
        congr 1
        omega

/-- an accepted number below 128 is prime; an accepted odd number above has passed all the rounds -/
theorem ppt_accepted {n : Nat} (hc : ¬ n.Prime) (h1 : OddPartFits (n - 1)) {checks : Bool} {k : Nat}
    {ds rest : List (Option W)} (h : probablyPrimeTest checks (enc n) k ds = .ok (some (true, rest))) :
    n % 2 = 1 ∧ 128 ≤ n ∧
    ∃ as, drawMany (enc n) (k + 1) ds = some (as, rest) ∧ ∀ a ∈ as, StrongProbablePrime n (val a) := by
  by_cases hlt : n < 128
  · rw [ppt_small checks hlt] at h
    simp [hc] at h
  have hge : 128 ≤ n := by omega
  rw [ppt_big checks hge] at h
  split at h
  · simp at h
  next hs =>
  have hodd : n % 2 = 1 := by
    by_contra hne
    exact hs (Or.inl (by omega))
  obtain ⟨r, hr, hiff, -⟩ := millerRabin_spec (by omega) hodd h1 checks (k + 1) ds
  rw [hr] at h
  simp only [bind, Except.bind] at h
  refine ⟨hodd, hge, ?_⟩
  rcases r with _ | ⟨_ | _, ds'⟩
  · simp at h
  · simp at h
  · simp only at h
    rcases hl : primeLucas (enc n) with e | l
    · rw [hl] at h; simp at h
    · rw [hl] at h
      simp only [Except.ok.injEq, Option.some.injEq, Prod.mk.injEq] at h
      obtain ⟨-, rfl⟩ := h
      exact (hiff ds').1 rfl

/-- **C106**: a number that is not prime is accepted only if each of the `k + 1` numbers drawn is one of a set `S` that
depends on the number alone and contains at most a quarter of the numbers below it.  Missing from the full property: the
numbers for which the defect of the right shift (C06) spoils the odd part of `n - 1`. -/
theorem C106_bases_partial (x : Words) (hx : Canon x) (hc : ¬ (val x).Prime) (h1 : OddPartFits (val x - 1)) :
    ∃ S : Nat → Prop, 4 * Nat.card {a : Fin (val x) // S a.1} ≤ val x ∧ ∀ checks k ds rest,
      probablyPrimeTest checks x k ds = .ok (some (true, rest)) →
      ∃ bases, drawMany x (k + 1) ds = some (bases, rest) ∧ bases.length = k + 1 ∧
        ∀ a ∈ bases, val a < val x ∧ S (val a) := by
  obtain ⟨n, rfl⟩ := canon_iff_enc.1 hx
  rw [val_enc] at *
  by_cases hbad : n % 2 = 1 ∧ 128 ≤ n
  · refine ⟨StrongProbablePrime n, liars_quarter hbad.1 (by omega) hc, fun checks k ds rest h => ?_⟩
    obtain ⟨-, -, as, hd, hall⟩ := ppt_accepted hc h1 h
    exact ⟨as, hd, drawMany_length hd, fun a ha => ⟨drawMany_lt (by omega) _ hd a ha, hall a ha⟩⟩
  · refine ⟨fun _ => False, by simp, fun checks k ds rest h => ?_⟩
    obtain ⟨h2, h3, -⟩ := ppt_accepted hc h1 h
    exact absurd ⟨h2, h3⟩ hbad

/-- **C106**: of all the sequences of `N` words, at most one in `4^(k+1)` makes the test with `k` additional rounds accept a
number that is not prime; the documentation promises `2^k`. -/
theorem C106_bound_partial (checks : Bool) (x : Words) (hx : Canon x) (hc : ¬ (val x).Prime) (h1 : OddPartFits (val x - 1))
    (k N : Nat) :
    Nat.card {f : Fin N → W //
      ∃ rest, probablyPrimeTest checks x k ((List.ofFn f).map some) = .ok (some (true, rest))} * 4 ^ (k + 1) ≤ 2 ^ (32 * N) := by
  obtain ⟨n, rfl⟩ := canon_iff_enc.1 hx
  rw [val_enc] at *
  by_cases hbad : n % 2 = 1 ∧ 128 ≤ n
  · refine le_trans (Nat.mul_le_mul_right _ ?_)
      (card_drawMany (by omega) 4 (StrongProbablePrime n) (liars_quarter hbad.1 (by omega) hc) N (k + 1))
    refine Nat.card_le_card_of_injective (fun f => ⟨f.1, ?_⟩) ?_
    · obtain ⟨rest, h⟩ := f.2
      obtain ⟨-, -, as, hd, hall⟩ := ppt_accepted hc h1 h
      exact ⟨as, rest, hd, hall⟩
    · intro f g e
      exact Subtype.ext (by simpa using e)
  · have : IsEmpty {f : Fin N → W //
        ∃ rest, probablyPrimeTest checks (enc n) k ((List.ofFn f).map some) = .ok (some (true, rest))} := by
      constructor
      rintro ⟨f, rest, h⟩
      obtain ⟨h2, h3, -⟩ := ppt_accepted hc h1 h
      exact hbad ⟨h2, h3⟩
    rw [Nat.card_of_isEmpty]; simp

/-- the hypotheses hold of `3481 = 59²`, which has no small factor -/
example : Canon [3481#32] ∧ ¬ (val [3481#32]).Prime ∧ OddPartFits (val [3481#32] - 1) :=
  ⟨by unfold Canon; decide, by norm_num [val], oddPartFits_of_not_dvd (by decide)⟩

/-! ## Where the bound fails -/

section
variable {n j q : Nat} (hq : q % 2 = 1) (hq32 : q < 2 ^ 32) (hn : n = 2 ^ (32 * (j + 1)) * q + 1)
include hq hq32 hn

/-- the shift that should remove the factors of two leaves nothing -/
theorem natShr_blind : natShr (enc (n - 1)) (32 * (j + 1)) = [0#32] := by
  have hlen : (enc (n - 1)).length = j + 2 := by
    have h1 := canon_bitLen (canon_enc (n - 1))
    rw [val_enc] at h1
    have hq0 : q ≠ 0 := by rintro rfl; simp at hq
    have hn1 : n - 1 = 2 ^ (32 * (j + 1)) * q := by omega
    have hlow : 2 ^ (32 * (j + 1)) ≤ n - 1 := by rw [hn1]; exact Nat.le_mul_of_pos_right _ (by omega)
    have hup : n - 1 < 2 ^ (32 * (j + 2)) := by
      rw [hn1, show 32 * (j + 2) = 32 * (j + 1) + 32 by ring, Nat.pow_add]
      exact Nat.mul_lt_mul_of_pos_left hq32 (by positivity)
    have hle : (enc (n - 1)).length ≤ j + 2 := enc_length_le (by omega) hup
    by_contra hne
    have h3 := val_lt (enc (n - 1))
    rw [val_enc] at h3
    have : 2 ^ (32 * (enc (n - 1)).length) ≤ 2 ^ (32 * (j + 1)) := Nat.pow_le_pow_right (by norm_num) (by omega)
    omega
  have ht : shrInner (enc (n - 1)) (32 * (j + 1)) = (enc (n - 1)).take 1 := by
    rw [shrInner_words (by omega), hlen]; congr 1; omega
  simp only [natShr, opPrim, isNan_enc, Bool.false_eq_true, if_false, deepClone_enc]
  rw [ht]
  obtain ⟨w, ws, hw⟩ := List.exists_cons_of_ne_nil (enc_ne_nil (n - 1))
  have hv := val_enc (n - 1)
  rw [hw] at hv ⊢
  simp only [val_cons] at hv
  have : w.toNat = 0 := by
    have hd : 2 ^ 32 ∣ n - 1 := by
      refine ⟨2 ^ (32 * j) * q, ?_⟩
      rw [hn, Nat.add_sub_cancel, ← mul_assoc, ← Nat.pow_add]; congr 2; omega
    have := w.isLt
    omega
  have : w = 0#32 := BitVec.eq_of_toNat_eq (by simpa using this)
  simp [this]

theorem millerRabin_blind (checks : Bool) (s : Nat) (ds : List (Option W)) :
    millerRabin checks (enc n) s ds = .ok ((drawMany (enc n) s ds).map fun r => (true, r.2)) := by
  have hq0 : q ≠ 0 := by rintro rfl; simp at hq
  have hpow : 2 ^ 32 ≤ 2 ^ (32 * (j + 1)) := Nat.pow_le_pow_right (by norm_num) (by omega)
  have hbig : 2 ^ 32 < n := by
    have := Nat.le_mul_of_pos_right (2 ^ (32 * (j + 1))) (by omega : 0 < q)
    omega
  have hodd : n % 2 = 1 := by
    rw [hn, show 32 * (j + 1) = 1 + (32 * j + 31) by ring, Nat.pow_add, mul_assoc]; omega
  have hn1 : n - 1 = 2 ^ (32 * (j + 1)) * q := by omega
  unfold millerRabin
  simp only [natSubW_odd hodd]
  have ht2 : traillingZeros (enc (n - 1)) = 32 * (j + 1) := by rw [hn1]; exact traillingZeros_eq hq
  rw [ht2, natShr_blind hq hq32 hn]
  induction s generalizing ds with
  | zero => rfl
  | succ s ih =>
    rw [mrRounds, drawMany, natRandom_enc (by omega)]
    rcases hd : randomLoop (enc n) (enc n).length (randomMask (enc n)) (ds.length + 1) ds with _ | ⟨a, ds'⟩
    · rfl
    obtain ⟨hl, -, -⟩ := randomLoop_some _ hd
    have ha : a ≠ [] := by
      rw [← List.length_pos_iff, hl, List.length_pos_iff]; exact enc_ne_nil n
    have he : natExp checks a [0#32] (enc n) = .ok [1#32] := by
      have hlen : ¬ ((enc n).length = 1 ∧ (enc n).headD 0#32 = 1#32) := by
        rintro ⟨h1, -⟩
        have := val_lt (enc n)
        rw [val_enc, h1] at this
        omega
      unfold natExp
      rw [if_neg (by simp [isNan, ha, enc_ne_nil]), if_neg hlen, if_pos (by simp)]
    obtain ⟨w, hw, hiff⟩ := mrWitness_spec (n := n) (by omega) (32 * (j + 1)) 1 (by omega)
    have hw0 : w = false := hiff.2 (Or.inl rfl)
    have e1 : enc 1 = [1#32] := by rw [enc_lt (by norm_num)]
    rw [e1, hw0] at hw
    simp only [he, hw, bind, Except.bind]
    rw [if_neg (by simp), ih]
    rcases drawMany (enc n) s ds' with _ | ⟨as, r⟩ <;> rfl

end

/-- **C106** is false of the Miller-Rabin part: if `n - 1` is an odd number below `2^32` times a power of `2^32`, the exponent
is shifted to 0 (C06), and the part accepts `n` whatever is drawn. -/
theorem C106_accepts_all (checks : Bool) (x : Words) (hx : Canon x) (j q : Nat) (hq : q % 2 = 1) (hq32 : q < 2 ^ 32)
    (hv : val x = 2 ^ (32 * (j + 1)) * q + 1) (s : Nat) (ds : List (Option W)) (bases : List Words)
    (rest : List (Option W)) (hd : drawMany x s ds = some (bases, rest)) :
    millerRabin checks x s ds = .ok (some (true, rest)) := by
  obtain ⟨n, rfl⟩ := canon_iff_enc.1 hx
  rw [val_enc] at hv
  rw [millerRabin_blind hq hq32 hv, hd]
  rfl

/-- `2^32 + 1 = 641 · 6700417` is such a number. -/
theorem C106_violated : ∃ x, Canon x ∧ ¬ (val x).Prime ∧ val x % 2 = 1 ∧ ∀ checks s ds bases rest,
    drawMany x s ds = some (bases, rest) → millerRabin checks x s ds = .ok (some (true, rest)) := by
  refine ⟨[1#32, 1#32], by unfold Canon; decide, ?_, by decide, fun checks s ds bases rest hd => ?_⟩
  · rw [show val [1#32, 1#32] = 641 * 6700417 by decide]
    exact Nat.not_prime_mul (by decide) (by decide)
  · exact C106_accepts_all checks _ (by unfold Canon; decide) 0 1 (by decide) (by decide) (by decide) s ds bases rest hd

/-- The answer of the whole test for such numbers is the same for all draws and all numbers of rounds. -/
theorem C106_rounds_useless (checks checks' : Bool) (x : Words) (hx : Canon x) (j q : Nat) (hq : q % 2 = 1)
    (hq32 : q < 2 ^ 32) (hv : val x = 2 ^ (32 * (j + 1)) * q + 1) (k k' : Nat) (ds ds' rest rest' : List (Option W))
    (b b' : Bool) (h : probablyPrimeTest checks x k ds = .ok (some (b, rest)))
    (h' : probablyPrimeTest checks' x k' ds' = .ok (some (b', rest'))) : b = b' := by
  obtain ⟨n, rfl⟩ := canon_iff_enc.1 hx
  rw [val_enc] at hv
  have hge : 128 ≤ n := by
    have hq0 : q ≠ 0 := by rintro rfl; simp at hq
    have hpow : 2 ^ 32 ≤ 2 ^ (32 * (j + 1)) := Nat.pow_le_pow_right (by norm_num) (by omega)
    have := Nat.le_mul_of_pos_right (2 ^ (32 * (j + 1))) (by omega : 0 < q)
    omega
  have key : ∀ c k ds b rest, probablyPrimeTest c (enc n) k ds = .ok (some (b, rest)) →
      (if n % 2 = 0 ∨ ∃ q ∈ smallPrimes, q ∣ n then .ok false else primeLucas (enc n)) = .ok b := by
    intro c k ds b rest h
    rw [ppt_big c hge, millerRabin_blind hq hq32 hv] at h
    split
    next hs =>
      rw [if_pos hs] at h
      simp only [Except.ok.injEq, Option.some.injEq, Prod.mk.injEq] at h
      rw [h.1]
    next hs =>
      rw [if_neg hs] at h
      simp only [bind, Except.bind] at h
      rcases hd : drawMany (enc n) (k + 1) ds with _ | ⟨as, r⟩
      · rw [hd] at h; simp at h
      · rw [hd] at h
        simp only [Option.map_some] at h
        rcases hl : primeLucas (enc n) with e | l
        · rw [hl] at h; simp at h
        · rw [hl] at h
          simp only [Except.ok.injEq, Option.some.injEq, Prod.mk.injEq] at h
          rw [h.1]
  have := (key _ _ _ _ _ h).symm.trans (key _ _ _ _ _ h')
  simpa using this

example : Canon [1#32, 0#32, 3#32] ∧ val [1#32, 0#32, 3#32] = 2 ^ (32 * (1 + 1)) * 3 + 1 ∧
    ∃ a, drawMany [1#32, 0#32, 3#32] 1 [some 2#32, none, some 0#32, some 0#32, some 7#32] = some ([a], [some 7#32]) :=
  ⟨by unfold Canon; decide, by decide, _, rfl⟩

end RMath
