import Verif.Props.NonCanon
import Verif.Model.Machine
import Verif.Lemmas.BigIntExp

/-!
# C124 Machine integers

The types `u8`, `u16` and `i8`, `i16` are covered by the widths: an unsigned one is widened to `u32` (`setWidth`), and
`fromISmall` is stated for every width up to 32.
-/

namespace RMath

/-- `Nat::from` of an unsigned machine integer is that number, in canonical form. -/
theorem C124_from_unsigned (b : BitVec 8) (h : BitVec 16) (w : W) (d : D) (q : BitVec 128) :
    (Canon (fromU32 (b.setWidth 32)) ∧ val (fromU32 (b.setWidth 32)) = b.toNat) ∧
    (Canon (fromU32 (h.setWidth 32)) ∧ val (fromU32 (h.setWidth 32)) = h.toNat) ∧
    (Canon (fromU32 w) ∧ val (fromU32 w) = w.toNat) ∧
    (∃ n, fromU64 d = .ok n ∧ Canon n ∧ val n = d.toNat) ∧ (∃ n, fromU128 q = .ok n ∧ Canon n ∧ val n = q.toNat) := by
  have hb := b.isLt
  have hh := h.isLt
  refine ⟨⟨?_, ?_⟩, ⟨?_, ?_⟩, ⟨?_, ?_⟩, ⟨_, fromU64_eq d, canon_enc _, val_enc _⟩, ⟨_, fromU128_eq q, canon_enc _, val_enc _⟩⟩
  all_goals first
    | (rw [fromU32_eq]; exact canon_enc _)
    | (rw [fromU32_eq, val_enc, BitVec.toNat_setWidth]; omega)
    | rw [fromU32_eq, val_enc]

/-- `BigInt::from` and `Rat::from` of a machine integer, signed or unsigned, are that number, in canonical form. -/
theorem C124_from_integers {k : Nat} (hk : k ≤ 32) (s : BitVec k) (w : W) (d : D) (q : BitVec 128) :
    (CanonI (fromISmall s) ∧ ival (fromISmall s) = s.toInt) ∧ (CanonI (bFromU32 w) ∧ ival (bFromU32 w) = w.toNat) ∧
    (∃ n, fromI64 d = .ok n ∧ CanonI n ∧ ival n = d.toInt) ∧ (∃ n, fromI128 q = .ok n ∧ CanonI n ∧ ival n = q.toInt) ∧
    (∃ n, bFromU64 d = .ok n ∧ CanonI n ∧ ival n = d.toNat) ∧ (∃ n, bFromU128 q = .ok n ∧ CanonI n ∧ ival n = q.toNat) ∧
    (∀ n, CanonI n → RatOk (rFromPrim n) ∧ qval (rFromPrim n) = ival n) := by
  have hn : ∀ n : Nat, (⟨enc n, false⟩ : BInt) = encI n := fun n => by
    rw [encI]; simp
  refine ⟨?_, ?_, ⟨_, fromI64_eq d, canonI_encI _, ival_encI _⟩, ⟨_, fromI128_eq q, canonI_encI _, ival_encI _⟩,
    ⟨_, by rw [bFromU64, fromU64_eq]; exact congrArg _ (hn _), canonI_encI _, ival_encI _⟩,
    ⟨_, by rw [bFromU128, fromU128_eq]; exact congrArg _ (hn _), canonI_encI _, ival_encI _⟩, ?_⟩
  · rw [fromISmall_eq hk]
    exact ⟨canonI_encI _, ival_encI _⟩
  · rw [bFromU32, fromU32_eq, hn]
    exact ⟨canonI_encI _, ival_encI _⟩
  · intro n hn
    have hb : (rFromPrim n).b = bFromU32 1#32 := rfl
    have h1 : ival (bFromU32 1#32) = 1 := by decide
    refine ⟨⟨hn.1, hb ▸ ⟨by decide, by decide⟩, hb ▸ by decide, hb ▸ fun h => absurd h (by decide)⟩, ?_⟩
    rw [qval, hb, h1]
    simp [rFromPrim]

/-- `==` and the order of a number and a machine integer are those of the numbers, if the first is in canonical form.
Missing: numbers with leading zero words, for which the property is false (`C124_padded`). -/
theorem C124_compare_partial (x : Words) (hx : Canon x) (w : W) (d : D) (q : BitVec 128) :
    (eqU32 x w = true ↔ val x = w.toNat) ∧ cmpU32 x w = some (compare (val x) w.toNat) ∧
    (∃ r, eqU64 x d = .ok r ∧ (r = true ↔ val x = d.toNat)) ∧ cmpU64 x d = .ok (some (compare (val x) d.toNat)) ∧
    (∃ r, eqU128 x q = .ok r ∧ (r = true ↔ val x = q.toNat)) ∧ cmpU128 x q = .ok (some (compare (val x) q.toNat)) := by
  obtain ⟨a, rfl⟩ := canon_iff_enc.1 hx
  have he : ∀ b : Nat, ((enc a == enc b) = true ↔ a = b) := fun b => by
    rw [beq_iff_eq]
    exact ⟨fun h => by simpa using congrArg val h, fun h => by rw [h]⟩
  have hn : isNan (enc a) = false := by
    rw [Bool.eq_false_iff]; intro h; exact enc_ne_nil a (isNan_iff.1 h)
  simp only [eqU32, eqU64, eqU128, cmpU32, cmpU64, cmpU128, fromU32_eq, fromU64_eq, fromU128_eq, hn, Bool.false_eq_true,
    if_false, bind, Except.bind, partialCmp_enc, val_enc, he, and_true, true_and]
  exact ⟨⟨_, rfl, he _⟩, ⟨_, rfl, he _⟩⟩

/-- A `BigInt` is `==` to a machine word exactly if it is that number.  Missing: numbers not in canonical form, as above. -/
theorem C124_bigint_eq_partial (x : BInt) (hx : CanonI x) (w : W) : bEqW x w = true ↔ ival x = w.toNat := by
  have h1 := (C41_eq x (bFromU32 w) hx (C124_from_integers (le_refl 32) w w 0 0).2.1.1)
  rw [(C124_from_integers (le_refl 32) w w 0 0).2.1.2] at h1
  rw [← h1, bEqW, bEq, bFromU32, fromU32]
  cases x.neg <;> simp

/-- NaN is neither equal nor comparable to any machine integer. -/
theorem C124_nan (w : W) (d : D) (q : BitVec 128) (s : Bool) :
    eqU32 NaN w = false ∧ eqU64 NaN d = .ok false ∧ eqU128 NaN q = .ok false ∧ cmpU32 NaN w = none ∧
    cmpU64 NaN d = .ok none ∧ cmpU128 NaN q = .ok none ∧ bEqW ⟨NaN, s⟩ w = false := by
  have hn : isNan NaN = true := rfl
  simp [eqU32, eqU64, eqU128, cmpU32, cmpU64, cmpU128, bEqW, eqv, hn, fromU64_eq, fromU128_eq, partialCmp, bind, Except.bind]

/-- A number with leading zero words equals no machine integer, and it is greater than every `u32`. -/
theorem C124_padded (x : Words) (hx : x ≠ NaN) (hc : ¬ Canon x) (w : W) (d : D) (q : BitVec 128) :
    eqU32 x w = false ∧ eqU64 x d = .ok false ∧ eqU128 x q = .ok false ∧ cmpU32 x w = some .gt ∧
    cmpU64 x d = .ok (some (if x.length = 2 ∧ 2 ^ 32 ≤ d.toNat then compare (val x) d.toNat else .gt)) := by
  have hp := (not_canon_iff_padded hx).1 hc
  have hn : isNan x = false := by
    rw [Bool.eq_false_iff]; intro h; exact hx (isNan_iff.1 h)
  have he : ∀ b : Nat, (x == enc b) = false := fun b => by
    rw [beq_eq_false_iff_ne]
    rintro rfl
    exact hc (canon_enc b)
  have hw : (fromU32 w).length = 1 := rfl
  have h1 := (C118_compare x (fromU32 w) hx (by simp [fromU32, NaN])).1
  have h2 := (C118_compare x (enc d.toNat) hx (enc_ne_nil _)).1
  have hl := hp.1
  rw [if_neg (by omega), if_pos (by omega)] at h1
  have hd1 := enc_length_iff d.toNat (l := 1) (by omega)
  have hd2 := enc_length_iff d.toNat (l := 2) (by omega)
  have hd := d.isLt
  simp only [eqU32, eqU64, eqU128, cmpU32, cmpU64, fromU64_eq, fromU128_eq, hn, Bool.false_eq_true,
    if_false, bind, Except.bind, he, true_and, h2, fromU32_eq]
  rw [fromU32_eq] at h1
  refine ⟨h1, ?_⟩
  congr 2
  rw [val_enc]
  have hlen : (enc d.toNat).length ≤ 2 := by omega
  by_cases hc2 : x.length = 2 ∧ 2 ^ 32 ≤ d.toNat
  · rw [if_pos hc2, if_neg (by omega), if_neg (by omega)]
  · rw [if_neg hc2, if_neg (by omega), if_pos (by omega)]

/-- Such numbers are made by the operators themselves: `Nat::from(3u32) * 1u32` is not `== 3u32`, but greater. -/
theorem C124_violated : val (natMulW [3#32] 1#32) = 3 ∧ eqU32 (natMulW [3#32] 1#32) 3#32 = false ∧
    cmpU32 (natMulW [3#32] 1#32) 3#32 = some .gt ∧ cmpU32 (natMulW [3#32] 1#32) 0xffffffff#32 = some .gt := by decide

example : fromISmall (-128#8) = ⟨[128#32], true⟩ ∧ fromI64 (-1#64) = .ok ⟨[1#32], true⟩ ∧
    fromU64 0x100000000#64 = .ok [0#32, 1#32] ∧ fromI64 (BitVec.intMin 64) = .ok ⟨[0#32, 0x80000000#32], true⟩ := by decide
example : cmpU64 [0#32, 1#32] 0xffffffff#64 = .ok (some .gt) ∧ eqU128 [7#32] 7#128 = .ok true ∧ bEqW ⟨[7#32], true⟩ 7#32 = false := by
  decide
example : CanonI sampleX ∧ Canon sampleA := ⟨sampleX_canon, sampleA_canon⟩
example : natMulW [3#32] 1#32 ≠ NaN ∧ ¬ Canon (natMulW [3#32] 1#32) := by
  refine ⟨by decide, ?_⟩
  rintro ⟨h, h'⟩
  rcases h' with h' | h'
  · exact absurd h' (by decide)
  · exact h' (by rfl)

end RMath
