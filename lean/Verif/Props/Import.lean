import Verif.Model.Import
import Verif.Props.NatFun
import Verif.Props.BigInt

/-!
# Property C95: `BigInt` as bytes, both types as words; and `sub_assign_with_sign` (C02)
-/

namespace RMath

/-- the words of a vector as a number, least significant first -/
def wordsNumber : Words → Nat
  | [] => 0
  | w :: ws => w.toNat + 2 ^ 32 * wordsNumber ws

theorem wordsNumber_eq (ws : Words) : wordsNumber ws = val ws := by
  induction ws with
  | nil => rfl
  | cons w ws ih => rw [wordsNumber, ih, val]

/-- A vector of words that is not empty is imported as the number it denotes, whatever zeros it has at the top; the empty vector
is NaN. -/
theorem C95_from_words (ws : Words) (h : ws ≠ []) :
    Canon (fromWords ws) ∧ val (fromWords ws) = wordsNumber ws ∧
    CanonI (bFromWords ws) ∧ ival (bFromWords ws) = wordsNumber ws := by
  obtain ⟨n, hn⟩ := canon_iff_enc.1 (canon_trim h)
  have e : fromWords ws = enc (wordsNumber ws) := by
    rw [fromWords, trim_eq_enc h, wordsNumber_eq]
  have e2 : bFromWords ws = encI (wordsNumber ws : Nat) := by
    rw [bFromWords, e, encI_ofNat]
  rw [e, e2]
  exact ⟨canon_enc _, val_enc _, canonI_encI _, ival_encI _⟩

theorem C95_from_words_empty : fromWords [] = NaN ∧ bIsNan (bFromWords []) = true := ⟨rfl, rfl⟩

/-- Two vectors that differ only in zeros at the top are the same number. -/
theorem C95_leading_zero_words (ws : Words) (k : Nat) (h : ws ≠ []) :
    fromWords (ws ++ List.replicate k 0#32) = fromWords ws := by
  have hv : wordsNumber (ws ++ List.replicate k 0#32) = wordsNumber ws := by
    induction ws with
    | nil => exact absurd rfl h
    | cons w ws ih =>
      rcases ws with _ | ⟨v, vs⟩
      · have : ∀ k, wordsNumber (List.replicate k 0#32) = 0 := by
          intro k
          induction k with
          | zero => rfl
          | succ k ih => rw [List.replicate_succ, wordsNumber, ih]; rfl
        simp [wordsNumber, this]
      · rw [List.cons_append, wordsNumber, ih (by simp)]; rfl
  rw [fromWords, fromWords, trim_eq_enc h, trim_eq_enc (by simp [h]), ← wordsNumber_eq, ← wordsNumber_eq, hv]

/-- Import of bytes: the result is not negative and denotes the positional value. -/
theorem C95_from_bytes (bs : List Byte) (h : bs ≠ []) :
    CanonI (bFromLeBytes bs) ∧ ival (bFromLeBytes bs) = bytesVal bs ∧
    CanonI (bFromBeBytes bs) ∧ ival (bFromBeBytes bs) = bytesVal bs.reverse ∧
    bFromBytes bs = .ok (bFromLeBytes bs) := by
  obtain ⟨h1, h2, h3, h4, h5⟩ := C23_from_bytes bs h
  obtain ⟨a, ha⟩ := canon_iff_enc.1 h1
  obtain ⟨b, hb⟩ := canon_iff_enc.1 h3
  rw [ha, val_enc] at h2
  rw [hb, val_enc] at h4
  have e1 : bFromLeBytes bs = encI (bytesVal bs : Nat) := by rw [bFromLeBytes, ha, encI_ofNat, h2]
  have e2 : bFromBeBytes bs = encI (bytesVal bs.reverse : Nat) := by rw [bFromBeBytes, hb, encI_ofNat, h4]
  refine ⟨?_, ?_, ?_, ?_, ?_⟩
  · rw [e1]; exact canonI_encI _
  · rw [e1]; exact ival_encI _
  · rw [e2]; exact canonI_encI _
  · rw [e2]; exact ival_encI _
  · rw [bFromBytes, h5]; rfl

/-- Export of an integer: the shortest string of bytes that denotes its absolute value, in both orders. -/
theorem C95_to_bytes (x : BInt) (hx : CanonI x) :
    bytesVal (bToLeBytes x) = (ival x).natAbs ∧ bToBeBytes x = (bToLeBytes x).reverse ∧ 0 < (bToLeBytes x).length ∧
    (1 < (bToLeBytes x).length → 256 ^ ((bToLeBytes x).length - 1) ≤ (ival x).natAbs) := by
  obtain ⟨a, rfl⟩ := canonI_iff_encI.1 hx
  obtain ⟨h1, h2, -, h4⟩ := C24_to_bytes_minimal (enc a.natAbs) (canon_enc _)
  rw [ival_encI]
  rw [val_enc] at h1 h4
  exact ⟨h1, C22_bytes_reverse _, h2, h4⟩

/-- The way there and back gives the absolute value: the sign is lost. -/
theorem C95_bytes_round_trip (x : BInt) (hx : CanonI x) :
    (CanonI (bFromLeBytes (bToLeBytes x)) ∧ ival (bFromLeBytes (bToLeBytes x)) = |ival x|) ∧
    (CanonI (bFromBeBytes (bToBeBytes x)) ∧ ival (bFromBeBytes (bToBeBytes x)) = |ival x|) := by
  obtain ⟨a, rfl⟩ := canonI_iff_encI.1 hx
  obtain ⟨h1, h2⟩ := C22_bytes_round_trip (enc a.natAbs) (.inl (canon_enc _))
  have e1 : bFromLeBytes (bToLeBytes (encI a)) = encI (a.natAbs : Nat) := by
    rw [encI_ofNat]; exact congrArg (fun w => (⟨w, false⟩ : BInt)) h1
  have e2 : bFromBeBytes (bToBeBytes (encI a)) = encI (a.natAbs : Nat) := by
    rw [encI_ofNat]; exact congrArg (fun w => (⟨w, false⟩ : BInt)) h2
  rw [e1, e2, ival_encI, ival_encI, Int.abs_eq_natAbs]
  exact ⟨⟨canonI_encI _, rfl⟩, ⟨canonI_encI _, rfl⟩⟩

example : ([7#32, 1#32, 0#32] : Words) ≠ [] ∧ fromWords [7#32, 1#32, 0#32] = [7#32, 1#32] := by decide
example : CanonI ⟨[0x1234#32], true⟩ ∧ bToLeBytes ⟨[0x1234#32], true⟩ = [0x34#8, 0x12#8] ∧
    bFromBeBytes [0#8, 0x12#8, 0x34#8] = ⟨[0x1234#32], false⟩ :=
  ⟨⟨⟨by simp, by simp⟩, by simp [val]⟩, by decide, by decide⟩

/-! ## C02 again -/

/-- `a.sub_assign_with_sign(b)`: `a` becomes the absolute difference, and the flag says whether `a ≥ b`. -/
theorem C02_sub_assign_with_sign (a b : Words) (ha : Canon a) (hb : Canon b) :
    Canon (subAssignWithSign a b).1 ∧ (val (subAssignWithSign a b).1 : Int) = |(val a : Int) - val b| ∧
    ((subAssignWithSign a b).2 = true ↔ val b ≤ val a) := by
  have h := C02_sub_with_sign a b ha hb
  have e : subWithSign a b = subAssignWithSign a b := by
    obtain ⟨a, rfl⟩ := canon_iff_enc.1 ha
    obtain ⟨b, rfl⟩ := canon_iff_enc.1 hb
    simp [subWithSign, subAssignWithSign, isNan, enc_ne_nil]
  rwa [← e]

example : Canon [3#32] ∧ Canon [0#32, 1#32] ∧ subAssignWithSign [3#32] [0#32, 1#32] = ([0xfffffffd#32], false) :=
  ⟨⟨by simp, by simp⟩, ⟨by simp, by simp⟩, by decide⟩

end RMath
