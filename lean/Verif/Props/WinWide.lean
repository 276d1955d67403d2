import Verif.Model.WinWide
import Mathlib.Tactic.NormNum
import Mathlib.Data.List.Basic

/-!
# C141: what the Windows generator hands to the system

The strings end with a zero inside the memory that belongs to them, so the system reads the name that is meant whatever lies behind; and the whole buffer
is filled with random bytes.
-/

namespace RMath

/-! ## Statement -/

/-- the memory from a pointer on starts with the elements of a vector -/
def MemHolds (mem : ℕ → BitVec 16) (v : List (BitVec 16)) : Prop := ∀ i (h : i < v.length), mem i = v[i]

/-- the string that starts at the pointer: the units before the first zero -/
def StringAt (mem : ℕ → BitVec 16) (s : List (BitVec 16)) : Prop :=
  mem s.length = 0#16 ∧ ∀ i (h : i < s.length), mem i = s[i] ∧ s[i] ≠ 0#16

/-- in whatever memory, the string at the vector is `s`, and it ends within the vector -/
def Terminated (v s : List (BitVec 16)) : Prop :=
  s.length < v.length ∧ ∀ mem, MemHolds mem v → ∀ t, StringAt mem t ↔ t = s

/-! ## Proof -/

theorem stringAt_unique {mem : ℕ → BitVec 16} {s t : List (BitVec 16)} (hs : StringAt mem s) (ht : StringAt mem t) : t = s := by
  have hl : s.length = t.length := by
    rcases Nat.lt_trichotomy s.length t.length with h | h | h
    · exact absurd ((ht.2 _ h).1.symm.trans hs.1) (ht.2 _ h).2
    · exact h
    · exact absurd ((hs.2 _ h).1.symm.trans ht.1) (hs.2 _ h).2
  refine List.ext_getElem hl.symm fun i h1 h2 => ?_
  rw [← (ht.2 i h1).1, ← (hs.2 i h2).1]

theorem terminated_push {s : List (BitVec 16)} (h : ∀ u ∈ s, u ≠ 0#16) : Terminated (s ++ [0#16]) s := by
  refine ⟨by simp, fun mem hm t => ?_⟩
  have hs : StringAt mem s := by
    refine ⟨?_, fun i hi => ⟨?_, h _ (List.getElem_mem hi)⟩⟩
    · have := hm s.length (by simp)
      simpa using this
    · have := hm i (by simp; omega)
      rw [this, List.getElem_append_left hi]
  exact ⟨fun ht => stringAt_unique hs ht, fun e => e ▸ hs⟩

theorem utf16_ne_zero {c : Char} (h : c ≠ '\x00') : ∀ u ∈ utf16 c, u ≠ 0#16 := by
  intro u hu
  have hc : c.toNat ≠ 0 := fun e => h (by
    apply Char.ext
    apply UInt32.toNat.inj
    exact e)
  have hlt : c.toNat < 0x110000 := by
    rcases c.valid with h | h
    · exact lt_of_lt_of_le h (by norm_num)
    · exact h.2
  unfold utf16 at hu
  intro e
  have e := congrArg BitVec.toNat e
  split at hu
  · rw [List.mem_singleton] at hu
    subst hu
    simp only [BitVec.toNat_ofNat] at e
    omega
  · rcases List.mem_cons.1 hu with hu | hu
    · subst hu
      simp only [BitVec.toNat_ofNat] at e
      omega
    · rw [List.mem_singleton] at hu
      subst hu
      simp only [BitVec.toNat_ofNat] at e
      omega

/-- names without the character zero have no unit zero -/
theorem encodeWide_ne_zero {s : List Char} (h : '\x00' ∉ s) : ∀ u ∈ encodeWide s, u ≠ 0#16 := by
  intro u hu
  obtain ⟨c, hc, hu⟩ := List.mem_flatMap.1 hu
  exact utf16_ne_zero (fun e => h (e ▸ hc)) u hu

theorem not_terminated {v : List (BitVec 16)} (hz : ∀ u ∈ v, u ≠ 0#16) :
    (∀ s, ¬ Terminated v s) ∧ ∃ mem, MemHolds mem v ∧ ∀ s, ¬ StringAt mem s := by
  have hmem : MemHolds (fun i => v.getD i 1#16) v := fun i hi => by simp [List.getD, hi]
  have hno : ∀ s, ¬ StringAt (fun i => v.getD i 1#16) s := by
    rintro s ⟨h, -⟩
    by_cases hi : s.length < v.length
    · simp only [List.getD, List.getElem?_eq_getElem hi, Option.getD_some] at h
      exact hz _ (List.getElem_mem hi) h
    · simp only [List.getD, List.getElem?_eq_none (Nat.le_of_not_lt hi), Option.getD_none] at h
      exact absurd h (by decide)
  exact ⟨fun s h => hno s ((h.2 _ hmem s).2 rfl), _, hmem, hno⟩

/-! ## Theorems -/

/-- **C141**, `CryptoRand::new`: in whatever memory, the system reads the algorithm `RNG` and the implementation `Microsoft Primitive Provider`, and no
unit behind the two vectors; the flags are 0. -/
theorem C141_new : Terminated cryptoNewCall.algId ("RNG".toList.map fun c => BitVec.ofNat 16 c.toNat) ∧
    (∃ v, cryptoNewCall.implementation = some v ∧
      Terminated v ("Microsoft Primitive Provider".toList.map fun c => BitVec.ofNat 16 c.toNat)) ∧ cryptoNewCall.flag = 0#32 :=
  ⟨terminated_push (encodeWide_ne_zero (s := cngName) (by decide)), ⟨_, rfl, terminated_push (encodeWide_ne_zero (by decide))⟩, rfl⟩

/-- **C141**: the algorithm is terminated in all three calls, and `auto_select_provider` gives no implementation. -/
theorem C141_algorithm (flag : BitVec 32) :
    (∀ c ∈ [msPrimitiveProvider flag, msPlatformCryptoProvider flag, autoSelectProvider flag],
      Terminated c.algId ("RNG".toList.map fun c => BitVec.ofNat 16 c.toNat) ∧ c.flag = flag) ∧
    (autoSelectProvider flag).implementation = none := by
  have h : Terminated (encodeWide cngName ++ [0#16]) ("RNG".toList.map fun c => BitVec.ofNat 16 c.toNat) :=
    terminated_push (encodeWide_ne_zero (s := cngName) (by decide))
  refine ⟨fun c hc => ?_, rfl⟩
  simp only [List.mem_cons, List.not_mem_nil, or_false] at hc
  rcases hc with rfl | rfl | rfl <;> exact ⟨h, rfl⟩

/-- **C141 is false** for `ms_platform_crypto_provider`: the name of the implementation has no zero at its end.  The system reads the name that is meant if and
only if the unit behind the vector, which does not belong to it, happens to be zero; in general it reads that name and what lies behind it. -/
theorem C141_platform (flag : BitVec 32) : ∃ v, (msPlatformCryptoProvider flag).implementation = some v ∧
    v = ("Microsoft Platform Crypto Provider".toList.map fun c => BitVec.ofNat 16 c.toNat) ∧ v.length = 34 ∧
    ∀ mem, MemHolds mem v → (StringAt mem v ↔ mem 34 = 0#16) ∧
      ∀ s, StringAt mem (v ++ s) ↔ StringAt (fun i => mem (34 + i)) s := by
  have hv : encodeWide "Microsoft Platform Crypto Provider".toList =
    ("Microsoft Platform Crypto Provider".toList.map fun c => BitVec.ofNat 16 c.toNat) := by decide
  have hz := encodeWide_ne_zero (s := "Microsoft Platform Crypto Provider".toList) (by decide)
  have hl : (encodeWide "Microsoft Platform Crypto Provider".toList).length = 34 := by decide
  refine ⟨_, rfl, hv, hl, fun mem hm => ⟨⟨fun h => hl ▸ h.1, fun h => ⟨by rw [hl]; exact h, fun i hi => ⟨hm i hi, hz _ (List.getElem_mem hi)⟩⟩⟩, fun s => ?_⟩⟩
  constructor
  · rintro ⟨h1, h2⟩
    rw [List.length_append, hl] at h1
    refine ⟨h1, fun i hi => ?_⟩
    have := h2 (34 + i) (by rw [List.length_append, hl]; omega)
    rw [List.getElem_append_right (by omega)] at this
    simp only [hl, Nat.add_sub_cancel_left] at this
    exact this
  · rintro ⟨h1, h2⟩
    refine ⟨by rw [List.length_append, hl]; exact h1, fun i hi => ?_⟩
    by_cases h : i < 34
    · rw [List.getElem_append_left (by omega)]
      exact ⟨hm i (by omega), hz _ (List.getElem_mem _)⟩
    · rw [List.length_append, hl] at hi
      have := h2 (i - 34) (by omega)
      rw [List.getElem_append_right (by omega)]
      simp only [hl]
      simpa [show 34 + (i - 34) = i by omega] using this

/-- so it is not terminated: there is memory in which another name is read, and memory in which the reading does not end -/
theorem C141_violated (flag : BitVec 32) : ∃ v, (msPlatformCryptoProvider flag).implementation = some v ∧ (∀ s, ¬ Terminated v s) ∧
    ∃ mem, MemHolds mem v ∧ ∀ s, ¬ StringAt mem s :=
  ⟨_, rfl, not_terminated (encodeWide_ne_zero (by decide))⟩

/-- **C141**, `gen_random` with a buffer of less than 4 GiB: if the system succeeds, every byte of the buffer is the system's; if not, the error is reported.
*Missing:* longer buffers, for which the statement is false. -/
theorem C141_filled_partial (buf : List Byte) (h : buf.length < 2 ^ 32) (status : BitVec 32) (sys : ℕ → Byte) :
    (status = 0#32 → winGenRandom buf status sys = (true, (List.range buf.length).map sys)) ∧
    (status ≠ 0#32 → winGenRandom buf status sys = (false, buf)) := by
  have e : (bytesAsked buf).toNat = buf.length := by rw [bytesAsked, BitVec.toNat_ofNat, Nat.mod_eq_of_lt h]
  refine ⟨fun hs => ?_, fun hs => by rw [winGenRandom, if_neg hs]⟩
  rw [winGenRandom, if_pos hs, e]
  simp

/-- the buffers of `CryptoRand` -/
example : (List.replicate 4 (0 : Byte)).length < 2 ^ 32 ∧ (List.replicate 8 (0 : Byte)).length < 2 ^ 32 := by decide

/-- **C141 is false** for buffers of 4 GiB and more: the length is cut to 32 bits, and the call succeeds with everything from the byte `len mod 2^32` on
left as it was; exactly `2^32` zeros stay zeros. -/
theorem C141_long (buf : List Byte) (sys : ℕ → Byte) :
    (winGenRandom buf 0#32 sys).1 = true ∧ (winGenRandom buf 0#32 sys).2.length = buf.length ∧
    (winGenRandom buf 0#32 sys).2.drop (buf.length % 2 ^ 32) = buf.drop (buf.length % 2 ^ 32) ∧
    (buf.length = 2 ^ 32 → (winGenRandom buf 0#32 sys).2 = buf) := by
  have e : (bytesAsked buf).toNat = buf.length % 2 ^ 32 := by rw [bytesAsked, BitVec.toNat_ofNat]
  have hle := Nat.mod_le buf.length (2 ^ 32)
  rw [winGenRandom, if_pos rfl, e]
  refine ⟨rfl, ?_, ?_, fun h => ?_⟩
  · simp only [List.length_append, List.length_map, List.length_range, List.length_drop]
    omega
  · rw [List.drop_left' (by simp)]
  · rw [h, Nat.mod_self]
    rfl

end RMath
