import Verif.Lemmas.NatExp
import Verif.Model.NatText

/-! Proofs about parsing and printing. -/

namespace RMath

theorem char_le (a b : Char) : a ≤ b ↔ a.toNat ≤ b.toNat := by
  rw [Char.le_def, UInt32.le_iff_toNat_le]; rfl

theorem char_eq (a b : Char) : a = b ↔ a.toNat = b.toNat := by
  constructor
  · rintro rfl; rfl
  · intro h; apply Char.ext; exact UInt32.toNat_inj.1 h

theorem char_ofNat (n : Nat) (h : n < 0xd800) : (Char.ofNat n).toNat = n := by
  rw [Char.ofNat, dif_pos (Or.inl h)]
  rfl

theorem binDigit_eq (c : Char) :
    binDigit c = if digitOf c < 2 ^ 1 then some (BitVec.ofNat 32 (digitOf c)) else none := by
  unfold binDigit digitOf
  simp only [char_le, char_eq, show '0'.toNat = 48 from rfl, show '1'.toNat = 49 from rfl,
    show '9'.toNat = 57 from rfl, show 'a'.toNat = 97 from rfl, show 'A'.toNat = 65 from rfl,
    show 'f'.toNat = 102 from rfl, show 'F'.toNat = 70 from rfl]
  generalize c.toNat = n
  by_cases h0 : n = 48
  · subst h0; rfl
  by_cases h1 : n = 49
  · subst h1; rfl
  rw [if_neg h0, if_neg h1]
  split_ifs <;> first | rfl | omega

theorem hexDigit_eq (c : Char) :
    hexDigit c = if digitOf c < 2 ^ 4 then some (BitVec.ofNat 32 (digitOf c)) else none := by
  unfold hexDigit digitOf
  simp only [char_le, show '0'.toNat = 48 from rfl, show '9'.toNat = 57 from rfl, show 'a'.toNat = 97 from rfl,
    show 'A'.toNat = 65 from rfl, show 'f'.toNat = 102 from rfl, show 'F'.toNat = 70 from rfl]
  generalize c.toNat = n
  have e : (10#32 : W) = BitVec.ofNat 32 10 := rfl
  rw [e]
  simp only [← BitVec.ofNat_add]
  split_ifs <;> first | rfl | omega

theorem octDigit_iff (c : Char) : ('0' ≤ c ∧ c ≤ '7') ↔ digitOf c < 8 := by
  unfold digitOf
  simp only [char_le, show '0'.toNat = 48 from rfl, show '9'.toNat = 57 from rfl, show 'a'.toNat = 97 from rfl,
    show 'A'.toNat = 65 from rfl, show 'f'.toNat = 102 from rfl, show 'F'.toNat = 70 from rfl,
    show '7'.toNat = 55 from rfl]
  split_ifs <;> omega

theorem decDigit_iff (c : Char) : ('0' ≤ c ∧ c ≤ '9') ↔ digitOf c < 10 := by
  unfold digitOf
  simp only [char_le, show '0'.toNat = 48 from rfl, show '9'.toNat = 57 from rfl, show 'a'.toNat = 97 from rfl,
    show 'A'.toNat = 65 from rfl, show 'f'.toNat = 102 from rfl, show 'F'.toNat = 70 from rfl]
  split_ifs <;> omega

theorem digitOf_dec {c : Char} (h : digitOf c < 10) : c.toNat - 48 = digitOf c := by
  have := (decDigit_iff c).2 h
  unfold digitOf
  rw [if_pos this]
  rfl

/-! ## values of digit strings -/

/-- value of a digit string, least significant digit first -/
def rv (base : Nat) : List Char → Nat
  | [] => 0
  | c :: cs => digitOf c + base * rv base cs

theorem rv_append (base : Nat) (a b : List Char) : rv base (a ++ b) = rv base a + base ^ a.length * rv base b := by
  induction a with
  | nil => simp [rv]
  | cons c cs ih => rw [List.cons_append, rv, ih, rv, List.length_cons, Nat.pow_succ]; ring

theorem rv_zeros (base n : Nat) : rv base (List.replicate n '0') = 0 := by
  induction n with
  | zero => rfl
  | succ n ih => rw [List.replicate_succ, rv, ih]; rfl

theorem foldl_eq_rv (base : Nat) (s : List Char) : ∀ acc,
    s.foldl (fun n c => base * n + digitOf c) acc = acc * base ^ s.length + rv base s.reverse := by
  induction s with
  | nil => intro acc; simp [rv]
  | cons c cs ih =>
    intro acc
    rw [List.foldl_cons, ih, List.reverse_cons, rv_append, List.length_reverse, List.length_cons, Nat.pow_succ]
    simp only [rv]
    ring

theorem numeral_eq (base : Nat) (s : List Char) :
    numeral base s = if s ≠ [] ∧ ∀ c ∈ s, digitOf c < base then some (rv base s.reverse) else none := by
  unfold numeral
  simp only [foldl_eq_rv, Nat.zero_mul, Nat.zero_add]

/-! ## digits packed into words -/

theorem pack_shl {n : W} {bits j : Nat} (h1 : n.toNat < 2 ^ bits) (h2 : bits * (j + 1) ≤ 32) :
    (n <<< (j * bits)).toNat = n.toNat * 2 ^ (bits * j) := by
  rw [BitVec.toNat_shiftLeft, Nat.shiftLeft_eq, Nat.mul_comm j bits, Nat.mod_eq_of_lt]
  calc n.toNat * 2 ^ (bits * j) < 2 ^ bits * 2 ^ (bits * j) := Nat.mul_lt_mul_of_pos_right h1 (Nat.two_pow_pos _)
    _ = 2 ^ (bits * (j + 1)) := by rw [← Nat.pow_add]; congr 1; ring
    _ ≤ 2 ^ 32 := Nat.pow_le_pow_right (by norm_num) h2

theorem packChars_spec {dig : Char → Option W} {bits per : Nat} (hb : bits * per = 32)
    (hd : ∀ c, dig c = if digitOf c < 2 ^ bits then some (BitVec.ofNat 32 (digitOf c)) else none)
    (cs : List Char) : ∀ (j : Nat) (tmp : W), j < per → tmp.toNat < 2 ^ (bits * j) →
    (∀ c ∈ cs, digitOf c < 2 ^ bits) →
      ∃ v t, packChars dig bits per j tmp cs = .ok (some (v, t)) ∧
        val v + 2 ^ (32 * v.length) * t.toNat = tmp.toNat + 2 ^ (bits * j) * rv (2 ^ bits) cs := by
  induction cs with
  | nil => intro j tmp _ _ _; exact ⟨[], tmp, rfl, by simp [rv]⟩
  | cons c cs ih =>
    intro j tmp hj ht hall
    have hc := hall c (by simp)
    have hall' : ∀ c ∈ cs, digitOf c < 2 ^ bits := fun d hdm => hall d (by simp [hdm])
    rw [packChars, hd, if_pos hc]
    simp only
    have hle : bits * (j + 1) ≤ 32 := by rw [← hb]; exact Nat.mul_le_mul_left _ (by omega)
    have hbits : bits ≤ 32 := by
      calc bits ≤ bits * (j + 1) := Nat.le_mul_of_pos_right _ (by omega)
        _ ≤ 32 := hle
    have hn : (BitVec.ofNat 32 (digitOf c) : W).toNat = digitOf c := by
      rw [BitVec.toNat_ofNat, Nat.mod_eq_of_lt]
      exact lt_of_lt_of_le hc (Nat.pow_le_pow_right (by norm_num) hbits)
    have hsh := pack_shl (n := BitVec.ofNat 32 (digitOf c)) (by rw [hn]; exact hc) hle
    rw [hn] at hsh
    have hlt : tmp.toNat + digitOf c * 2 ^ (bits * j) < 2 ^ (bits * (j + 1)) := by
      have : digitOf c * 2 ^ (bits * j) + 2 ^ (bits * j) ≤ 2 ^ bits * 2 ^ (bits * j) := by
        have := Nat.mul_le_mul_right (2 ^ (bits * j)) (Nat.succ_le_of_lt hc)
        rw [Nat.succ_mul] at this
        exact this
      have e : 2 ^ bits * 2 ^ (bits * j) = 2 ^ (bits * (j + 1)) := by rw [← Nat.pow_add]; congr 1; ring
      omega
    have hp : 2 ^ (bits * (j + 1)) ≤ 2 ^ 32 := Nat.pow_le_pow_right (by norm_num) hle
    rw [hsh, if_neg (by omega)]
    have hsum : (tmp + BitVec.ofNat 32 (digitOf c) <<< (j * bits)).toNat
        = tmp.toNat + digitOf c * 2 ^ (bits * j) := by
      rw [BitVec.toNat_add, hsh, Nat.mod_eq_of_lt (by omega)]
    by_cases hper : j + 1 = per
    · rw [if_pos hper]
      obtain ⟨v, t, h1, h2⟩ := ih 0 0#32 (by omega) (by simp) hall'
      rw [h1]
      refine ⟨_, _, rfl, ?_⟩
      simp only [val, List.length_cons, hsum]
      simp only [Nat.mul_zero, Nat.pow_zero, Nat.one_mul, BitVec.toNat_ofNat, Nat.zero_mod, Nat.zero_add] at h2
      rw [pow32_succ, Nat.mul_assoc, rv, ← h2]
      have e : 2 ^ (bits * j) * 2 ^ bits = 2 ^ 32 := by
        rw [← Nat.pow_add, ← hb, ← hper]; congr 1
      rw [Nat.mul_add, ← Nat.mul_assoc (2 ^ (bits * j)), e]
      ring
    · rw [if_neg hper]
      obtain ⟨v, t, h1, h2⟩ := ih (j + 1) (tmp + BitVec.ofNat 32 (digitOf c) <<< (j * bits)) (by omega)
        (by rw [hsum]; exact hlt) hall'
      refine ⟨v, t, h1, ?_⟩
      rw [h2, hsum, rv, show bits * (j + 1) = bits * j + bits by ring, Nat.pow_add]
      ring

theorem packChars_none {dig : Char → Option W} {bits per : Nat} (hb : bits * per = 32)
    (hd : ∀ c, dig c = if digitOf c < 2 ^ bits then some (BitVec.ofNat 32 (digitOf c)) else none)
    (cs : List Char) : ∀ (j : Nat) (tmp : W), j < per → tmp.toNat < 2 ^ (bits * j) →
    ¬(∀ c ∈ cs, digitOf c < 2 ^ bits) → packChars dig bits per j tmp cs = .ok none := by
  induction cs with
  | nil => intro j tmp _ _ h; exact absurd (by simp) h
  | cons c cs ih =>
    intro j tmp hj ht hall
    rw [packChars, hd]
    by_cases hc : digitOf c < 2 ^ bits
    · rw [if_pos hc]
      simp only
      have hall' : ¬∀ c ∈ cs, digitOf c < 2 ^ bits := by
        intro h
        apply hall
        intro d hdm
        rcases List.mem_cons.1 hdm with rfl | hdm
        · exact hc
        · exact h d hdm
      have hle : bits * (j + 1) ≤ 32 := by rw [← hb]; exact Nat.mul_le_mul_left _ (by omega)
      have hbits : bits ≤ 32 := by
        calc bits ≤ bits * (j + 1) := Nat.le_mul_of_pos_right _ (by omega)
          _ ≤ 32 := hle
      have hn : (BitVec.ofNat 32 (digitOf c) : W).toNat = digitOf c := by
        rw [BitVec.toNat_ofNat, Nat.mod_eq_of_lt]
        exact lt_of_lt_of_le hc (Nat.pow_le_pow_right (by norm_num) hbits)
      have hsh := pack_shl (n := BitVec.ofNat 32 (digitOf c)) (by rw [hn]; exact hc) hle
      rw [hn] at hsh
      have hlt : tmp.toNat + digitOf c * 2 ^ (bits * j) < 2 ^ (bits * (j + 1)) := by
        have : digitOf c * 2 ^ (bits * j) + 2 ^ (bits * j) ≤ 2 ^ bits * 2 ^ (bits * j) := by
          have := Nat.mul_le_mul_right (2 ^ (bits * j)) (Nat.succ_le_of_lt hc)
          rw [Nat.succ_mul] at this
          exact this
        have e : 2 ^ bits * 2 ^ (bits * j) = 2 ^ (bits * (j + 1)) := by rw [← Nat.pow_add]; congr 1; ring
        omega
      have hp : 2 ^ (bits * (j + 1)) ≤ 2 ^ 32 := Nat.pow_le_pow_right (by norm_num) hle
      rw [hsh, if_neg (by omega)]
      have hsum : (tmp + BitVec.ofNat 32 (digitOf c) <<< (j * bits)).toNat
          = tmp.toNat + digitOf c * 2 ^ (bits * j) := by
        rw [BitVec.toNat_add, hsh, Nat.mod_eq_of_lt (by omega)]
      by_cases hper : j + 1 = per
      · rw [if_pos hper, ih 0 0#32 (by omega) (by simp) hall']
      · rw [if_neg hper, ih (j + 1) _ (by omega) (by rw [hsum]; exact hlt) hall']
    · rw [if_neg hc]

theorem packFinish_eq {s : List Char} (hs : s ≠ []) (v : Words) (t : W) :
    packFinish s (.ok (some (v, t))) = .ok (some (enc (val v + 2 ^ (32 * v.length) * t.toNat))) := by
  unfold packFinish
  simp only [ne_eq, hs, not_false_eq_true, if_true, ite_self]
  rw [trim_eq_enc (by simp), val_append]
  simp

theorem packStr_eq {dig : Char → Option W} {bits per : Nat} (hb : bits * per = 32)
    (hd : ∀ c, dig c = if digitOf c < 2 ^ bits then some (BitVec.ofNat 32 (digitOf c)) else none)
    (s : List Char) :
    packFinish s (packChars dig bits per 0 0#32 s.reverse)
      = .ok (if s = [] then some NaN else (numeral (2 ^ bits) s).map enc) := by
  have hper : 0 < per := by
    rcases Nat.eq_zero_or_pos per with h | h
    · subst h; simp at hb
    · exact h
  by_cases hs : s = []
  · subst hs; rfl
  rw [if_neg hs, numeral_eq]
  by_cases hall : ∀ c ∈ s, digitOf c < 2 ^ bits
  · obtain ⟨v, t, h1, h2⟩ := packChars_spec hb hd s.reverse 0 0#32 hper (by simp) (by simpa using hall)
    rw [h1, packFinish_eq hs, h2, if_pos ⟨hs, hall⟩]
    simp
  · rw [packChars_none hb hd s.reverse 0 0#32 hper (by simp) (by simpa using hall), if_neg (by tauto)]
    rfl

theorem fromBinStr_eq (s : List Char) :
    fromBinStr s = .ok (if s = [] then some NaN else (numeral 2 s).map enc) :=
  packStr_eq (bits := 1) (per := 32) (by norm_num) binDigit_eq s

theorem fromHexStr_eq (s : List Char) :
    fromHexStr s = .ok (if s = [] then some NaN else (numeral 16 s).map enc) :=
  packStr_eq (bits := 4) (per := 8) (by norm_num) hexDigit_eq s

/-! ## octal -/

theorem octLoop_spec (cs : List Char) : ∀ (i : Nat) (tmp : W), i < 32 → tmp.toNat < 2 ^ i →
    if ∀ c ∈ cs, digitOf c < 8 then
      ∃ v t, octLoop i tmp cs = .ok (some (v, t)) ∧
        val v + 2 ^ (32 * v.length) * t.toNat = tmp.toNat + 2 ^ i * rv 8 cs
    else octLoop i tmp cs = .ok none := by
  induction cs with
  | nil => intro i tmp _ _; simp only [List.not_mem_nil, false_imp_iff, implies_true, if_true]
           exact ⟨[], tmp, rfl, by simp [rv]⟩
  | cons c cs ih =>
    intro i tmp hi ht
    rw [octLoop]
    by_cases hc : digitOf c < 8
    · rw [if_pos ((octDigit_iff c).2 hc)]
      have hd : c.toNat - 48 = digitOf c := digitOf_dec (by omega)
      rw [hd]
      have hn : (BitVec.ofNat 32 (digitOf c) : W).toNat = digitOf c := by
        rw [BitVec.toNat_ofNat, Nat.mod_eq_of_lt (by omega)]
      have hiff : (∀ d ∈ c :: cs, digitOf d < 8) ↔ ∀ d ∈ cs, digitOf d < 8 := by
        simp [hc]
      simp only [hiff, rv]
      generalize hnn : (BitVec.ofNat 32 (digitOf c) : W) = n at *
      by_cases h32 : i + 3 ≥ 32
      · rw [if_pos h32]
        have hmask : ((1#32 <<< (32 - i)) - 1#32 : W).toNat = 2 ^ (32 - i) - 1 := by
          have : 32 - i ≤ 3 := by omega
          have h0 : 0 < 32 - i := by omega
          generalize 32 - i = q at *
          interval_cases q <;> rfl
        have ha : ((((1#32 <<< (32 - i)) - 1#32) &&& n) <<< i).toNat = digitOf c % 2 ^ (32 - i) * 2 ^ i := by
          rw [BitVec.toNat_shiftLeft, BitVec.toNat_and, hmask, hn, Nat.and_comm, Nat.and_two_pow_sub_one_eq_mod,
            Nat.shiftLeft_eq, Nat.mod_eq_of_lt]
          have : digitOf c % 2 ^ (32 - i) < 2 ^ (32 - i) := Nat.mod_lt _ (Nat.two_pow_pos _)
          calc digitOf c % 2 ^ (32 - i) * 2 ^ i < 2 ^ (32 - i) * 2 ^ i :=
                Nat.mul_lt_mul_of_pos_right this (Nat.two_pow_pos _)
            _ = 2 ^ 32 := by rw [← Nat.pow_add]; congr 1; omega
        have hsh : (n >>> (32 - i)).toNat = digitOf c / 2 ^ (32 - i) := by
          rw [BitVec.toNat_ushiftRight, hn, Nat.shiftRight_eq_div_pow]
        have hp : 2 ^ (32 - i) * 2 ^ i = 2 ^ 32 := by rw [← Nat.pow_add]; congr 1; omega
        have hlt : tmp.toNat + digitOf c % 2 ^ (32 - i) * 2 ^ i < 2 ^ 32 := by
          have h1 : digitOf c % 2 ^ (32 - i) + 1 ≤ 2 ^ (32 - i) := Nat.mod_lt _ (Nat.two_pow_pos _)
          have := Nat.mul_le_mul_right (2 ^ i) h1
          rw [hp, Nat.add_mul, Nat.one_mul] at this
          omega
        rw [ha, if_neg (show ¬(tmp.toNat + digitOf c % 2 ^ (32 - i) * 2 ^ i ≥ 2 ^ 32) by omega)]
        have hsum : (tmp + (((1#32 <<< (32 - i)) - 1#32) &&& n) <<< i).toNat
            = tmp.toNat + digitOf c % 2 ^ (32 - i) * 2 ^ i := by
          rw [BitVec.toNat_add, ha, Nat.mod_eq_of_lt hlt]
        have hp3 : 2 ^ (i + 3 - 32) * 2 ^ (32 - i) = 8 := by
          rw [← Nat.pow_add, show i + 3 - 32 + (32 - i) = 3 by omega]
        have hnext : (n >>> (32 - i)).toNat < 2 ^ (i + 3 - 32) := by
          rw [hsh]
          apply Nat.div_lt_of_lt_mul
          rw [Nat.mul_comm, hp3]; exact hc
        have := ih (i + 3 - 32) (n >>> (32 - i)) (by omega) hnext
        by_cases hall : ∀ d ∈ cs, digitOf d < 8
        · rw [if_pos hall] at this ⊢
          obtain ⟨v, t, h1, h2⟩ := this
          rw [h1]
          refine ⟨_, _, rfl, ?_⟩
          simp only [val, List.length_cons, hsum]
          rw [pow32_succ, Nat.mul_assoc]
          have e1 : val v + 2 ^ (32 * v.length) * t.toNat = digitOf c / 2 ^ (32 - i) + 2 ^ (i + 3 - 32) * rv 8 cs := by
            rw [h2, hsh]
          have e2 : 2 ^ 32 * val v + 2 ^ 32 * (2 ^ (32 * v.length) * t.toNat)
              = 2 ^ 32 * (digitOf c / 2 ^ (32 - i)) + 2 ^ 32 * (2 ^ (i + 3 - 32) * rv 8 cs) := by
            rw [← Nat.mul_add, e1, Nat.mul_add]
          have e3 : 2 ^ 32 * (2 ^ (i + 3 - 32) * rv 8 cs) = 2 ^ i * (8 * rv 8 cs) := by
            rw [← hp, ← hp3]; ring
          have e4 : digitOf c % 2 ^ (32 - i) * 2 ^ i + 2 ^ 32 * (digitOf c / 2 ^ (32 - i)) = 2 ^ i * digitOf c := by
            conv_rhs => rw [← Nat.mod_add_div (digitOf c) (2 ^ (32 - i))]
            rw [← hp]; ring
          rw [Nat.mul_add]
          omega
        · rw [if_neg hall] at this ⊢
          rw [this]
      · rw [if_neg h32]
        have hsh : (n <<< i).toNat = digitOf c * 2 ^ i := by
          rw [BitVec.toNat_shiftLeft, hn, Nat.shiftLeft_eq, Nat.mod_eq_of_lt]
          calc digitOf c * 2 ^ i < 2 ^ 3 * 2 ^ i := Nat.mul_lt_mul_of_pos_right (by omega) (Nat.two_pow_pos _)
            _ = 2 ^ (3 + i) := by rw [← Nat.pow_add]
            _ ≤ 2 ^ 32 := Nat.pow_le_pow_right (by norm_num) (by omega)
        have hlt : tmp.toNat + digitOf c * 2 ^ i < 2 ^ (i + 3) := by
          have := Nat.mul_le_mul_right (2 ^ i) (Nat.succ_le_of_lt hc)
          rw [Nat.succ_mul] at this
          rw [Nat.pow_add]
          omega
        have hp : 2 ^ (i + 3) ≤ 2 ^ 32 := Nat.pow_le_pow_right (by norm_num) (by omega)
        rw [hsh, if_neg (show ¬(tmp.toNat + digitOf c * 2 ^ i ≥ 2 ^ 32) by omega)]
        have hsum : (tmp + n <<< i).toNat = tmp.toNat + digitOf c * 2 ^ i := by
          rw [BitVec.toNat_add, hsh, Nat.mod_eq_of_lt (by omega)]
        have := ih (i + 3) (tmp + n <<< i) (by omega) (by rw [hsum]; exact hlt)
        by_cases hall : ∀ d ∈ cs, digitOf d < 8
        · rw [if_pos hall] at this ⊢
          obtain ⟨v, t, h1, h2⟩ := this
          refine ⟨v, t, h1, ?_⟩
          rw [h2, hsum, Nat.pow_add]
          ring
        · rw [if_neg hall] at this ⊢
          exact this
    · rw [if_neg (mt (octDigit_iff c).1 hc), if_neg]
      intro h
      exact hc (h c (by simp))

theorem fromOctStr_eq (s : List Char) :
    fromOctStr s = .ok (if s = [] then some NaN else (numeral 8 s).map enc) := by
  unfold fromOctStr
  by_cases hs : s = []
  · subst hs; rfl
  rw [if_neg hs, numeral_eq]
  have := octLoop_spec s.reverse 0 0#32 (by norm_num) (by simp)
  by_cases hall : ∀ c ∈ s, digitOf c < 8
  · rw [if_pos (by simpa using hall)] at this
    obtain ⟨v, t, h1, h2⟩ := this
    rw [h1, packFinish_eq hs, h2, if_pos ⟨hs, hall⟩]
    simp
  · rw [if_neg (by simpa using hall)] at this
    rw [this, if_neg (by tauto)]
    rfl

/-! ## decimal -/

theorem shl3_enc (n s : Nat) (hs : s < 32) : shlInner (enc n) s = enc (n * 2 ^ s) := by
  by_cases h : n = 0
  · subst h; rw [shlInner_enc_zero hs, Nat.zero_mul]
  · exact shlInner_enc h s

theorem decLoop_enc (ds : List W) : ∀ n, decLoop (enc n) ds = enc (ds.foldl (fun n d => 10 * n + d.toNat) n) := by
  induction ds with
  | nil => intro n; rfl
  | cons d ds ih =>
    intro n
    rw [decLoop, List.foldl_cons, ← ih]
    congr 1
    have e1 : assignPrim shlInner (enc n) 3 = enc (n * 2 ^ 3) := by
      simp [assignPrim, shl3_enc n 3 (by norm_num)]
    have e2 : natShl (enc n) 1 = enc (n * 2 ^ 1) := by
      simp [natShl, opPrim, shl3_enc n 1 (by norm_num)]
    rw [e1, e2, singleton_eq_enc]
    simp only [assignNat, isNan_enc, Bool.or_self, Bool.false_eq_true, if_false, addInner_enc]
    congr 1
    ring

theorem decChars_eq (s : List Char) : decChars s =
    if ∀ c ∈ s, digitOf c < 10 then some (s.map fun c => BitVec.ofNat 32 (digitOf c)) else none := by
  induction s with
  | nil => simp [decChars]
  | cons c cs ih =>
    rw [decChars]
    by_cases hc : digitOf c < 10
    · rw [if_pos ((decDigit_iff c).2 hc), ih, digitOf_dec hc]
      by_cases hall : ∀ d ∈ cs, digitOf d < 10
      · rw [if_pos hall, if_pos (by simpa using ⟨hc, hall⟩)]
        rfl
      · rw [if_neg hall, if_neg (by intro h; exact hall fun d hd => h d (by simp [hd]))]
        rfl
    · rw [if_neg (mt (decDigit_iff c).1 hc), if_neg (by intro h; exact hc (h c (by simp)))]

theorem foldl_dec (s : List Char) : ∀ n, (∀ c ∈ s, digitOf c < 10) →
    (s.map fun c => (BitVec.ofNat 32 (digitOf c) : W)).foldl (fun n d => 10 * n + d.toNat) n
      = s.foldl (fun n c => 10 * n + digitOf c) n := by
  induction s with
  | nil => intro n _; rfl
  | cons c cs ih =>
    intro n h
    have hc := h c (by simp)
    rw [List.map_cons, List.foldl_cons, List.foldl_cons, ih _ fun d hd => h d (by simp [hd]), BitVec.toNat_ofNat,
      Nat.mod_eq_of_lt (by omega)]

theorem dropWhile_zero (s : List Char) : ∃ k, s = List.replicate k '0' ++ s.dropWhile (· == '0') := by
  induction s with
  | nil => exact ⟨0, rfl⟩
  | cons c cs ih =>
    by_cases hc : c = '0'
    · obtain ⟨k, hk⟩ := ih
      refine ⟨k + 1, ?_⟩
      rw [List.dropWhile_cons_of_pos (by simp [hc]), List.replicate_succ, List.cons_append, ← hk, hc]
    · refine ⟨0, ?_⟩
      rw [List.dropWhile_cons_of_neg (by simpa using hc)]
      rfl

theorem rv_dropWhile_zero (base : Nat) (s : List Char) :
    rv base (s.dropWhile (· == '0')).reverse = rv base s.reverse := by
  obtain ⟨k, hk⟩ := dropWhile_zero s
  conv_rhs => rw [hk]
  rw [List.reverse_append, List.reverse_replicate, rv_append, rv_zeros, Nat.mul_zero, Nat.add_zero]

theorem mem_dropWhile_zero (s : List Char) {P : Char → Prop} (h0 : P '0') :
    (∀ c ∈ s.dropWhile (· == '0'), P c) ↔ ∀ c ∈ s, P c := by
  obtain ⟨k, hk⟩ := dropWhile_zero s
  conv_rhs => rw [hk]
  constructor
  · intro h c hc
    rcases List.mem_append.1 hc with hc | hc
    · rw [List.eq_of_mem_replicate hc]; exact h0
    · exact h c hc
  · intro h c hc
    exact h c (List.mem_append.2 (Or.inr hc))

theorem fromDecStr_eq (s : List Char) :
    fromDecStr s = if s = [] then some NaN else (numeral 10 s).map enc := by
  unfold fromDecStr
  by_cases hs : s = []
  · rw [if_pos hs, if_pos hs]
  rw [if_neg hs, if_neg hs, numeral_eq]
  simp only
  have hmem := mem_dropWhile_zero s (P := fun c => digitOf c < 10) (by decide)
  have hrv := rv_dropWhile_zero 10 s
  generalize s.dropWhile (· == '0') = t at hmem hrv
  by_cases ht : t = []
  · subst ht
    have hall := hmem.1 (by simp)
    rw [if_pos rfl, if_pos ⟨hs, hall⟩, ← hrv]
    simp only [List.reverse_nil, rv, Option.map_some, enc_zero]
  · rw [if_neg ht, decChars_eq]
    by_cases hall : ∀ c ∈ t, digitOf c < 10
    · rw [if_pos hall, if_pos ⟨hs, hmem.1 hall⟩, Option.map_some, Option.map_some, ← enc_zero, decLoop_enc,
        foldl_dec t 0 hall, foldl_eq_rv, hrv]
      simp
    · rw [if_neg hall, if_neg (by rw [← hmem]; tauto)]
      rfl

/-! ## the prefix -/

/-- characters skipped before a numeral -/
def isSign (c : Char) : Bool := c == '+' || c == ' '

/-- what `natParse` does with the text that remains after blanks and signs -/
def parseBody : List Char → Option Words
  | [] => none
  | [c] => if digitOf c < 10 then (numeral 10 [c]).map enc else none
  | c :: x :: xs =>
    if digitOf c < 10 then
      if c = '0' then
        if x = 'o' then (if xs = [] then some NaN else (numeral 8 xs).map enc)
        else if x = 'b' ∨ x = 'B' then (if xs = [] then some NaN else (numeral 2 xs).map enc)
        else if x = 'x' ∨ x = 'X' then (if xs = [] then some NaN else (numeral 16 xs).map enc)
        else none
      else (numeral 10 (c :: x :: xs)).map enc
    else none

theorem checkBase_sign (i : Nat) {c : Char} (cs : List Char) (h : c = '+' ∨ c = ' ') :
    checkBase i (c :: cs) = checkBase (i + 1) cs := by
  cases cs <;> (conv_lhs => unfold checkBase) <;> simp only [if_pos h]

theorem checkBase_one (i : Nat) {c : Char} (h : ¬(c = '+' ∨ c = ' ')) :
    checkBase i [c] = if digitOf c < 10 then some (i, 10) else none := by
  unfold checkBase
  simp only [if_neg h]
  by_cases hc : digitOf c < 10
  · rw [if_pos ((decDigit_iff c).2 hc), if_pos hc]
  · rw [if_neg (mt (decDigit_iff c).1 hc), if_neg hc]

theorem checkBase_two (i : Nat) {c : Char} (x : Char) (xs : List Char) (h : ¬(c = '+' ∨ c = ' ')) :
    checkBase i (c :: x :: xs) = if digitOf c < 10 then
      (if c = '0' then
        if x = 'o' then some (i + 2, 8)
        else if x = 'b' ∨ x = 'B' then some (i + 2, 2)
        else if x = 'x' ∨ x = 'X' then some (i + 2, 16)
        else none
      else some (i, 10)) else none := by
  conv_lhs => unfold checkBase
  simp only [if_neg h]
  by_cases hc : digitOf c < 10
  · rw [if_pos ((decDigit_iff c).2 hc), if_pos hc]
  · rw [if_neg (mt (decDigit_iff c).1 hc), if_neg hc]

theorem checkBase_skip (t : List Char) : ∀ i, ∃ k, (∀ u v, k = u → t.drop u = v → v = t.dropWhile isSign) ∧
    checkBase i t = checkBase (i + k) (t.dropWhile isSign) := by
  induction t with
  | nil => intro i; exact ⟨0, by rintro u v rfl rfl; rfl, rfl⟩
  | cons c cs ih =>
    intro i
    by_cases hc : c = '+' ∨ c = ' '
    · obtain ⟨k, h1, h2⟩ := ih (i + 1)
      refine ⟨k + 1, ?_, ?_⟩
      · rintro u v rfl rfl
        rw [List.dropWhile_cons_of_pos (by simpa [isSign] using hc), List.drop_succ_cons]
        exact h1 k _ rfl rfl
      · rw [checkBase_sign _ _ hc, h2, List.dropWhile_cons_of_pos (by simpa [isSign] using hc)]
        congr 1
        omega
    · refine ⟨0, ?_, ?_⟩
      · rintro u v rfl rfl
        rw [List.dropWhile_cons_of_neg (by simpa [isSign] using hc)]
        rfl
      · rw [List.dropWhile_cons_of_neg (by simpa [isSign] using hc)]
        rfl

theorem dropWhile_head {p : Char → Bool} (t : List Char) {c : Char} {cs : List Char}
    (h : t.dropWhile p = c :: cs) : p c = false := by
  induction t with
  | nil => simp at h
  | cons d ds ih =>
    by_cases hd : p d
    · rw [List.dropWhile_cons_of_pos hd] at h; exact ih h
    · rw [List.dropWhile_cons_of_neg hd] at h
      injection h with h1 h2
      subst h1
      simpa using hd

theorem natParse_eq (s : List Char) : natParse s = .ok (parseBody ((strTrim s).dropWhile isSign)) := by
  unfold natParse
  simp only
  obtain ⟨k, h1, h2⟩ := checkBase_skip (strTrim s) 0
  have h1 := h1 k _ rfl rfl
  rw [h2, Nat.zero_add]
  have hd : ∀ j, (strTrim s).drop (k + j) = ((strTrim s).dropWhile isSign).drop j := by
    intro j
    rw [← h1, List.drop_drop]
  have hd0 : (strTrim s).drop k = (strTrim s).dropWhile isSign := h1
  have hhead := fun c cs => dropWhile_head (p := isSign) (strTrim s) (c := c) (cs := cs)
  generalize (strTrim s).dropWhile isSign = b at *
  match b with
  | [] => rfl
  | [c] =>
    have hs := hhead c [] rfl
    rw [checkBase_one _ (by simpa [isSign] using hs)]
    rw [parseBody]
    by_cases hc : digitOf c < 10
    · rw [if_pos hc, if_pos hc]
      simp only
      rw [hd0, if_neg (by norm_num), if_neg (by norm_num), if_pos trivial, fromDecStr_eq, if_neg (by simp)]
    · rw [if_neg hc, if_neg hc]
  | c :: x :: xs =>
    have hs := hhead c (x :: xs) rfl
    rw [checkBase_two _ _ _ (by simpa [isSign] using hs)]
    rw [parseBody]
    by_cases hc : digitOf c < 10
    · rw [if_pos hc, if_pos hc]
      have hd2 : (strTrim s).drop (k + 2) = xs := by rw [hd]; rfl
      by_cases h0 : c = '0'
      · rw [if_pos h0, if_pos h0]
        by_cases ho : x = 'o'
        · rw [if_pos ho, if_pos ho]
          simp only
          rw [hd2, if_neg (by norm_num), if_pos trivial, fromOctStr_eq]
        · rw [if_neg ho, if_neg ho]
          by_cases hb : x = 'b' ∨ x = 'B'
          · rw [if_pos hb, if_pos hb]
            simp only
            rw [hd2, if_pos trivial, fromBinStr_eq]
          · rw [if_neg hb, if_neg hb]
            by_cases hx : x = 'x' ∨ x = 'X'
            · rw [if_pos hx, if_pos hx]
              simp only
              rw [hd2, if_neg (by norm_num), if_neg (by norm_num), if_neg (by norm_num), if_pos trivial, fromHexStr_eq]
            · rw [if_neg hx, if_neg hx]
      · rw [if_neg h0, if_neg h0]
        simp only
        rw [hd0, if_neg (by norm_num), if_neg (by norm_num), if_pos trivial, fromDecStr_eq, if_neg (by simp)]
    · rw [if_neg hc, if_neg hc]

/-! ## surrounding blanks -/

theorem not_white {c : Char} (h : digitOf c < 16) : isWhite c = false := by
  have hn : (48 ≤ c.toNat ∧ c.toNat ≤ 57) ∨ (97 ≤ c.toNat ∧ c.toNat ≤ 102) ∨ (65 ≤ c.toNat ∧ c.toNat ≤ 70) := by
    unfold digitOf at h
    simp only [char_le, show '0'.toNat = 48 from rfl, show '9'.toNat = 57 from rfl, show 'a'.toNat = 97 from rfl,
      show 'A'.toNat = 65 from rfl, show 'f'.toNat = 102 from rfl, show 'F'.toNat = 70 from rfl] at h
    split_ifs at h <;> omega
  unfold isWhite
  generalize c.toNat = n at *
  simp only [Bool.or_eq_false_iff, Bool.and_eq_false_iff, decide_eq_false_iff_not, beq_eq_false_iff_ne]
  omega

theorem not_sign {c : Char} (h : digitOf c < 16) : isSign c = false := by
  unfold isSign
  simp only [Bool.or_eq_false_iff, beq_eq_false_iff_ne, ne_eq]
  constructor <;> rintro rfl <;> revert h <;> decide

theorem dropWhile_all {p : Char → Bool} {a : List Char} (h : ∀ c ∈ a, p c = true) (b : List Char) :
    (a ++ b).dropWhile p = b.dropWhile p := by
  induction a with
  | nil => rfl
  | cons c cs ih =>
    rw [List.cons_append, List.dropWhile_cons_of_pos (h c (by simp)), ih fun d hd => h d (by simp [hd])]

theorem dropWhile_signs {pre : List Char} (h : ∀ c ∈ pre, isSign c = true) {c : Char} {cs : List Char}
    (hc : isWhite c = false) : ∃ pre', (∀ d ∈ pre', isSign d = true) ∧
      (pre ++ c :: cs).dropWhile isWhite = pre' ++ c :: cs := by
  induction pre with
  | nil => exact ⟨[], by simp, by rw [List.nil_append, List.dropWhile_cons_of_neg (by simp [hc])]⟩
  | cons d ds ih =>
    by_cases hd : isWhite d = true
    · obtain ⟨p, h1, h2⟩ := ih fun e he => h e (by simp [he])
      exact ⟨p, h1, by rw [List.cons_append, List.dropWhile_cons_of_pos hd, h2]⟩
    · exact ⟨d :: ds, h, by rw [List.cons_append, List.dropWhile_cons_of_neg hd]⟩

/-- a body that starts with a decimal digit and ends with a character that is not blank is found again -/
theorem skip_trim {ws pre body ws' : List Char} (h1 : ∀ c ∈ ws, isWhite c = true) (h2 : ∀ c ∈ ws', isWhite c = true)
    (h3 : ∀ c ∈ pre, isSign c = true) {c : Char} {cs : List Char} (hb : body = c :: cs) (hc : digitOf c < 16)
    {l : Char} (hl : body.getLast? = some l) (hlw : isWhite l = false) :
    (strTrim (ws ++ pre ++ body ++ ws')).dropWhile isSign = body := by
  unfold strTrim
  rw [List.append_assoc, List.append_assoc, dropWhile_all h1, hb, List.cons_append]
  obtain ⟨p, hp1, hp2⟩ := dropWhile_signs h3 (c := c) (cs := cs ++ ws') (not_white hc)
  rw [hp2, ← List.cons_append, ← hb, List.reverse_append, List.reverse_append, List.append_assoc,
    dropWhile_all (by simpa using h2)]
  obtain ⟨b', hb'⟩ : ∃ b', body = b' ++ [l] := by
    have hne : body ≠ [] := by rw [hb]; simp
    refine ⟨body.dropLast, ?_⟩
    have := List.dropLast_concat_getLast hne
    rw [List.getLast?_eq_some_getLast hne] at hl
    rw [← Option.some.inj hl]
    exact this.symm
  have hrev : body.reverse = l :: b'.reverse := by rw [hb']; simp
  rw [hrev, List.cons_append, List.dropWhile_cons_of_neg (by simp [hlw]), ← List.cons_append, ← hrev,
    List.reverse_append, List.reverse_reverse, List.reverse_reverse, dropWhile_all hp1, hb,
    List.dropWhile_cons_of_neg (by simp [not_sign hc])]

theorem numeral_some {base : Nat} {s : List Char} {v : Nat} (h : numeral base s = some v) :
    s ≠ [] ∧ ∀ c ∈ s, digitOf c < base := by
  unfold numeral at h
  split at h
  · next hh => exact hh
  · simp at h

theorem numeral_last {base : Nat} {s : List Char} {v : Nat} (h : numeral base s = some v) :
    ∃ l, s.getLast? = some l ∧ digitOf l < base := by
  obtain ⟨h1, h2⟩ := numeral_some h
  exact ⟨s.getLast h1, List.getLast?_eq_some_getLast h1, h2 _ (List.getLast_mem h1)⟩

theorem mem_takeWhile {p : Char → Bool} {t : List Char} {c : Char} (h : c ∈ t.takeWhile p) : p c = true := by
  induction t with
  | nil => simp at h
  | cons d ds ih =>
    by_cases hd : p d = true
    · rw [List.takeWhile_cons_of_pos hd] at h
      rcases List.mem_cons.1 h with rfl | h
      · exact hd
      · exact ih h
    · rw [List.takeWhile_cons_of_neg hd] at h
      simp at h

/-- trimming and skipping only removes blanks, signs and blanks -/
theorem trim_split (s : List Char) : ∃ ws pre ws', s = ws ++ pre ++ (strTrim s).dropWhile isSign ++ ws' ∧
    (∀ c ∈ ws, isWhite c = true) ∧ (∀ c ∈ pre, isSign c = true) ∧ (∀ c ∈ ws', isWhite c = true) := by
  have key : ∀ (p : Char → Bool) (t : List Char), t = t.takeWhile p ++ t.dropWhile p :=
    fun p t => (List.takeWhile_append_dropWhile).symm
  have all : ∀ (p : Char → Bool) (t : List Char), ∀ c ∈ t.takeWhile p, p c = true :=
    fun p t c hc => mem_takeWhile hc
  refine ⟨s.takeWhile isWhite, (strTrim s).takeWhile isSign,
    ((s.dropWhile isWhite).reverse.takeWhile isWhite).reverse, ?_, all _ _, all _ _, ?_⟩
  · rw [List.append_assoc (s.takeWhile isWhite), ← key isSign (strTrim s), strTrim, List.append_assoc,
      ← List.reverse_append, ← key isWhite, List.reverse_reverse, ← key isWhite]
  · intro c hc
    exact all isWhite _ c (by simpa using hc)

/-! ## printing -/

theorem fmtChar_digit (u : Bool) (d : Nat) (h : d < 16) : digitOf (fmtChar u d) = d := by
  interval_cases d <;> cases u <;> decide

theorem rv_range (base : Nat) (hb : 0 < base) (f : Nat → Char) (x : Nat)
    (n : Nat) (hf : ∀ i, i < n → digitOf (f i) = x / base ^ i % base) : rv base ((List.range n).map f) = x % base ^ n := by
  induction n with
  | zero => simp [rv, Nat.mod_one]
  | succ n ih =>
    rw [List.range_succ, List.map_append, rv_append, ih fun i hi => hf i (by omega)]
    simp only [List.map_cons, List.map_nil, rv, List.length_map, List.length_range, Nat.mul_zero, Nat.add_zero]
    rw [hf n (by omega), Nat.mod_pow_succ]

theorem fmtPad_rv (u : Bool) {base width : Nat} (hb : 0 < base) (hb16 : base ≤ 16) (hw : base ^ width = 2 ^ 32) (w : W) :
    rv base (fmtPad u base width w).reverse = w.toNat := by
  unfold fmtPad
  rw [← List.map_reverse, List.reverse_reverse, rv_range base hb _ w.toNat, hw, Nat.mod_eq_of_lt w.isLt]
  intro i _
  exact fmtChar_digit _ _ (lt_of_lt_of_le (Nat.mod_lt _ hb) hb16)

theorem fmtPad_length (u : Bool) (base width : Nat) (w : W) : (fmtPad u base width w).length = width := by
  simp [fmtPad]

theorem fmtPad_mem (u : Bool) {base width : Nat} (hb : 0 < base) (hb16 : base ≤ 16) (w : W) :
    ∀ c ∈ fmtPad u base width w, digitOf c < base := by
  intro c hc
  unfold fmtPad at hc
  obtain ⟨i, _, rfl⟩ := List.mem_map.1 hc
  rw [fmtChar_digit _ _ (lt_of_lt_of_le (Nat.mod_lt _ hb) hb16)]
  exact Nat.mod_lt _ hb

theorem fmtWords_rv (u : Bool) {base width : Nat} (hb : 0 < base) (hb16 : base ≤ 16) (hw : base ^ width = 2 ^ 32)
    (x : Words) : rv base ((x.reverse.map (fmtPad u base width)).flatten).reverse = val x := by
  induction x with
  | nil => rfl
  | cons w ws ih =>
    rw [List.reverse_cons, List.map_append, List.flatten_append, List.reverse_append, rv_append, ih]
    simp only [List.map_cons, List.map_nil, List.flatten_cons, List.flatten_nil, List.append_nil, List.length_reverse,
      fmtPad_rv u hb hb16 hw, fmtPad_length, val, hw]

theorem natFmt_body (u : Bool) {base width : Nat} (hb : 2 ≤ base) (hb16 : base ≤ 16) (hw : base ^ width = 2 ^ 32)
    (pre : List Char) (alt : Bool) {x : Words} (hx : x ≠ []) :
    ∃ body, natFmt u base width pre alt x = (if alt then pre else []) ++ body ∧ numeral base body = some (val x) := by
  have hwid : 0 < width := by
    rcases Nat.eq_zero_or_pos width with h | h
    · subst h; norm_num at hw
    · exact h
  unfold natFmt
  have hnan : isNan x = false := by simp [isNan, hx]
  rw [hnan, if_neg (by simp)]
  have hrv := fmtWords_rv u (by omega) hb16 hw x
  obtain ⟨y, w, rfl⟩ := exists_concat hx
  rw [List.reverse_append] at hrv ⊢
  simp only [List.reverse_cons, List.reverse_nil, List.nil_append, List.cons_append, List.map_cons,
    List.flatten_cons] at hrv ⊢
  refine ⟨_, rfl, ?_⟩
  have hdig : ∀ c ∈ (y.reverse.map (fmtPad u base width)).flatten, digitOf c < base := by
    intro c hc
    obtain ⟨l, hl, hcl⟩ := List.mem_flatten.1 hc
    obtain ⟨w', _, rfl⟩ := List.mem_map.1 hl
    exact fmtPad_mem u (by omega) hb16 w' c hcl
  have hfd := (mem_dropWhile_zero (fmtPad u base width w) (P := fun c => digitOf c < base)
    (by show (0:Nat) < base; omega)).2 (fmtPad_mem u (by omega) hb16 w)
  have hfr := rv_dropWhile_zero base (fmtPad u base width w)
  generalize (fmtPad u base width w).dropWhile (· == '0') = f at hfd hfr
  by_cases h0 : f = [] ∧ (y ++ [w]).length = 1
  · rw [if_pos h0]
    have hy : y = [] := by
      have := h0.2
      rw [List.length_append] at this
      simp at this
      exact this
    subst hy
    rw [h0.1] at hfr
    simp only [List.reverse_nil, List.map_nil, List.flatten_nil, List.append_nil, List.nil_append] at hrv ⊢
    rw [← hrv, ← hfr, numeral_eq, if_pos ⟨by simp, by simp; show (0:Nat) < base; omega⟩]
    simp [rv]
    rfl
  · rw [if_neg h0, numeral_eq, if_pos]
    · rw [← hrv, List.reverse_append, List.reverse_append, rv_append, rv_append, hfr]
    · constructor
      · intro hnil
        obtain ⟨hf, hr⟩ := List.append_eq_nil_iff.1 hnil
        apply h0
        refine ⟨hf, ?_⟩
        rw [List.flatten_eq_nil_iff] at hr
        have : y = [] := by
          by_contra hy
          obtain ⟨z, hz⟩ := List.exists_mem_of_ne_nil y hy
          have := hr (fmtPad u base width z) (List.mem_map.2 ⟨z, by simpa using hz, rfl⟩)
          have hl := fmtPad_length u base width z
          rw [this] at hl
          simp at hl
          omega
        rw [this]; rfl
      · intro c hc
        rcases List.mem_append.1 hc with hc | hc
        · exact hfd c hc
        · exact hdig c hc

/-! ## octal printing -/

theorem octChar (n : Nat) (h : n < 8) : digitOf (Char.ofNat (n + 48)) = n := by
  interval_cases n <;> decide

theorem octTen_rv (w : W) : rv 8 (octTen w) = w.toNat % 2 ^ 30 := by
  unfold octTen
  have h8 : (8:Nat) ^ 10 = 2 ^ 30 := by norm_num
  rw [rv_range 8 (by norm_num) _ w.toNat, h8]
  intro i _
  have e : ((w >>> (i * 3)) &&& 7#32 : W).toNat = w.toNat / 8 ^ i % 8 := by
    rw [BitVec.toNat_and, BitVec.toNat_ushiftRight, Nat.shiftRight_eq_div_pow]
    have : (7#32 : W).toNat = 2 ^ 3 - 1 := rfl
    rw [this, Nat.and_two_pow_sub_one_eq_mod, Nat.mul_comm, Nat.pow_mul]
  rw [e, octChar _ (Nat.mod_lt _ (by norm_num))]

theorem octTen_length (w : W) : (octTen w).length = 10 := by simp [octTen]

theorem octTen_mem (w : W) : ∀ c ∈ octTen w, digitOf c < 8 := by
  intro c hc
  unfold octTen at hc
  obtain ⟨i, _, rfl⟩ := List.mem_map.1 hc
  have e : ((w >>> (i * 3)) &&& 7#32 : W).toNat < 8 := by
    rw [BitVec.toNat_and]
    exact lt_of_le_of_lt Nat.and_le_right (by decide)
  rw [octChar _ e]; exact e

theorem oct_one (e pre : W) (h : pre.toNat < 4) :
    (((e &&& 1#32) <<< 2) ||| pre).toNat = e.toNat % 2 * 4 + pre.toNat := by
  rw [BitVec.toNat_or, BitVec.toNat_shiftLeft, BitVec.toNat_and, Nat.shiftLeft_eq]
  have : (1#32 : W).toNat = 2 ^ 1 - 1 := rfl
  rw [this, Nat.and_two_pow_sub_one_eq_mod, Nat.mod_eq_of_lt (by omega)]
  have := or_eq_add (a := e.toNat % 2) (b := pre.toNat) (i := 2) (by omega)
  norm_num at this ⊢
  exact this

theorem oct_two (e pre : W) (h : pre.toNat < 2) :
    (((e &&& 3#32) <<< 1) ||| pre).toNat = e.toNat % 4 * 2 + pre.toNat := by
  rw [BitVec.toNat_or, BitVec.toNat_shiftLeft, BitVec.toNat_and, Nat.shiftLeft_eq]
  have : (3#32 : W).toNat = 2 ^ 2 - 1 := rfl
  rw [this, Nat.and_two_pow_sub_one_eq_mod, Nat.mod_eq_of_lt (by omega)]
  have := or_eq_add (a := e.toNat % 4) (b := pre.toNat) (i := 1) (by omega)
  norm_num at this ⊢
  exact this

/-- bits of `pre` that are pending at phase `i` of the octal loop -/
def octPend : Nat → Nat
  | 0 => 0
  | 1 => 2
  | _ => 1

theorem octPush_spec (x : Words) : ∀ (i : Nat) (pre : W), i < 3 → pre.toNat < 2 ^ octPend i →
    (∀ c ∈ (octPush i pre x).1, digitOf c < 8) ∧ (octPush i pre x).2.toNat < 4 ∧
    rv 8 (octPush i pre x).1 + 8 ^ (octPush i pre x).1.length * (octPush i pre x).2.toNat
      = pre.toNat + 2 ^ octPend i * val x := by
  induction x with
  | nil =>
    intro i pre hi hp
    have h4 : pre.toNat < 4 := by interval_cases i <;> simp [octPend] at hp <;> omega
    interval_cases i <;> simp [octPush, rv, val, h4]
  | cons e es ih =>
    intro i pre hi hp
    have he := e.isLt
    interval_cases i
    · simp only [octPend, Nat.pow_zero, Nat.lt_one_iff] at hp
      have h30 : (e >>> 30).toNat = e.toNat / 2 ^ 30 := by
        rw [BitVec.toNat_ushiftRight, Nat.shiftRight_eq_div_pow]
      obtain ⟨h1, h2, h3⟩ := ih 1 (e >>> 30) (by norm_num) (by rw [h30]; simp only [octPend]; omega)
      simp only [octPush, octPend] at h3 ⊢
      refine ⟨?_, h2, ?_⟩
      · intro c hc
        rcases List.mem_append.1 hc with hc | hc
        · exact octTen_mem e c hc
        · exact h1 c hc
      · rw [rv_append, List.length_append, octTen_length, octTen_rv, Nat.pow_add, hp, val]
        generalize rv 8 (octPush 1 (e >>> 30) es).1 = r at *
        generalize 8 ^ (octPush 1 (e >>> 30) es).1.length = p at *
        generalize (octPush 1 (e >>> 30) es).2.toNat = q at *
        rw [h30] at h3
        have h8 : (8:Nat) ^ 10 = 2 ^ 30 := by norm_num
        rw [h8, Nat.mul_assoc, Nat.add_assoc, ← Nat.mul_add, h3]
        omega
    · simp only [octPend] at hp
      have h31 : (e >>> 31).toNat = e.toNat / 2 ^ 31 := by
        rw [BitVec.toNat_ushiftRight, Nat.shiftRight_eq_div_pow]
      have h1' : (e >>> 1).toNat = e.toNat / 2 := by
        rw [BitVec.toNat_ushiftRight, Nat.shiftRight_eq_div_pow]
      obtain ⟨h1, h2, h3⟩ := ih 2 (e >>> 31) (by norm_num) (by rw [h31]; simp only [octPend]; omega)
      simp only [octPush, octPend] at h3 ⊢
      have hone := oct_one e pre (by omega)
      have hlt : e.toNat % 2 * 4 + pre.toNat < 8 := by omega
      refine ⟨?_, h2, ?_⟩
      · intro c hc
        rcases List.mem_append.1 hc with hc | hc
        · rcases List.mem_cons.1 hc with rfl | hc
          · rw [hone, octChar _ hlt]; exact hlt
          · exact octTen_mem _ c hc
        · exact h1 c hc
      · rw [rv_append, List.length_append, List.length_cons, octTen_length, rv, octTen_rv, show 10 + 1 = 11 from rfl, Nat.pow_add, hone,
          octChar _ hlt, h1', val]
        generalize rv 8 (octPush 2 (e >>> 31) es).1 = r at *
        generalize 8 ^ (octPush 2 (e >>> 31) es).1.length = p at *
        generalize (octPush 2 (e >>> 31) es).2.toNat = q at *
        rw [h31] at h3
        have h8 : (8:Nat) ^ 11 = 2 ^ 33 := by norm_num
        rw [h8, Nat.mul_assoc, Nat.add_assoc, ← Nat.mul_add, h3]
        omega
    · simp only [octPend] at hp
      have h1' : (e >>> 2).toNat = e.toNat / 4 := by
        rw [BitVec.toNat_ushiftRight, Nat.shiftRight_eq_div_pow]
      obtain ⟨h1, h2, h3⟩ := ih 0 0#32 (by norm_num) (by simp [octPend])
      simp only [octPush, octPend] at h3 ⊢
      have hone := oct_two e pre (by omega)
      have hlt : e.toNat % 4 * 2 + pre.toNat < 8 := by omega
      refine ⟨?_, h2, ?_⟩
      · intro c hc
        rcases List.mem_append.1 hc with hc | hc
        · rcases List.mem_cons.1 hc with rfl | hc
          · rw [hone, octChar _ hlt]; exact hlt
          · exact octTen_mem _ c hc
        · exact h1 c hc
      · rw [rv_append, List.length_append, List.length_cons, octTen_length, rv, octTen_rv, show 10 + 1 = 11 from rfl, Nat.pow_add, hone,
          octChar _ hlt, h1', val]
        generalize rv 8 (octPush 0 0#32 es).1 = r at *
        generalize 8 ^ (octPush 0 0#32 es).1.length = p at *
        generalize (octPush 0 0#32 es).2.toNat = q at *
        have h8 : (8:Nat) ^ 11 = 2 ^ 33 := by norm_num
        rw [h8, Nat.mul_assoc, Nat.add_assoc, ← Nat.mul_add, h3]
        simp only [BitVec.toNat_ofNat, Nat.zero_mod, Nat.pow_zero]
        omega

theorem natOctal_body (alt : Bool) {x : Words} (hx : x ≠ []) :
    ∃ body, natOctal alt x = (if alt then ['0', 'o'] else []) ++ body ∧ numeral 8 body = some (val x) := by
  unfold natOctal
  have hnan : isNan x = false := by simp [isNan, hx]
  rw [hnan, if_neg (by simp)]
  obtain ⟨h1, h2, h3⟩ := octPush_spec x 0 0#32 (by norm_num) (by simp [octPend])
  simp only
  refine ⟨_, rfl, ?_⟩
  have hs : ∃ s, (if (octPush 0 0#32 x).2 > 0#32 then
      (octPush 0 0#32 x).1 ++ [Char.ofNat ((octPush 0 0#32 x).2.toNat + 48)] else (octPush 0 0#32 x).1) = s ∧
      (∀ c ∈ s, digitOf c < 8) ∧ rv 8 s = val x := by
    refine ⟨_, rfl, ?_⟩
    simp only [octPend, Nat.pow_zero, Nat.one_mul, BitVec.toNat_ofNat, Nat.zero_mod, Nat.zero_add] at h3
    generalize octPush 0 0#32 x = p at *
    by_cases hp : p.2 > 0#32
    · rw [if_pos hp]
      have hc := octChar p.2.toNat (by omega)
      constructor
      · intro c hcm
        rcases List.mem_append.1 hcm with hcm | hcm
        · exact h1 c hcm
        · rw [List.mem_singleton.1 hcm, hc]; omega
      · rw [rv_append]
        simp only [rv, hc, Nat.mul_zero, Nat.add_zero]
        exact h3
    · rw [if_neg hp]
      have : p.2.toNat = 0 := by
        by_contra h; exact hp ((gt_zero_iff _).2 h)
      rw [this, Nat.mul_zero, Nat.add_zero] at h3
      exact ⟨h1, h3⟩
  obtain ⟨s, hs, hs1, hs2⟩ := hs
  rw [hs]
  have hmem := (mem_dropWhile_zero s.reverse (P := fun c => digitOf c < 8) (by decide)).2 (by simpa using hs1)
  have hrv := rv_dropWhile_zero 8 s.reverse
  rw [List.reverse_reverse, hs2] at hrv
  generalize s.reverse.dropWhile (· == '0') = t at hmem hrv
  by_cases ht : t = []
  · rw [if_pos ⟨ht, List.length_pos_iff.2 hx⟩, ← hrv, ht]
    decide
  · rw [if_neg (by tauto), numeral_eq, if_pos ⟨ht, hmem⟩, hrv]

/-! ## decimal printing -/

/-- decimal digits, least significant first, no leading zero, nothing for zero -/
def decRev (n : Nat) : List Char :=
  if n = 0 then [] else Nat.digitChar (n % 10) :: decRev (n / 10)
termination_by n
decreasing_by omega

theorem decChar (d : Nat) (h : d < 10) : digitOf (Nat.digitChar d) = d ∧ Nat.toDigits 10 d = [Nat.digitChar d] := by
  interval_cases d <;> decide

theorem decRev_rv (n : Nat) : rv 10 (decRev n) = n ∧ ∀ c ∈ decRev n, digitOf c < 10 := by
  induction n using Nat.strongRecOn with
  | ind n ih =>
    rw [decRev]
    by_cases h : n = 0
    · rw [if_pos h, h]; simp [rv]
    · rw [if_neg h]
      obtain ⟨h1, h2⟩ := ih (n / 10) (by omega)
      have hd := (decChar (n % 10) (by omega)).1
      constructor
      · rw [rv, h1, hd]; omega
      · intro c hc
        rcases List.mem_cons.1 hc with rfl | hc
        · rw [hd]; omega
        · exact h2 c hc

theorem decRev_last (n : Nat) (hn : n ≠ 0) : ∃ c, (decRev n).getLast? = some c ∧ c ≠ '0' := by
  induction n using Nat.strongRecOn with
  | ind n ih =>
    rw [decRev, if_neg hn]
    by_cases h : n / 10 = 0
    · have e : decRev (n / 10) = [] := by rw [h, decRev]; rfl
      rw [e]
      refine ⟨_, rfl, ?_⟩
      intro hc
      have := (decChar (n % 10) (by omega)).1
      rw [show Nat.digitChar (n % 10) = '0' from hc] at this
      have h0 : digitOf '0' = 0 := by decide
      omega
    · obtain ⟨c, h1, h2⟩ := ih (n / 10) (by omega) h
      refine ⟨c, ?_, h2⟩
      rw [List.getLast?_cons, h1]
      rfl

theorem displayLoop_enc (fuel : Nat) : ∀ n, n < fuel →
    displayLoop fuel (enc n) = .ok ((decRev n).map fun c => [c]) := by
  induction fuel with
  | zero => intro n h; omega
  | succ fuel ih =>
    intro n hn
    rw [displayLoop, ← enc_zero, eqv_enc, decRev]
    by_cases h : n = 0
    · simp [h]
    · have e10 : ([10#32] : Words) = enc 10 := singleton_eq_enc 10#32
      rw [if_neg (by simpa using h), if_neg h, e10, natRem_enc (by norm_num)]
      simp only [bind, Except.bind, assignNatR, isNan_enc, Bool.or_self, Bool.false_eq_true, if_false,
        divInner_enc (by norm_num : (10:Nat) ≠ 0)]
      rw [enc_lt (by omega : n % 10 < 2 ^ 32)]
      simp only
      rw [ih (n / 10) (by omega)]
      simp only [List.map_cons, u32Dec, BitVec.toNat_ofNat, Nat.mod_eq_of_lt (by omega : n % 10 < 2 ^ 32),
        (decChar (n % 10) (by omega)).2]

theorem flatten_singletons (l : List Char) : (l.map fun c => [c]).flatten = l := by
  induction l with
  | nil => rfl
  | cons c cs ih => simp [ih]

theorem natDisplay_enc (n : Nat) :
    natDisplay (enc n) = .ok (if n = 0 then ['0'] else (decRev n).reverse) := by
  unfold natDisplay
  simp only [isNan_enc, Bool.false_eq_true, if_false, val_enc, deepClone_enc, bind, Except.bind,
    displayLoop_enc (n + 1) n (by omega)]
  by_cases h : n = 0
  · subst h; rw [decRev]; rfl
  · rw [if_neg h, if_neg]
    · rw [← List.map_reverse, flatten_singletons]
    · rw [decRev, if_neg h]; simp

theorem natDisplay_numeral (n : Nat) : ∃ s, natDisplay (enc n) = .ok s ∧ numeral 10 s = some n ∧
    (s = ['0'] ∨ s.head? ≠ some '0') := by
  refine ⟨_, natDisplay_enc n, ?_⟩
  by_cases h : n = 0
  · subst h
    rw [if_pos rfl]
    exact ⟨by decide, Or.inl rfl⟩
  · rw [if_neg h]
    obtain ⟨h1, h2⟩ := decRev_rv n
    obtain ⟨c, h3, h4⟩ := decRev_last n h
    refine ⟨?_, Or.inr ?_⟩
    · rw [numeral_eq, List.reverse_reverse, h1, if_pos]
      refine ⟨?_, by simpa using h2⟩
      rw [decRev, if_neg h]; simp
    · rw [List.head?_reverse, h3]
      simpa using h4

end RMath
