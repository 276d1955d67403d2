import Verif.Model.RandText
import Verif.Model.RandMsg
import Mathlib.Tactic.IntervalCases
import Mathlib.Tactic.Linarith

/-!
# C132 What the errors of the system generators say
-/

namespace RMath

/-! ## Specification -/

/-- the bytes that the system call read for this request -/
def readNow (sys : Option (List Byte)) : ℕ := (sys.getD []).length

/-- the text "only read `n` bytes random bytes from the system", `n` in decimal digits -/
def OnlyRead (n : ℕ) (t : List Char) : Prop := t = ("only read " ++ toString n ++ " bytes random bytes from the system").toList

/-- the texts of a result are forgotten -/
def forget {α : Type} : Except RandError α → Except RandErr α
  | .ok v => .ok v
  | .error e => .error e.1

/-- the texts of a statement's result are forgotten -/
def WinOutM.forget : WinOutM → WinOut
  | .done => .done
  | .word v => .word v
  | .err e => .err e.1

/-! ## Proof -/

theorem linuxText_eq (n : ℕ) : OnlyRead n (linuxText n) := by
  have h : (toString n).toList = Nat.toDigits 10 n := String.toList_ofList
  unfold OnlyRead linuxText
  rw [String.toList_append, String.toList_append, h]

theorem digits_last {n : ℕ} (h : 16 ≤ n) : Nat.toDigits 16 n = Nat.toDigits 16 (n / 16) ++ [Nat.digitChar (n % 16)] :=
  Nat.toDigits_of_base_le (by norm_num) h

theorem digitChar_inj {a b : ℕ} (ha : a < 16) (hb : b < 16) (h : Nat.digitChar a = Nat.digitChar b) : a = b := by
  interval_cases a <;> interval_cases b <;> first | rfl | (exfalso; revert h; decide)

theorem hexDigits_inj : ∀ {a b : ℕ}, Nat.toDigits 16 a = Nat.toDigits 16 b → a = b := by
  have hpos : ∀ n, Nat.toDigits 16 n ≠ [] := by
    intro n
    by_cases h : n < 16
    · rw [Nat.toDigits_of_lt_base h]; simp
    · rw [digits_last (by omega)]; simp
  intro a
  induction a using Nat.strong_induction_on with
  | _ a ih =>
    intro b h
    by_cases ha : a < 16 <;> by_cases hb : b < 16
    · rw [Nat.toDigits_of_lt_base ha, Nat.toDigits_of_lt_base hb] at h
      exact digitChar_inj ha hb (by simpa using h)
    · rw [Nat.toDigits_of_lt_base ha, digits_last (by omega)] at h
      exact absurd (congrArg List.length h) (by have := List.length_pos_iff.2 (hpos (b / 16)); simp)
    · rw [Nat.toDigits_of_lt_base hb, digits_last (by omega)] at h
      exact absurd (congrArg List.length h) (by have := List.length_pos_iff.2 (hpos (a / 16)); simp)
    · rw [digits_last (n := a) (by omega), digits_last (n := b) (by omega)] at h
      obtain ⟨h1, h2⟩ := List.append_inj' h rfl
      have e1 := ih (a / 16) (by omega) h1
      have e2 := digitChar_inj (Nat.mod_lt _ (by norm_num)) (Nat.mod_lt _ (by norm_num)) (by simpa using h2)
      omega

theorem comma_hexDigits (n : ℕ) : ',' ∉ Nat.toDigits 16 n := by
  induction n using Nat.strong_induction_on with
  | _ n ih =>
    have hd : ∀ d, d < 16 → ',' ≠ Nat.digitChar d := by
      intro d hd
      interval_cases d <;> decide
    by_cases h : n < 16
    · rw [Nat.toDigits_of_lt_base h]
      simpa using hd n h
    · rw [digits_last (by omega), List.mem_append, not_or]
      exact ⟨ih _ (by omega), by simpa using hd _ (Nat.mod_lt n (by norm_num))⟩

/-- two lists that agree up to the first separator -/
theorem split_sep {c : Char} : ∀ {l m r s : List Char}, c ∉ l → c ∉ m → l ++ c :: r = m ++ c :: s → l = m ∧ r = s
  | [], [], _, _, _, _, h => ⟨rfl, by simpa using h⟩
  | [], y :: m, _, _, _, hm, h => by simp only [List.nil_append, List.cons_append, List.cons.injEq] at h; exact absurd (h.1 ▸ List.mem_cons_self) hm
  | x :: l, [], _, _, hl, _, h => by simp only [List.nil_append, List.cons_append, List.cons.injEq] at h; exact absurd (h.1 ▸ List.mem_cons_self) hl
  | x :: l, y :: m, _, _, hl, hm, h => by
    simp only [List.cons_append, List.cons.injEq] at h
    have := split_sep (fun hx => hl (List.mem_cons_of_mem _ hx)) (fun hx => hm (List.mem_cons_of_mem _ hx)) h.2
    exact ⟨by rw [h.1, this.1], this.2⟩

theorem assoc_text (A B D C m E r : List Char) (c : Char) :
    A ++ (B ++ D) ++ c :: C ++ m ++ E ++ r = A ++ (B ++ (D ++ c :: (C ++ (m ++ (E ++ r))))) := by simp

theorem assoc_debug (A n B t E : List Char) (c : Char) : A ++ n ++ c :: B ++ t ++ E = A ++ (n ++ c :: (B ++ (t ++ E))) := by simp

/-- **C132, Windows**: the text of an error determines the status and the call that failed. -/
theorem C132_windows_text {st st' : BitVec 32} {src src' : List Char} (h : ntText st src = ntText st' src') : st = st' ∧ src = src' := by
  have key : ∀ (s : BitVec 32) (r : List Char), ntText s r =
      "code: ".toList ++ ("0x".toList ++ (Nat.toDigits 16 s.toNat ++ ',' :: (" msg: ".toList ++ (ntMsg s ++ (", source: ".toList ++ r))))) := by
    intro s r
    have hc : ", msg: ".toList = ',' :: " msg: ".toList := by decide +kernel
    unfold ntText
    rw [hc]
    exact assoc_text ..
  rw [key, key, List.append_cancel_left_eq, List.append_cancel_left_eq] at h
  obtain ⟨h1, h2⟩ := split_sep (comma_hexDigits _) (comma_hexDigits _) h
  have e : st = st' := BitVec.eq_of_toNat_eq (hexDigits_inj h1)
  subst e
  rw [List.append_cancel_left_eq, List.append_cancel_left_eq, List.append_cancel_left_eq] at h2
  exact ⟨rfl, h2⟩

/-- the statuses that are explained, as Windows documents them: `STATUS_INVALID_HANDLE`, `STATUS_INVALID_PARAMETER`, `STATUS_NO_MEMORY`,
`STATUS_NOT_FOUND` -/
def ntExplained : List (ℕ × String) :=
  [(0xC0000008, "invalid handle was specified"), (0xC000000D, "An invalid parameter was passed to a service or function"),
    (0xC0000017, "Not enough virtual memory or paging file quota is available to complete the specified operation"), (0xC0000225, "The object not found")]

/-- **C132, Windows**: the text consists of the status in hexadecimal, its explanation, if it has one, and the call that failed. -/
theorem C132_windows_explained (st : BitVec 32) (src : List Char) :
    ntText st src = "code: 0x".toList ++ Nat.toDigits 16 st.toNat ++ ", msg: ".toList ++ ((ntExplained.lookup st.toNat).getD "").toList ++
      ", source: ".toList ++ src := by
  have hc : "code: 0x".toList = "code: ".toList ++ "0x".toList := by decide +kernel
  have hm : ntMsg st = ((ntExplained.lookup st.toNat).getD "").toList := by
    by_cases h1 : st = 0xC0000008#32
    · subst h1; decide +kernel
    by_cases h2 : st = 0xC0000017#32
    · subst h2; decide +kernel
    by_cases h3 : st = 0xC000000D#32
    · subst h3; decide +kernel
    by_cases h4 : st = 0xC0000225#32
    · subst h4; decide +kernel
    have ne : ∀ k : BitVec 32, st ≠ k → (st.toNat == k.toNat) = false := fun k hk => by
      rw [beq_eq_false_iff_ne]
      exact fun e => hk (BitVec.eq_of_toNat_eq e)
    unfold ntMsg ntExplained
    rw [if_neg h1, if_neg h2, if_neg h3, if_neg h4]
    have n1 : (st.toNat == 0xC0000008) = false := ne _ h1
    have n2 : (st.toNat == 0xC0000017) = false := ne _ h2
    have n3 : (st.toNat == 0xC000000D) = false := ne _ h3
    have n4 : (st.toNat == 0xC0000225) = false := ne _ h4
    simp only [List.lookup, n1, n2, n3, n4, Option.getD_none]
    rfl
  unfold ntText
  rw [hm, hc, List.append_assoc "code: ".toList "0x".toList]

/-- On Windows a statement with texts does what the statement without does, and an error has a text that names the status. -/
theorem C132_windows (st : WinState) (c : WinCmd) :
    c.step st = (do let p ← c.stepM st; .ok (p.1.forget, p.2)) ∧
    ∀ e p, c.stepM st = .ok (.err e, p) → e.1 = .innerErr ∧
      ((∃ s h, c = .create s h ∧ s ≠ 0#32 ∧ e.2 = ntText s "BCryptOpenAlgorithmProvider".toList) ∨
       ∃ i s bytes, c = .gen i s bytes ∧ s ≠ 0#32 ∧ e.2 = ntText s "BCryptGenRandom".toList) := by
  cases c with
  | create s h =>
    by_cases hs : s = 0#32
    · simp [WinCmd.step, WinCmd.stepM, hs, WinOutM.forget, bind, Except.bind]
    · simp only [WinCmd.step, WinCmd.stepM, hs, if_false, Except.ok.injEq, Prod.mk.injEq, WinOutM.err.injEq]
      refine ⟨rfl, ?_⟩
      rintro e p ⟨rfl, _⟩
      exact ⟨rfl, .inl ⟨_, _, rfl, hs, rfl⟩⟩
  | clone i =>
    rcases hb : st.box i with e | ⟨k, h, c⟩ <;> simp [WinCmd.step, WinCmd.stepM, hb, bind, Except.bind, WinOutM.forget]
  | gen i s bytes =>
    rcases hb : st.box i with e | ⟨k, h, c⟩
    · simp [WinCmd.step, WinCmd.stepM, hb, bind, Except.bind]
    · by_cases hs : s = 0#32
      · simp [WinCmd.step, WinCmd.stepM, hb, bind, Except.bind, hs, WinOutM.forget]
      · simp only [WinCmd.step, WinCmd.stepM, hb, bind, Except.bind, hs, if_false, Except.ok.injEq, Prod.mk.injEq, WinOutM.err.injEq]
        refine ⟨⟨rfl, trivial⟩, ?_⟩
        rintro e p ⟨rfl, _⟩
        exact ⟨rfl, .inr ⟨_, _, _, rfl, hs, rfl⟩⟩
  | reset i =>
    rcases hb : st.box i with e | ⟨k, h, c⟩ <;> simp [WinCmd.step, WinCmd.stepM, hb, bind, Except.bind, WinOutM.forget]
  | drop i =>
    rcases hb : st.box i with e | ⟨k, h, c⟩ <;> simp [WinCmd.step, WinCmd.stepM, hb, bind, Except.bind, WinOutM.forget]

example : ntText 0xC000000D#32 "BCryptGenRandom".toList =
    "code: 0xc000000d, msg: An invalid parameter was passed to a service or function, source: BCryptGenRandom".toList := by decide +kernel

/-- pushing bytes to the front -/
theorem pushed_length (l q : List Byte) : (l.foldl (fun q x => x :: q) q).length = l.length + q.length := by
  induction l generalizing q with
  | nil => simp
  | cons x l ih => rw [List.foldl_cons, ih]; simp; omega

/-- On Linux `gen` with texts does what `gen` without does; an error is an `InnerErr` whose number is the number of bytes buffered before
plus that of the bytes just read, which are fewer than a word has. -/
theorem C132_linux {len : ℕ} {q : List Byte} {sys : Option (List Byte)} :
    cryptoGen len q sys = (do let p ← cryptoGenM len q sys; .ok (forget p.1, p.2)) ∧
    ∀ e q', cryptoGenM len q sys = .ok (.error e, q') → e.1 = .innerErr ∧ OnlyRead (q.length + readNow sys) e.2 ∧
      q.length + readNow sys < len ∧ q'.length = q.length + readNow sys := by
  have hl := pushed_length (sys.getD []) q
  simp only [cryptoGen, cryptoGenM, genRandom, genRandomM]
  generalize (sys.getD []).foldl (fun q x => x :: q) q = d at hl
  have hl' : d.length = q.length + readNow sys := by rw [hl, Nat.add_comm]; rfl
  by_cases h1 : len < (sys.getD []).length
  · simp [h1, bind, Except.bind]
  · by_cases h2 : d.length < len
    · simp only [h1, h2, if_true, if_false, bind, Except.bind, Except.ok.injEq, Prod.mk.injEq, Except.error.injEq]
      refine ⟨⟨rfl, trivial⟩, ?_⟩
      rintro e q' ⟨rfl, rfl⟩
      exact ⟨rfl, by rw [← hl']; exact linuxText_eq _, by rw [← hl']; exact h2, hl'⟩
    · simp [h1, h2, bind, Except.bind, forget]

theorem toString_inj' {a b : ℕ} (h : (toString a).toList = (toString b).toList) : a = b := by
  have h' : Nat.toDigits 10 a = Nat.toDigits 10 b := by
    have e : ∀ n : ℕ, (toString n).toList = Nat.toDigits 10 n := fun _ => String.toList_ofList
    rwa [e, e] at h
  rw [← Nat.ofDigitChars_ten_toDigits (n := a), h', Nat.ofDigitChars_ten_toDigits]

/-- the number in the text is determined -/
theorem OnlyRead.inj {a b : ℕ} {t : List Char} (ha : OnlyRead a t) (hb : OnlyRead b t) : a = b := by
  simp only [OnlyRead] at ha hb
  rw [ha] at hb
  simp only [String.toList_append, List.append_assoc] at hb
  rw [List.append_cancel_left_eq] at hb
  exact toString_inj' (List.append_cancel_right_eq .. ▸ hb)

/-- **C132, Linux**, if nothing was buffered: the number in the text is that of the bytes that the system gave.  *Missing:* bytes left from a
call before, which are counted as well (`C132_linux_violated`). -/
theorem C132_linux_partial {len : ℕ} {q : List Byte} {sys : Option (List Byte)} {e : RandError} {q' : List Byte}
    (h : cryptoGenM len q sys = .ok (.error e, q')) : OnlyRead (readNow sys) e.2 ↔ q = [] := by
  obtain ⟨_, h2, _⟩ := C132_linux.2 e q' h
  constructor
  · intro h'
    have := h'.inj h2
    exact List.eq_nil_of_length_eq_zero (by omega)
  · rintro rfl
    simpa using h2

example : ∃ e q', cryptoGenM 4 [] (some [1#8, 2#8]) = .ok (.error e, q') ∧ OnlyRead 2 e.2 := ⟨_, _, rfl, rfl⟩

/-- **C132 is violated** on Linux: the second call of `gen` reads nothing at all, or one byte, and says that it read two, or three. -/
theorem C132_linux_violated :
    (∃ e₁ e₂ q, cryptoRunM 4 [] [some [1#8, 2#8], none] = .ok ([.error e₁, .error e₂], q) ∧ OnlyRead 2 e₁.2 ∧ OnlyRead 2 e₂.2) ∧
    ∃ e₁ e₂ q, cryptoRunM 4 [] [some [1#8, 2#8], some [3#8]] = .ok ([.error e₁, .error e₂], q) ∧ OnlyRead 2 e₁.2 ∧ OnlyRead 3 e₂.2 :=
  ⟨⟨_, _, _, rfl, rfl, rfl⟩, ⟨_, _, _, rfl, rfl, rfl⟩⟩

/-- the names of the kinds are different and have no comma -/
theorem name_inj {a b : RandErr} (h : a.name = b.name) : a = b := by
  revert h
  cases a <;> cases b <;> decide

theorem comma_name (a : RandErr) : ',' ∉ a.name := by cases a <;> decide

/-- **C132** for `{:?}`: it determines the kind and the text. -/
theorem C132_debug {e e' : RandError} (h : errDebug e = errDebug e') : e = e' := by
  have key : ∀ e : RandError, errDebug e =
      "RandError { kind: ".toList ++ (e.1.name ++ ',' :: (" error: Some(\"".toList ++ (e.2 ++ "\") }".toList))) := by
    intro e
    have hc : ", error: Some(\"".toList = ',' :: " error: Some(\"".toList := by decide +kernel
    unfold errDebug
    rw [hc]
    exact assoc_debug ..
  rw [key, key, List.append_cancel_left_eq] at h
  obtain ⟨h1, h2⟩ := split_sep (comma_name _) (comma_name _) h
  rw [List.append_cancel_left_eq, List.append_cancel_right_eq] at h2
  exact Prod.ext (name_inj h1) h2

example : errDebug (.invalidRngPara, "r must be less than w".toList) =
    "RandError { kind: InvalidRngPara, error: Some(\"r must be less than w\") }".toList := by decide +kernel

/-- **C132 is violated** for `{}`: the processor that has no random number, the processor that has no seed and a modulus 0 all say nothing. -/
theorem C132_display_violated {b : ℕ} (a c : BitVec b) (sd : Except (RandErr × String) (BitVec b)) (o o' : BitVec b) :
    ∃ e₁ e₂ e₃, hwGenM 0 o = .error e₁ ∧ hwSeedM 0 o' = .error e₂ ∧ lcgNewM sd a c 0#b = .error e₃ ∧
      errDisplay e₁ = [] ∧ errDisplay e₂ = [] ∧ e₃.2 = "" ∧ e₁.1 = .noNewRandNumberGen ∧ e₂.1 = .noNewRandSeedGen ∧ e₃.1 = .divisorIsZero :=
  ⟨_, _, (.divisorIsZero, ""), rfl, rfl, by simp [lcgNewM], rfl, rfl, rfl, rfl, rfl, rfl⟩

/-- The processor's generators with texts do what those without do. -/
theorem C132_processor {b : ℕ} (flag : ℕ) (o : BitVec b) :
    forget (hwGenM flag o) = (if 0 < flag then .ok o else .error .noNewRandNumberGen) ∧
    forget (hwSeedM flag o) = (if 0 < flag then .ok o else .error .noNewRandSeedGen) ∧
    hwGen flag o = forget (hwGenM flag o) ∧ hwSeed flag o = forget (hwSeedM flag o) := by
  unfold hwGenM hwSeedM hwGen hwSeed
  split <;> exact ⟨rfl, rfl, rfl, rfl⟩

end RMath
