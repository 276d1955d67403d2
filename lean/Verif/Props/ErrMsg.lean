import Verif.Model.ErrMsg
import Verif.Props.ErrKind
import Verif.Lemmas.FloatParse

/-!
# C128 The messages of the errors of `from_str`
-/

namespace RMath

/-! ## Proof -/

theorem checkBaseM_toOption (w t : List Char) : ∀ i, (checkBaseM w i t).toOption = checkBase i t := by
  induction t with
  | nil => intro i; rfl
  | cons c cs ih =>
    intro i
    unfold checkBaseM checkBase
    by_cases h : c = '+' ∨ c = ' '
    · rw [if_pos h, if_pos h]; exact ih _
    rw [if_neg h, if_neg h]
    by_cases h1 : '0' ≤ c ∧ c ≤ '9'
    · rw [if_pos h1, if_pos h1]
      cases cs with
      | nil => rfl
      | cons x xs =>
        dsimp only
        split_ifs <;> rfl
    · rw [if_neg h1, if_neg h1]; rfl

theorem decCharsM_toOption (t : List Char) : (decCharsM t).toOption = decChars t := by
  induction t with
  | nil => rfl
  | cons c cs ih =>
    unfold decCharsM decChars
    split
    · rw [← ih]
      cases decCharsM cs <;> rfl
    · rfl

theorem packCharsM_toOption (dig : Char → Option W) (bits per : Nat) (t : List Char) : ∀ j tmp,
    packChars dig bits per j tmp t = (packCharsM dig bits per j tmp t).map Except.toOption := by
  induction t with
  | nil => intro j tmp; rfl
  | cons c cs ih =>
    intro j tmp
    unfold packCharsM packChars
    cases dig c with
    | none => rfl
    | some n =>
      dsimp only
      split
      · rfl
      · split
        · rw [ih]
          rcases packCharsM dig bits per 0 0#32 cs with e | (m | r) <;> rfl
        · exact ih _ _

theorem octLoopM_toOption (t : List Char) : ∀ j tmp, octLoop j tmp t = (octLoopM j tmp t).map Except.toOption := by
  induction t with
  | nil => intro j tmp; rfl
  | cons c cs ih =>
    intro j tmp
    unfold octLoopM octLoop
    by_cases h : '0' ≤ c ∧ c ≤ '7'
    · rw [if_pos h, if_pos h]
      dsimp only
      split
      · split
        · rfl
        · rw [ih]
          rcases octLoopM (j + 3 - 32) (BitVec.ofNat 32 (c.toNat - 48) >>> (32 - j)) cs with e | (m | r) <;> rfl
      · split
        · rfl
        · exact ih _ _
    · rw [if_neg h, if_neg h]; rfl

theorem finishM_toOption (s : List Char) (r : Res (Except (List Char) (Words × W))) :
    packFinish s (r.map Except.toOption) = (finishM s r).map Except.toOption := by
  rcases r with e | (m | ⟨v, tmp⟩) <;> rfl

/-- forgetting the message -/
def kindOnly {κ α : Type} : Except (κ × List Char) α → Except κ α
  | .error m => .error m.1
  | .ok a => .ok a

theorem kind_withMsg {α : Type} (k : ParseErrKind) (r : Except (List Char) α) : withKind k r.toOption = kindOnly (withMsg k r) := by
  cases r <;> rfl

theorem kind_map {α : Type} (k : ParseErrKind) (r : Res (Except (List Char) α)) :
    (r.map Except.toOption).map (withKind k) = (r.map (withMsg k)).map kindOnly := by
  rcases r with e | (m | v) <;> rfl

theorem natParseM_kind (s : List Char) : natParseE s = (natParseM s).map kindOnly := by
  unfold natParseE natParseM
  dsimp only
  rw [← checkBaseM_toOption (strTrim s)]
  rcases checkBaseM (strTrim s) 0 (strTrim s) with m | ⟨i, base⟩
  · rfl
  · simp only [Except.toOption]
    generalize (strTrim s).drop i = t
    split_ifs
    · rw [fromBinStr, packCharsM_toOption, finishM_toOption, kind_map]
    · rw [fromOctStr, octLoopM_toOption, finishM_toOption, kind_map]
    · rw [show fromDecStr t = (fromDecStrM t).toOption from ?_, kind_withMsg]
      · rfl
      · unfold fromDecStr fromDecStrM
        dsimp only
        split_ifs
        · rfl
        · rfl
        · rw [← decCharsM_toOption]
          cases decCharsM (t.dropWhile (· == '0')) <;> rfl
    · rw [fromHexStr, packCharsM_toOption, finishM_toOption, kind_map]
    · rfl

theorem bParseM_kind (s : List Char) : bParseE s = (bParseM s).map kindOnly := by
  unfold bParseE bParseM
  dsimp only
  cases strTrim s with
  | nil => rfl
  | cons c cs =>
    dsimp only
    rw [natParseM_kind]
    rcases natParseM (if c = '-' then cs else c :: cs) with e | (m | v) <;> rfl

/-- the characters of `t` up to the first illegal one, in the order of the loop -/
theorem decCharsM_error {t u : List Char} {c : Char} (h : ∀ d ∈ t, digitOf d < 10) (hc : ¬ digitOf c < 10) :
    decCharsM (t ++ c :: u) = .error (illegalChar c) := by
  induction t with
  | nil => rw [List.nil_append, decCharsM, if_neg (fun g => hc ((decDigit_iff c).1 g))]
  | cons d ds ih =>
    rw [List.cons_append, decCharsM, if_pos ((decDigit_iff d).2 (h d (by simp))), ih (fun e he => h e (by simp [he]))]
    rfl

theorem packCharsM_error {dig : Char → Option W} {bits per : Nat} {t u : List Char} {c : Char} (hc : dig c = none)
    (h : ∀ d ∈ t, dig d ≠ none) : ∀ j tmp, packCharsM dig bits per j tmp (t ++ c :: u) = .ok (.error (illegalChar c)) ∨
      packCharsM dig bits per j tmp (t ++ c :: u) = .error .panic := by
  induction t with
  | nil => intro j tmp; rw [List.nil_append, packCharsM, hc]; exact .inl rfl
  | cons d ds ih =>
    intro j tmp
    have ih := ih (fun e he => h e (by simp [he]))
    rw [List.cons_append, packCharsM]
    cases hd : dig d with
    | none => exact absurd hd (h d (by simp))
    | some n =>
      dsimp only
      split
      · exact .inr rfl
      · split
        · rcases ih 0 0#32 with g | g <;> rw [g]
          · exact .inl rfl
          · exact .inr rfl
        · exact ih _ _

theorem octLoopM_error {t u : List Char} {c : Char} (hc : ¬ digitOf c < 8)
    (h : ∀ d ∈ t, digitOf d < 8) : ∀ j tmp, octLoopM j tmp (t ++ c :: u) = .ok (.error (illegalChar c)) ∨
      octLoopM j tmp (t ++ c :: u) = .error .panic := by
  induction t with
  | nil => intro j tmp; rw [List.nil_append, octLoopM, if_neg (fun g => hc ((octDigit_iff c).1 g))]; exact .inl rfl
  | cons d ds ih =>
    intro j tmp
    have ih := ih (fun e he => h e (by simp [he]))
    rw [List.cons_append, octLoopM, if_pos ((octDigit_iff d).2 (h d (by simp)))]
    dsimp only
    split
    · split
      · exact .inr rfl
      · rcases ih (j + 3 - 32) (BitVec.ofNat 32 (d.toNat - 48) >>> (32 - j)) with g | g <;> rw [g]
        · exact .inl rfl
        · exact .inr rfl
    · split
      · exact .inr rfl
      · exact ih _ _

/-- there is never a panic -/
theorem natParseM_ok (s : List Char) : natParseM s ≠ .error .panic := by
  intro h
  have h1 := natParseM_kind s
  rw [h] at h1
  have h2 := natParseE_toOption s
  rw [h1] at h2
  rw [natParse_eq] at h2
  exact absurd h2 (by simp [Except.map])

/-- what is left after the white space around the text -/
theorem trim_body {ws pre body ws' : List Char} {f l : Char} (h1 : ∀ c ∈ ws, WhiteSpace c) (h2 : ∀ c ∈ ws', WhiteSpace c)
    (h3 : ∀ c ∈ pre, c = '+' ∨ c = ' ') (hf : body.head? = some f) (hf' : ¬ WhiteSpace f) (hl : body.getLast? = some l) (hl' : ¬ WhiteSpace l) :
    ∃ pre', strTrim (ws ++ pre ++ body ++ ws') = pre' ++ body ∧ ∀ c ∈ pre', c = '+' ∨ c = ' ' := by
  have hr : ∀ x : List Char, rtrim (x ++ body ++ ws') = x ++ body := by
    intro x
    unfold rtrim
    rw [List.reverse_append, dropWhile_all (fun c hc => (isWhite_iff c).2 (h2 c (List.mem_reverse.1 hc))), List.reverse_append]
    have : ∃ r, body.reverse = l :: r := by
      have := List.head?_reverse (l := body)
      rw [hl] at this
      cases hb : body.reverse with
      | nil => rw [hb] at this; simp at this
      | cons a r => rw [hb] at this; simp at this; exact ⟨r, by rw [this]⟩
    obtain ⟨r, hrev⟩ := this
    rw [hrev, List.cons_append, List.dropWhile_cons, if_neg (by rw [isWhite_iff]; exact hl'), ← List.cons_append, ← hrev,
      List.reverse_append, List.reverse_reverse, List.reverse_reverse]
  have hd : ∀ p : List Char, (∀ c ∈ p, c = '+' ∨ c = ' ') →
      ∃ pre', (p ++ (body ++ ws')).dropWhile isWhite = pre' ++ (body ++ ws') ∧ ∀ c ∈ pre', c = '+' ∨ c = ' ' := by
    intro p
    induction p with
    | nil =>
      intro _
      refine ⟨[], ?_, by simp⟩
      cases body with
      | nil => simp at hf
      | cons b bs =>
        simp only [List.head?_cons, Option.some.injEq] at hf
        subst hf
        rw [List.nil_append, List.cons_append, List.dropWhile_cons, if_neg (by rw [isWhite_iff]; exact hf')]
    | cons c cs ih =>
      intro hp
      by_cases hc : isWhite c = true
      · obtain ⟨p', e1, e2⟩ := ih (fun d hd => hp d (by simp [hd]))
        exact ⟨p', by rw [List.cons_append, List.dropWhile_cons, if_pos hc, e1], e2⟩
      · exact ⟨c :: cs, by rw [List.cons_append, List.dropWhile_cons, if_neg hc], hp⟩
  obtain ⟨pre', e1, e2⟩ := hd pre h3
  refine ⟨pre', ?_, e2⟩
  rw [strTrim_eq, List.append_assoc, List.append_assoc, dropWhile_all (fun c hc => (isWhite_iff c).2 (h1 c hc)), e1,
    ← List.append_assoc, hr]

theorem checkBaseM_signs (w : List Char) {pre body : List Char} (h : ∀ c ∈ pre, c = '+' ∨ c = ' ') :
    ∀ i, checkBaseM w i (pre ++ body) = checkBaseM w (i + pre.length) body := by
  induction pre with
  | nil => intro i; rfl
  | cons c cs ih =>
    intro i
    rw [List.cons_append, checkBaseM.eq_def]
    dsimp only
    rw [if_pos (h c (by simp)), ih (fun d hd => h d (by simp [hd])), List.length_cons]
    congr 1
    omega

/-! ## C128 -/

/-- The model with messages agrees with the one with kinds only. -/
theorem C128_kinds (s : List Char) : natParseE s = (natParseM s).map kindOnly ∧ bParseE s = (bParseM s).map kindOnly :=
  ⟨natParseM_kind s, bParseM_kind s⟩

/-- A text without numeral: empty, nothing but blanks and plus signs, or the first character that is neither is named; after a `0` the
next one is named as well. -/
theorem C128_begin (ws pre body ws' : List Char) (h1 : ∀ c ∈ ws, WhiteSpace c) (h2 : ∀ c ∈ ws', WhiteSpace c)
    (h3 : ∀ c ∈ pre, c = '+' ∨ c = ' ') :
    (natParseM ws = .ok (.error (.beginWithIllegalChar, "empty string".toList))) ∧
    ('+' ∈ pre → natParseM (ws ++ pre ++ ws') = .ok (.error (.beginWithIllegalChar, "all char is +".toList))) ∧
    (∀ c cs l, body = c :: cs → c ≠ '+' → ¬ WhiteSpace c → body.getLast? = some l → ¬ WhiteSpace l → ¬ digitOf c < 10 →
      natParseM (ws ++ pre ++ body ++ ws') = .ok (.error (.beginWithIllegalChar, "begin with illegal char ".toList ++ [c]))) ∧
    (∀ x cs l, body = '0' :: x :: cs → x ∉ ['o', 'b', 'B', 'x', 'X'] → body.getLast? = some l → ¬ WhiteSpace l →
      natParseM (ws ++ pre ++ body ++ ws') = .ok (.error (.beginWithIllegalChar, "begin with illegal char 0".toList ++ [x]))) := by
  have hskip : ∀ w i, (∀ c ∈ w, c = '+' ∨ c = ' ') → ∀ u, checkBaseM u i w =
      .error (if 0 < u.length then "all char is +".toList else "empty string".toList) := by
    intro w i h u
    have := checkBaseM_signs u (body := []) h i
    rw [List.append_nil] at this
    rw [this]
    rfl
  refine ⟨?_, ?_, ?_, ?_⟩
  · unfold natParseM
    have : strTrim ws = [] := by
      have := dropWhile_all (fun c hc => (isWhite_iff c).2 (h1 c hc)) []
      rw [List.append_nil] at this
      rw [strTrim_eq, this]
      rfl
    rw [this]
    rfl
  · intro hp
    obtain ⟨b, a, e, hb⟩ := List.eq_append_cons_of_mem (List.mem_reverse.2 hp)
    have e : pre = a.reverse ++ '+' :: b.reverse := by
      have := congrArg List.reverse e
      simpa using this
    have hbw : ∀ c ∈ b.reverse ++ ws', WhiteSpace c := by
      intro c hc
      rcases List.mem_append.1 hc with g | g
      · rcases h3 c (by rw [e]; simp [List.mem_reverse.1 g]) with rfl | rfl
        · exact absurd (List.mem_reverse.1 g) hb
        · exact (isWhite_iff _).1 rfl
      · exact h2 c g
    obtain ⟨p, e1, hp1⟩ := trim_body (body := ['+']) (f := '+') (l := '+') (pre := a.reverse) h1 hbw
      (fun c hc => h3 c (by rw [e]; simp [List.mem_reverse.1 hc])) rfl (by rw [← isWhite_iff]; decide) rfl (by rw [← isWhite_iff]; decide)
    have e2 : ws ++ pre ++ ws' = ws ++ a.reverse ++ ['+'] ++ (b.reverse ++ ws') := by rw [e]; simp
    unfold natParseM
    rw [e2, e1]
    dsimp only
    rw [hskip _ _ (by
      intro c hc
      rcases List.mem_append.1 hc with g | g
      · exact hp1 c g
      · exact .inl (by simpa using g))]
    rw [if_pos (by simp)]
  · intro c cs l hb hc1 hc2 hl hl' hc3
    obtain ⟨p, e, hp⟩ := trim_body (f := c) h1 h2 h3 (by rw [hb]; rfl) hc2 hl hl'
    unfold natParseM
    rw [e]
    dsimp only
    have hn : ¬ (c = '+' ∨ c = ' ') := by
      rintro (rfl | rfl)
      · exact hc1 rfl
      · exact hc2 ((isWhite_iff _).1 rfl)
    rw [checkBaseM_signs _ hp, hb, checkBaseM.eq_def]
    dsimp only
    rw [if_neg hn, if_neg (fun g => hc3 ((decDigit_iff c).1 g))]
  · intro x cs l hb hx hl hl'
    obtain ⟨p, e, hp⟩ := trim_body (f := '0') h1 h2 h3 (by rw [hb]; rfl) (by rw [← isWhite_iff]; decide) hl hl'
    unfold natParseM
    rw [e]
    dsimp only
    simp only [List.mem_cons, List.not_mem_nil, or_false, not_or] at hx
    rw [checkBaseM_signs _ hp, hb, checkBaseM, if_neg (by decide), if_pos (by decide), if_pos rfl, if_neg hx.1,
      if_neg (by tauto), if_neg (by tauto)]
    rfl

/-- A decimal numeral: the first character that is not a digit is named. -/
theorem C128_decimal (ws pre body ws' : List Char) (h1 : ∀ c ∈ ws, WhiteSpace c) (h2 : ∀ c ∈ ws', WhiteSpace c)
    (h3 : ∀ c ∈ pre, c = '+' ∨ c = ' ') (d c l : Char) (ds post : List Char) (hb : body = d :: ds ++ c :: post) (hd0 : d ≠ '0')
    (hd : ∀ e ∈ d :: ds, digitOf e < 10) (hc : ¬ digitOf c < 10) (hl : body.getLast? = some l) (hl' : ¬ WhiteSpace l) :
    natParseM (ws ++ pre ++ body ++ ws') = .ok (.error (.illegalCharEncounter, "illegal char ".toList ++ [c])) := by
  have hd1 := hd d (by simp)
  obtain ⟨p, e, hp⟩ := trim_body (f := d) h1 h2 h3 (by rw [hb]; rfl) (by rw [← isWhite_iff, not_white (by omega)]; simp) hl hl'
  unfold natParseM
  rw [e]
  dsimp only
  rw [checkBaseM_signs _ hp]
  have hcb : checkBaseM (p ++ body) (0 + p.length) body = .ok (0 + p.length, 10) := by
    obtain ⟨x, xs, hx⟩ : ∃ x xs, ds ++ c :: post = x :: xs := by
      cases ds with
      | nil => exact ⟨_, _, rfl⟩
      | cons a as => exact ⟨_, _, rfl⟩
    have hn : ¬ (d = '+' ∨ d = ' ') := by
      rintro (rfl | rfl) <;> exact absurd hd1 (by decide)
    rw [hb, List.cons_append, hx, checkBaseM, if_neg hn, if_pos ((decDigit_iff d).2 hd1), if_neg hd0]
  rw [hcb]
  simp only [Nat.reduceEqDiff, if_false, if_true]
  rw [Nat.zero_add, List.drop_left, fromDecStrM]
  have hdw : body.dropWhile (· == '0') = body := by
    rw [hb, List.cons_append, List.dropWhile_cons, if_neg (by simpa using hd0)]
  have hne : body ≠ [] := by rw [hb]; simp
  rw [if_neg hne]
  dsimp only
  rw [hdw, if_neg hne, hb, decCharsM_error hd hc]
  rfl

/-- A numeral with a prefix: the last character that is not a digit is named. -/
theorem C128_prefixed (ws pre body ws' : List Char) (h1 : ∀ c ∈ ws, WhiteSpace c) (h2 : ∀ c ∈ ws', WhiteSpace c)
    (h3 : ∀ c ∈ pre, c = '+' ∨ c = ' ') (p c : Char) (b : Nat) (ds post : List Char) (hb : body = '0' :: p :: ds ++ c :: post)
    (hp : p = 'o' ∧ b = 8 ∨ (p = 'b' ∨ p = 'B') ∧ b = 2 ∨ (p = 'x' ∨ p = 'X') ∧ b = 16) (hpost : ∀ e ∈ post, digitOf e < b)
    (hc : ¬ digitOf c < b) (hw : ¬ WhiteSpace c) :
    natParseM (ws ++ pre ++ body ++ ws') = .ok (.error (.illegalCharEncounter, "illegal char ".toList ++ [c])) := by
  have hb16 : b ≤ 16 := by omega
  obtain ⟨l, hl, hl'⟩ : ∃ l, body.getLast? = some l ∧ ¬ WhiteSpace l := by
    refine ⟨(c :: post).getLast (by simp), ?_, ?_⟩
    · rw [hb, List.getLast?_append_of_ne_nil _ (by simp), List.getLast?_eq_some_getLast (by simp)]
    · have := List.getLast_mem (l := c :: post) (by simp)
      rcases List.mem_cons.1 this with g | g
      · rw [g]; exact hw
      · rw [← isWhite_iff, not_white (lt_of_lt_of_le (hpost _ g) hb16)]; simp
  obtain ⟨q, e, hq⟩ := trim_body (f := '0') h1 h2 h3 (by rw [hb]; rfl) (by rw [← isWhite_iff]; decide) hl hl'
  have hnp := natParseM_ok (ws ++ pre ++ body ++ ws')
  unfold natParseM at hnp ⊢
  rw [e] at hnp ⊢
  dsimp only at hnp ⊢
  rw [checkBaseM_signs _ hq] at hnp ⊢
  have hcb : checkBaseM (q ++ body) (0 + q.length) body = .ok (0 + q.length + 2, b) := by
    rw [hb, List.cons_append, List.cons_append, checkBaseM, if_neg (by decide), if_pos (by decide), if_pos rfl]
    rcases hp with ⟨rfl, rfl⟩ | ⟨rfl | rfl, rfl⟩ | ⟨rfl | rfl, rfl⟩ <;> rfl
  have hdrop : (q ++ body).drop (0 + q.length + 2) = ds ++ c :: post := by
    rw [hb, Nat.zero_add, ← List.drop_drop, List.drop_left]
    rfl
  rw [hcb] at hnp ⊢
  dsimp only at hnp ⊢
  rw [hdrop] at hnp ⊢
  have hrev : (ds ++ c :: post).reverse = post.reverse ++ c :: ds.reverse := by simp
  rw [hrev] at hnp ⊢
  have fin : ∀ r : Res (Except (List Char) (Words × W)), r = .ok (.error (illegalChar c)) ∨ r = .error .panic →
      (finishM (ds ++ c :: post) r).map (withMsg ParseErrKind.illegalCharEncounter) ≠ .error .panic →
      (finishM (ds ++ c :: post) r).map (withMsg ParseErrKind.illegalCharEncounter) =
        .ok (.error (.illegalCharEncounter, "illegal char ".toList ++ [c])) := by
    rintro r (rfl | rfl) h
    · rfl
    · exact absurd rfl h
  have hpr : ∀ d ∈ post.reverse, digitOf d < b := fun d hd => hpost d (List.mem_reverse.1 hd)
  have h8 : b = 8 ∨ b = 2 ∨ b = 16 := by omega
  rcases h8 with rfl | rfl | rfl
  · simp only [Nat.reduceEqDiff, if_false, if_true] at hnp ⊢
    exact fin _ (octLoopM_error hc hpr _ _) hnp
  · simp only [if_true] at hnp ⊢
    refine fin _ (packCharsM_error ?_ ?_ _ _) hnp
    · rw [binDigit_eq, if_neg (by simpa using hc)]
    · intro d hd
      rw [binDigit_eq, if_pos (by simpa using hpr d hd)]
      simp
  · simp only [Nat.reduceEqDiff, if_false, if_true] at hnp ⊢
    refine fin _ (packCharsM_error ?_ ?_ _ _) hnp
    · rw [hexDigit_eq, if_neg (by simpa using hc)]
    · intro d hd
      rw [hexDigit_eq, if_pos (by simpa using hpr d hd)]
      simp

theorem natParseM_congr {s t : List Char} (h : strTrim s = strTrim t) : natParseM s = natParseM t := by
  unfold natParseM
  rw [h]

/-- `BigInt`: the messages are those of `Nat` for what stands behind the minus sign, if there is one. -/
theorem C128_bigint (s : List Char) (k : ParseErrKind) (m : List Char) :
    bParseM s = .ok (.error (k, m)) ↔ (∃ t, AfterMinus s t ∧ natParseM t = .ok (.error (k, m))) ∨
      ((¬ ∃ t, AfterMinus s t) ∧ natParseM s = .ok (.error (k, m))) := by
  obtain ⟨hm1, hm2⟩ := strTrim_minus s
  cases hs : strTrim s with
  | nil =>
    have hno : ¬ ∃ t, AfterMinus s t := by
      rintro ⟨t, ht⟩
      rw [hm1 t ht] at hs; cases hs
    have hn : natParseM s = .ok (.error (.beginWithIllegalChar, "empty string".toList)) := by unfold natParseM; rw [hs]; rfl
    have hb : bParseM s = .ok (.error (.beginWithIllegalChar, "empty string".toList)) := by unfold bParseM; simp only [hs]
    rw [hn, hb]
    simp only [Except.ok.injEq, Except.error.injEq]
    exact ⟨fun h => .inr ⟨hno, h⟩, fun h => h.elim (fun ⟨t, ht, _⟩ => absurd ⟨t, ht⟩ hno) And.right⟩
  | cons c cs =>
    have hb : bParseM s = .ok (.error (k, m)) ↔ natParseM (if c = '-' then cs else c :: cs) = .ok (.error (k, m)) := by
      unfold bParseM
      simp only [hs]
      rcases natParseM (if c = '-' then cs else c :: cs) with e | (k' | a) <;> simp
    rw [hb]
    by_cases hc : c = '-'
    · subst hc
      rw [if_pos rfl]
      obtain ⟨t, ht, rfl⟩ := hm2 cs hs
      rw [natParseM_congr (dropWhile_rtrim t)]
      constructor
      · intro h; exact .inl ⟨t, ht, h⟩
      · rintro (⟨t', ht', h⟩ | ⟨h, -⟩)
        · have e := hm1 t' ht'
          rw [hs] at e
          have e' : rtrim t = rtrim t' := List.tail_eq_of_cons_eq e
          rw [← natParseM_congr (dropWhile_rtrim t), e', natParseM_congr (dropWhile_rtrim t')]
          exact h
        · exact absurd ⟨t, ht⟩ h
    · have hno : ¬ ∃ t, AfterMinus s t := by
        rintro ⟨t, ht⟩
        rw [hm1 t ht] at hs
        exact hc (List.head_eq_of_cons_eq hs).symm
      rw [if_neg hc, ← hs, natParseM_congr (strTrim_idem s)]
      constructor
      · intro h; exact .inr ⟨hno, h⟩
      · rintro (⟨t, ht, -⟩ | ⟨-, h⟩)
        · exact absurd ⟨t, ht⟩ hno
        · exact h

theorem bParseM_toOption (s : List Char) : bParse s = (bParseM s).map Except.toOption := by
  rw [bParseE_toOption, bParseM_kind]
  rcases bParseM s with e | (m | v) <;> rfl

theorem bParseM_total (s : List Char) : ∃ r, bParseM s = .ok r := by
  obtain ⟨o, ho⟩ := C48_parse_never_panics s
  rw [bParseM_toOption] at ho
  rcases hb : bParseM s with e | r
  · rw [hb] at ho; cases ho
  · exact ⟨r, rfl⟩

theorem bParseM_iff (s : List Char) (a : BInt) : bParse s = .ok (some a) ↔ bParseM s = .ok (.ok a) := by
  rw [bParseM_toOption]
  rcases bParseM s with e | (m | v) <;> simp [Except.map, Except.toOption]

theorem bParseM_none {s : List Char} {e : ParseErrKind × List Char} (h : bParseM s = .ok (.error e)) : bParse s = .ok none := by
  rw [bParseM_toOption, h]
  rfl

/-- the messages of `Rat` and the kinds -/
theorem rParseM_kind (std : List Char → Except (List Char) D) (s : List Char) :
    rParseE (fun t => (std t).toOption) s = (rParseM std s).map kindOnly := by
  unfold rParseE rParseM
  dsimp only
  split_ifs
  · rfl
  · cases std (strTrim s) with
    | error m => rfl
    | ok f =>
      simp only [Except.toOption]
      split_ifs
      · rfl
      · cases rFromF64 f <;> rfl
  · rcases splitAtChar '/' (strTrim s) with _ | ⟨l, r⟩
    · simp only
      rw [bParseM_toOption]
      rcases bParseM (strTrim s) with e | (m | a)
      · rfl
      · rfl
      · simp only [bind, Except.bind, Except.map, Except.toOption]
        split_ifs <;> rfl
    · simp only
      rw [bParseM_toOption l, bParseM_toOption r]
      obtain ⟨x, hx⟩ := bParseM_total l
      obtain ⟨y, hy⟩ := bParseM_total r
      rw [hx, hy]
      rcases x with m | a
      · rcases y with m' | b <;> rfl
      · rcases y with m' | b
        · rfl
        · simp only [bind, Except.bind, Except.map, Except.toOption]
          split_ifs <;> rfl

theorem fParseExpM_kind (s : List Char) (sp : Option (List Char × List Char)) :
    fParseExpE s sp = (fParseExpM s sp).map kindOnly := by
  unfold fParseExpE fParseExpM
  rcases sp with _ | ⟨l, es⟩
  · rfl
  dsimp only
  split_ifs
  · rfl
  rw [bParseM_toOption]
  rcases hb : bParseM es with e | (m | e)
  · rfl
  · rfl
  simp only [bind, Except.bind, Except.map, Except.toOption]
  by_cases hn : e.nat = NaN
  · rw [C41_nan e _ (.inl hn), C41_nan e _ (.inl hn)]
    rfl
  obtain ⟨t, ht, -⟩ := C48_display e (bParse_canon ((bParseM_iff es e).2 hb) hn)
  rw [ht]
  split_ifs <;> rfl

/-- the end of `fParseM` -/
def fTailM (nu de : List Char) : Res (Except (FloatErrKind × List Char) FloatV) := do
  let n ← bParseM nu
  match n with
  | .error e => .ok (.error (.parseStringWrong, e.2))
  | .ok n =>
    let d ← bParseM de
    match d with
    | .error e => .ok (.error (.parseStringWrong, e.2))
    | .ok d =>
      let r ← rFromFracBig n d
      match r with
      | none => .ok (.error (.parseStringWrong, []))
      | some r => do
        let z ← fFromRat r
        .ok (.ok z)

theorem fParseM_kind (s : List Char) : fParseE s = (fParseM s).map kindOnly := by
  unfold fParseE fParseM
  dsimp only
  by_cases h1 : strTrim s = []
  · rw [if_pos h1, if_pos h1]; rfl
  rw [if_neg h1, if_neg h1]
  by_cases h2 : 'e' ∈ strTrim s ∧ 'E' ∈ strTrim s
  · rw [if_pos h2, if_pos h2]; rfl
  rw [if_neg h2, if_neg h2]
  generalize (if 'e' ∈ strTrim s then splitAtChar 'e' (strTrim s) else splitAtChar 'E' (strTrim s)) = sp
  by_cases h3 : '.' ∉ strTrim s ∧ sp = none
  · rw [if_pos h3, if_pos h3, bParseM_toOption]
    rcases bParseM (strTrim s) with e | (m | n)
    · rfl
    · rfl
    · simp only [bind, Except.bind, Except.map, Except.toOption]
      cases fFromBigInt n <;> rfl
  rw [if_neg h3, if_neg h3, fParseExpM_kind]
  rcases fParseExpM (strTrim s) sp with e | (k | ⟨t, exp⟩)
  · rfl
  · rfl
  have core : ∀ nu de : List Char, (do
        let n ← bParse nu
        let d ← bParse de
        match n, d with
        | some n, some d => do
          let r ← rFromFracBig n d
          match r with
          | none => .ok (.error .parseStringWrong)
          | some r => do
            let z ← fFromRat r
            .ok (.ok z)
        | _, _ => .ok (.error .parseStringWrong) : Res (Except FloatErrKind FloatV)) = (fTailM nu de).map kindOnly := by
    intro nu de
    unfold fTailM
    rw [bParseM_toOption, bParseM_toOption]
    obtain ⟨x, hx⟩ := bParseM_total nu
    obtain ⟨y, hy⟩ := bParseM_total de
    rw [hx, hy]
    rcases x with m | n
    · rcases y with m' | d <;> rfl
    rcases y with m' | d
    · rfl
    simp only [Except.map, Except.toOption, bind, Except.bind]
    rcases rFromFracBig n d with e | (_ | r)
    · rfl
    · rfl
    · dsimp only
      cases fFromRat r <;> rfl
  rcases splitAtChar '.' t with _ | ⟨a, b⟩
  · exact core _ _
  · exact core _ _

/-- `Rat`: the message is that of the integer that is wrong, the numerator if both are; a prefix without digits makes the message quote the
text; and a zero denominator has the empty message. -/
theorem C128_rat (std : List Char → Except (List Char) D) (s : List Char) (ht : strTrim s = s) :
    rParseE (fun t => (std t).toOption) s = (rParseM std s).map kindOnly ∧
    (s = [] → rParseM std s = .ok (.error (.parseStringWrong, "empty string".toList))) ∧
    ('.' ∈ s → ∀ m, std s = .error m → rParseM std s = .ok (.error (.parseStringWrong, m))) ∧
    (s ≠ [] → '.' ∉ s → '/' ∉ s → ∀ e, bParseM s = .ok (.error e) → rParseM std s = .ok (.error (.parseStringWrong, e.2))) ∧
    ('.' ∉ s → ∀ l t, s = l ++ '/' :: t → '/' ∉ l →
      (∀ e, bParseM l = .ok (.error e) → rParseM std s = .ok (.error (.parseStringWrong, e.2))) ∧
      (∀ a e, bParseM l = .ok (.ok a) → bParseM t = .ok (.error e) → rParseM std s = .ok (.error (.parseStringWrong, e.2))) ∧
      (∀ a b, bParseM l = .ok (.ok a) → bParseM t = .ok (.ok b) → (a.nat = NaN ∨ b.nat = NaN) →
        rParseM std s = .ok (.error (.parseStringWrong, ['`'] ++ s ++ "` is not a number".toList))) ∧
      (∀ a b, bParseM l = .ok (.ok a) → bParseM t = .ok (.ok b) → a.nat ≠ NaN → b.nat ≠ NaN → ival b = 0 →
        rParseM std s = .ok (.error (.denominatorIsZero, [])))) := by
  have hnan : ∀ x : BInt, bIsNan x = true ↔ x.nat = NaN := by
    intro x
    unfold bIsNan isNan NaN
    exact List.isEmpty_iff
  refine ⟨rParseM_kind std s, ?_, ?_, ?_, ?_⟩
  · rintro rfl; rfl
  · intro hd m hm
    have hs : s ≠ [] := by rintro rfl; simp at hd
    unfold rParseM
    simp only [ht]
    rw [if_neg hs, if_pos hd, hm]
  · intro hs hd hsl e he
    unfold rParseM
    simp only [ht]
    rw [if_neg hs, if_neg hd, splitAtChar_none.2 hsl, he]
    rfl
  · intro hd l t hst hl
    have hs : s ≠ [] := by rw [hst]; simp
    have hsp : splitAtChar '/' s = some (l, t) := by rw [hst]; exact splitAtChar_append t hl
    have key : rParseM std s = (do
        let a ← bParseM l
        let b ← bParseM t
        match (a, b) with
        | (.error e, _) => .ok (.error (.parseStringWrong, e.2))
        | (.ok _, .error e) => .ok (.error (.parseStringWrong, e.2))
        | (.ok a, .ok b) =>
          if bIsNan a || bIsNan b then .ok (.error (.parseStringWrong, "`".toList ++ s ++ "` is not a number".toList))
          else if eqv b.nat [0#32] then .ok (.error (.denominatorIsZero, []))
          else .ok (.ok ⟨⟨a.nat, a.neg != b.neg⟩, ⟨b.nat, false⟩⟩)) := by
      unfold rParseM
      simp only [ht]
      rw [if_neg hs, if_neg hd, hsp]
      obtain ⟨x, hx⟩ := bParseM_total l
      obtain ⟨y, hy⟩ := bParseM_total t
      dsimp only
      rw [hx, hy]
      rfl
    rw [key]
    refine ⟨?_, ?_, ?_, ?_⟩
    · intro e he
      obtain ⟨y, hy⟩ := bParseM_total t
      rw [he, hy]
      rfl
    · intro a e ha he
      rw [ha, he]
      rfl
    · intro a b ha hb h
      rw [ha, hb]
      simp only [bind, Except.bind]
      rw [if_pos (by rw [Bool.or_eq_true, hnan, hnan]; exact h)]
      rfl
    · intro a b ha hb h1 h2 h3
      rw [ha, hb]
      simp only [bind, Except.bind]
      rw [if_neg (by rw [Bool.or_eq_true, hnan, hnan]; tauto), if_pos ((bParse_zero ((bParseM_iff t b).2 hb) h2).2 h3)]

/-- the text of the mantissa and the exponent of a text with a point or an exponent letter -/
def MantissaOf (s t : List Char) (exp : ℤ) : Prop :=
  ('.' ∈ s ∧ 'e' ∉ s ∧ 'E' ∉ s ∧ t = s ∧ exp = 0) ∨
  ∃ c l es, (c = 'e' ∨ c = 'E') ∧ s = l ++ c :: es ∧ c ∉ l ∧ ((es = [] ∧ t = s ∧ exp = 0) ∨
    ∃ e, bParse es = .ok (some e) ∧ t = l ∧ ((e.nat = NaN ∧ exp = 0) ∨ (e.nat ≠ NaN ∧ -2 ^ 31 ≤ exp ∧ exp < 2 ^ 31 ∧ exp = ival e)))

/-- the digits of a mantissa, and the exponent of ten that belongs to its last digit -/
def DigitsOf (t : List Char) (exp : ℤ) (nu : List Char) (exp' : ℤ) : Prop :=
  ('.' ∉ t ∧ nu = t ∧ exp' = exp) ∨ ∃ a b, t = a ++ '.' :: b ∧ '.' ∉ a ∧ nu = a ++ b ∧ exp' = exp - strLen b

/-- `Float`: the message is that of the integer that is wrong: the exponent, or the digits without the point and with zeros behind them if the
exponent asks for it.  An exponent that is out of range is quoted in decimal. -/
theorem C128_float (s : List Char) (ht : strTrim s = s) :
    fParseE s = (fParseM s).map kindOnly ∧
    (s = [] → fParseM s = .ok (.error (.parseStringWrong, "empty string".toList))) ∧
    ('e' ∈ s → 'E' ∈ s → fParseM s = .ok (.error (.parseStringWrong, "invalid string".toList))) ∧
    (s ≠ [] → '.' ∉ s → 'e' ∉ s → 'E' ∉ s → ∀ e, bParseM s = .ok (.error e) → fParseM s = .ok (.error (.parseStringWrong, e.2))) ∧
    (¬ ('e' ∈ s ∧ 'E' ∈ s) → ∀ c l es, (c = 'e' ∨ c = 'E') → s = l ++ c :: es → c ∉ l → es ≠ [] →
      (∀ e, bParseM es = .ok (.error e) → fParseM s = .ok (.error (.parseStringWrong, e.2))) ∧
      (∀ e, bParse es = .ok (some e) → e.nat ≠ NaN → ∃ ds, numeral 10 ds = some (ival e).natAbs ∧ (ds = ['0'] ∨ ds.head? ≠ some '0') ∧
        (ival e < -2 ^ 31 → fParseM s = .ok (.error (.exponentUnderflow, "exp: -".toList ++ ds))) ∧
        (2 ^ 31 ≤ ival e → fParseM s = .ok (.error (.exponentOverflow, "exp: ".toList ++ ds))))) ∧
    (¬ ('e' ∈ s ∧ 'E' ∈ s) → ∀ t exp nu exp', MantissaOf s t exp → DigitsOf t exp nu exp' →
      (exp' < 0 → ∀ e, bParseM nu = .ok (.error e) → fParseM s = .ok (.error (.parseStringWrong, e.2))) ∧
      (0 ≤ exp' → ∀ e, bParseM (nu ++ List.replicate exp'.toNat '0') = .ok (.error e) →
        fParseM s = .ok (.error (.parseStringWrong, e.2))) ∧
      (0 ≤ exp' → ∀ n, bParseM (nu ++ List.replicate exp'.toNat '0') = .ok (.ok n) →
        fParseM s = .ok (.error (.parseStringWrong, "empty string".toList)))) := by
  have hsplit : ¬ ('e' ∈ s ∧ 'E' ∈ s) → ∀ c l es, (c = 'e' ∨ c = 'E') → s = l ++ c :: es → c ∉ l →
      (if 'e' ∈ s then splitAtChar 'e' s else splitAtChar 'E' s) = some (l, es) := by
    rintro hee c l es (rfl | rfl) h1 h2
    · rw [if_pos (by rw [h1]; simp), h1, splitAtChar_append es h2]
    · rw [if_neg (fun h => hee ⟨h, by rw [h1]; simp⟩), h1, splitAtChar_append es h2]
  have hnosplit : 'e' ∉ s → 'E' ∉ s → (if 'e' ∈ s then splitAtChar 'e' s else splitAtChar 'E' s) = none := by
    intro h1 h2
    rw [if_neg h1, splitAtChar_none.2 h2]
  refine ⟨fParseM_kind s, ?_, ?_, ?_, ?_, ?_⟩
  · rintro rfl; rfl
  · intro h1 h2
    have hs : s ≠ [] := by rintro rfl; simp at h1
    unfold fParseM
    simp only [ht]
    rw [if_neg hs, if_pos ⟨h1, h2⟩]
  · intro hs h1 h2 h3 e he
    unfold fParseM
    simp only [ht]
    rw [if_neg hs, if_neg (fun h => h2 h.1), if_pos ⟨h1, hnosplit h2 h3⟩, he]
    rfl
  · intro hee c l es hc hs1 hl hes
    have hs : s ≠ [] := by rw [hs1]; simp
    have hsp := hsplit hee c l es hc hs1 hl
    have key : ∀ k, fParseExpM s (some (l, es)) = .ok (.error k) → fParseM s = .ok (.error k) := by
      intro k hk
      unfold fParseM
      simp only [ht]
      rw [if_neg hs, if_neg hee, hsp, if_neg (by simp), hk]
      rfl
    constructor
    · intro e he
      apply key
      unfold fParseExpM
      simp only [if_neg hes]
      rw [he]
      rfl
    · intro e he hn
      have hcan := bParse_canon he hn
      obtain ⟨ds, h1, h2, h3, -⟩ := C48_display e hcan
      have e1 : ival ⟨[0x80000000#32], true⟩ = -2 ^ 31 := by decide
      have e2 : ival ⟨[0x7fffffff#32], false⟩ = 2 ^ 31 - 1 := by decide
      have c1 : CanonI ⟨[0x80000000#32], true⟩ := ⟨⟨by decide, by decide⟩, by decide⟩
      have c2 : CanonI ⟨[0x7fffffff#32], false⟩ := ⟨⟨by decide, by decide⟩, by decide⟩
      refine ⟨ds, h2, h3, ?_, ?_⟩
      · intro hlt
        apply key
        unfold fParseExpM
        simp only [if_neg hes]
        rw [(bParseM_iff es e).1 he]
        simp only [bind, Except.bind]
        rw [C41_cmp e _ hcan c1, e1, if_pos (by rw [Option.some.injEq, compare_lt_iff_lt]; exact hlt), h1, if_pos (by omega)]
        rfl
      · intro hlt
        apply key
        unfold fParseExpM
        simp only [if_neg hes]
        rw [(bParseM_iff es e).1 he]
        simp only [bind, Except.bind]
        rw [C41_cmp e _ hcan c1, C41_cmp e _ hcan c2, e1, e2, if_neg (by rw [Option.some.injEq, compare_lt_iff_lt]; omega),
          if_pos (by rw [Option.some.injEq, compare_gt_iff_gt]; omega), h1, if_neg (by omega)]
  · intro hee t exp nu exp' hm hd
    have hs : s ≠ [] := by
      rintro rfl
      rcases hm with ⟨h, -⟩ | ⟨c, l, es, -, h, -⟩
      · simp at h
      · simp at h
    have key : fParseM s = fTailM (if exp' < 0 then nu else nu ++ List.replicate exp'.toNat '0')
        (if exp' < 0 then '1' :: List.replicate (-exp').toNat '0' else []) := by
      unfold fParseM
      simp only [ht]
      rw [if_neg hs, if_neg hee]
      have hE : (¬ ('.' ∉ s ∧ (if 'e' ∈ s then splitAtChar 'e' s else splitAtChar 'E' s) = none)) ∧
          fParseExpM s (if 'e' ∈ s then splitAtChar 'e' s else splitAtChar 'E' s) = .ok (.ok (t, exp)) := by
        rcases hm with ⟨h1, h2, h3, rfl, rfl⟩ | ⟨c, l, es, hc, hs1, hl, h⟩
        · exact ⟨fun h => h.1 h1, by rw [hnosplit h2 h3]; rfl⟩
        · rw [hsplit hee c l es hc hs1 hl]
          refine ⟨by simp, ?_⟩
          unfold fParseExpM
          rcases h with ⟨rfl, rfl, rfl⟩ | ⟨e, he, rfl, h⟩
          · rfl
          have hes : es ≠ [] := by
            rintro rfl
            have : bParse [] = .ok none := by decide
            rw [this] at he; cases he
          simp only [if_neg hes]
          rw [(bParseM_iff es e).1 he]
          simp only [bind, Except.bind]
          rcases h with ⟨hn, rfl⟩ | ⟨hn, h1, h2, rfl⟩
          · rw [C41_nan e _ (.inl hn), C41_nan e _ (.inl hn), hn]
            simp [NaN]
          · have hcan := bParse_canon he hn
            have e1 : ival ⟨[0x80000000#32], true⟩ = -2 ^ 31 := by decide
            have e2 : ival ⟨[0x7fffffff#32], false⟩ = 2 ^ 31 - 1 := by decide
            have c1 : CanonI ⟨[0x80000000#32], true⟩ := ⟨⟨by decide, by decide⟩, by decide⟩
            have c2 : CanonI ⟨[0x7fffffff#32], false⟩ := ⟨⟨by decide, by decide⟩, by decide⟩
            rw [C41_cmp e _ hcan c1, C41_cmp e _ hcan c2, e1, e2, if_neg (by rw [Option.some.injEq, compare_lt_iff_lt]; omega),
              if_neg (by rw [Option.some.injEq, compare_gt_iff_gt]; omega)]
            rw [foldr_words]
            rfl
      rw [if_neg hE.1, hE.2]
      rcases hd with ⟨h1, rfl, rfl⟩ | ⟨a, b, h1, h2, rfl, rfl⟩
      · simp only [bind, Except.bind]
        rw [splitAtChar_none.2 h1]
        rfl
      · simp only [bind, Except.bind]
        rw [h1, splitAtChar_append b h2]
        rfl
    rw [key]
    refine ⟨?_, ?_, ?_⟩
    · intro h e he
      rw [if_pos h, if_pos h, fTailM, he]
      rfl
    · intro h e he
      rw [if_neg (by omega), if_neg (by omega), fTailM, he]
      rfl
    · intro h e he
      rw [if_neg (by omega), if_neg (by omega), fTailM, he]
      rfl

/-- The message does not always name the first wrong character: behind a prefix it names the last one, for a text that begins with two
zeros it names characters that are digits, and `1e5` is refused as an empty text. -/
theorem C128_violated :
    natParseM "0b2z".toList = .ok (.error (.illegalCharEncounter, "illegal char z".toList)) ∧
    natParseM "007".toList = .ok (.error (.beginWithIllegalChar, "begin with illegal char 00".toList)) ∧
    natParseM "+ \t +".toList = .ok (.error (.beginWithIllegalChar, "begin with illegal char \t".toList)) ∧
    bParseM "-".toList = .ok (.error (.beginWithIllegalChar, "empty string".toList)) ∧
    fParseM "1e5".toList = .ok (.error (.parseStringWrong, "empty string".toList)) ∧
    ∀ std, rParseM std "1/0".toList = .ok (.error (.denominatorIsZero, [])) :=
  ⟨by decide, by decide, by decide, by decide, by decide, fun _ => rfl⟩

/-- the cases of C128 occur -/
example : natParseM " + 12a4b ".toList = .ok (.error (.illegalCharEncounter, "illegal char a".toList)) ∧
    natParseM "0xAg1".toList = .ok (.error (.illegalCharEncounter, "illegal char g".toList)) ∧
    natParseM "0o18".toList = .ok (.error (.illegalCharEncounter, "illegal char 8".toList)) ∧
    natParseM "".toList = .ok (.error (.beginWithIllegalChar, "empty string".toList)) ∧
    natParseM " + ".toList = .ok (.error (.beginWithIllegalChar, "all char is +".toList)) ∧
    natParseM "x1".toList = .ok (.error (.beginWithIllegalChar, "begin with illegal char x".toList)) ∧
    bParseM " -7.5".toList = .ok (.error (.illegalCharEncounter, "illegal char .".toList)) ∧
    natParseM "42".toList = .ok (.ok [42#32]) ∧
    (∀ std, rParseM std "12/1x".toList = .ok (.error (.parseStringWrong, "illegal char x".toList))) ∧
    (∀ std, rParseM std "0x/3".toList = .ok (.error (.parseStringWrong, "`0x/3` is not a number".toList))) ∧
    fParseM "1.5,".toList = .ok (.error (.parseStringWrong, "illegal char ,".toList)) ∧
    fParseM "1e2147483648".toList = .ok (.error (.exponentOverflow, "exp: 2147483648".toList)) ∧
    fParseM "1E-2147483649".toList = .ok (.error (.exponentUnderflow, "exp: -2147483649".toList)) ∧
    MantissaOf "1.5,".toList "1.5,".toList 0 ∧ DigitsOf "1.5,".toList 0 "15,".toList (-2) :=
  ⟨by decide, by decide, by decide, by decide, by decide, by decide, by decide, by decide, fun _ => rfl, fun _ => rfl,
    by decide, by decide +kernel, by decide +kernel, .inl (by decide), .inr ⟨['1'], ['5', ','], by decide⟩⟩

end RMath
