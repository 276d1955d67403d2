import Verif.Lemmas.DecText
import Verif.Props.Rat
import Verif.Props.FloatMore

/-! Lemmas about parsing decimal text: src/bigint/float_fmt.rs, `from_str`. -/

namespace RMath

open DecText

instance (ds : List Char) : Decidable (NoLeadingZero ds) := inferInstanceAs (Decidable (_ ∨ _))

theorem parseBody_digits {ds : List Char} (h0 : ds ≠ []) (h : ∀ c ∈ ds, digitOf c < 10) :
    parseBody ds = if NoLeadingZero ds then (numeral 10 ds).map enc else none := by
  match ds with
  | [] => exact absurd rfl h0
  | [c] =>
    rw [parseBody, if_pos (h c (by simp)), if_pos]
    by_cases hc : c = '0'
    · left; rw [hc]
    · right; simpa using hc
  | c :: x :: xs =>
    have hx := h x (by simp)
    rw [parseBody, if_pos (h c (by simp))]
    by_cases hc : c = '0'
    · have ho : x ≠ 'o' ∧ ¬ (x = 'b' ∨ x = 'B') ∧ ¬ (x = 'x' ∨ x = 'X') := by
        refine ⟨?_, ?_, ?_⟩
        · rintro rfl; revert hx; decide
        · rintro (rfl | rfl) <;> revert hx <;> decide
        · rintro (rfl | rfl) <;> revert hx <;> decide
      rw [if_pos hc, if_neg ho.1, if_neg ho.2.1, if_neg ho.2.2, if_neg]
      rintro (h1 | h1)
      · simp at h1
      · exact h1 (by simp [hc])
    · rw [if_neg hc, if_pos]
      right; simpa using hc

theorem natParse_digits {ds : List Char} (h0 : ds ≠ []) (h : ∀ c ∈ ds, digitOf c < 10) :
    natParse ds = .ok (if NoLeadingZero ds then (numeral 10 ds).map enc else none) := by
  rw [natParse_eq, strTrim_plain (fun c hc => not_white (lt_trans (h c hc) (by norm_num)))]
  have : ds.dropWhile isSign = ds := by
    cases ds with
    | nil => rfl
    | cons c cs => rw [List.dropWhile_cons, if_neg (by rw [not_sign (lt_trans (h c (by simp)) (by norm_num))]; simp)]
  rw [this, parseBody_digits h0 h]

theorem digit_ne_minus {c : Char} (h : digitOf c < 10) : c ≠ '-' := by rintro rfl; revert h; decide

/-- digits with a sign, as a `BigInt` -/
theorem bParse_digits {ds : List Char} (h0 : ds ≠ []) (h : ∀ c ∈ ds, digitOf c < 10) (neg : Bool) :
    bParse (signText neg ++ ds) =
      .ok (if NoLeadingZero ds then some (encI (sg neg ((numeral 10 ds).getD 0))) else none) := by
  have hnum : ∃ v, numeral 10 ds = some v := ⟨_, by rw [numeral, if_pos ⟨h0, h⟩]⟩
  obtain ⟨v, hv⟩ := hnum
  have hw : ∀ c ∈ signText neg ++ ds, isWhite c = false := by
    intro c hc
    rcases List.mem_append.1 hc with hc | hc
    · cases neg <;> simp [signText] at hc
      rw [hc]; decide
    · exact not_white (lt_trans (h c hc) (by norm_num))
  rw [bParse]
  simp only [strTrim_plain hw]
  have e0 : ∀ b : Bool, (if eqv (enc v) [0#32] then false else b) = (if v = 0 then false else b) := by
    intro b; rw [← enc_zero, eqv_enc]; simp
  have hsg : ∀ neg : Bool, (⟨enc v, if v = 0 then false else neg⟩ : BInt) = encI (sg neg v) := by
    intro neg
    rw [encI_raw, natAbs_sg]
    congr 1
    by_cases hv0 : v = 0
    · subst hv0; cases neg <;> simp [sg]
    · rw [if_neg hv0]; cases neg <;> simp [sg]; omega
  cases neg with
  | true =>
    simp only [signText, if_true, List.cons_append, List.nil_append]
    rw [natParse_digits h0 h, hv]
    by_cases hz : NoLeadingZero ds
    · simp only [if_pos hz, Option.map_some, Option.getD_some]
      rw [e0, ← hsg]; simp
    · simp only [if_neg hz]
  | false =>
    simp only [signText, Bool.false_eq_true, if_false, List.nil_append]
    cases ds with
    | nil => exact absurd rfl h0
    | cons c cs =>
      have hc := digit_ne_minus (h c (by simp))
      simp only [if_neg hc]
      rw [natParse_digits h0 h, hv]
      by_cases hz : NoLeadingZero (c :: cs)
      · simp only [if_pos hz, Option.map_some, Option.getD_some]
        rw [e0, ← hsg]; simp [hc]
      · simp only [if_neg hz]

/-- one followed by zeros -/
theorem numeral_one_zeros (n : Nat) : numeral 10 ('1' :: List.replicate n '0') = some (10 ^ n) := by
  have : ('1' :: List.replicate n '0') = ((1 :: List.replicate n 0).map digChr) := by
    rw [List.map_cons, List.map_replicate]; rfl
  rw [this, numeral_digs (by simp)]
  · rw [digVal_cons, digVal_zeros]; simp
  · intro d hd
    rcases List.mem_cons.1 hd with rfl | hd
    · norm_num
    · rw [(List.mem_replicate.1 hd).2]; norm_num

theorem bParse_pow (n : Nat) : bParse ('1' :: List.replicate n '0') = .ok (some (encI ((10 ^ n : Nat) : ℤ))) := by
  have := bParse_digits (ds := '1' :: List.replicate n '0') (by simp) (by
    intro c hc
    rcases List.mem_cons.1 hc with rfl | hc
    · decide
    · rw [(List.mem_replicate.1 hc).2]; decide) false
  simp only [signText, Bool.false_eq_true, if_false, List.nil_append] at this
  have hz : NoLeadingZero ('1' :: List.replicate n '0') := Or.inr (by simp)
  rw [this, if_pos hz, numeral_one_zeros]
  rfl

theorem foldr_words (x : Words) : x.foldr (fun (w : W) (acc : ℤ) => acc * 2 ^ 32 + w.toNat) 0 = (val x : ℤ) := by
  induction x with
  | nil => rfl
  | cons w ws ih => rw [List.foldr_cons, ih, val]; push_cast; ring

/-- the exponent part -/
theorem fParseExp_spec (s l : List Char) {ds : List Char} (h0 : ds ≠ []) (h : ∀ c ∈ ds, digitOf c < 10) (neg : Bool) :
    fParseExp s (some (l, signText neg ++ ds)) = .ok
      (if NoLeadingZero ds ∧ minExp ≤ sg neg ((numeral 10 ds).getD 0) ∧ sg neg ((numeral 10 ds).getD 0) ≤ maxExp
       then some (l, sg neg ((numeral 10 ds).getD 0)) else none) := by
  rw [fParseExp]
  simp only
  rw [if_neg (by simp [h0]), bParse_digits h0 h]
  simp only [bind, Except.bind]
  by_cases hz : NoLeadingZero ds
  · simp only [if_pos hz]
    generalize sg neg ((numeral 10 ds).getD 0) = z
    have e1 : (⟨[0x80000000#32], true⟩ : BInt) = encI minExp := by
      rw [encI_raw, show ([0x80000000#32] : Words) = enc _ from singleton_eq_enc _]; rfl
    have e2 : (⟨[0x7fffffff#32], false⟩ : BInt) = encI maxExp := by
      rw [encI_raw, show ([0x7fffffff#32] : Words) = enc _ from singleton_eq_enc _]; rfl
    rw [e1, e2, compare_natAbs, compare_natAbs]
    simp only [Option.some.injEq, compare_lt_iff_lt, compare_gt_iff_gt, hz, true_and]
    by_cases h1 : z < minExp
    · rw [if_pos h1, if_neg (by omega)]
    · rw [if_neg h1]
      by_cases h2 : z > maxExp
      · rw [if_pos h2, if_neg (by omega)]
      · have h3 : minExp ≤ z ∧ z ≤ maxExp := ⟨by omega, by omega⟩
        rw [if_neg h2, if_pos h3, foldr_words, encI_raw, val_enc]
        simp only [decide_eq_true_eq]
        congr 3
        split <;> omega
  · simp only [if_neg hz, hz, false_and, if_false]

theorem strLen_digits {ds : List Char} (h : ∀ c ∈ ds, digitOf c < 10) : strLen ds = ds.length := by
  unfold strLen
  induction ds with
  | nil => rfl
  | cons c cs ih =>
    rw [List.map_cons, List.sum_cons, ih fun x hx => h x (by simp [hx]), List.length_cons]
    have hc := h c (by simp)
    have : c.utf8Size = 1 := by
      have h1 := (decDigit_iff c).2 hc
      rw [char_le, char_le] at h1
      rw [Char.utf8Size]
      have h2 : c.val.toNat ≤ 57 := h1.2
      rw [if_pos (by rw [UInt32.le_iff_toNat_le]; exact le_trans h2 (by decide))]
    omega

theorem sg_signQ (neg : Bool) (n : Nat) : ((sg neg n : ℤ) : ℚ) = signQ neg * n := by cases neg <;> simp [sg, signQ]

/-- The two integers become a fraction in lowest terms. -/
theorem rFromFrac_pow (z : ℤ) (n : Nat) : ∃ r, rFromFracBig (encI z) (encI ((10 ^ n : Nat) : ℤ)) = .ok (some r) ∧ RatOk r ∧
    qval r = z * 10 ^ (-(n : ℤ)) ∧ (LowestTerms r ∨ qval r = 0) ∧ val r.a.nat ≤ z.natAbs ∧ val r.b.nat ≤ 10 ^ n := by
  have hp : (10 ^ n : Nat) ≠ 0 := by positivity
  obtain ⟨r, h1, h2, -, h4, h5, h6⟩ := rNorm_encI (z := z) (t := false) hp
  have h7 : (encI ((10 ^ n : Nat) : ℤ)) = ⟨enc (10 ^ n), false⟩ := by rw [encI_ofNat]
  refine ⟨r, ?_, h2, ?_, ?_, ?_⟩
  · rw [rFromFracBig, bDeepClone_encI, bAbs_encI, abs_of_nonneg (by positivity), h7, ← enc_zero, eqv_enc]
    simp only [hp, decide_false, Bool.false_eq_true, if_false, h1, bind, Except.bind]
  · rw [h4, zpow_neg, zpow_natCast]; push_cast; rw [div_eq_mul_inv]
  · by_cases hz : z = 0
    · right; rw [h4, hz]; simp
    · left; exact h5 hz
  · have hn := rNorm_raw (s := decide (z < 0)) (n := z.natAbs) (t := false) hp
    have : raw (decide (z < 0)) z.natAbs false (10 ^ n) = ⟨encI z, ⟨enc (10 ^ n), false⟩⟩ := rfl
    rw [this, h1] at hn
    injection hn with hn
    rw [hn]
    split
    · simp
    · simp only [val_enc]
      exact ⟨Nat.div_le_self _ _, Nat.div_le_self _ _⟩

theorem mem_signText {c : Char} {neg : Bool} (h : c ∈ signText neg) : c = '-' := by
  cases neg <;> simp [signText] at h; exact h

/-- the text in front of the exponent -/
def DecText.body (t : DecText) : List Char :=
  signText t.neg ++ t.int ++ (match t.frac with | none => [] | some f => '.' :: f)

theorem body_mem {t : DecText} (ht : t.Ok) {c : Char} (h : c ∈ t.body) : c = '-' ∨ c = '.' ∨ digitOf c < 10 := by
  obtain ⟨-, h1, h2, -⟩ := ht
  unfold DecText.body at h
  rcases List.mem_append.1 h with h | h
  · rcases List.mem_append.1 h with h | h
    · exact Or.inl (mem_signText h)
    · exact Or.inr (Or.inr (h1 c h))
  · cases hf : t.frac with
    | none => rw [hf] at h; simp at h
    | some f =>
      rw [hf] at h
      rcases List.mem_cons.1 h with h | h
      · exact Or.inr (Or.inl h)
      · exact Or.inr (Or.inr (h2 f hf c h))

theorem body_no_e {t : DecText} (ht : t.Ok) {c : Char} (hc : c = 'e' ∨ c = 'E') : c ∉ t.body := by
  intro h
  rcases body_mem ht h with h | h | h <;> rcases hc with rfl | rfl <;> revert h <;> decide

theorem fParse_finish {t : DecText} (ht : t.Ok) :
    ∀ (nu : List Char) (ex : ℤ), nu = signText t.neg ++ t.digits → ex = t.scale →
    (if t.scale < 0 ∧ NoLeadingZero t.digits then
      ∃ r, (do
        let de : List Char := if ex < 0 then '1' :: List.replicate (-ex).toNat '0' else []
        let nu := if ex < 0 then nu else nu ++ List.replicate ex.toNat '0'
        let n ← bParse nu
        let d ← bParse de
        match n, d with
        | some n, some d => do
          let r ← rFromFracBig n d
          match r with
          | none => .ok none
          | some r => do
            let z ← fFromRat r
            .ok (some z)
        | _, _ => .ok none : Res (Option FloatV)) = (do let z ← fFromRat r; .ok (some z)) ∧ RatOk r ∧ qval r = t.value ∧
        (LowestTerms r ∨ qval r = 0) ∧ val r.a.nat ≤ (numeral 10 t.digits).getD 0 ∧ val r.b.nat ≤ 10 ^ (-t.scale).toNat
    else (do
        let de : List Char := if ex < 0 then '1' :: List.replicate (-ex).toNat '0' else []
        let nu := if ex < 0 then nu else nu ++ List.replicate ex.toNat '0'
        let n ← bParse nu
        let d ← bParse de
        match n, d with
        | some n, some d => do
          let r ← rFromFracBig n d
          match r with
          | none => .ok none
          | some r => do
            let z ← fFromRat r
            .ok (some z)
        | _, _ => .ok none : Res (Option FloatV)) = .ok none) := by
  rintro nu ex rfl rfl
  have hne : t.digits ≠ [] := by unfold DecText.digits; simp [ht.1]
  have hdig : ∀ c ∈ t.digits, digitOf c < 10 := by
    intro c hc
    unfold DecText.digits at hc
    rcases List.mem_append.1 hc with hc | hc
    · exact ht.2.1 c hc
    · cases hf : t.frac with
      | none => rw [hf] at hc; simp at hc
      | some f => rw [hf] at hc; exact ht.2.2.1 f hf c hc
  by_cases hs : t.scale < 0
  · simp only [hs, if_true, true_and]
    rw [bParse_digits hne hdig, bParse_pow]
    simp only [bind, Except.bind]
    by_cases hz : NoLeadingZero t.digits
    · simp only [if_pos hz]
      obtain ⟨r, r1, r2, r3, r4, r5, r6⟩ := rFromFrac_pow (sg t.neg ((numeral 10 t.digits).getD 0)) (-t.scale).toNat
      refine ⟨r, ?_, r2, ?_, r4, ?_, r6⟩
      · rw [r1]
      · rw [r3, sg_signQ, DecText.value, show -(((-t.scale).toNat : Nat) : ℤ) = t.scale by omega]
      · rwa [natAbs_sg] at r5
    · simp only [if_neg hz]
  · simp only [hs, if_false, false_and]
    obtain ⟨o, ho⟩ := C48_parse_never_panics (signText t.neg ++ t.digits ++ List.replicate t.scale.toNat '0')
    have h0 : bParse [] = .ok none := rfl
    rw [ho, h0]
    cases o <;> rfl

open Classical in
/-- What `from_str` does with a decimal number that has a point or an exponent. -/
theorem fParse_spec {t : DecText} (ht : t.Ok) (hd : t.frac ≠ none ∨ t.exp ≠ none) :
    if t.scale < 0 ∧ NoLeadingZero t.digits ∧ t.ExpFine then
      ∃ r, fParse t.text = (do let z ← fFromRat r; .ok (some z)) ∧ RatOk r ∧ qval r = t.value ∧
        (LowestTerms r ∨ qval r = 0) ∧ val r.a.nat ≤ (numeral 10 t.digits).getD 0 ∧ val r.b.nat ≤ 10 ^ (-t.scale).toNat
    else fParse t.text = .ok none := by
  -- the text and its parts
  have htext : t.text = t.body ++ match t.exp with | none => [] | some (c, n, ds) => c :: signText n ++ ds := rfl
  have hwb : ∀ c ∈ t.body, isWhite c = false := by
    intro c hc
    rcases body_mem ht hc with rfl | rfl | h
    · decide
    · decide
    · exact not_white (lt_trans h (by norm_num))
  have hbne : t.body ≠ [] := by unfold DecText.body; simp [ht.1]
  have hdot : splitAtChar '.' t.body = t.frac.map fun f => (signText t.neg ++ t.int, f) := by
    have hno : '.' ∉ signText t.neg ++ t.int := by
      intro h
      rcases List.mem_append.1 h with h | h
      · have := mem_signText h; revert this; decide
      · have := ht.2.1 _ h; revert this; decide
    unfold DecText.body
    cases hf : t.frac with
    | none => simp only [List.append_nil, Option.map_none]; exact splitAtChar_none.2 hno
    | some f => exact splitAtChar_append f hno
  have hmain : strTrim t.text = t.text ∧ t.text ≠ [] ∧ ¬ ('e' ∈ t.text ∧ 'E' ∈ t.text) ∧
      ¬ ('.' ∉ t.text ∧ (if 'e' ∈ t.text then splitAtChar 'e' t.text else splitAtChar 'E' t.text) = none) ∧
      fParseExp t.text (if 'e' ∈ t.text then splitAtChar 'e' t.text else splitAtChar 'E' t.text) =
        .ok (if t.ExpFine then some (t.body, t.written) else none) := by
    cases hx : t.exp with
    | none =>
      rw [htext, hx]
      simp only [List.append_nil]
      have h1 := body_no_e ht (Or.inl rfl : 'e' = 'e' ∨ 'e' = 'E')
      have h2 := body_no_e ht (Or.inr rfl : 'E' = 'e' ∨ 'E' = 'E')
      refine ⟨strTrim_plain hwb, hbne, fun h => h1 h.1, ?_, ?_⟩
      · rintro ⟨h3, -⟩
        rw [hx] at hd
        have hd := hd.resolve_right (fun h => h rfl)
        cases hf : t.frac with
        | none => exact hd hf
        | some f => apply h3; unfold DecText.body; rw [hf]; simp
      · rw [if_neg h1, splitAtChar_none.2 h2, fParseExp, DecText.written, hx, if_pos (by intro c n ds h; rw [hx] at h; cases h)]
    | some p =>
      obtain ⟨c, n, ds⟩ := p
      obtain ⟨hc, hds, hdd⟩ := ht.2.2.2 c n ds hx
      have hw : t.written = sg n ((numeral 10 ds).getD 0) := by
        rw [DecText.written, hx]; cases n <;> rfl
      rw [htext, hx]
      simp only [List.cons_append]
      have hmem : ∀ a, (a = 'e' ∨ a = 'E') → (a ∈ t.body ++ c :: (signText n ++ ds) ↔ a = c) := by
        intro a ha
        constructor
        · intro h
          rcases List.mem_append.1 h with h | h
          · exact absurd h (body_no_e ht ha)
          · rcases List.mem_cons.1 h with h | h
            · exact h
            · rcases List.mem_append.1 h with h | h
              · have := mem_signText h; rcases ha with rfl | rfl <;> exact absurd this (by decide)
              · have := hdd a h; rcases ha with rfl | rfl <;> exact absurd this (by decide)
        · rintro rfl; simp
      have hsplit : (if 'e' ∈ t.body ++ c :: (signText n ++ ds) then splitAtChar 'e' (t.body ++ c :: (signText n ++ ds))
          else splitAtChar 'E' (t.body ++ c :: (signText n ++ ds))) = some (t.body, signText n ++ ds) := by
        rcases hc with rfl | rfl
        · rw [if_pos ((hmem _ (Or.inl rfl)).2 rfl)]; exact splitAtChar_append _ (body_no_e ht (Or.inl rfl))
        · rw [if_neg (fun h => absurd ((hmem _ (Or.inl rfl)).1 h) (by decide))]
          exact splitAtChar_append _ (body_no_e ht (Or.inr rfl))
      rw [hsplit]
      refine ⟨strTrim_plain ?_, by simp, ?_, by simp, ?_⟩
      · intro a ha
        rcases List.mem_append.1 ha with ha | ha
        · exact hwb a ha
        · rcases List.mem_cons.1 ha with rfl | ha
          · rcases hc with rfl | rfl <;> decide
          · rcases List.mem_append.1 ha with ha | ha
            · rw [mem_signText ha]; decide
            · exact not_white (lt_trans (hdd a ha) (by norm_num))
      · rintro ⟨h1, h2⟩
        have e1 := (hmem _ (Or.inl rfl)).1 h1
        have e2 := (hmem _ (Or.inr rfl)).1 h2
        rw [← e1] at e2
        revert e2; decide
      · have hfine : t.ExpFine ↔ NoLeadingZero ds ∧ minExp ≤ t.written ∧ t.written ≤ maxExp := by
          constructor
          · intro h; exact h c n ds hx
          · intro h c' n' ds' hx'
            rw [hx] at hx'
            cases hx'
            exact h
        rw [fParseExp_spec _ _ hds hdd, ← hw]
        by_cases hfx : t.ExpFine
        · rw [if_pos hfx, if_pos (hfine.1 hfx)]
        · rw [if_neg hfx, if_neg (fun h => hfx (hfine.2 h))]
  obtain ⟨m1, m2, m3, m4, m5⟩ := hmain
  rw [fParse]
  simp only [m1]
  rw [if_neg m2, if_neg m3, if_neg m4, m5]
  by_cases hfx : t.ExpFine
  swap
  · rw [if_neg hfx, if_neg (fun h => hfx h.2.2)]
    rfl
  rw [if_pos hfx]
  simp only [hfx, and_true]
  simp only [bind, Except.bind]
  rw [hdot]
  cases hf : t.frac with
  | none =>
    simp only [Option.map_none]
    refine fParse_finish ht t.body t.written ?_ ?_
    · unfold DecText.body DecText.digits; rw [hf]; simp
    · unfold DecText.scale; rw [hf]; simp
  | some f =>
    simp only [Option.map_some]
    refine fParse_finish ht (signText t.neg ++ t.int ++ f) (t.written - strLen f) ?_ ?_
    · unfold DecText.digits; rw [hf]; simp
    · unfold DecText.scale; rw [hf, strLen_digits (ht.2.2.1 f hf)]; simp

end RMath
