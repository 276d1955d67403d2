import Verif.Props.FloatParse
import Verif.Props.FloatTextTotal

/-!
# Property C85, for every finite number

Which numbers come back when their text is read again: the integers that are printed exactly, and no others.
-/

namespace RMath

theorem le_foldl (s : List Char) (n : Nat) : n * 10 ^ s.length ≤ s.foldl (fun n c => 10 * n + digitOf c) n := by
  induction s generalizing n with
  | nil => simp
  | cons c s ih =>
    rw [List.foldl_cons, List.length_cons, pow_succ', ← mul_assoc]
    exact le_trans (Nat.mul_le_mul_right _ (by omega)) (ih _)

theorem digitOf_zero {c : Char} (h : digitOf c = 0) : c = '0' := by
  have h2 := digitOf_dec (by omega : digitOf c < 10)
  rw [h] at h2
  unfold digitOf at h
  split at h
  · rename_i h1
    apply Char.ext
    apply UInt32.toNat.inj
    have h3 : '0' ≤ c := h1.1
    have : 48 ≤ c.toNat := h3
    change c.toNat = 48
    omega
  · split at h
    · omega
    · split at h <;> omega

/-- The text of a number in positional notation as a decimal text. -/
theorem pointText_dec {p : Nat} {t : List Char} {q : ℚ} (hp : p ≠ 0) (h : PointText p t q) :
    ∃ d : DecText, d.Ok ∧ d.frac ≠ none ∧ d.exp = none ∧ d.text = t ∧ d.value = q ∧ d.scale = -(p : ℤ) ∧
      (DecText.NoLeadingZero d.digits ↔ 1 ≤ |q|) ∧ ((((numeral 10 d.digits).getD 0 : Nat) : ℚ) = |q| * 10 ^ p) := by
  obtain ⟨neg, int, frac, m, e1, e2, e3, e4, e5, e6⟩ := h
  obtain ⟨-, hnd⟩ := numeral_some e5
  have hzero : (0 : ℤ) - (frac.length : ℤ) = -(p : ℤ) := by rw [e4]; ring
  let d : DecText := ⟨neg, int, some frac, none⟩
  have hds : d.scale = -(p : ℤ) := hzero
  have hq : |q| = m / 10 ^ p := by rw [e6, mul_div_assoc, signQ_abs, abs_of_nonneg (by positivity)]
  have hp10 : (0 : ℚ) < 10 ^ p := by positivity
  have hfold : m = (int ++ frac).foldl (fun a c => 10 * a + digitOf c) 0 := by
    have h1 := e5
    rw [numeral, if_pos (numeral_some e5)] at h1
    exact (Option.some.inj h1).symm
  refine ⟨d, ⟨e2, fun c hc => hnd c (List.mem_append_left _ hc), by rintro f ⟨⟩; exact fun c hc => hnd c (List.mem_append_right _ hc),
    by rintro c n ds ⟨⟩⟩, by simp [d], rfl, by rw [e1, if_neg hp]; simp [DecText.text, d], ?_, hds, ?_, ?_⟩
  · rw [DecText.value, hds, show d.digits = int ++ frac from rfl, e5, e6, zpow_neg, zpow_natCast]
    rfl
  · constructor
    · intro hn
      by_contra hlt
      rw [not_le, hq, div_lt_one hp10] at hlt
      have hm : m < 10 ^ p := by exact_mod_cast hlt
      rcases hn with hn | hn
      · have : (int ++ frac).length = 1 := by rw [show int ++ frac = d.digits from rfl, hn]; rfl
        rw [List.length_append, e4] at this
        have := List.length_pos_iff.2 e2
        omega
      · rcases int with _ | ⟨a, l⟩
        · exact absurd rfl e2
        · have ha : a ≠ '0' := by rintro rfl; exact hn rfl
          have had : 1 ≤ digitOf a := by
            by_contra h0
            exact ha (digitOf_zero (by omega))
          rw [hfold, List.foldl_append] at hm
          have h2 := le_foldl frac ((a :: l).foldl (fun a c => 10 * a + digitOf c) 0)
          have h3 := le_foldl l (10 * 0 + digitOf a)
          rw [e4] at h2
          rw [List.foldl_cons] at h2 hm
          have h4 : 1 ≤ 10 ^ l.length := Nat.one_le_pow _ _ (by norm_num)
          have h5 : 1 ≤ l.foldl (fun a c => 10 * a + digitOf c) (10 * 0 + digitOf a) := le_trans (by nlinarith) h3
          have h6 := Nat.mul_le_mul_right (10 ^ p) h5
          omega
    · intro hge
      right
      intro h0
      have hi0 : int = ['0'] := by
        apply e3
        cases int with
        | nil => exact absurd rfl e2
        | cons a l => exact h0
      have hm : m < 10 ^ p := by
        have h1 := e5
        rw [numeral, if_pos (numeral_some e5), hi0] at h1
        simp only [List.singleton_append, List.foldl_cons, Option.some.injEq] at h1
        have h2 := foldl_lt (s := frac) (fun c hc => hnd c (List.mem_append_right _ hc)) (10 * 0 + digitOf '0')
        rw [h1, e4, show 10 * 0 + digitOf '0' + 1 = 1 by decide, one_mul] at h2
        exact h2
      rw [hq, le_div_iff₀ hp10, one_mul] at hge
      have : (m : ℚ) < 10 ^ p := by exact_mod_cast hm
      linarith
  · rw [show d.digits = int ++ frac from rfl, e5, hq]
    simp only [Option.getD_some]
    field_simp

/-- The quotient of two finite numbers is far too small. -/
theorem fUquo_tiny {x y z : FloatV} {a b La Lb : Nat} (hx : IsFin x a La) (hy : IsFin y b Lb) (h : fUquo x y = .ok z)
    (hf : z.form = .finite) {q : ℚ} (hq : |q| = |fval x| / |fval y|) : 2 ^ 29 * |fval z| < |q| := by
  have hz := fval_lt_exp z
  have he := fUquo_exp hx hy h hf
  have he' : (2 : ℚ) ^ z.exp ≤ 2 ^ (x.exp - y.exp - 30) := zpow_le_iff.2 he
  obtain ⟨x1, _⟩ := hx.norm.bounds x.exp
  obtain ⟨_, y2⟩ := hy.norm.bounds y.exp
  have hypos := hy.pos
  have hqb : (2 : ℚ) ^ (x.exp - y.exp - 1) < |q| := by
    rw [hq, hx.abs, hy.abs, lt_div_iff₀ hypos]
    calc (2 : ℚ) ^ (x.exp - y.exp - 1) * ((b : ℚ) * 2 ^ (y.exp - 32 * Lb))
        < 2 ^ (x.exp - y.exp - 1) * 2 ^ y.exp := mul_lt_mul_of_pos_left y2 (two_zpow_pos _)
      _ = 2 ^ (x.exp - 1) := by rw [← zadd]; congr 1; ring
      _ ≤ _ := x1
  have e : (2 : ℚ) ^ (x.exp - y.exp - 1) = 2 ^ 29 * 2 ^ (x.exp - y.exp - 30) := by
    rw [show x.exp - y.exp - 1 = 29 + (x.exp - y.exp - 30) by ring, zadd]
    norm_num
  rw [e] at hqb
  linarith

theorem rIsInteger_tiny {x : RatV} {z : FloatV} (hx : RatOk x) (hi : rIsInteger x = some false) (h0 : qval x ≠ 0)
    (ha : (val x.a.nat : ℚ) < 2 ^ maxExp) (hb : (val x.b.nat : ℚ) < 2 ^ maxExp) (h : fFromRat x = .ok z)
    (hf : z.form = .finite) : 2 ^ 29 * |fval z| < |qval x| := by
  obtain ⟨u, u1, u2, u3, _⟩ := C62_from_bigint (x := x.a) hx.1 ha
  obtain ⟨v, v1, v2, v3, _⟩ := C62_from_bigint (x := x.b) hx.2.1 hb
  have hab : ival x.a ≠ 0 ∧ ival x.b ≠ 0 := by
    unfold qval at h0
    constructor <;> intro h <;> rw [h] at h0 <;> simp at h0
  have key : ∀ {w : FloatV} {i : Int}, FloatOk w → fext w = some (((i : ℚ) : WithTop ℚ) : WithBot (WithTop ℚ)) → i ≠ 0 →
      w.form = .finite ∧ fval w = i := by
    intro w i hw he hi
    unfold fext at he
    cases hf : w.form <;> rw [hf] at he
    · simp only [fval, hf, reduceCtorEq, if_false, Option.some.injEq, WithBot.coe_inj, WithTop.coe_inj] at he
      exact absurd (by exact_mod_cast he.symm) hi
    · simp only [Option.some.injEq, WithBot.coe_inj, WithTop.coe_inj] at he
      exact ⟨rfl, he⟩
    · cases hn : w.neg
      · rw [hn] at he
        simp only [Bool.false_eq_true, if_false, Option.some.injEq, WithBot.coe_inj] at he
        exact absurd he (WithTop.coe_ne_top).symm
      · rw [hn] at he
        simp only [if_true, Option.some.injEq] at he
        exact absurd he (WithBot.bot_ne_coe)
    · cases he
  obtain ⟨fu, gu⟩ := key u2 u3 hab.1
  obtain ⟨fv, gv⟩ := key v2 v3 hab.2
  obtain ⟨a, La, hu⟩ := u2.fin fu
  obtain ⟨b, Lb, hv⟩ := v2.fin fv
  unfold fFromRat at h
  rw [hi] at h
  simp only [u1, v1, bind, Except.bind] at h
  unfold fOpAssign at h
  rw [if_neg (by simp [fu, fv])] at h
  unfold fDivInner at h
  have hp' := hu.prec
  simp only [if_neg (show ¬ u.prec = 0 by omega), fu, fv, and_self, if_true] at h
  have hneg : IsFin { u with neg := u.neg != v.neg } a La :=
    ⟨fu, hu.mant, hu.norm, hu.prec, hu.words, hu.dvd, hu.emin, hu.emax, fval_enc (x := { u with neg := u.neg != v.neg }) fu hu.mant hu.norm.length⟩
  have hab : |fval { u with neg := u.neg != v.neg }| = |fval u| := by rw [hneg.abs, hu.abs]
  refine fUquo_tiny hneg hv (z := z) ?_ hf ?_
  · simp only [fu]; exact h
  · rw [hab, gu, gv, ← abs_div]; rfl

theorem lowWords_le (L N : Nat) (h : N ≠ 0) : lowWords L N < 2 * N ∨ lowWords L N = N := by
  unfold lowWords
  simp only
  split
  · left
    refine lt_of_lt_of_le (Nat.mod_lt _ (by positivity)) ?_
    have := Nat.log2_self_le h
    rw [pow_succ]; omega
  · right; rfl

theorem digitsFor_bound {E k n : Nat} {q r : ℚ} (hn : 1 ≤ n) (h : DigitsFor E k n q r) : 2 * |r| ≤ 3 * |q| := by
  have key : ∀ (e j : ℤ), 10 ^ (e - 1) ≤ |q| → r = j * 10 ^ (e - n) → |q / 10 ^ (e - n) - j| ≤ 1 / 2 → 2 * |r| ≤ 3 * |q| := by
    intro e j h1 h2 h3
    have hpos : (0 : ℚ) < 10 ^ (e - n) := zpow_pos (by norm_num) _
    have hle : (10 : ℚ) ^ (e - n) ≤ 10 ^ (e - 1) := zpow_le_zpow_right₀ (by norm_num) (by omega)
    have h4 : |q - r| ≤ 10 ^ (e - n) / 2 := by
      have : q - r = (q / 10 ^ (e - n) - j) * 10 ^ (e - n) := by rw [h2]; field_simp
      rw [this, abs_mul, abs_of_pos hpos]
      nlinarith
    have h5 := abs_sub_abs_le_abs_sub r q
    rw [abs_sub_comm] at h5
    linarith
  unfold DigitsFor at h
  split at h
  · obtain ⟨e, j, h1, -, h2, h3, -⟩ := h
    exact key e j h1 h2 h3
  · obtain ⟨e, j, h1, -, h2, h3, -⟩ := h
    exact key e j h1 h2 h3

theorem lowest_dyadic (m : Nat) : ∀ j : Nat, ∃ N k : Nat, (m : ℚ) / 2 ^ j = N / 2 ^ k ∧ (k = 0 ∨ N % 2 = 1) ∧ k ≤ j := by
  intro j
  induction j generalizing m with
  | zero => exact ⟨m, 0, rfl, Or.inl rfl, le_refl _⟩
  | succ j ih =>
    by_cases hm : m % 2 = 1
    · exact ⟨m, j + 1, rfl, Or.inr hm, le_refl _⟩
    · obtain ⟨N, k, h1, h2, h3⟩ := ih (m / 2)
      refine ⟨N, k, ?_, h2, by omega⟩
      rw [← h1]
      have : (m : ℚ) = 2 * (m / 2 : Nat) := by exact_mod_cast (by omega : m = 2 * (m / 2))
      rw [this, pow_succ]
      field_simp

theorem fval_dyadic {x : FloatV} {m L : Nat} (h : IsFin x m L) : ∃ N k : Nat, |fval x| = N / 2 ^ k ∧ (k = 0 ∨ N % 2 = 1) := by
  rw [h.abs]
  rcases le_or_gt 0 (x.exp - 32 * (L : ℤ)) with he | he
  · obtain ⟨i, hi⟩ : ∃ i : Nat, x.exp - 32 * (L : ℤ) = i := ⟨_, (Int.toNat_of_nonneg he).symm⟩
    refine ⟨m * 2 ^ i, 0, ?_, Or.inl rfl⟩
    rw [hi, zpow_natCast]; simp
  · obtain ⟨i, hi⟩ : ∃ i : Nat, x.exp - 32 * (L : ℤ) = -(i : ℤ) := ⟨(-(x.exp - 32 * (L : ℤ))).toNat, by omega⟩
    obtain ⟨N, k, h1, h2, -⟩ := lowest_dyadic m i
    refine ⟨N, k, ?_, h2⟩
    rw [← h1, hi, zpow_neg, zpow_natCast]; rfl

/-- The number printed is at most four times the number, or below one. -/
theorem fDisplay_bound {checks : Bool} {x : FloatV} (hx : FloatOk x) (hf : x.form = .finite) {t : List Char}
    (h : fDisplay checks x = .ok t) : ∃ r, PointText x.prec t r ∧ (|r| < 1 ∨ |r| ≤ 4 * |fval x|) := by
  obtain ⟨m, L, hfin⟩ := hx.fin hf
  obtain ⟨N, k, hq, hk⟩ := fval_dyadic hfin
  have hd := C83_described checks x hx hf N k hq hk
  have hN : N ≠ 0 := by
    rintro rfl
    apply hfin.ne_zero
    simpa using hq
  split at hd
  · obtain ⟨t', t1, t2⟩ := hd
    rw [h] at t1
    cases t1
    exact ⟨0, t2, Or.inl (by norm_num)⟩
  · rename_i hE
    obtain ⟨r₁, r, h1, ⟨j, j1, j2, -⟩, h3⟩ := hd
    split at h3
    · rw [h] at h3; cases h3
    · obtain ⟨t', t1, t2⟩ := h3
      rw [h] at t1
      cases t1
      refine ⟨r, t2, ?_⟩
      rcases lt_or_ge |r| 1 with hr | hr
      · exact Or.inl hr
      · right
        have b1 := digitsFor_bound (by omega) h1
        have hbl : (blanked (lowWords x.mant.length N) : ℚ) / 2 ^ k ≤ 2 * |fval x| := by
          rw [hq, ← mul_div_assoc]
          have : blanked (lowWords x.mant.length N) ≤ 2 * N := by
            refine le_trans (C82_blanked_le _) ?_
            rcases lowWords_le x.mant.length N hN with h | h <;> omega
          exact div_le_div_of_nonneg_right (by exact_mod_cast this) (by positivity)
        rw [signQ_abs (x.neg), abs_of_nonneg (a := (_ : ℚ) / 2 ^ k) (by positivity)] at b1
        have hp : (10 : ℚ) ≤ 10 ^ x.prec := by
          calc (10 : ℚ) = 10 ^ 1 := by norm_num
            _ ≤ _ := pow_le_pow_right₀ (by norm_num) (by have := (hx hf).2.2.1; omega)
        have b2 : |r - r₁| ≤ 1 / 20 := by
          have : r - r₁ = -(r₁ * 10 ^ x.prec - j) / 10 ^ x.prec := by rw [j1]; field_simp; ring
          rw [this, abs_div, abs_neg, abs_of_pos (by linarith : (0 : ℚ) < 10 ^ x.prec), div_le_iff₀ (by linarith)]
          linarith
        have b3 := abs_sub_abs_le_abs_sub r r₁
        linarith

/-- **C85** (exact extent).  The text of a finite number is read as that number if and only if the number is an integer and
is printed exactly: no fraction comes back.  (The bound keeps the digits of the text within the range of a `Float`.) -/
theorem C85_round_trip_iff (checks : Bool) (x : FloatV) (hx : FloatOk x) (hf : x.form = .finite)
    (hb : |fval x| * 10 ^ x.prec < 2 ^ (maxExp - 2)) :
    (∃ t z, fDisplay checks x = .ok t ∧ fParse t = .ok (some z) ∧ fext z = fext x) ↔
      (∃ i : ℤ, fval x = i) ∧ ∃ t, fDisplay checks x = .ok t ∧ PointText x.prec t (fval x) := by
  obtain ⟨m, L, hfin⟩ := hx.fin hf
  have hp0 : x.prec ≠ 0 := by have := (hx hf).2.2.1; omega
  have h10 : (0 : ℚ) < 10 ^ x.prec := by positivity
  have hext : ∀ {z : FloatV}, fext z = fext x → z.form = .finite ∧ fval z = fval x ∨ z.form = .zero ∧ fval x = 0 := by
    intro z h
    unfold fext at h
    rw [hf] at h
    cases hz : z.form <;> rw [hz] at h
    · simp only [Option.some.injEq, WithBot.coe_inj, WithTop.coe_inj] at h
      refine Or.inr ⟨rfl, ?_⟩
      rw [← h]; simp [fval, hz]
    · simp only [Option.some.injEq, WithBot.coe_inj, WithTop.coe_inj] at h
      exact Or.inl ⟨rfl, h⟩
    · cases hn : z.neg
      · rw [hn] at h
        simp only [Bool.false_eq_true, if_false, Option.some.injEq, WithBot.coe_inj] at h
        exact absurd h (WithTop.coe_ne_top).symm
      · rw [hn] at h
        simp only [if_true, Option.some.injEq] at h
        exact absurd h (WithBot.bot_ne_coe)
    · cases h
  have hfx : fext x = some (((fval x : ℚ) : WithTop ℚ) : WithBot (WithTop ℚ)) := by unfold fext; rw [hf]
  constructor
  · rintro ⟨t, z, h1, h2, h3⟩
    obtain ⟨r, r1, r2⟩ := fDisplay_bound hx hf h1
    obtain ⟨d, d1, d2, d3, d4, d5, d6, d7, d8⟩ := pointText_dec hp0 r1
    have hspec := fParse_spec d1 (Or.inl d2)
    rw [d4] at hspec
    split at hspec
    case isFalse => rw [hspec] at h2; cases h2
    rename_i hc
    have hr1 : 1 ≤ |r| := d7.1 hc.2.1
    have hr : |r| ≤ 4 * |fval x| := by
      rcases r2 with h | h
      · linarith
      · exact h
    have e4 : (2 : ℚ) ^ maxExp = 4 * 2 ^ (maxExp - 2) := by
      rw [show maxExp = 2 + (maxExp - 2) by ring, zadd]; norm_num
    have hrb : |r| * 10 ^ x.prec < 2 ^ maxExp := by
      rw [e4]
      calc |r| * 10 ^ x.prec ≤ 4 * |fval x| * 10 ^ x.prec := mul_le_mul_of_nonneg_right hr h10.le
        _ = 4 * (|fval x| * 10 ^ x.prec) := by ring
        _ < _ := by linarith
    have h1p : (1 : ℚ) ≤ 10 ^ x.prec := one_le_pow₀ (by norm_num)
    obtain ⟨w, w1, w2, w3, w4, w5, w6⟩ := hspec
    obtain ⟨b, b1, b2⟩ := C74_is_integer_partial w w2 w4
    rw [w3, d5] at b2
    cases b
    · exfalso
      have hz : fFromRat w = .ok z := by
        rw [w1] at h2
        cases hw : fFromRat w with
        | error e => rw [hw] at h2; cases h2
        | ok v => rw [hw] at h2; cases h2; rfl
      have hq : qval w = r := by rw [w3, d5]
      have := rIsInteger_tiny (z := z) w2 b1 (by rw [hq]; rintro rfl; norm_num at hr1)
        (lt_of_le_of_lt (show (val w.a.nat : ℚ) ≤ ((numeral 10 d.digits).getD 0 : Nat) by exact_mod_cast w5) (by rw [d8]; exact hrb))
        (lt_of_le_of_lt (b := (10 : ℚ) ^ x.prec) (by rw [d6] at w6; simp at w6; exact_mod_cast w6)
          (lt_of_le_of_lt (le_mul_of_one_le_left h10.le hr1) hrb)) hz
      rcases hext h3 with ⟨h4, h5⟩ | ⟨h4, h5⟩
      · have := this h4
        rw [h5, hq] at this
        have h0 : 0 < |fval x| := abs_pos.2 hfin.ne_zero
        linarith
      · exact hfin.ne_zero h5
    · obtain ⟨i, hi⟩ := b2.1 rfl
      obtain ⟨v, v1, v2⟩ := C84_integral_partial d d1 (Or.inl d2) hc.1 hc.2.1 hc.2.2 (by rw [d5]; exact ⟨i, hi⟩)
        (by rw [d5]; nlinarith)
      rw [d4, h2] at v1
      cases v1
      have hrx : r = fval x := by
        have h4 := v2.2.1
        rw [h3, hfx, d5] at h4
        simp only [Option.some.injEq, WithBot.coe_inj, WithTop.coe_inj] at h4
        exact h4.symm
      rw [hrx] at hi r1
      exact ⟨⟨i, hi⟩, t, h1, r1⟩
  · rintro ⟨⟨i, hi⟩, t, h1, h2⟩
    obtain ⟨d, d1, d2, d3, d4, d5, d6, d7, d8⟩ := pointText_dec hp0 h2
    have h0 := hfin.ne_zero
    have hone : 1 ≤ |fval x| := by
      rw [hi] at h0 ⊢
      have : i ≠ 0 := by exact_mod_cast h0
      rw [← Int.cast_abs]
      exact_mod_cast Int.one_le_abs this
    obtain ⟨z, z1, z2⟩ := C84_integral_partial d d1 (Or.inl d2) (by rw [d6]; omega) (d7.2 hone)
      (by intro c n ds h; rw [d3] at h; cases h) (by rw [d5]; exact ⟨i, hi⟩)
      (by
        rw [d5, hfin.abs]
        exact lt_of_lt_of_le (hfin.norm.bounds x.exp).2 (zpow_le_zpow_right₀ (by norm_num) hfin.emax))
    rw [d4] at z1
    rw [d5] at z2
    exact ⟨t, z, h1, z1, by rw [z2.2.1, hfx]⟩

/-- No number with a fraction comes back. -/
theorem C85_no_fraction (checks : Bool) (x : FloatV) (hx : FloatOk x) (hf : x.form = .finite)
    (hb : |fval x| * 10 ^ x.prec < 2 ^ (maxExp - 2)) (hi : ¬ ∃ i : ℤ, fval x = i) :
    ¬ ∃ t z, fDisplay checks x = .ok t ∧ fParse t = .ok (some z) ∧ fext z = fext x :=
  fun h => hi ((C85_round_trip_iff checks x hx hf hb).1 h).1

/-- the hypotheses of `C85_round_trip_iff`, for an integer that comes back -/
example : FloatOk sample12300 ∧ |fval sample12300| * 10 ^ sample12300.prec < 2 ^ (maxExp - 2) ∧ (∃ i : ℤ, fval sample12300 = i) ∧
    fDisplay true sample12300 = .ok "-12300.00000000000000".toList := by
  refine ⟨fun _ => by decide, ?_, ⟨-12300, by norm_num [fval, sample12300, val]⟩, by decide +kernel⟩
  refine lt_of_lt_of_le (b := (2 : ℚ) ^ (100 : ℤ)) (by norm_num [fval, sample12300, val]) (zpow_le_zpow_right₀ (by norm_num) (by decide))

/-- the hypotheses of `C85_no_fraction` -/
example : FloatOk sample3_2 ∧ |fval sample3_2| * 10 ^ sample3_2.prec < 2 ^ (maxExp - 2) ∧ ¬ ∃ i : ℤ, fval sample3_2 = i := by
  refine ⟨fun _ => by decide, ?_, ?_⟩
  · exact lt_of_lt_of_le (b := (2 : ℚ) ^ (100 : ℤ)) (by norm_num [fval, sample3_2, val]) (zpow_le_zpow_right₀ (by norm_num) (by decide))
  · rintro ⟨i, hi⟩
    rw [C85_violated.2.2.2.2.1, div_eq_iff (by norm_num)] at hi
    have : (3 : ℤ) = i * 2 := by exact_mod_cast hi
    omega

end RMath
