import Verif.Props.RandTwist
import Mathlib.Data.Nat.Digits.Lemmas
import Mathlib.Dynamics.PeriodicPts.Lemmas

/-!
# Property C134 for a Mersenne twister with a state of one word

`new` accepts `n = m = 1`.  The state `x` becomes `x ^ (x >> 1)`, with `a` added if `x` is odd.  This loses information exactly if `a` has an odd number of
ones.
-/

namespace RMath

/-- the next state of a twister with one word -/
def oneStep (a x : ℕ) : ℕ := x ^^^ x / 2 ^^^ (if x % 2 = 1 then a else 0)

/-- the number of ones in the binary notation -/
def ones (n : ℕ) : ℕ := (Nat.digits 2 n).sum

/-! ## Proof -/

theorem ones_half (n : ℕ) : ones n = n % 2 + ones (n / 2) := by
  rcases Nat.eq_zero_or_pos n with rfl | h
  · simp [ones]
  · rw [ones, Nat.digits_def' (by norm_num) h, List.sum_cons, ones]

theorem xor_half (x y : ℕ) : (x ^^^ y) / 2 = x / 2 ^^^ y / 2 := by
  have := Nat.shiftRight_xor_distrib (a := x) (b := y) (i := 1)
  simpa [Nat.shiftRight_eq_div_pow] using this

theorem xor_mod2 (x y : ℕ) : (x ^^^ y) % 2 = (x + y) % 2 := by
  exact Nat.xor_mod_two_eq

/-- the Gray code of `x` has an even number of ones exactly if `x` is even -/
theorem ones_gray (x : ℕ) : ones (x ^^^ x / 2) % 2 = x % 2 := by
  induction x using Nat.strong_induction_on with
  | _ x ih =>
    rcases Nat.eq_zero_or_pos x with rfl | h
    · simp [ones]
    · have := ih (x / 2) (by omega)
      rw [ones_half, xor_half, xor_mod2]
      omega

/-- every number is the Gray code of one -/
theorem gray_exists (w : ℕ) : ∀ a, a < 2 ^ w → ∃ x, x < 2 ^ w ∧ x ^^^ x / 2 = a := by
  induction w with
  | zero => intro a ha; exact ⟨0, by norm_num, by simp at ha; simp [ha]⟩
  | succ w ih =>
    intro a ha
    have hp : 2 ^ (w + 1) = 2 * 2 ^ w := pow_succ' 2 w
    obtain ⟨y, hy, e⟩ := ih (a / 2) (by omega)
    refine ⟨2 * y + (a + y) % 2, by omega, ?_⟩
    have h1 : (2 * y + (a + y) % 2) / 2 = y := by omega
    rw [h1]
    have h2 : ((2 * y + (a + y) % 2) ^^^ y) / 2 = a / 2 := by rw [xor_half, h1, e]
    have h3 : ((2 * y + (a + y) % 2) ^^^ y) % 2 = a % 2 := by rw [xor_mod2]; omega
    omega

theorem oneStep_lt {a x w : ℕ} (ha : a < 2 ^ w) (hx : x < 2 ^ w) : oneStep a x < 2 ^ w := by
  refine Nat.xor_lt_two_pow (Nat.xor_lt_two_pow hx (lt_of_le_of_lt (Nat.div_le_self _ _) hx)) ?_
  split
  · exact ha
  · positivity

theorem oneStep_xor (a x y : ℕ) : oneStep a (x ^^^ y) = oneStep a x ^^^ oneStep a y := by
  have hm := xor_mod2 x y
  have h1 : (if (x ^^^ y) % 2 = 1 then a else 0) = (if x % 2 = 1 then a else 0) ^^^ (if y % 2 = 1 then a else 0) := by
    rcases Nat.mod_two_eq_zero_or_one x with hx | hx <;> rcases Nat.mod_two_eq_zero_or_one y with hy | hy
    · rw [hx, hy, if_neg (by omega)]; simp
    · rw [hx, hy, if_pos (by omega)]; simp
    · rw [hx, hy, if_pos (by omega)]; simp
    · rw [hx, hy, if_neg (by omega)]; simp
  unfold oneStep
  rw [h1, xor_half]
  generalize (if x % 2 = 1 then a else 0) = p
  generalize (if y % 2 = 1 then a else 0) = q
  ac_rfl

theorem oneStep_zero_iff (a x : ℕ) : oneStep a x = 0 ↔ x = 0 ∨ (x % 2 = 1 ∧ x ^^^ x / 2 = a) := by
  unfold oneStep
  rw [Nat.xor_eq_zero_iff]
  rcases Nat.mod_two_eq_zero_or_one x with h | h
  · rw [h, if_neg (by norm_num), Nat.xor_eq_zero_iff]
    constructor
    · intro h; left; omega
    · rintro (h | ⟨h, -⟩)
      · omega
      · omega
  · rw [h, if_pos rfl]
    constructor
    · intro h'; exact Or.inr ⟨rfl, h'⟩
    · rintro (h' | ⟨-, h'⟩)
      · omega
      · exact h'

/-- the step keeps different states apart exactly if `a` has an even number of ones -/
theorem oneStep_keeps {a w : ℕ} (ha : a < 2 ^ w) :
    (∀ x y, x < 2 ^ w → y < 2 ^ w → oneStep a x = oneStep a y → x = y) ↔ ones a % 2 = 0 := by
  constructor
  · intro h
    by_contra ho
    obtain ⟨x, hx, e⟩ := gray_exists w a ha
    have hodd : x % 2 = 1 := by
      have := ones_gray x
      rw [e] at this
      omega
    have h0 : oneStep a 0 = 0 := (oneStep_zero_iff a 0).2 (Or.inl rfl)
    have := h x 0 hx (by positivity) (by rw [h0, (oneStep_zero_iff a x).2 (Or.inr ⟨hodd, e⟩)])
    omega
  · intro ho x y hx hy e
    have : oneStep a (x ^^^ y) = 0 := by rw [oneStep_xor, e, Nat.xor_self]
    rcases (oneStep_zero_iff a _).1 this with h | ⟨h1, h2⟩
    · exact Nat.xor_eq_zero_iff.1 h
    · have := ones_gray (x ^^^ y)
      rw [h2] at this
      omega

section
variable {b : Nat} {p : MtPar b}

theorem mtRegen_one (hn : p.n.toNat = 1) (hm : p.m.toNat = 1) (x : BitVec b) : mtRegen p [x] = .ok [mtTwist p x x x] := by
  simp [mtRegen, hn, hm, mtLoop, atR, setR, bind, Except.bind]

theorem mtGen_one (hb : b = 32 ∨ b = 64) (hn : p.n.toNat = 1) (hm : p.m.toNat = 1) (checks : Bool) (sd x : BitVec b) :
    mtGen checks ⟨p, p.n, sd, true, [x]⟩ = .ok (mtTemper p (mtTwist p x x x), ⟨p, p.n, sd, true, [mtTwist p x x x]⟩) := by
  have hn1 : p.n = 1#b := by
    apply BitVec.eq_of_toNat_eq
    rcases hb with rfl | rfl <;> simpa using hn
  have ha : addChk checks 0#b 1#b = .ok (0#b + 1#b) := addChk_ok (fun _ => by rcases hb with rfl | rfl <;> decide)
  have h0 : (0#b).toNat = 0 := by simp
  have hz : (0#b + 1#b) = p.n := by rw [hn1]; simp
  simp only [mtGen, mtInit, if_true, BitVec.le_refl, mtRegen_one hn hm, bind, Except.bind, pure, Except.pure, h0, atR, List.getElem?_cons_zero, ha, hz]

theorem mtTwist_one (hv : MtValid p) (x : BitVec b) : (mtTwist p x x x).toNat = oneStep p.a.toNat x.toNat := by
  have hr : p.r.toNat < b := by have := hv.rw'; have := hv.wb; omega
  rw [mtTwist_toNat p hv.r0 hr, Nat.mul_comm, Nat.div_add_mod]
  rfl
end

/-! ## Theorems -/

/-- **C134**, `n = 1`: the words drawn are the tempered states, from the one after the seed on. -/
theorem C134_one_word {b : Nat} (hb : b = 32 ∨ b = 64) {checks : Bool} {seed : BitVec b} {p : MtPar b} {g : Mt b}
    (hnew : mtNew (.ok seed) p = .ok g) (hn : p.n.toNat = 1) :
    Delivers (mtSource b checks) g fun k => mtTemperCode p.u.toNat p.d.toNat p.s.toNat p.bm.toNat p.t.toNat p.c.toNat p.l.toNat
      ((oneStep p.a.toNat)^[k + 1] (seed.toNat % 2 ^ p.w.toNat)) := by
  intro N
  obtain ⟨hv, ⟨x, hx, rfl⟩, -⟩ := mtNew_ok hb hnew
  cases hx
  have hm : p.m.toNat = 1 := by have := hv.m0; have := hv.mn; omega
  have hmask : (seed &&& maskW p.w).toNat = seed.toNat % 2 ^ p.w.toNat := by
    rw [BitVec.toNat_and, maskW_toNat hb hv.wb, Nat.and_two_pow_sub_one_eq_mod]
  have hinit : mtInit ⟨p, p.n, seed, false, []⟩ = ⟨p, p.n, seed, true, [seed &&& maskW p.w]⟩ := by
    simp [mtInit, hn, mtFill]
  let f : BitVec b → BitVec b := fun x => mtTwist p x x x
  have hf : ∀ k x, (f^[k] x).toNat = (oneStep p.a.toNat)^[k] x.toNat := by
    intro k x
    induction k with
    | zero => rfl
    | succ k ih => rw [Function.iterate_succ_apply', Function.iterate_succ_apply', ← ih]; exact mtTwist_one hv _
  obtain ⟨g', e', -⟩ := runCalls_stream (src := mtSource b checks) (out := fun k => mtTemper p (f^[k + 1] (seed &&& maskW p.w)))
    (I := fun k g => mtInit g = ⟨p, p.n, seed, true, [f^[k] (seed &&& maskW p.w)]⟩) (by
      intro k g hg
      refine ⟨⟨p, p.n, seed, true, [f^[k + 1] (seed &&& maskW p.w)]⟩, ?_, by simp [mtInit]⟩
      have h1 : mtGen checks g = mtGen checks (mtInit g) := by
        have h2 : mtInit (mtInit g) = mtInit g := by rw [hg]; simp [mtInit]
        unfold mtGen
        rw [h2]
      show mtGen checks g = _
      rw [h1, hg, mtGen_one hb hn hm, Function.iterate_succ_apply']) N 0 _ hinit
  refine ⟨_, g', e', ?_⟩
  rw [List.map_map]
  refine List.map_congr_left fun k _ => ?_
  simp only [Function.comp, Nat.zero_add, mtTemper_toNat, hf, hmask]

/-- **C134**, `n = 1`, `a` with an even number of ones: different seeds give different streams, and the words repeat from the first one on. -/
theorem C134_one_word_keeps {b : Nat} (hb : b = 32 ∨ b = 64) {checks : Bool} {seed : BitVec b} {p : MtPar b} {g : Mt b}
    (hnew : mtNew (.ok seed) p = .ok g) (hn : p.n.toNat = 1) (ho : ones p.a.toNat % 2 = 0) :
    ∃ Y, Delivers (mtSource b checks) g Y ∧ (∃ P, 0 < P ∧ ∀ k, Y (k + P) = Y k) ∧
      (0 < p.u.toNat ∧ 0 < p.s.toNat ∧ 0 < p.t.toNat → ∀ (seed' : BitVec b) g', mtNew (.ok seed') p = .ok g' →
        Delivers (mtSource b checks) g' Y → seed.toNat % 2 ^ p.w.toNat = seed'.toNat % 2 ^ p.w.toNat) := by
  have hv := (mtNew_ok hb hnew).1
  have ha : p.a.toNat < 2 ^ p.w.toNat := hv.a
  have hk := (oneStep_keeps ha).2 ho
  refine ⟨_, C134_one_word hb hnew hn, ?_, fun ht seed' g' hnew' hd => ?_⟩
  · let f : Fin (2 ^ p.w.toNat) → Fin (2 ^ p.w.toNat) := fun x => ⟨oneStep p.a.toNat x, oneStep_lt ha x.2⟩
    have hinj : Function.Injective f := fun x y e => Fin.ext (hk x y x.2 y.2 (Fin.mk.inj e))
    have hit : ∀ k x, (f^[k] x).val = (oneStep p.a.toNat)^[k] x.val := by
      intro k x
      induction k with
      | zero => rfl
      | succ k ih => rw [Function.iterate_succ_apply', Function.iterate_succ_apply', ← ih]
    obtain ⟨P, hP, hper⟩ := hinj.mem_periodicPts ⟨seed.toNat % 2 ^ p.w.toNat, Nat.mod_lt _ (by positivity)⟩
    refine ⟨P, hP, fun k => ?_⟩
    have := congrArg Fin.val hper.eq
    rw [hit] at this
    show mtTemperCode _ _ _ _ _ _ _ ((oneStep p.a.toNat)^[k + P + 1] _) = _
    rw [show k + P + 1 = k + 1 + P by omega, Function.iterate_add_apply, this]
  · have h1 := C134_one_word (checks := checks) hb hnew' hn
    obtain ⟨o1, g1, e1, q1⟩ := hd 1
    obtain ⟨o2, g2, e2, q2⟩ := h1 1
    rw [e1] at e2
    obtain ⟨rfl, -⟩ := Prod.mk.inj (Except.ok.inj e2)
    rw [q1] at q2
    simp only [List.range_one, List.map_cons, List.map_nil, List.cons.injEq, and_true] at q2
    have hlt : ∀ s : BitVec b, s.toNat % 2 ^ p.w.toNat < 2 ^ p.w.toNat := fun s => Nat.mod_lt _ (by positivity)
    exact hk _ _ (hlt _) (hlt _) (((C134_temper hb hnew).2 ht).2 (oneStep_lt ha (hlt _)) (oneStep_lt ha (hlt _)) q2)

/-- **C134 fails** for `n = 1` whenever `a` has an odd number of ones: there is a seed that is not zero and delivers nothing but zeros. -/
theorem C134_one_word_dies {b : Nat} (hb : b = 32 ∨ b = 64) {checks : Bool} {p : MtPar b} {s : BitVec b} {g : Mt b} (hnew : mtNew (.ok s) p = .ok g)
    (hn : p.n.toNat = 1) (ho : ones p.a.toNat % 2 = 1) :
    ∃ seed g', 0 < seed.toNat ∧ seed.toNat < 2 ^ p.w.toNat ∧ mtNew (.ok seed) p = .ok g' ∧ Delivers (mtSource b checks) g' fun _ => 0 := by
  have hv := (mtNew_ok hb hnew).1
  obtain ⟨x, hx, e⟩ := gray_exists p.w.toNat p.a.toNat hv.a
  have hodd : x % 2 = 1 := by
    have := ones_gray x
    rw [e] at this
    omega
  have hxb : x < 2 ^ b := lt_of_lt_of_le hx (Nat.pow_le_pow_right (by norm_num) hv.wb)
  have ht : (BitVec.ofNat b x).toNat = x := by rw [BitVec.toNat_ofNat, Nat.mod_eq_of_lt hxb]
  have hnew' := (mtNew_ok hb hnew).2.2 (BitVec.ofNat b x)
  refine ⟨BitVec.ofNat b x, _, by omega, by omega, hnew', ?_⟩
  have hd := C134_one_word (checks := checks) hb hnew' hn
  have hz : ∀ k, (oneStep p.a.toNat)^[k + 1] ((BitVec.ofNat b x).toNat % 2 ^ p.w.toNat) = 0 := by
    intro k
    induction k with
    | zero =>
      rw [ht, Nat.mod_eq_of_lt hx]
      exact (oneStep_zero_iff _ _).2 (Or.inr ⟨hodd, e⟩)
    | succ k ih => rw [Function.iterate_succ_apply', ih]; exact (oneStep_zero_iff _ _).2 (Or.inl rfl)
  simp only [hz] at hd
  simpa [mtTemperCode] using hd

example : ∃ g, mtNew (.ok 5#32) ⟨8#32, 1#32, 1#32, 3#32, 3#32, 1#32, 7#32, 1#32, 7#32, 1#32, 7#32, 2#32, 7#32⟩ = .ok g ∧ ones 3 % 2 = 0 ∧ ones 7 % 2 = 1 :=
  ⟨_, rfl, by norm_num [ones], by norm_num [ones]⟩

end RMath
