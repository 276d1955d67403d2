import Verif.Model.RandMsg
import Verif.Props.Rand

/-!
# C129 The constructors of the generators say which condition fails
-/

namespace RMath

/-! ## Specification -/

/-- the conditions on the parameters of a lagged Fibonacci generator for words of `b` bits, in the order of their messages -/
def lfrConds (b w s r : ℕ) : List (Bool × String) :=
  [(0 < w ∧ 0 < s ∧ 0 < r, "all parameters cannot be the 0"),
   (s < r, "s must be less than the r"),
   (w ≤ b, "w must be less than or equal to " ++ toString b)]

/-- the parameters of a Mersenne twister as numbers -/
structure MtNums where
  (w n m r a u d s bm t c l f : ℕ)

/-- the conditions on the parameters of a Mersenne twister for words of `b` bits, in the order of their messages -/
def mtConds (b : ℕ) (p : MtNums) : List (Bool × String) :=
  [(0 < p.w ∧ 0 < p.m ∧ 0 < p.r ∧ 0 < p.a ∧ (0 < p.u ∨ 0 < p.d) ∧ (0 < p.s ∨ 0 < p.bm) ∧ (0 < p.t ∨ 0 < p.c) ∧ 0 < p.l ∧ 0 < p.f,
     "all parameters cannot be the 0"),
   (p.m ≤ p.n, "m must be satisfy the relation: m <= n"),
   (p.w ≤ b, "w must be satisfy the relation: m <= " ++ toString b),
   (p.r < p.w, "r must be less than w"),
   (p.u < p.w, "u must be less than w"),
   (p.s < p.w, "s must be less than w"),
   (p.t < p.w, "t must be less than w"),
   (p.l < p.w, "l must be less than w"),
   (p.a ≤ 2 ^ p.w - 1, "a must be less than or equal to ((1<<w) - 1)"),
   (p.d ≤ 2 ^ p.w - 1, "d must be less than  or equal to ((1<<w) - 1)"),
   (p.bm ≤ 2 ^ p.w - 1, "b must be less than  or equal to ((1<<w) - 1)"),
   (p.c ≤ 2 ^ p.w - 1, "c must be less than  or equal to ((1<<w) - 1)"),
   (p.f ≤ 2 ^ p.w - 1, "f must be less than  or equal to ((1<<w) - 1)")]

/-- the message of the first condition that fails -/
def firstFailing (l : List (Bool × String)) : Option String := (l.find? fun c => !c.1).map Prod.snd

/-! ## Proof -/

theorem ff_pos {c : Prop} [Decidable c] {m : String} {l : List (Bool × String)} (h : c) : firstFailing ((decide c, m) :: l) = firstFailing l := by
  simp [firstFailing, h]

theorem ff_neg {c : Prop} [Decidable c] {m : String} {l : List (Bool × String)} (h : ¬ c) : firstFailing ((decide c, m) :: l) = some m := by
  simp [firstFailing, h]

theorem bv_pos {b : ℕ} (x : BitVec b) : 0 < x.toNat ↔ x ≠ 0#b := by
  rw [Nat.pos_iff_ne_zero, ne_eq, ne_eq, ← BitVec.toNat_inj]
  simp

/-- one condition of the chain -/
theorem chain_step {α : Type} {c : Prop} [Decidable c] {bad : Prop} [Decidable bad] {m : String} {l : List (Bool × String)}
    {rest good : Except (RandErr × String) α} (hcb : bad ↔ ¬ c)
    (hr : c → rest = match firstFailing l with | some m => .error (.invalidRngPara, m) | none => good) :
    (if bad then .error (.invalidRngPara, m) else rest) =
      match firstFailing ((decide c, m) :: l) with | some m => .error (.invalidRngPara, m) | none => good := by
  by_cases h : c
  · rw [ff_pos h, if_neg (by rw [hcb]; exact fun g => g h), hr h]
  · rw [ff_neg h, if_pos (hcb.2 h)]

/-! ## C129 -/

/-- the messages do not change the results -/
theorem C129_results {b : ℕ} (sd : Except (RandErr × String) (BitVec b)) (a c m w s r : BitVec b) (p : MtPar b) :
    lcgNew (sd.mapError Prod.fst) a c m = (lcgNewM sd a c m).mapError Prod.fst ∧
    lfrNew (sd.mapError Prod.fst) w s r = (lfrNewM sd w s r).mapError Prod.fst ∧
    mtNew (sd.mapError Prod.fst) p = (mtNewM sd p).mapError Prod.fst := by
  refine ⟨?_, ?_, ?_⟩
  · unfold lcgNew lcgNewM
    split_ifs
    · rfl
    · cases sd <;> rfl
  · unfold lfrNew lfrNewM
    split_ifs
    · rfl
    · rfl
    · rfl
    · cases sd <;> rfl
  · have step : ∀ {α : Type} {c : Prop} [Decidable c] {m : String} {x : Except RandErr α} {y : Except (RandErr × String) α},
        x = y.mapError Prod.fst → (if c then .error .invalidRngPara else x) =
          (if c then .error (.invalidRngPara, m) else y : Except (RandErr × String) α).mapError Prod.fst := by
      intro α c _ m x y h
      split_ifs
      · rfl
      · exact h
    unfold mtNew mtNewM
    iterate 13 refine step ?_
    cases sd <;> rfl

/-- **C129** for the linear congruential generator: only the modulus 0 is refused, without a word. -/
theorem C129_lcg {b : ℕ} (sd : Except (RandErr × String) (BitVec b)) (a c m : BitVec b) :
    lcgNewM sd a c m = if m.toNat = 0 then .error (.divisorIsZero, "") else sd.map fun x => ⟨a, c, m, x⟩ := by
  unfold lcgNewM
  by_cases h : m = 0#b
  · rw [if_pos h, if_pos (by rw [h]; simp)]
  · rw [if_neg h, if_neg (Nat.pos_iff_ne_zero.1 ((bv_pos m).2 h))]

/-- **C129** for the lagged Fibonacci generator: the message is that of the first condition that fails. -/
theorem C129_lfr {b : ℕ} (hb : b = 32 ∨ b = 64) (sd : Except (RandErr × String) (BitVec b)) (w s r : BitVec b) :
    lfrNewM sd w s r = match firstFailing (lfrConds b w.toNat s.toNat r.toNat) with
      | some m => .error (.invalidRngPara, m)
      | none => sd.map fun x => ⟨w, s, r, x, false, 0#b, 0#b, []⟩ := by
  have hbb : (BitVec.ofNat b b).toNat = b := by rcases hb with rfl | rfl <;> rfl
  unfold lfrNewM lfrConds
  refine chain_step (by rw [bv_pos, bv_pos, bv_pos]; tauto) fun _ => ?_
  refine chain_step (by rw [BitVec.le_def]; omega) fun _ => ?_
  refine chain_step (by rw [BitVec.lt_def, hbb]; omega) fun _ => ?_
  rfl

/-- **C129** for the Mersenne twister: the message is that of the first condition that fails. -/
theorem C129_mt {b : ℕ} (hb : b = 32 ∨ b = 64) (sd : Except (RandErr × String) (BitVec b)) (p : MtPar b) :
    mtNewM sd p = match firstFailing (mtConds b ⟨p.w.toNat, p.n.toNat, p.m.toNat, p.r.toNat, p.a.toNat, p.u.toNat, p.d.toNat, p.s.toNat,
        p.bm.toNat, p.t.toNat, p.c.toNat, p.l.toNat, p.f.toNat⟩) with
      | some m => .error (.invalidRngPara, m)
      | none => sd.map fun x => ⟨p, p.n, x, false, []⟩ := by
  have hbb : (BitVec.ofNat b b).toNat = b := by rcases hb with rfl | rfl <;> rfl
  unfold mtNewM mtConds
  refine chain_step (by simp only [bv_pos]; tauto) fun _ => ?_
  refine chain_step (by rw [BitVec.lt_def]; dsimp only; omega) fun _ => ?_
  refine chain_step (by rw [BitVec.lt_def, hbb]; dsimp only; omega) fun hw => ?_
  refine chain_step (by rw [BitVec.le_def]; dsimp only; omega) fun _ => ?_
  refine chain_step (by rw [BitVec.le_def]; dsimp only; omega) fun _ => ?_
  refine chain_step (by rw [BitVec.le_def]; dsimp only; omega) fun _ => ?_
  refine chain_step (by rw [BitVec.le_def]; dsimp only; omega) fun _ => ?_
  refine chain_step (by rw [BitVec.le_def]; dsimp only; omega) fun _ => ?_
  have hm : (maskW p.w).toNat = 2 ^ p.w.toNat - 1 := maskW_toNat hb hw
  refine chain_step (by rw [BitVec.lt_def, hm]; dsimp only; omega) fun _ => ?_
  refine chain_step (by rw [BitVec.lt_def, hm]; dsimp only; omega) fun _ => ?_
  refine chain_step (by rw [BitVec.lt_def, hm]; dsimp only; omega) fun _ => ?_
  refine chain_step (by rw [BitVec.lt_def, hm]; dsimp only; omega) fun _ => ?_
  refine chain_step (by rw [BitVec.lt_def, hm]; dsimp only; omega) fun _ => ?_
  rfl

/-- The documentation is not what is checked: `l = 0` is documented as allowed and refused; `u = 0`, `s = 0` and `t = 0` are documented as
excluded and accepted, as is a mask `d`, `b` or `c` that is 0; a word size above that of the type is refused with a message about `m`; and
the message about zeros is there if one parameter is 0, and says that all are. -/
theorem C129_violated :
    mtNewM (.ok 1#32) { mt19937Par with l := 0#32 } = .error (.invalidRngPara, "all parameters cannot be the 0") ∧
    (∃ g, mtNewM (.ok 1#32) { mt19937Par with u := 0#32, s := 0#32, t := 0#32 } = .ok g) ∧
    (∃ g, mtNewM (.ok 1#32) { mt19937Par with d := 0#32, bm := 0#32, c := 0#32 } = .ok g) ∧
    mtNewM (.ok 1#32) { mt19937Par with w := 33#32 } = .error (.invalidRngPara, "w must be satisfy the relation: m <= 32") ∧
    lfrNewM (.ok 1#32) 24#32 10#32 0#32 = .error (.invalidRngPara, "all parameters cannot be the 0") :=
  ⟨by decide, ⟨_, rfl⟩, ⟨_, rfl⟩, by decide, by decide⟩

/-- conditions of C129 fail and hold -/
example : lfrNewM (.ok 1#64) 48#64 12#64 5#64 = .error (.invalidRngPara, "s must be less than the r") ∧
    lfrNewM (.ok 1#64) 65#64 5#64 12#64 = .error (.invalidRngPara, "w must be less than or equal to 64") ∧
    (∃ g, lfrNewM (.ok 1#64) 48#64 5#64 12#64 = .ok g) ∧
    mtNewM (.ok 1#32) { mt19937Par with w := 31#32 } = .error (.invalidRngPara, "r must be less than w") ∧
    mtNewM (.ok 1#32) { mt19937Par with w := 31#32, r := 30#32 } = .error (.invalidRngPara, "a must be less than or equal to ((1<<w) - 1)") ∧
    (∃ g, mtNewM (.ok 1#32) mt19937Par = .ok g) ∧
    lcgNewM (.ok 1#32) 1#32 1#32 0#32 = .error (.divisorIsZero, "") :=
  ⟨by decide, by decide, ⟨_, rfl⟩, by decide, by decide, ⟨_, rfl⟩, by decide⟩

end RMath
