import Verif.Model.Prime
import Verif.Model.Rand
import Verif.Model.Rat
import Verif.Model.FloatText
import Verif.Props.Residue

/-!
# C108: builds with and without overflow checks

The functions whose arithmetic can overflow take the flag `checks`: a build with overflow checks (the default of a debug
build) or without (the default of a release build).
-/

namespace RMath

/-- The outcome in a build with overflow checks, next to the one in a build without: a panic, or the same. -/
def PanicsOrAgrees {α : Type} (checked unchecked : Res α) : Prop := checked = .error .panic ∨ checked = unchecked

namespace PanicsOrAgrees

variable {α β : Type}

theorem rfl' {r : Res α} : PanicsOrAgrees r r := Or.inr rfl

theorem bind' {r r' : Res α} {f f' : α → Res β} (h : PanicsOrAgrees r r') (hf : ∀ a, PanicsOrAgrees (f a) (f' a)) :
    PanicsOrAgrees (r >>= f) (r' >>= f') := by
  rcases h with rfl | rfl
  · exact Or.inl rfl
  · cases r with
    | error e => exact Or.inr rfl
    | ok a => exact hf a

theorem ite' {c : Prop} [Decidable c] {r s r' s' : Res α} (h : PanicsOrAgrees r r') (h' : PanicsOrAgrees s s') :
    PanicsOrAgrees (if c then r else s) (if c then r' else s') := by split <;> assumption

end PanicsOrAgrees

open PanicsOrAgrees

/-! ## Numbers -/

/-- `Nat::pow_mod`-like exponentiation -/
theorem C108_nat_exp (x b n : Words) : PanicsOrAgrees (natExp true x b n) (natExp false x b n) := by
  unfold natExp
  refine ite' rfl' (ite' rfl' (ite' rfl' (ite' rfl' (ite' rfl' ?_))))
  split
  · exact rfl'
  · by_cases h : leadingZeros ‹W› + 1 ≥ 32
    · left; simp [h]
    · right; simp [h]

theorem C108_int_exp (x b n : BInt) : PanicsOrAgrees (bExp true x b n) (bExp false x b n) := by
  unfold bExp
  refine ite' rfl' (ite' rfl' (bind' rfl' fun xs => ite' rfl' (bind' (C108_nat_exp _ _ _) fun e => rfl')))

theorem agrees_mulRange (a b : D) : PanicsOrAgrees (bMulRange true a b) (bMulRange false a b) := by
  unfold bMulRange
  refine ite' rfl' (ite' rfl' (ite' ?_ rfl'))
  split
  · exact Or.inl rfl
  · right; simp

theorem agrees_addI64 (a b : D) : PanicsOrAgrees (addI64 true a b) (addI64 false a b) := by
  unfold addI64; split
  · exact Or.inl rfl
  · right; simp

theorem agrees_subI64 (a b : D) : PanicsOrAgrees (subI64 true a b) (subI64 false a b) := by
  unfold subI64; split
  · exact Or.inl rfl
  · right; simp

/-- `mul_range` and `binomial` -/
theorem C108_products (a b : D) : PanicsOrAgrees (bMulRange true a b) (bMulRange false a b) ∧
    PanicsOrAgrees (bBinomial true a b) (bBinomial false a b) := by
  refine ⟨agrees_mulRange a b, ?_⟩
  unfold bBinomial
  exact bind' (ite' (agrees_subI64 _ _) rfl') fun k => bind' (agrees_subI64 _ _) fun nk => bind' (agrees_addI64 _ _) fun lo =>
    bind' (agrees_mulRange _ _) fun u => bind' (agrees_mulRange _ _) fun v => rfl'

/-- `Rat::from_frac` -/
theorem C108_from_frac (n d : BitVec 64) : PanicsOrAgrees (rFromFrac true n d) (rFromFrac false n d) := by
  unfold rFromFrac
  refine ite' rfl' ?_
  split
  · exact Or.inl rfl
  · right; simp

theorem agrees_tonelliLoop (p : BInt) (fuelM : Nat) : ∀ fuel y b g r,
    PanicsOrAgrees (bTonelliLoop true p fuelM fuel y b g r) (bTonelliLoop false p fuelM fuel y b g r)
  | 0, _, _, _, _ => rfl'
  | fuel + 1, y, b, g, r => by
    unfold bTonelliLoop
    exact bind' rfl' fun m => ite' rfl' (ite' rfl' (bind' (C108_int_exp _ _ _) fun t => bind' rfl' fun g => bind' rfl' fun y =>
      bind' rfl' fun b => agrees_tonelliLoop p fuelM fuel y b g m))

theorem agrees_tonelli (x p : BInt) : PanicsOrAgrees (bTonelli true x p) (bTonelli false x p) := by
  unfold bTonelli
  exact bind' rfl' fun n => bind' (C108_int_exp _ _ _) fun y => bind' (C108_int_exp _ _ _) fun b =>
    bind' (C108_int_exp _ _ _) fun g => agrees_tonelliLoop _ _ _ _ _ _ _

/-- `mod_sqrt` -/
theorem C108_mod_sqrt (x p : BInt) : PanicsOrAgrees (bModSqrt true x p) (bModSqrt false x p) := by
  unfold bModSqrt
  refine bind' rfl' fun j => ite' rfl' (ite' rfl' (ite' (bind' rfl' fun p0 => ite' rfl' (bind' rfl' fun x => bind' (ite' ?_ (ite' ?_
    (agrees_tonelli _ _))) fun y => rfl')) rfl'))
  · exact C108_int_exp _ _ _
  · unfold bModSqrt5mod8
    exact bind' (C108_int_exp _ _ _) fun alpha => rfl'

/-- C47 in a build with overflow checks: the call panics, or the answer is right. -/
theorem C47_mod_sqrt_checked_partial (x y : BInt) (hx : CanonI x) (hy : CanonI y) (p : Nat) (hyp : ival y = p) (hp : p.Prime)
    (h2 : p ≠ 2) (hfit : TwosFit (ival x) p)
    (hT : p % 8 = 1 → OddPartFits (p - 1) ∧ ∃ n : Nat, n < 2 ^ 32 ∧ ¬ IsSquare (n : ZMod p)) :
    bModSqrt true x y = .error .panic ∨ ∃ r, bModSqrt true x y = .ok r ∧ IsModSqrt (ival x) p r := by
  obtain ⟨r, h, hr⟩ := C47_mod_sqrt_partial x y hx hy p hyp hp h2 hfit hT
  rcases C108_mod_sqrt x y with h' | h'
  · exact Or.inl h'
  · exact Or.inr ⟨r, h'.trans h, hr⟩

/-! ## Primes -/

theorem agrees_mrRounds (x nm1 u : Words) (t : Nat) : ∀ s ds,
    PanicsOrAgrees (mrRounds true x nm1 u t s ds) (mrRounds false x nm1 u t s ds)
  | 0, _ => rfl'
  | s + 1, ds => by
    unfold mrRounds
    split
    · exact rfl'
    · exact bind' (C108_nat_exp _ _ _) fun tmp => bind' rfl' fun w => ite' rfl' (agrees_mrRounds x nm1 u t s _)

/-- `probably_prime_test`, for every sequence of draws -/
theorem C108_prime_test (x : Words) (k : Nat) (ds : List (Option W)) :
    PanicsOrAgrees (probablyPrimeTest true x k ds) (probablyPrimeTest false x k ds) := by
  unfold probablyPrimeTest
  refine ite' rfl' (bind' rfl' fun w => ite' rfl' (ite' rfl' (ite' rfl' (bind' (agrees_mrRounds _ _ _ _ _ _) fun r => ?_))))
  exact rfl'

theorem agrees_genPrimeLoop (bits rounds b len : Nat) : ∀ fuel ds,
    PanicsOrAgrees (genPrimeLoop true bits rounds b len fuel ds) (genPrimeLoop false bits rounds b len fuel ds)
  | 0, _ => rfl'
  | fuel + 1, ds => by
    unfold genPrimeLoop
    split
    · exact rfl'
    · refine bind' rfl' fun p => ite' (bind' (C108_prime_test _ _ _) fun r => ?_) (agrees_genPrimeLoop bits rounds b len fuel _)
      split
      · exact rfl'
      · exact rfl'
      · exact agrees_genPrimeLoop bits rounds b len fuel _

/-- `generate_prime`, for every sequence of draws -/
theorem C108_generate_prime (bits rounds : Nat) (ds : List (Option W)) :
    PanicsOrAgrees (generatePrime true bits rounds ds) (generatePrime false bits rounds ds) := by
  unfold generatePrime
  exact ite' rfl' (bind' (agrees_genPrimeLoop _ _ _ _ _ _) fun r => rfl')

/-! ## Text -/

theorem agrees_mapM {α β : Type} {f g : α → Res β} (h : ∀ a, PanicsOrAgrees (f a) (g a)) : ∀ l : List α,
    PanicsOrAgrees (l.mapM f) (l.mapM g)
  | [] => by simp only [List.mapM_nil]; exact rfl'
  | a :: l => by
    simp only [List.mapM_cons]
    exact bind' (h a) fun b => bind' (agrees_mapM h l) fun bs => rfl'

theorem agrees_decAt (d : Dec) (i : Nat) : PanicsOrAgrees (decAt true d i) (decAt false d i) := by
  unfold decAt
  exact ite' (ite' rfl' (Or.inl rfl)) rfl'

/-- `{}` of a `Float` -/
theorem C108_float_display (x : FloatV) : PanicsOrAgrees (fDisplay true x) (fDisplay false x) := by
  unfold fDisplay fmtInner
  refine ite' rfl' (ite' rfl' (ite' rfl' (ite' rfl' (bind' rfl' fun d => bind' ?_ fun t => rfl'))))
  unfold fmtForDisplay
  exact ite' (bind' (agrees_mapM (agrees_decAt _) _) fun t => rfl') rfl'

/-! ## Generators -/

theorem agrees_addChk {b : Nat} (x y : BitVec b) : PanicsOrAgrees (addChk true x y) (addChk false x y) := by
  unfold addChk; split
  · exact Or.inl rfl
  · right; simp

theorem agrees_subChk {b : Nat} (x y : BitVec b) : PanicsOrAgrees (subChk true x y) (subChk false x y) := by
  unfold subChk; split
  · exact Or.inl rfl
  · right; simp

theorem agrees_lfrGen {b : Nat} (g : Lfr b) : PanicsOrAgrees (lfrGen true g) (lfrGen false g) := by
  unfold lfrGen
  refine bind' rfl' fun g => ?_
  dsimp only
  refine ite' (bind' (bind' (agrees_addChk _ _) fun t => agrees_subChk _ _) fun ps => ?_)
    (bind' (agrees_subChk _ _) fun ps => ?_) <;>
  · refine bind' rfl' fun xs => bind' rfl' fun x => bind' (agrees_addChk _ _) fun t => ?_
    split <;> exact bind' rfl' fun st => bind' (agrees_addChk _ _) fun i => rfl'

theorem agrees_mtGen {b : Nat} (g : Mt b) : PanicsOrAgrees (mtGen true g) (mtGen false g) := by
  unfold mtGen
  dsimp only
  have jp : ∀ g : Mt b, PanicsOrAgrees _ _ := fun g => bind' (rfl' (r := atR g.state g.idx.toNat)) fun z =>
    bind' (agrees_addChk g.idx 1#b) fun i =>
      rfl' (r := .ok (mtTemper g.par z, ({ g with idx := i } : Mt b)))
  exact ite' (bind' rfl' jp) (bind' rfl' jp)

theorem agrees_runCalls {b : Nat} {σ : Type} (s s' : Source b σ) (h : ∀ g, PanicsOrAgrees (s.gen g) (s'.gen g))
    (h' : s.reset = s'.reset) : ∀ (cs : List (RandCall b)) (g : σ), PanicsOrAgrees (runCalls s g cs) (runCalls s' g cs)
  | [], _ => rfl'
  | .gen :: cs, g => by
    unfold runCalls
    exact bind' (h g) fun p => bind' (agrees_runCalls s s' h h' cs p.2) fun q => rfl'
  | .reset (.ok x) :: cs, g => by
    unfold runCalls
    rw [h']
    exact bind' rfl' fun g => agrees_runCalls s s' h h' cs g
  | .reset (.error _) :: cs, g => by
    unfold runCalls
    exact agrees_runCalls s s' h h' cs g

/-- the words drawn from a generator in a history of draws and resets, and its state -/
theorem C108_generators {b : Nat} (lfr : Lfr b) (mt : Mt b) (cs : List (RandCall b)) :
    PanicsOrAgrees (runCalls (lfrSource b true) lfr cs) (runCalls (lfrSource b false) lfr cs) ∧
    PanicsOrAgrees (runCalls (mtSource b true) mt cs) (runCalls (mtSource b false) mt cs) :=
  ⟨agrees_runCalls (lfrSource b true) (lfrSource b false) agrees_lfrGen rfl cs lfr,
    agrees_runCalls (mtSource b true) (mtSource b false) agrees_mtGen rfl cs mt⟩

-- both cases occur
example : natExp true [3#32] [2#32] [5#32] = .ok [4#32] ∧ natExp true [3#32] [0#32, 1#32] [0#32] = .error .panic := by decide
example : PanicsOrAgrees (rFromFrac true 1#64 (BitVec.intMin 64)) (rFromFrac false 1#64 (BitVec.intMin 64)) ∧
    rFromFrac true 1#64 (BitVec.intMin 64) = .error .panic := ⟨C108_from_frac _ _, by decide⟩

end RMath
