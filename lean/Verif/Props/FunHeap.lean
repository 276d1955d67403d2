import Verif.Lemmas.FunHeap
import Verif.Props.NatFun
import Verif.Props.BigInt

/-!
# Property C103: functions that make a number from others do not change them

The arguments are references to buffers (`Verif.Model.Heap`); any of them may be the same buffer.  `h` is the heap before
the call, `h'` the heap after it; the buffers with an address below `h.next` are those that exist before the call.
-/

namespace RMath

open Heap

/-- nothing that existed before the call shows anything else after it -/
def Untouched (h h' : Heap) : Prop := ∀ c, c < h.next → h'.buf c = h.buf c

/-- a buffer made by the call -/
def Made (h h' : Heap) (a : Nat) : Prop := h.next ≤ a ∧ a < h'.next

/-- `a.pow(b)`, whatever `a` and `b` share -/
theorem C103_pow (h : Heap) (a b : Nat) (hb : b < h.next) (ca : Canon (h.buf a)) (cb : Canon (h.buf b)) :
    ∃ h' z, hPow h a b = .ok (h', z) ∧ Canon (h'.buf z) ∧ val (h'.buf z) = val (h.buf a) ^ val (h.buf b) ∧
      Made h h' z ∧ Untouched h h' := by
  obtain ⟨r, h1, h2, h3⟩ := C15_pow _ _ ca cb
  have hs := hPow_spec h a b hb
  rw [h1] at hs
  obtain ⟨⟨h', z⟩, e, e1, e2, e3, e4⟩ := hs.ok_left
  subst e2
  exact ⟨h', z, e, h2, h3, ⟨e3, e4⟩, e1.2⟩

/-- `a.pow_mod(b, n)`, whatever `a`, `b` and `n` share -/
theorem C103_pow_mod (h : Heap) (a b n : Nat) (hb : b < h.next) (hn : n < h.next) (ca : Canon (h.buf a))
    (cb : Canon (h.buf b)) (cn : Canon (h.buf n)) :
    ∃ h' z, hPowMod h a b n = .ok (h', z) ∧ Canon (h'.buf z) ∧
      val (h'.buf z) = (if val (h.buf n) = 0 then val (h.buf a) ^ val (h.buf b)
        else val (h.buf a) ^ val (h.buf b) % val (h.buf n)) ∧ Made h h' z ∧ Untouched h h' := by
  obtain ⟨r, h1, h2, h3⟩ := C16_pow_mod _ _ _ ca cb cn
  have hs := hPowMod_spec h a b n hb hn
  rw [h1] at hs
  obtain ⟨⟨h', z⟩, e, e1, e2, e3, e4⟩ := hs.ok_left
  subst e2
  exact ⟨h', z, e, h2, h3, ⟨e3, e4⟩, e1.2⟩

/-- `a.sqrt()` -/
theorem C103_sqrt (h : Heap) (a : Nat) (ha : a < h.next) (ca : Canon (h.buf a)) :
    ∃ h' z, hSqrt h a = .ok (h', z) ∧ Canon (h'.buf z) ∧ val (h'.buf z) * val (h'.buf z) ≤ val (h.buf a) ∧
      val (h.buf a) < (val (h'.buf z) + 1) * (val (h'.buf z) + 1) ∧ Made h h' z ∧ Untouched h h' := by
  obtain ⟨r, h1, h2, h3, h4⟩ := C19_sqrt _ ca
  have hs := hSqrt_spec h a ha
  rw [h1] at hs
  obtain ⟨⟨h', z⟩, e, e1, e2, e3, e4⟩ := hs.ok_left
  subst e2
  exact ⟨h', z, e, h2, h3, h4, ⟨e3, e4⟩, e1.2⟩

/-- With a NaN the three functions return NaN in a buffer of its own and touch nothing. -/
theorem C103_nan (h : Heap) (a b n : Nat) (ha : a < h.next) (hb : b < h.next) (hn : n < h.next)
    (hx : h.buf a = NaN ∨ h.buf b = NaN ∨ h.buf n = NaN) :
    ∃ h' z, hPowMod h a b n = .ok (h', z) ∧ h'.buf z = NaN ∧ Made h h' z ∧ Untouched h h' := by
  have hs := hPowMod_spec h a b n hb hn
  rw [C16_pow_mod_nan _ _ _ hx] at hs
  obtain ⟨⟨h', z⟩, e, e1, e2, e3, e4⟩ := hs.ok_left
  exact ⟨h', z, e, e2, ⟨e3, e4⟩, e1.2⟩

/-- `x.gcd(y)`, whatever `x` and `y` share: the three results are in three different buffers made by the call. -/
theorem C103_gcd (h : Heap) (x y : HInt) (hx : x.addr < h.next) (hy : y.addr < h.next) (cx : CanonI (x.value h))
    (cy : CanonI (y.value h)) :
    ∃ h' d u v, hbGcd h x y = .ok (h', ⟨d, u, v⟩) ∧
      CanonI (d.value h') ∧ CanonI (u.value h') ∧ CanonI (v.value h') ∧
      ival (d.value h') = Int.gcd (ival (x.value h)) (ival (y.value h)) ∧
      ival (x.value h) * ival (u.value h') + ival (y.value h) * ival (v.value h') = ival (d.value h') ∧
      Made h h' d.addr ∧ Made h h' u.addr ∧ Made h h' v.addr ∧ [d.addr, u.addr, v.addr].Nodup ∧ Untouched h h' := by
  obtain ⟨d, u, v, h1, h2, h3, h4, h5, h6⟩ := C42_gcd _ _ cx cy
  have hs := hbGcd_spec h x y hx hy
  rw [h1] at hs
  obtain ⟨⟨h', ⟨d', u', v'⟩⟩, e, e1, e2, e3, e4, e5, e6⟩ := hs.ok_left
  simp only [Prod.mk.injEq] at e2 e3 e4 e5 e6
  obtain ⟨rfl, rfl, rfl⟩ := e2
  refine ⟨h', d', u', v', e, h2, h3, h4, h5, h6, e3 _ (Or.inl rfl), e3 _ (Or.inr (Or.inl rfl)),
    e3 _ (Or.inr (Or.inr rfl)), ?_, e1.2⟩
  simp [e4, e5, e6]

/-- `x.mod_inverse(n)`, whatever `x` and `n` share -/
theorem C103_mod_inverse (h : Heap) (x n : HInt) (hx : x.addr < h.next) (cx : CanonI (x.value h)) (cn : CanonI (n.value h))
    (h0 : ival (n.value h) ≠ 0) (hc : Int.gcd (ival (x.value h)) (ival (n.value h)) = 1) :
    ∃ h' v, hbModInverse h x n = .ok (h', v) ∧ CanonI (v.value h') ∧ 0 ≤ ival (v.value h') ∧
      ival (v.value h') < |ival (n.value h)| ∧ ival (x.value h) * ival (v.value h') ≡ 1 [ZMOD ival (n.value h)] ∧
      Made h h' v.addr ∧ Untouched h h' := by
  obtain ⟨v, h1, h2, h3, h4, h5⟩ := C43_mod_inverse _ _ cx cn h0 hc
  have hs := hbModInverse_spec h x n hx
  rw [h1] at hs
  obtain ⟨⟨h', z⟩, e, e1, e2, e3, e4⟩ := hs.ok_left
  subst e2
  exact ⟨h', z, e, h2, h3, h4, h5, ⟨e3, e4⟩, e1.2⟩

/-- `x.solve_mod_linear_equation(b, n)`, whatever `x`, `b` and `n` share: the answer is that on values (`bSolve`, described by
C44), the solutions are in different buffers made by the call. -/
theorem C103_solve (h : Heap) (x b n : HInt) (hx : x.addr < h.next) (hb : b.addr < h.next) (hn : n.addr < h.next)
    (rs : List BInt) (hr : bSolve (x.value h) (b.value h) (n.value h) = .ok (some rs)) :
    ∃ h' zs, hbSolve h x b n = .ok (h', some zs) ∧ zs.map (HInt.value h') = rs ∧ (∀ z ∈ zs, Made h h' z.addr) ∧
      (zs.map HInt.addr).Nodup ∧ Untouched h h' := by
  have hs := hbSolve_spec h x b n hx hb hn
  rw [hr] at hs
  obtain ⟨⟨h', z⟩, e, e1, e2⟩ := hs.ok_left
  cases z with
  | none => exact e2.elim
  | some zs =>
    obtain ⟨e2, e3, e4⟩ := e2
    exact ⟨h', zs, e, e2, e3, List.pairwise_map.2 e4, e1.2⟩

/-- The same in terms of numbers, for `b ≥ 0` and `n > 0` (C44) and a solvable congruence: the results are the solutions. -/
theorem C103_solve_solutions (h : Heap) (x b n : HInt) (hx : x.addr < h.next) (hb : b.addr < h.next) (hn : n.addr < h.next)
    (cx : CanonI (x.value h)) (cb : CanonI (b.value h)) (cn : CanonI (n.value h)) (h0 : 0 < ival (n.value h))
    (hb0 : 0 ≤ ival (b.value h)) (hd : (Int.gcd (ival (x.value h)) (ival (n.value h)) : Int) ∣ ival (b.value h)) :
    ∃ h' zs, hbSolve h x b n = .ok (h', some zs) ∧
      (∀ v, v ∈ zs.map (fun z => ival (z.value h')) ↔ 0 ≤ v ∧ v < ival (n.value h) ∧
        ival (x.value h) * v ≡ ival (b.value h) [ZMOD ival (n.value h)]) ∧
      (∀ z ∈ zs, CanonI (z.value h') ∧ Made h h' z.addr) ∧ (zs.map HInt.addr).Nodup ∧ Untouched h h' := by
  obtain ⟨rs, h1, h2, -, -, h5⟩ := (C44_solve_partial _ _ _ cx cb cn h0 hb0).1 hd
  obtain ⟨h', zs, e1, e2, e3, e4, e5⟩ := C103_solve h x b n hx hb hn rs h1
  subst e2
  refine ⟨h', zs, e1, fun v => ?_, fun z hz => ⟨h2 _ (List.mem_map_of_mem hz), e3 z hz⟩, e4, e5⟩
  rw [← h5, List.map_map]
  rfl

/-- No answer, nothing touched. -/
theorem C103_solve_none (h : Heap) (x b n : HInt) (hx : x.addr < h.next) (hb : b.addr < h.next) (hn : n.addr < h.next)
    (hr : bSolve (x.value h) (b.value h) (n.value h) = .ok none) :
    ∃ h', hbSolve h x b n = .ok (h', none) ∧ Untouched h h' := by
  have hs := hbSolve_spec h x b n hx hb hn
  rw [hr] at hs
  obtain ⟨⟨h', z⟩, e, e1, e2⟩ := hs.ok_left
  cases z with
  | none => exact ⟨h', e, e1.2⟩
  | some zs => exact e2.elim

/-- The functions panic exactly where those on values do. -/
theorem C103_panic (h : Heap) (x b n : HInt) (hx : x.addr < h.next) (hb : b.addr < h.next) (hn : n.addr < h.next) (e : Err) :
    (hbGcd h x b = .error e ↔ bGcd (x.value h) (b.value h) = .error e) ∧
    (hbModInverse h x n = .error e ↔ bModInverse (x.value h) (n.value h) = .error e) ∧
    (hbSolve h x b n = .error e ↔ bSolve (x.value h) (b.value h) (n.value h) = .error e) := by
  have key : ∀ {α β : Type} {P : α → β → Prop} {r : Res α} {o : Res β}, RRel P r o → (o = .error e ↔ r = .error e) := by
    intro α β P r o hr
    cases r <;> cases o <;> simp only [RRel] at hr <;> simp [hr]
  exact ⟨key (hbGcd_spec h x b hx hb), key (hbModInverse_spec h x n hx), key (hbSolve_spec h x b n hx hb hn)⟩

/-- three buffers: 12, 3000000007 and 5; `x` and its clone share the first -/
def sampleGH : Heap := ⟨fun a => if a = 0 then [12#32] else if a = 1 then [3000000007#32] else [5#32], 3⟩

/-- `x.pow(x)` and `x.pow_mod(x, x)` on one buffer, `x.gcd(x)`, and `x.mod_inverse(-5)` of a negative number -/
example : Canon (sampleGH.buf 0) ∧ (0 : Nat) < sampleGH.next ∧
    CanonI (HInt.value sampleGH ⟨0, true⟩) ∧ CanonI (HInt.value sampleGH ⟨2, true⟩) :=
  ⟨canon_iff_enc.2 ⟨12, by decide +kernel⟩, by decide, canonI_iff_encI.2 ⟨-12, by decide +kernel⟩,
    canonI_iff_encI.2 ⟨-5, by decide +kernel⟩⟩
example : ival (HInt.value sampleGH ⟨2, true⟩) ≠ 0 ∧
    Int.gcd (ival (HInt.value sampleGH ⟨0, true⟩)) (ival (HInt.value sampleGH ⟨2, true⟩)) = 1 := by decide +kernel
example : bSolve (HInt.value sampleGH ⟨0, true⟩) (HInt.value sampleGH ⟨0, false⟩) (HInt.value sampleGH ⟨0, false⟩) =
    .ok (some ((List.range 12).map fun i => ⟨[BitVec.ofNat 32 i], false⟩)) := by decide +kernel

end RMath
