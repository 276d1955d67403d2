import Verif.Model.RandWin
import Mathlib.Data.List.Perm.Basic

/-!
# Property C111: the system generators on Windows and their provider handles

The specification has no boxes and no counts.  `osRun` says which calls the system accepts: draws and closings of handles
that are open.  `WinCmd.spec` says what each statement does in terms of the creation that each generator goes back to.
-/

namespace RMath

/-! ## Specification -/

/-- The system's side: the handles that are open after the calls, unless a call concerns a handle that is not open.  A handle that
was opened twice is listed twice and has to be closed twice. -/
def osRun : List Nat → List OsEvent → Option (List Nat)
  | opn, [] => some opn
  | opn, .opened h :: es => osRun (h :: opn) es
  | opn, .drew h _ :: es => if h ∈ opn then osRun opn es else none
  | opn, .closed h :: es => if h ∈ opn then osRun (opn.erase h) es else none

/-- The generators as a user sees them: `made` providers have been opened; each generator in scope goes back to one of these
creations, which gave it its handle. -/
structure WinView where
  made : Nat
  gens : List (Option (Nat × Nat))

/-- What a statement does: a creation opens a provider; a clone goes back to the same creation as its original; a draw uses the
handle of that creation; a provider is closed when the last generator that goes back to it is dropped. -/
def WinCmd.spec (s : WinView) : WinCmd → Option (WinOut × WinView × List OsEvent)
  | .create status h =>
    if status = 0#32 then some (.done, ⟨s.made + 1, s.gens ++ [some (s.made, h)]⟩, [.opened h])
    else some (.err .innerErr, s, [])
  | .clone i =>
    match s.gens[i]? with
    | some (some g) => some (.done, ⟨s.made, s.gens ++ [some g]⟩, [])
    | _ => none
  | .gen i status bytes =>
    match s.gens[i]? with
    | some (some g) =>
      some (if status = 0#32 then .word (bytes.foldr (fun x acc => x.toNat + 256 * acc) 0) else .err .innerErr, s,
        [.drew g.2 bytes.length])
    | _ => none
  | .reset i =>
    match s.gens[i]? with
    | some (some _) => some (.done, s, [])
    | _ => none
  | .drop i =>
    match s.gens[i]? with
    | some (some g) =>
      let rest := s.gens.set i none
      some (.done, ⟨s.made, rest⟩, if rest.any (fun o => o.any fun g' => g'.1 == g.1) then [] else [.closed g.2])
    | _ => none

/-- a program; `none` if it names a generator that is not in scope -/
def winSpec : WinView → List WinCmd → Option (List WinOut × WinView × List OsEvent)
  | s, [] => some ([], s, [])
  | s, c :: cs =>
    match c.spec s with
    | none => none
    | some p =>
      match winSpec p.2.1 cs with
      | none => none
      | some r => some (p.1 :: r.1, r.2.1, p.2.2 ++ r.2.2)

/-! ## Proof -/

/-- the counts are right -/
structure WinInv (st : WinState) : Prop where
  count : ∀ k h c, st.boxes[k]? = some (h, c) → c = st.gens.count (some k)
  bound : ∀ k, some k ∈ st.gens → k < st.boxes.length

/-- what the user sees of a state -/
def WinState.view (st : WinState) : WinView :=
  ⟨st.boxes.length, st.gens.map fun o => o.map fun k => (k, (st.boxes.getD k (0, 0)).1)⟩

/-- the handles of the boxes that are in use -/
def WinState.live (st : WinState) : List Nat := (st.boxes.filter fun b => decide (0 < b.2)).map Prod.fst

theorem live_set {boxes : List (Nat × Nat)} {gens gens' : List (Option Nat)} {k h c : Nat} (hk : boxes[k]? = some (h, c)) (c' : Nat) :
    ((if 0 < c' then [h] else []) ++ (WinState.live ⟨boxes, gens⟩)).Perm
      ((if 0 < c then [h] else []) ++ WinState.live ⟨boxes.set k (h, c'), gens'⟩) := by
  obtain ⟨hlt, hk'⟩ := List.getElem?_eq_some_iff.1 hk
  have h1 : boxes.Perm ((h, c) :: boxes.eraseIdx k) := by
    have := List.getElem_cons_eraseIdx_perm hlt
    rw [hk'] at this
    exact this.symm
  have h2 := List.set_perm_cons_eraseIdx hlt (h, c')
  have e1 := (h1.filter fun b => decide (0 < b.2)).map Prod.fst
  have e2 := (h2.filter fun b => decide (0 < b.2)).map Prod.fst
  unfold WinState.live
  refine (e1.append_left _).trans (List.Perm.trans ?_ (e2.append_left _).symm)
  by_cases hc : 0 < c <;> by_cases hc' : 0 < c' <;> simp [hc, hc']

theorem box_ok {st : WinState} {i : Nat} (inv : WinInv st) {k : Nat} (h : st.gens[i]? = some (some k)) :
    ∃ hd, st.boxes[k]? = some (hd, st.gens.count (some k)) ∧ 0 < st.gens.count (some k) ∧
      st.box i = .ok (k, hd, st.gens.count (some k)) := by
  have hm : some k ∈ st.gens := List.mem_of_getElem? h
  have hlt := inv.bound k hm
  obtain ⟨⟨hd, c⟩, hb⟩ : ∃ b, st.boxes[k]? = some b := ⟨_, List.getElem?_eq_getElem hlt⟩
  have hc := inv.count k hd c hb
  subst hc
  refine ⟨hd, hb, List.count_pos_iff.2 hm, ?_⟩
  simp [WinState.box, h, hb]

theorem view_get (st : WinState) (i : Nat) :
    st.view.gens[i]? = (st.gens[i]?).map fun o => o.map fun k => (k, (st.boxes.getD k (0, 0)).1) := by
  simp [WinState.view]

theorem getD_fst_set (boxes : List (Nat × Nat)) {k h c : Nat} (hk : boxes[k]? = some (h, c)) (c' j : Nat) :
    ((boxes.set k (h, c')).getD j (0, 0)).1 = (boxes.getD j (0, 0)).1 := by
  simp only [List.getD_eq_getElem?_getD, List.getElem?_set]
  by_cases hj : k = j
  · subst hj
    rw [if_pos rfl]
    obtain ⟨hlt, -⟩ := List.getElem?_eq_some_iff.1 hk
    rw [if_pos hlt, hk]
    rfl
  · rw [if_neg hj]

theorem osRun_append (es fs : List OsEvent) : ∀ opn, osRun opn (es ++ fs) = (osRun opn es).bind fun o => osRun o fs := by
  induction es with
  | nil => intro opn; rfl
  | cons e es ih =>
    intro opn
    cases e <;> simp only [List.cons_append, osRun, ih]
    all_goals split <;> rfl

theorem osRun_perm (es : List OsEvent) : ∀ {o o' : List Nat}, o.Perm o' → ∀ {r}, osRun o es = some r →
    ∃ r', osRun o' es = some r' ∧ r.Perm r' := by
  induction es with
  | nil => intro o o' hp r h; simp only [osRun, Option.some.injEq] at h; subst h; exact ⟨o', rfl, hp⟩
  | cons e es ih =>
    intro o o' hp r h
    cases e with
    | opened x => exact ih (hp.cons x) h
    | drew x n =>
      simp only [osRun] at h ⊢
      split at h
      · rename_i hm
        rw [if_pos (hp.mem_iff.1 hm)]
        exact ih hp h
      · simp at h
    | closed x =>
      simp only [osRun] at h ⊢
      split at h
      · rename_i hm
        rw [if_pos (hp.mem_iff.1 hm)]
        exact ih (hp.erase x) h
      · simp at h

/-- one statement: it does what the specification says, the invariant holds again, and the system accepts the calls -/
theorem winStep_sim {st : WinState} (inv : WinInv st) (c : WinCmd) :
    match c.spec st.view with
    | none => c.step st = .error .panic
    | some (o, v, es) => ∃ st', c.step st = .ok (o, st', es) ∧ WinInv st' ∧ st'.view = v ∧
        ∃ r, osRun st.live es = some r ∧ r.Perm st'.live := by
  have hnone : ∀ i, (∀ k, st.gens[i]? ≠ some (some k)) → st.box i = .error .panic := by
    intro i hi
    unfold WinState.box
    rcases hg : st.gens[i]? with _ | _ | k
    · rfl
    · rfl
    · exact absurd hg (hi k)
  cases c with
  | create status h =>
    simp only [WinCmd.spec, WinCmd.step]
    by_cases hs : status = 0#32
    · rw [if_pos hs, if_pos hs]
      refine ⟨_, rfl, ⟨?_, ?_⟩, ?_, ?_⟩
      · intro k hd c hk
        simp only at hk ⊢
        rw [List.count_append]
        rcases Nat.lt_trichotomy k st.boxes.length with hlt | heq | hgt
        · rw [List.getElem?_append_left hlt] at hk
          rw [inv.count k hd c hk]
          have : List.count (some k) [some st.boxes.length] = 0 := by
            rw [List.count_eq_zero]; simp; omega
          omega
        · subst heq
          rw [List.getElem?_append_right (Nat.le_refl _)] at hk
          simp at hk
          have : List.count (some st.boxes.length) st.gens = 0 := by
            rw [List.count_eq_zero]
            intro hm
            have := inv.bound _ hm
            omega
          simp [this, hk.2]
        · rw [List.getElem?_eq_none (by simp; omega)] at hk
          simp at hk
      · intro k hk
        simp only [List.mem_append, List.mem_singleton, Option.some.injEq, List.length_append, List.length_singleton] at hk ⊢
        rcases hk with hk | hk
        · have := inv.bound k hk; omega
        · omega
      · simp only [WinState.view, List.map_append, List.length_append, List.length_singleton, WinView.mk.injEq, true_and]
        congr 1
        · apply List.map_congr_left
          intro o ho
          cases o with
          | none => rfl
          | some k =>
            have := inv.bound k ho
            simp [List.getD_eq_getElem?_getD, List.getElem?_append_left this]
        · simp [List.getD_eq_getElem?_getD]
      · refine ⟨_, rfl, ?_⟩
        simp only [WinState.live, List.filter_append, List.map_append]
        simpa using List.perm_append_singleton h _ |>.symm
    · rw [if_neg hs, if_neg hs]
      exact ⟨st, rfl, inv, rfl, _, rfl, .refl _⟩
  | clone i =>
    simp only [WinCmd.spec, WinCmd.step, view_get]
    rcases hg : st.gens[i]? with _ | _ | k
    · simp only [Option.map_none]
      rw [hnone i (by simp [hg])]; rfl
    · simp only [Option.map_some, Option.map_none]
      rw [hnone i (by simp [hg])]; rfl
    · obtain ⟨hd, hb, hpos, hbox⟩ := box_ok inv hg
      simp only [Option.map_some]
      rw [hbox]
      refine ⟨_, rfl, ⟨?_, ?_⟩, ?_, ?_⟩
      · intro j h c hj
        simp only [List.getElem?_set] at hj
        simp only [List.count_append]
        by_cases hjk : k = j
        · subst hjk
          obtain ⟨hlt, -⟩ := List.getElem?_eq_some_iff.1 hb
          rw [if_pos rfl, if_pos hlt] at hj
          simp only [Option.some.injEq, Prod.mk.injEq] at hj
          simp [← hj.2]
        · rw [if_neg hjk] at hj
          rw [inv.count j h c hj]
          have : List.count (some j) [some k] = 0 := by rw [List.count_eq_zero]; simp; omega
          omega
      · intro j hj
        simp only [List.mem_append, List.mem_singleton, Option.some.injEq, List.length_set] at hj ⊢
        rcases hj with hj | rfl
        · exact inv.bound j hj
        · exact inv.bound _ (List.mem_of_getElem? hg)
      · simp only [WinState.view, List.map_append, List.length_set, WinView.mk.injEq, true_and, getD_fst_set _ hb]
        rfl
      · refine ⟨_, rfl, ?_⟩
        have := live_set (gens := st.gens) (gens' := st.gens ++ [some k]) hb (List.count (some k) st.gens + 1)
        rw [if_pos (by omega), if_pos hpos] at this
        exact (List.perm_append_left_iff _).1 this
  | gen i status bytes =>
    simp only [WinCmd.spec, WinCmd.step, view_get]
    rcases hg : st.gens[i]? with _ | _ | k
    · simp only [Option.map_none]
      rw [hnone i (by simp [hg])]; rfl
    · simp only [Option.map_some, Option.map_none]
      rw [hnone i (by simp [hg])]; rfl
    · obtain ⟨hd, hb, hpos, hbox⟩ := box_ok inv hg
      simp only [Option.map_some]
      rw [hbox]
      have hfst : (st.boxes.getD k (0, 0)).1 = hd := by simp [List.getD_eq_getElem?_getD, hb]
      rw [hfst]
      refine ⟨st, rfl, inv, rfl, st.live, ?_, .refl _⟩
      have hm : hd ∈ st.live := by
        unfold WinState.live
        refine List.mem_map.2 ⟨(hd, _), List.mem_filter.2 ⟨List.mem_of_getElem? hb, ?_⟩, rfl⟩
        simpa using hpos
      simp [osRun, hm]
  | reset i =>
    simp only [WinCmd.spec, WinCmd.step, view_get]
    rcases hg : st.gens[i]? with _ | _ | k
    · simp only [Option.map_none]
      rw [hnone i (by simp [hg])]; rfl
    · simp only [Option.map_some, Option.map_none]
      rw [hnone i (by simp [hg])]; rfl
    · obtain ⟨hd, hb, hpos, hbox⟩ := box_ok inv hg
      simp only [Option.map_some]
      rw [hbox]
      exact ⟨st, rfl, inv, rfl, _, rfl, .refl _⟩
  | drop i =>
    simp only [WinCmd.spec, WinCmd.step, view_get]
    rcases hg : st.gens[i]? with _ | _ | k
    · simp only [Option.map_none]
      rw [hnone i (by simp [hg])]; rfl
    · simp only [Option.map_some, Option.map_none]
      rw [hnone i (by simp [hg])]; rfl
    · obtain ⟨hd, hb, hpos, hbox⟩ := box_ok inv hg
      simp only [Option.map_some]
      rw [hbox]
      have hfst : (st.boxes.getD k (0, 0)).1 = hd := by simp [List.getD_eq_getElem?_getD, hb]
      rw [hfst]
      obtain ⟨hlt, hgi⟩ := List.getElem?_eq_some_iff.1 hg
      have hcnt : ∀ j, (st.gens.set i none).count (some j) = st.gens.count (some j) - if j = k then 1 else 0 := by
        intro j
        rw [List.count_set hlt, hgi]
        by_cases hjk : j = k
        · subst hjk; simp
        · have hkj : ¬k = j := fun h => hjk h.symm
          simp [hjk, hkj]
      have hrest : (st.view.gens.set i none) =
          (st.gens.set i none).map fun o => o.map fun k => (k, (st.boxes.getD k (0, 0)).1) := by
        rw [List.map_set]; rfl
      have hany : (st.view.gens.set i none).any (fun o => o.any fun g' => g'.1 == k) = true ↔
          0 < st.gens.count (some k) - 1 := by
        rw [hrest, List.any_map, List.any_eq_true]
        have := hcnt k
        rw [if_pos rfl] at this
        rw [← this, List.count_pos_iff]
        constructor
        · rintro ⟨o, ho, h⟩
          cases o with
          | none => simp at h
          | some j =>
            simp at h
            subst h
            exact ho
        · intro h
          exact ⟨some k, h, by simp⟩
      have hev : (if (st.view.gens.set i none).any (fun o => o.any fun g' => g'.1 == k) = true then ([] : List OsEvent)
          else [.closed hd]) = if st.gens.count (some k) - 1 = 0 then [.closed hd] else [] := by
        by_cases hz : st.gens.count (some k) - 1 = 0
        · rw [if_pos hz, if_neg (by rw [hany]; omega)]
        · rw [if_neg hz, if_pos (by rw [hany]; omega)]
      rw [hev]
      refine ⟨_, rfl, ⟨?_, ?_⟩, ?_, ?_⟩
      · intro j h c hj
        simp only [List.getElem?_set] at hj
        simp only [hcnt]
        by_cases hjk : k = j
        · subst hjk
          obtain ⟨hlt, -⟩ := List.getElem?_eq_some_iff.1 hb
          rw [if_pos rfl, if_pos hlt] at hj
          simp only [Option.some.injEq, Prod.mk.injEq] at hj
          rw [if_pos rfl, hj.2]
        · rw [if_neg hjk] at hj
          rw [if_neg (fun h => hjk h.symm), inv.count j h c hj]
          rfl
      · intro j hj
        simp only [List.length_set]
        rcases List.mem_or_eq_of_mem_set hj with h | h
        · exact inv.bound j h
        · simp at h
      · simp only [WinState.view, List.length_set, WinView.mk.injEq, true_and, getD_fst_set _ hb]
        exact hrest.symm
      · have hp := live_set (gens := st.gens) (gens' := st.gens.set i none) hb (List.count (some k) st.gens - 1)
        rw [if_pos hpos] at hp
        by_cases hz : st.gens.count (some k) - 1 = 0
        · rw [if_pos hz]
          rw [if_neg (by omega)] at hp
          simp only [List.nil_append, List.singleton_append] at hp
          have hm : hd ∈ st.live := hp.mem_iff.2 (by simp)
          refine ⟨st.live.erase hd, by simp [osRun, hm], ?_⟩
          have := hp.erase hd
          rwa [List.erase_cons_head] at this
        · rw [if_neg hz]
          rw [if_pos (by omega)] at hp
          exact ⟨_, rfl, (List.perm_append_left_iff _).1 hp⟩

theorem winRun_sim (cs : List WinCmd) : ∀ {st : WinState}, WinInv st →
    match winSpec st.view cs with
    | none => winRun st cs = .error .panic
    | some (os, v, es) => ∃ st', winRun st cs = .ok (os, st', es) ∧ WinInv st' ∧ st'.view = v ∧
        ∃ r, osRun st.live es = some r ∧ r.Perm st'.live := by
  induction cs with
  | nil => intro st inv; exact ⟨st, rfl, inv, rfl, _, rfl, .refl _⟩
  | cons c cs ih =>
    intro st inv
    have h := winStep_sim inv c
    rw [winSpec, winRun]
    rcases hc : c.spec st.view with _ | ⟨o, v, es⟩
    · rw [hc] at h
      simp only at h ⊢
      rw [h]; rfl
    · rw [hc] at h
      simp only at h ⊢
      obtain ⟨st1, h1, inv1, hv1, r1, hr1, hp1⟩ := h
      rw [h1]
      simp only [bind, Except.bind]
      have h2 := ih inv1
      rw [hv1] at h2
      rcases hs : winSpec v cs with _ | ⟨os, v2, es2⟩
      · rw [hs] at h2
        simp only at h2 ⊢
        rw [h2]
      · rw [hs] at h2
        simp only at h2 ⊢
        obtain ⟨st2, h3, inv2, hv2, r2, hr2, hp2⟩ := h2
        rw [h3]
        obtain ⟨r3, hr3, hp3⟩ := osRun_perm es2 hp1.symm hr2
        refine ⟨st2, rfl, inv2, hv2, r3, ?_, hp3.symm.trans hp2⟩
        rw [osRun_append, hr1]
        exact hr3

theorem winInv_empty : WinInv ⟨[], []⟩ := ⟨by simp, by simp⟩

/-! ## C111 -/

/-- **C111, behaviour**: every program that names only generators in scope runs, and what it is told and the calls it makes to
the system are those of the specification: one provider per creation, clones use the provider of their original, the
provider is closed when the last generator that uses it is dropped, and a draw gives the number whose little-endian bytes
the system wrote, or an error if the system reports one. -/
theorem C111_behaviour (cs : List WinCmd) (os : List WinOut) (v : WinView) (es : List OsEvent)
    (h : winSpec ⟨0, []⟩ cs = some (os, v, es)) : ∃ st, winRun ⟨[], []⟩ cs = .ok (os, st, es) := by
  have := winRun_sim cs winInv_empty
  rw [show (WinState.view ⟨[], []⟩) = ⟨0, []⟩ from rfl, h] at this
  obtain ⟨st', h1, -⟩ := this
  exact ⟨st', h1⟩

/-- **C111, handles**: in every program the system sees only draws from and closings of handles that are open, and after it
no handle is open if no generator is in scope. -/
theorem C111_handles (cs : List WinCmd) (os : List WinOut) (v : WinView) (es : List OsEvent)
    (h : winSpec ⟨0, []⟩ cs = some (os, v, es)) :
    ∃ opn st, winRun ⟨[], []⟩ cs = .ok (os, st, es) ∧ osRun [] es = some opn ∧ ((∀ g ∈ v.gens, g = none) → opn = []) := by
  have := winRun_sim cs winInv_empty
  rw [show (WinState.view ⟨[], []⟩) = ⟨0, []⟩ from rfl, h] at this
  obtain ⟨st', h1, inv, hv, r, hr, hp⟩ := this
  refine ⟨r, st', h1, hr, fun hall => ?_⟩
  have hl : st'.live = [] := by
    unfold WinState.live
    rw [List.map_eq_nil_iff, List.filter_eq_nil_iff]
    rintro ⟨hd, c⟩ hm
    obtain ⟨k, hk⟩ := List.mem_iff_getElem?.1 hm
    have hc := inv.count k hd c hk
    have : some k ∉ st'.gens := by
      intro hmem
      have := hall (some (k, (st'.boxes.getD k (0, 0)).1)) (by
        rw [← hv]
        exact List.mem_map.2 ⟨some k, hmem, rfl⟩)
      simp at this
    rw [List.count_eq_zero.2 this] at hc
    simp [hc]
  rw [hl] at hp
  exact hp.eq_nil

/-- a generator is created, cloned, dropped while the clone goes on drawing, and the clone is dropped; a creation fails -/
example : winSpec ⟨0, []⟩ [.create 0#32 7, .create 0xc0000017#32 0, .clone 0, .drop 0, .gen 1 0#32 [1#8, 2#8, 0#8, 0#8],
      .gen 1 0xc0000008#32 [0#8, 0#8, 0#8, 0#8], .drop 1] =
    some ([.done, .err .innerErr, .done, .done, .word 513, .err .innerErr, .done], ⟨1, [none, none]⟩,
      [.opened 7, .drew 7 4, .drew 7 4, .closed 7]) := by rfl

end RMath
