import Verif.Spec
import Mathlib.Tactic.Ring
import Mathlib.Tactic.Linarith
import Mathlib.Tactic.NormNum

/-! Basic facts on `val`, `Canon` and `enc`. -/

namespace RMath

@[simp] theorem val_nil : val [] = 0 := rfl
@[simp] theorem val_cons (w : W) (ws : Words) : val (w :: ws) = w.toNat + 2 ^ 32 * val ws := rfl

theorem val_append (xs ys : Words) : val (xs ++ ys) = val xs + 2 ^ (32 * xs.length) * val ys := by
  induction xs with
  | nil => simp
  | cons x xs ih =>
    simp only [List.cons_append, val_cons, ih, List.length_cons, Nat.mul_add, Nat.pow_add]
    ring

theorem val_lt (xs : Words) : val xs < 2 ^ (32 * xs.length) := by
  induction xs with
  | nil => simp
  | cons x xs ih =>
    have hx := x.isLt
    simp only [val_cons, List.length_cons, Nat.mul_add, Nat.pow_add, Nat.mul_one]
    have : val xs + 1 ≤ 2 ^ (32 * xs.length) := ih
    have := Nat.mul_le_mul_left (2^32) this
    rw [Nat.mul_comm (2 ^ (32 * xs.length))]
    omega

@[simp] theorem val_replicate_zero (n : Nat) : val (List.replicate n 0#32) = 0 := by
  induction n with
  | zero => rfl
  | succ n ih => simp [List.replicate_succ, ih]

theorem canon_singleton (w : W) : Canon [w] := ⟨by simp, Or.inl rfl⟩

theorem Canon.ne_nil {ws : Words} (h : Canon ws) : ws ≠ [] := h.1

theorem Canon.length_pos {ws : Words} (h : Canon ws) : 0 < ws.length :=
  List.length_pos_iff.2 h.1

theorem canon_cons_of_canon_ne_zero {w : W} {ws : Words} (h : Canon ws) (h0 : val ws ≠ 0) :
    Canon (w :: ws) := by
  obtain ⟨hne, h⟩ := h
  refine ⟨by simp, Or.inr ?_⟩
  rw [List.getLast_cons hne]
  rcases h with h | h
  · intro hz
    match ws, h with
    | [x], _ =>
      simp at hz
      simp [hz] at h0
  · exact h

theorem canon_cons_iff {w : W} {ws : Words} :
    Canon (w :: ws) ↔ ws = [] ∨ (Canon ws ∧ val ws ≠ 0) := by
  constructor
  · rintro ⟨_, h⟩
    by_cases hws : ws = []
    · exact Or.inl hws
    · right
      rcases h with h | h
      · simp at h; exact absurd h hws
      · rw [List.getLast_cons hws] at h
        refine ⟨⟨hws, Or.inr h⟩, ?_⟩
        intro h0
        apply h
        have hd := List.dropLast_concat_getLast hws
        rw [← hd, val_append] at h0
        have h1 : 2 ^ (32 * ws.dropLast.length) * val [ws.getLast hws] = 0 := by omega
        rcases Nat.mul_eq_zero.1 h1 with h1 | h1
        · exact absurd h1 (by positivity)
        · simp at h1
          exact BitVec.eq_of_toNat_eq (by simpa using h1)
  · rintro (rfl | ⟨h, h0⟩)
    · exact canon_singleton w
    · exact canon_cons_of_canon_ne_zero h h0

theorem canon_tail {w : W} {ws : Words} (h : Canon (w :: ws)) (hne : ws ≠ []) : Canon ws := by
  rcases canon_cons_iff.1 h with h | h
  · exact absurd h hne
  · exact h.1

theorem enc_lt {n : Nat} (h : n < 2 ^ 32) : enc n = [BitVec.ofNat 32 n] := by
  rw [enc, if_pos h]

theorem enc_ge {n : Nat} (h : 2 ^ 32 ≤ n) : enc n = BitVec.ofNat 32 n :: enc (n / 2 ^ 32) := by
  rw [enc, if_neg (by omega)]

@[simp] theorem val_enc (n : Nat) : val (enc n) = n := by
  induction n using Nat.strongRecOn with
  | ind n ih =>
    by_cases h : n < 2 ^ 32
    · rw [enc_lt h]; simp; omega
    · rw [enc_ge (by omega), val_cons, ih (n / 2^32) (by omega)]
      simp; omega

theorem enc_ne_nil (n : Nat) : enc n ≠ [] := by
  rw [enc]; split <;> simp

theorem canon_enc (n : Nat) : Canon (enc n) := by
  induction n using Nat.strongRecOn with
  | ind n ih =>
    by_cases h : n < 2 ^ 32
    · rw [enc_lt h]; exact canon_singleton _
    · rw [enc_ge (by omega)]
      apply canon_cons_of_canon_ne_zero (ih _ (by omega))
      rw [val_enc]; omega

theorem canon_ext {xs ys : Words} (hx : Canon xs) (hy : Canon ys) (h : val xs = val ys) :
    xs = ys := by
  induction xs generalizing ys with
  | nil => exact absurd rfl hx.ne_nil
  | cons x xs ih =>
    cases ys with
    | nil => exact absurd rfl hy.ne_nil
    | cons y ys =>
      simp only [val_cons] at h
      have h1 := x.isLt
      have h2 := y.isLt
      have hxy : x = y := BitVec.eq_of_toNat_eq (by omega)
      have hv : val xs = val ys := by omega
      subst hxy
      congr 1
      rcases canon_cons_iff.1 hx with hx' | ⟨hx', hx0⟩ <;>
      rcases canon_cons_iff.1 hy with hy' | ⟨hy', hy0⟩
      · rw [hx', hy']
      · rw [hx'] at hv; simp at hv; omega
      · rw [hy'] at hv; simp at hv; omega
      · exact ih hx' hy' hv

theorem canon_eq_enc {xs : Words} (h : Canon xs) : xs = enc (val xs) :=
  canon_ext h (canon_enc _) (by simp)

theorem canon_iff_enc {xs : Words} : Canon xs ↔ ∃ n, xs = enc n :=
  ⟨fun h => ⟨_, canon_eq_enc h⟩, fun ⟨n, h⟩ => h ▸ canon_enc n⟩

theorem enc_eq_iff {xs : Words} {n : Nat} : xs = enc n ↔ Canon xs ∧ val xs = n :=
  ⟨fun h => h ▸ ⟨canon_enc n, val_enc n⟩, fun ⟨h, e⟩ => e ▸ canon_eq_enc h⟩

@[simp] theorem enc_inj {m n : Nat} : enc m = enc n ↔ m = n :=
  ⟨fun h => by rw [← val_enc m, h, val_enc], fun h => h ▸ rfl⟩

/-- A canonical vector of more than one word has a value of at least `2^(32*(len-1))`. -/
theorem Canon.le_val {xs : Words} (h : Canon xs) (h1 : 1 < xs.length) :
    2 ^ (32 * (xs.length - 1)) ≤ val xs := by
  obtain ⟨hne, h | h⟩ := h
  · omega
  · have hd := List.dropLast_concat_getLast hne
    rw [← hd, val_append]
    have h2 : 1 ≤ (xs.getLast hne).toNat := by
      rcases Nat.eq_zero_or_pos (xs.getLast hne).toNat with h3 | h3
      · exact absurd (BitVec.eq_of_toNat_eq (by simpa using h3)) h
      · exact h3
    have h3 : xs.dropLast.length = xs.length - 1 := List.length_dropLast
    simp only [List.length_append, List.length_singleton, Nat.add_sub_cancel, val_cons, val_nil,
      Nat.mul_zero, Nat.add_zero]
    have := Nat.mul_le_mul_left (2 ^ (32 * xs.dropLast.length)) h2
    omega

end RMath
