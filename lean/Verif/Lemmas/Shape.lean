import Verif.Spec.Shape
import Verif.Lemmas.Natural
import Mathlib.Tactic.Ring
import Mathlib.Tactic.Linarith

/-! Row-major positions. -/

namespace E3nn.Shp

theorem flat_lt {s i : List ℕ} (h : IsIdx s i) : flat s i < s.prod := by
  induction h with
  | nil => simp [flat]
  | @cons a n i s h1 h2 ih =>
    simp only [flat, List.prod_cons]
    calc a * s.prod + flat s i < a * s.prod + s.prod := by omega
      _ = (a + 1) * s.prod := by ring
      _ ≤ n * s.prod := Nat.mul_le_mul_right _ h1

theorem unflat_flat {s i : List ℕ} (h : IsIdx s i) : unflat s (flat s i) = i := by
  induction h with
  | nil => rfl
  | @cons a n i s h1 h2 ih =>
    have hl := flat_lt h2
    simp only [flat, unflat]
    rw [Nat.mul_comm, Nat.mul_add_div (by omega), Nat.mul_add_mod, Nat.div_eq_of_lt hl, Nat.mod_eq_of_lt hl, ih, Nat.add_zero]

theorem unflat_idx {s : List ℕ} {k : ℕ} (h : k < s.prod) : IsIdx s (unflat s k) := by
  induction s generalizing k with
  | nil => exact List.Forall₂.nil
  | cons n s ih =>
    simp only [List.prod_cons] at h
    have h0 : 0 < s.prod := by
      rcases Nat.eq_zero_or_pos s.prod with h0 | h0
      · rw [h0] at h; simp at h
      · exact h0
    exact List.Forall₂.cons ((Nat.div_lt_iff_lt_mul h0).2 h) (ih (Nat.mod_lt _ h0))

theorem flat_unflat {s : List ℕ} {k : ℕ} (h : k < s.prod) : flat s (unflat s k) = k := by
  induction s generalizing k with
  | nil => simp at h; simp [flat, unflat, h]
  | cons n s ih =>
    simp only [List.prod_cons] at h
    have h0 : 0 < s.prod := by
      rcases Nat.eq_zero_or_pos s.prod with h0 | h0
      · rw [h0] at h; simp at h
      · exact h0
    simp only [flat, unflat]
    rw [ih (Nat.mod_lt _ h0), Nat.mul_comm]
    exact Nat.div_add_mod k s.prod

theorem flat_append {s t i j : List ℕ} (h : IsIdx s i) : flat (s ++ t) (i ++ j) = flat s i * t.prod + flat t j := by
  induction h with
  | nil => simp [flat]
  | @cons a n i s h1 h2 ih =>
    simp only [List.cons_append, flat, ih, List.prod_append]
    ring

theorem isIdx_append {s t i j : List ℕ} (h : IsIdx s i) (h' : IsIdx t j) : IsIdx (s ++ t) (i ++ j) := List.rel_append h h'

theorem flat_lex {s i j : List ℕ} (hi : IsIdx s i) (hj : IsIdx s j) : flat s i < flat s j ↔ i < j := by
  induction hi generalizing j with
  | nil => cases hj; simp [flat]
  | @cons a n i s h1 h2 ih =>
    cases hj with
    | @cons b _ j _ g1 g2 =>
      have l1 := flat_lt h2
      have l2 := flat_lt g2
      simp only [flat]
      rw [List.cons_lt_cons_iff, ← ih g2]
      rcases Nat.lt_trichotomy a b with h | h | h
      · have : (a + 1) * s.prod ≤ b * s.prod := Nat.mul_le_mul_right _ h
        rw [Nat.add_mul] at this
        constructor
        · intro _; exact Or.inl h
        · intro _; omega
      · subst h; omega
      · have : (b + 1) * s.prod ≤ a * s.prod := Nat.mul_le_mul_right _ h
        rw [Nat.add_mul] at this
        constructor
        · intro _; omega
        · rintro (h' | h')
          · omega
          · omega

theorem at0_lt {α : Type} [Zero α] {n : ℕ} (col : Fin n → α) {k : ℕ} (h : k < n) : at0 col k = col ⟨k, h⟩ := dif_pos h

theorem range_mul_map {β : Type} (f : ℕ → β) (n d : ℕ) :
    (List.range (n * d)).map f = (List.range n).flatMap fun r => (List.range d).map fun c => f (r * d + c) := by
  induction n with
  | zero => simp
  | succ n ih =>
    rw [Nat.add_mul, Nat.one_mul, List.range_add, List.map_append, ih, List.range_succ, List.flatMap_append, List.map_map]
    simp [Function.comp_def]

end E3nn.Shp
