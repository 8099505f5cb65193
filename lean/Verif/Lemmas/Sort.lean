import Verif.Model.Py
import Mathlib.Data.List.Perm.Basic

/-! # `pySorted` is a sort -/

namespace E3nn

theorem pyInsert_perm {α : Type _} (lt : α → α → Bool) (a : α) (l : List α) :
    (pyInsert lt a l).Perm (a :: l) := by
  induction l with
  | nil => simp [pyInsert]
  | cons b l ih =>
    unfold pyInsert
    split
    · exact (ih.cons b).trans (List.Perm.swap a b l)
    · exact List.Perm.refl _

theorem pySorted_perm {α : Type _} (lt : α → α → Bool) (l : List α) :
    (pySorted lt l).Perm l := by
  induction l with
  | nil => simp [pySorted]
  | cons a l ih =>
    change (pyInsert lt a (pySorted lt l)).Perm (a :: l)
    exact (pyInsert_perm lt a _).trans (ih.cons a)

theorem pyInsert_pairwise {α : Type _} (lt : α → α → Bool)
    (asymm : ∀ a b, lt a b = true → lt b a = false)
    (ntrans : ∀ a b c, lt b a = false → lt c b = false → lt c a = false)
    (a : α) (l : List α) (h : l.Pairwise fun x y => lt y x = false) :
    (pyInsert lt a l).Pairwise fun x y => lt y x = false := by
  induction l with
  | nil => simp [pyInsert]
  | cons b l ih =>
    rw [List.pairwise_cons] at h
    unfold pyInsert
    split
    · next hlt =>
      rw [List.pairwise_cons]
      refine ⟨?_, ih h.2⟩
      intro c hc
      rcases List.mem_cons.mp ((pyInsert_perm lt a l).mem_iff.mp hc) with rfl | hc
      · exact asymm _ _ hlt
      · exact h.1 c hc
    · next hlt =>
      have hba : lt b a = false := by simpa using hlt
      rw [List.pairwise_cons]
      refine ⟨?_, List.pairwise_cons.mpr h⟩
      intro c hc
      rcases List.mem_cons.mp hc with rfl | hc
      · exact hba
      · exact ntrans a b c hba (h.1 c hc)

/-- The result is sorted: nothing is smaller than something before it. -/
theorem pySorted_pairwise {α : Type _} (lt : α → α → Bool)
    (asymm : ∀ a b, lt a b = true → lt b a = false)
    (ntrans : ∀ a b c, lt b a = false → lt c b = false → lt c a = false) (l : List α) :
    (pySorted lt l).Pairwise fun x y => lt y x = false := by
  induction l with
  | nil => simp [pySorted]
  | cons a l ih => exact pyInsert_pairwise lt asymm ntrans a _ ih

/-- A list that is already sorted is unchanged. -/
theorem pySorted_eq_self {α : Type _} (lt : α → α → Bool) (l : List α)
    (h : l.Pairwise fun x y => lt y x = false) : pySorted lt l = l := by
  induction l with
  | nil => rfl
  | cons a l ih =>
    rw [List.pairwise_cons] at h
    change pyInsert lt a (pySorted lt l) = _
    rw [ih h.2]
    cases l with
    | nil => rfl
    | cons b l =>
      unfold pyInsert
      simp [h.1 b (by simp)]

end E3nn
