import Verif.Model.IrrepAttr
import Verif.Lemmas.Parse

/-! # C114: `e3nn_jax.irrep.l<text>` -/

namespace E3nn
open Parse Text

/-- The lookup `irrep.<name>` returns `ir` exactly when the name is `l` followed by a text of `ir`
in the grammar of Spec/Parse.lean. -/
theorem C114_lookup_iff (name : List Char) (ir : Irrep) :
    irrepAttr name = .ok ir ↔ ∃ s, name = 'l' :: s ∧ IrrepText s ir := by
  cases name with
  | nil => simp [irrepAttr]
  | cons c s =>
    by_cases hc : c = 'l'
    · subst hc
      by_cases hs : s = []
      · subst hs
        simp only [irrepAttr, ne_eq, not_true_eq_false, or_true, if_true, reduceCtorEq, false_iff]
        rintro ⟨s, hs, ht⟩
        obtain ⟨_, rfl⟩ := List.cons.inj hs
        obtain ⟨a, d, k, b, e, _⟩ := ht
        have := congrArg List.length e
        simp at this
      · constructor
        · intro h
          refine ⟨s, rfl, (parseIrrep_iff s ir).mp ?_⟩
          cases hp : parseIrrep s with
          | none => simp [irrepAttr, hs, hp] at h
          | some r => simpa [irrepAttr, hs, hp] using h
        · rintro ⟨s', hs', ht⟩
          obtain ⟨_, rfl⟩ := List.cons.inj hs'
          simp [irrepAttr, hs, (parseIrrep_iff s ir).mpr ht]
    · simp only [irrepAttr, ne_eq, hc, not_false_eq_true, true_or, if_true, reduceCtorEq, false_iff]
      rintro ⟨s', hs', _⟩
      exact hc (List.cons.inj hs').1

/-- Every irrep is reachable under `l` followed by its printed form: `irrep.l1o == Irrep("1o")`. -/
theorem C114_every_irrep (ir : Irrep) : irrepAttr ('l' :: showIrrep ir) = .ok ir :=
  (C114_lookup_iff _ _).mpr ⟨_, rfl, irrepText_show ir⟩

/-- Every other non-empty name raises `AttributeError`, what Python expects of a module attribute
that does not exist (so that `hasattr` and `getattr` with a default work). -/
theorem C114_attribute_error (name : List Char) (hne : name ≠ [])
    (h : ¬ ∃ s ir, name = 'l' :: s ∧ IrrepText s ir) :
    irrepAttr name = .error .attributeError := by
  cases hr : irrepAttr name with
  | ok ir =>
    obtain ⟨s, e, ht⟩ := (C114_lookup_iff _ _).mp hr
    exact absurd ⟨s, ir, e, ht⟩ h
  | error e =>
    cases name with
    | nil => exact absurd rfl hne
    | cons c s =>
      simp only [irrepAttr] at hr
      split at hr
      · exact hr.symm
      · split at hr
        · exact absurd hr (by simp)
        · exact hr.symm

/-- Exception: `getattr(irrep, "")` raises `ValueError`, from the unpacking of the empty name. -/
theorem C114_empty_name : irrepAttr [] = .error .valueError := rfl

/-- Two spellings of a name never disagree: a name denotes at most one irrep, and printed names
of different irreps differ. -/
theorem C114_injective (a b : Irrep) (h : 'l' :: showIrrep a = 'l' :: showIrrep b) : a = b := by
  have ha := C114_every_irrep a
  rw [h, C114_every_irrep b, Except.ok.injEq] at ha
  exact ha.symm

example : irrepAttr "l1o".toList = .ok ⟨1, .o⟩ := by decide +kernel
example : irrepAttr "l12y".toList = .ok ⟨12, .e⟩ := by decide +kernel
example : irrepAttr "__path__".toList = .error .attributeError := by decide +kernel
example : irrepAttr "l".toList = .error .attributeError := by decide +kernel
example : irrepAttr "l1x".toList = .error .attributeError := by decide +kernel

end E3nn
