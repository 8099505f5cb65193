import Mathlib.Algebra.BigOperators.Group.Finset.Defs
import Mathlib.Data.Real.Basic

/-!
# Specification: tensors with index symmetries

A formula such as `ijk=jik=-kji` is a list of signed words; the first is the name of the indices. Nothing here refers to the model.
-/

namespace E3nn.IndexSymmetry

/-- A signed word: `(true, w)` is written `-w`. -/
abbrev Part := Bool × List Char

def Part.text (q : Part) : List Char := if q.1 then '-' :: q.2 else q.2

/-- The parts separated by `=`. -/
def text : List Part → List Char
  | [] => []
  | [q] => Part.text q
  | q :: q' :: qs => Part.text q ++ '=' :: text (q' :: qs)

def Part.sign (q : Part) : ℝ := if q.1 then -1 else 1

/-- No word contains one of the two special characters. -/
def Clean (parts : List Part) : Prop := ∀ q ∈ parts, '-' ∉ q.2 ∧ '=' ∉ q.2

/-- Each word is a rearrangement of the index names, which are distinct. -/
def WellFormed (names : List Char) (parts : List Part) : Prop := names.Nodup ∧ ∀ q ∈ parts, q.2.Perm names

/-- `T[names] = ± T[w]` for every part `± w` and every value of the indices. -/
def Symmetric (d : Char → ℕ) (names : List Char) (parts : List Part) (T : List ℕ → ℝ) : Prop :=
  ∀ q ∈ parts, ∀ v : Char → ℕ, (∀ c ∈ names, v c < d c) → T (names.map v) = q.sign * T (q.2.map v)

/-- The row-major position of a multi-index. -/
def rowMajor : List ℕ → List ℕ → ℕ
  | _ :: ds, k :: ks => k * ds.prod + rowMajor ds ks
  | _, _ => 0

/-- The rows `Q` are an orthonormal basis of the space of the tensors `T` (of shape `dims`) with `S T`. -/
structure IsOrthonormalBasis (dims : List ℕ) (Q : List (List ℝ)) (S : (List ℕ → ℝ) → Prop) : Prop where
  length : ∀ v ∈ Q, v.length = dims.prod
  orthonormal : ∀ i < Q.length, ∀ j < Q.length,
    ∑ k ∈ Finset.range dims.prod, (Q.getD i []).getD k 0 * (Q.getD j []).getD k 0 = if i = j then 1 else 0
  span : ∀ T : List ℕ → ℝ, S T ↔ ∃ c : ℕ → ℝ, ∀ x : List ℕ, List.Forall₂ (· < ·) x dims →
    T x = ∑ i ∈ Finset.range Q.length, c i * (Q.getD i []).getD (rowMajor dims x) 0

end E3nn.IndexSymmetry
