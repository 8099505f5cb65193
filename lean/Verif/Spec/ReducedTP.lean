import Verif.Model.ReducedTP
import Verif.Spec.IndexSymmetry

/-!
# Specification for the changes of basis of `reduced_tensor_product.py`
-/

namespace E3nn.RTP

open Finset

/-- The matrix `M` applied to axis `i` (of size `d`) of an array. -/
noncomputable def onAxis (d : ℕ) (M : ℕ → ℕ → ℝ) (i : ℕ) (t : Ten) : Ten :=
  fun σ => ∑ j ∈ range d, M (σ i) j * t (Function.update σ i j)

/-- The entry in row `a` and column `b`. -/
def entry (M : List (List ℝ)) (a b : ℕ) : ℝ := (M.getD a []).getD b 0

/-- Every axis `i` of the list multiplied by its own matrix. -/
noncomputable def onAxes (d : ℕ → ℕ) (M : ℕ → ℕ → ℕ → ℝ) (f : List ℕ) (t : Ten) : Ten := f.foldr (fun i t => onAxis (d i) (M i) i t) t

/-- The size of axis `i`. -/
def axisDim (irr : List Irreps) (i : ℕ) : ℕ := (irr.getD i []).dim

/-- Axis `i` multiplied by `irreps_i.D_from_matrix(R)`, for all axes. -/
noncomputable def rotate (irr : List Irreps) (R : Matrix (Fin 3) (Fin 3) ℝ) (t : Ten) : Ten :=
  onAxes (axisDim irr) (fun i => entry ((irr.getD i []).dMatrix R)) (List.range irr.length) t

/-- The scalar product of two arrays of shape `(d1, ..., dn)`: the sum over all indices of the products of the entries. -/
noncomputable def inner (irr : List Irreps) (s t : Ten) : ℝ :=
  ((PermRepr.fullBase (irr.map Irreps.dim)).map fun x => s (fun i => x.getD i 0) * t (fun i => x.getD i 0)).sum

/-- Two arrays with the same entries. -/
def SameEntries (irr : List Irreps) (s t : Ten) : Prop :=
  ∀ σ : ℕ → ℕ, (∀ i < irr.length, σ i < axisDim irr i) → s σ = t σ

/-- The symmetries of a formula: `T[x_{p(0)}, x_{p(1)}, ...] = sign * T[x_0, x_1, ...]`. -/
def Symmetric (irr : List Irreps) (G : Finset PermRepr.SPerm) (t : Ten) : Prop :=
  ∀ q ∈ G, ∀ σ : ℕ → ℕ, (∀ i < irr.length, σ i < axisDim irr i) → t (fun i => σ (q.2.getD i i)) = q.1 * t σ

/-- An assignment of irreps to the letters that respects the keyword arguments `kw` and gives the same irreps to indices that the
formula exchanges. -/
def Admissible (names : List Char) (parts : List IndexSymmetry.Part) (kw : List (List Char × Irreps)) (a : Char → Irreps) : Prop :=
  (∀ c v, ([c], v) ∈ kw → a c = v) ∧ ∀ q ∈ parts, q.2.map a = names.map a

/-- The scalar product of an array with a tensor given as a function of the list of indices. -/
noncomputable def innerList (dims : List ℕ) (t : Ten) (T : List ℕ → ℝ) : ℝ :=
  ((PermRepr.fullBase dims).map fun x => t (fun i => x.getD i 0) * T x).sum

end E3nn.RTP
