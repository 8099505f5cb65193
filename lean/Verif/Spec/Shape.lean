import Verif.Model.Shape
import Verif.Spec.IArr
import Verif.Model.TransformO3

/-! Specification for the leading axes: indices, rows, and the action of a transformation on one row. -/

namespace E3nn.Shp

open E3nn.IArr

/-- A valid multi-index of a shape: one number for each axis, smaller than the length of the axis. -/
def IsIdx (s i : List ℕ) : Prop := List.Forall₂ (· < ·) i s

/-- The components `x.array[i_1, ..., i_n, :]` of one row. -/
def row {α : Type} [Zero α] (x : NArr α) (i : List ℕ) : List α := x.val.array.map fun col => at0 col (flat x.lead i)

/-- `D(R)` applied to the components of a direct sum of irreps, one block after the other. -/
noncomputable def actL (R : Matrix (Fin 3) (Fin 3) ℝ) (irs : List Irrep) (v : List ℝ) : List ℝ :=
  ((blocksOf irs v).map fun b => matVec (matRows (Wig.dMatrix b.1 R)) b.2).flatten

end E3nn.Shp
