import Verif.Model.Axis
import Mathlib.Algebra.Module.Pi
import Mathlib.Algebra.BigOperators.Group.List.Basic

/-!
# `transform_by_angles` / `transform_by_log_coordinates` (irreps_array.py:963-1046)

The representation matrices `D[ir]` (which depend on the angles, the parity operation and `inverse`)
are a parameter: any family of `(2l+1) × (2l+1)` matrices, one per irrep.
-/

namespace E3nn

/-- Matrix times vector (`einsum("ij,j->i")`); the entries of the vector are columns (irreps_array.py:1035-1045). -/
def matVec {R α : Type} [AddCommMonoid α] [SMul R α] (M : List (List R)) (v : List α) : List α :=
  M.map fun row => (List.zipWith (fun a b => a • b) row v).sum

namespace IArr

/-- Apply `D[ir]` to every row of a chunk, `einsum("ij,...uj->...ui", D[ir], x)`,
irreps_array.py:1036-1045 (and 982-990); `None` stays `None`. -/
def actRows {α : Type} (D : Irrep → List α → List α) (p : MulIrrep × Chunk α) : Chunk α :=
  p.2.map fun rows => rows.map (D p.1.ir)

/-- `transform_by_angles`, irreps_array.py:993-1046, and `transform_by_log_coordinates`, 963-991;
`D ir` is the action on one row. -/
def transformBy {α : Type} [Zero α] (D : Irrep → List α → List α) (x : IArr α) : Except PyErr (IArr α) :=
  fromChunks x.irreps ((x.irreps.zip x.chunks).map (actRows D))

/-- The same for a family of matrices (irreps_array.py:1035-1046). -/
def transform {R α : Type} [AddCommMonoid α] [SMul R α] (M : Irrep → List (List R)) (x : IArr α) :
    Except PyErr (IArr α) := transformBy (fun ir => matVec (M ir)) x

end IArr
end E3nn
