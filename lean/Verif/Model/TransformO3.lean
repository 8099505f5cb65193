import Verif.Model.Wigner
import Verif.Model.CG
import Verif.Model.Transform
import Verif.Model.TensorProduct
import Mathlib.Algebra.Algebra.Defs

/-!
# `transform_by_*` (irreps_array.py:963-1087), `Irreps.D_from_*` (irreps.py:869-935)

with the actual representation matrices of `Model/Wigner.lean`.  The components of the array are
elements of a real vector space `α` (functions of the leading indices); the rotation has no leading
axes.
-/

namespace E3nn

open E3nn.Rot E3nn.Wig

/-- A matrix as the list of its rows (irreps.py:879). -/
def matRows {K : Type} {m n : ℕ} (M : Matrix (Fin m) (Fin n) K) : List (List K) :=
  List.ofFn fun i => List.ofFn fun j => M i j

namespace IArr

variable {α : Type} [AddCommMonoid α] [Module ℝ α]

/-- `transform_by_log_coordinates(log, k)`, irreps_array.py:963-991. -/
noncomputable def transformByLogCoordinates (v : Vec) (k : ℝ) (x : IArr α) : Except PyErr (IArr α) :=
  x.transform fun ir => matRows (dLog ir v k)

/-- `transform_by_angles(alpha, beta, gamma, k, inverse)`, irreps_array.py:993-1046. -/
noncomputable def transformByAngles (a b c : Angle) (k : ℝ) (inverse : Bool) (x : IArr α) : Except PyErr (IArr α) :=
  x.transform fun ir => matRows (if inverse then (dAngles ir a b c k).transpose else dAngles ir a b c k)

/-- `transform_by_quaternion(q, k)`, irreps_array.py:1048-1060. -/
noncomputable def transformByQuaternion (q : Quat) (k : ℝ) (x : IArr α) : Except PyErr (IArr α) :=
  x.transformByLogCoordinates (quaternionToLogCoordinates q) k

/-- `transform_by_axis_angle(axis, angle, k)`, irreps_array.py:1062-1077. -/
noncomputable def transformByAxisAngle (v : Vec) (t : ℝ) (k : ℝ) (x : IArr α) : Except PyErr (IArr α) :=
  x.transformByLogCoordinates (axisAngleToLogCoordinates v t) k

/-- `transform_by_matrix(R)`, irreps_array.py:1079-1091. -/
noncomputable def transformByMatrix (R : Mat) (x : IArr α) : Except PyErr (IArr α) :=
  let d : ℝ := SignType.sign R.det
  let a := matrixToAngles (d • R)
  x.transformByAngles (.arr a.1) (.arr a.2.1) (.arr a.2.2) ((1 - d) / 2) false

end IArr

namespace Irreps

/-- `jax.scipy.linalg.block_diag` of square matrices given by their rows: the blocks on the
diagonal, zeros elsewhere (irreps.py:879, 899 and 944). -/
def blockDiag {K : Type} [Zero K] : List (List (List K)) → List (List K)
  | [] => []
  | B :: Bs =>
    let rest := blockDiag Bs
    B.map (fun r => r ++ List.replicate rest.length 0) ++ rest.map fun r => List.replicate B.length 0 ++ r

/-- `jax.scipy.linalg.block_diag(*arrs)`: without arguments it returns an array of shape `(1, 0)` (irreps.py:879, 899 and 944). -/
def blockDiagJax {K : Type} [Zero K] (Bs : List (List (List K))) : List (List K) :=
  match Bs with
  | [] => [[]]
  | _ => blockDiag Bs

/-- The list of blocks `for mul, ir in self for _ in range(mul)`, irreps.py:879-885, 899-905. -/
def dBlocks {K : Type} (D : Irrep → List (List K)) (x : Irreps) : List (List (List K)) :=
  x.flatMap fun m => List.replicate m.mul (D m.ir)

/-- `Irreps.D_from_log_coordinates`, irreps.py:869-885. -/
noncomputable def dLog (x : Irreps) (v : Vec) (k : ℝ) : List (List ℝ) :=
  blockDiagJax (dBlocks (fun ir => matRows (Wig.dLog ir v k)) x)

/-- `Irreps.D_from_angles`, irreps.py:887-905. -/
noncomputable def dAngles (x : Irreps) (a b c : Angle) (k : ℝ) : List (List ℝ) :=
  blockDiagJax (dBlocks (fun ir => matRows (Wig.dAngles ir a b c k)) x)

/-- `Irreps.D_from_quaternion`, irreps.py:907-917. -/
noncomputable def dQuaternion (x : Irreps) (q : Quat) (k : ℝ) : List (List ℝ) :=
  let a := quaternionToAngles q
  dAngles x (.arr a.1) (.arr a.2.1) (.arr a.2.2) k

/-- `Irreps.D_from_matrix`, irreps.py:919-931. -/
noncomputable def dMatrix (x : Irreps) (R : Mat) : List (List ℝ) :=
  let d : ℝ := SignType.sign R.det
  let a := matrixToAngles (d • R)
  dAngles x (.arr a.1) (.arr a.2.1) (.arr a.2.2) ((1 - d) / 2)

/-- `Irreps.D_from_axis_angle`, irreps.py:933-936. -/
noncomputable def dAxisAngle (x : Irreps) (v : Vec) (t : ℝ) (k : ℝ) : List (List ℝ) :=
  dLog x (axisAngleToLogCoordinates v t) k

end Irreps

/-- The Clebsch-Gordan tensors of so3.py and the real square root, as seen by the tensor products
(`K` is an algebra over the reals: the functions of the leading indices) (tensor_products.py:108-122). -/
noncomputable def realCtx (K : Type) [CommRing K] [Algebra ℝ K] : TPCtx K where
  cg := fun l1 l2 l3 => List.ofFn fun a => List.ofFn fun b => List.ofFn fun c =>
    algebraMap ℝ K (SU2.clebschGordan l1 l2 l3 a b c)
  sqrt := fun q => algebraMap ℝ K (Real.sqrt q)

end E3nn
