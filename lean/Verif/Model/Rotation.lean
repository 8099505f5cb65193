import Mathlib.Analysis.SpecialFunctions.Trigonometric.Inverse
import Mathlib.Analysis.SpecialFunctions.Complex.Arg
import Mathlib.Analysis.Normed.Algebra.MatrixExponential
import Mathlib.LinearAlgebra.Matrix.Notation
import Mathlib.LinearAlgebra.Matrix.Determinant.Basic

/-!
# Model of `e3nn_jax/_src/rotation.py`

Numbers are real numbers: floating point rounding, dtypes and batching (leading axes, on which
every function acts entry by entry) are not represented.  Vectors are `Fin 3 → ℝ`, quaternions
`Fin 4 → ℝ` (real part first), matrices `Matrix (Fin 3) (Fin 3) ℝ`.
-/

namespace E3nn.Rot

open Matrix

/-- Vectors of `R^3` (rotation.py:800-816). -/
abbrev Vec := Fin 3 → ℝ
/-- Quaternions (rotation.py:520-530). -/
abbrev Quat := Fin 4 → ℝ
/-- `3 × 3` matrices (rotation.py:25-30). -/
abbrev Mat := Matrix (Fin 3) (Fin 3) ℝ

/-- `jnp.clip(x, -1, 1)` (rotation.py:30, 528 and 816). -/
noncomputable def clip (x : ℝ) : ℝ := max (-1) (min x 1)

/-- `jnp.arctan2(y, x)`: the argument of `x + iy` in `(-π, π]`, `0` at the origin (rotation.py:464 and 827). -/
noncomputable def arctan2 (y x : ℝ) : ℝ := Complex.arg ⟨x, y⟩

/-- `rotation_angle_from_matrix`, rotation.py:20-31. -/
noncomputable def rotationAngleFromMatrix (R : Mat) : ℝ :=
  Real.arccos (clip ((R 0 0 + R 1 1 + R 2 2 - 1) / 2))

/-- `matrix_x`, rotation.py:362-382. -/
noncomputable def matrixX (t : ℝ) : Mat :=
  !![1, 0, 0; 0, Real.cos t, -Real.sin t; 0, Real.sin t, Real.cos t]

/-- `matrix_y`, rotation.py:385-405. -/
noncomputable def matrixY (t : ℝ) : Mat :=
  !![Real.cos t, 0, Real.sin t; 0, 1, 0; -Real.sin t, 0, Real.cos t]

/-- `matrix_z`, rotation.py:408-428. -/
noncomputable def matrixZ (t : ℝ) : Mat :=
  !![Real.cos t, -Real.sin t, 0; Real.sin t, Real.cos t, 0; 0, 0, 1]

/-- `angles_to_matrix`, rotation.py:431-443. -/
noncomputable def anglesToMatrix (a b c : ℝ) : Mat := matrixY a * matrixX b * matrixY c

/-- `_normalize`, rotation.py:533-536. -/
noncomputable def normalize (v : Vec) : Vec :=
  let n2 := v 0 ^ 2 + v 1 ^ 2 + v 2 ^ 2
  fun i => v i / Real.sqrt (if n2 > 0 then n2 else 1)

/-- `angles_to_xyz`, rotation.py:774-792. -/
noncomputable def anglesToXyz (a b : ℝ) : Vec :=
  ![Real.sin b * Real.sin a, Real.cos b, Real.sin b * Real.cos a]

/-- `xyz_to_angles` after the normalisation and the clipping, rotation.py:817-828. -/
noncomputable def unitToAngles (x y z : ℝ) : ℝ × ℝ :=
  let x' := if x = 0 ∧ z = 0 then 0 else x
  let y' := if x = 0 ∧ z = 0 then 0 else y
  let z' := if x = 0 ∧ z = 0 then 1 else z
  (arctan2 x' z', if y = 1 then 0 else if y = -1 then Real.pi else Real.arccos y')

/-- `xyz_to_angles`, rotation.py:795-828. -/
noncomputable def xyzToAngles (v : Vec) : ℝ × ℝ :=
  unitToAngles (clip (normalize v 0)) (clip (normalize v 1)) (clip (normalize v 2))

/-- `matrix_to_angles`, rotation.py:446-465. -/
noncomputable def matrixToAngles (R : Mat) : ℝ × ℝ × ℝ :=
  let x := R *ᵥ ![0, 1, 0]
  let ab := xyzToAngles x
  let R' := (anglesToMatrix ab.1 ab.2 0)ᵀ * R
  (ab.1, ab.2, arctan2 (R' 0 2) (R' 0 0))

/-- `identity_angles`, rotation.py:36-49. -/
def identityAngles : ℝ × ℝ × ℝ := (0, 0, 0)

/-- `compose_angles`, rotation.py:70-92. -/
noncomputable def composeAngles (a1 b1 c1 a2 b2 c2 : ℝ) : ℝ × ℝ × ℝ :=
  matrixToAngles (anglesToMatrix a1 b1 c1 * anglesToMatrix a2 b2 c2)

/-- `inverse_angles`, rotation.py:95-110. -/
def inverseAngles (a b c : ℝ) : ℝ × ℝ × ℝ := (-c, -b, -a)

/-- `rotation_angle_from_angles`, rotation.py:113-131 (without leading axes, where `R2.T` is the
transpose; with leading axes `.T` reverses all of them). -/
noncomputable def rotationAngleFromAngles (a1 b1 c1 a2 b2 c2 : ℝ) : ℝ :=
  rotationAngleFromMatrix (anglesToMatrix a1 b1 c1 * (anglesToMatrix a2 b2 c2)ᵀ)

/-- `identity_quaternion`, rotation.py:136-146. -/
def identityQuaternion : Quat := ![1, 0, 0, 0]

/-- `compose_quaternion`, rotation.py:162-193. -/
def composeQuaternion (p q : Quat) : Quat :=
  ![p 0 * q 0 - p 1 * q 1 - p 2 * q 2 - p 3 * q 3,
    p 1 * q 0 + p 0 * q 1 + p 2 * q 3 - p 3 * q 2,
    p 0 * q 2 - p 1 * q 3 + p 2 * q 0 + p 3 * q 1,
    p 0 * q 3 + p 1 * q 2 - p 2 * q 1 + p 3 * q 0]

/-- `inverse_quaternion`, rotation.py:196-207. -/
def inverseQuaternion (q : Quat) : Quat := ![q 0, -1 * q 1, -1 * q 2, -1 * q 3]

/-- `rotation_angle_from_quaternion`, rotation.py:210-224. -/
noncomputable def rotationAngleFromQuaternion (p q : Quat) : ℝ :=
  2 * Real.arccos (min |p 0 * q 0 + p 1 * q 1 + p 2 * q 2 + p 3 * q 3| 1)

/-- `axis_angle_to_quaternion`, rotation.py:498-513. -/
noncomputable def axisAngleToQuaternion (v : Vec) (t : ℝ) : Quat :=
  let n := normalize v
  ![Real.cos (t / 2), n 0 * Real.sin (t / 2), n 1 * Real.sin (t / 2), n 2 * Real.sin (t / 2)]

/-- `quaternion_to_axis_angle`, rotation.py:516-530. -/
noncomputable def quaternionToAxisAngle (q : Quat) : Vec × ℝ :=
  (normalize ![q 1, q 2, q 3], 2 * Real.arccos (clip (q 0)))

/-- `angles_to_quaternion`, rotation.py:468-483. -/
noncomputable def anglesToQuaternion (a b c : ℝ) : Quat :=
  composeQuaternion (axisAngleToQuaternion ![0, 1, 0] a)
    (composeQuaternion (axisAngleToQuaternion ![1, 0, 0] b) (axisAngleToQuaternion ![0, 1, 0] c))

/-- `matrix_to_axis_angle`, rotation.py:539-563. -/
noncomputable def matrixToAxisAngle (R : Mat) : Vec × ℝ :=
  (normalize ![R 2 1 - R 1 2, R 0 2 - R 2 0, R 1 0 - R 0 1], rotationAngleFromMatrix R)

/-- `matrix_to_quaternion`, rotation.py:486-495. -/
noncomputable def matrixToQuaternion (R : Mat) : Quat :=
  axisAngleToQuaternion (matrixToAxisAngle R).1 (matrixToAxisAngle R).2

/-- `angles_to_axis_angle`, rotation.py:566-580. -/
noncomputable def anglesToAxisAngle (a b c : ℝ) : Vec × ℝ := matrixToAxisAngle (anglesToMatrix a b c)

/-- `axis_angle_to_matrix`, rotation.py:583-598. -/
noncomputable def axisAngleToMatrix (v : Vec) (t : ℝ) : Mat :=
  let ab := xyzToAngles v
  let R := anglesToMatrix ab.1 ab.2 0
  R * matrixY t * Rᵀ

/-- `quaternion_to_matrix`, rotation.py:601-610. -/
noncomputable def quaternionToMatrix (q : Quat) : Mat :=
  axisAngleToMatrix (quaternionToAxisAngle q).1 (quaternionToAxisAngle q).2

/-- `quaternion_to_angles`, rotation.py:613-626. -/
noncomputable def quaternionToAngles (q : Quat) : ℝ × ℝ × ℝ := matrixToAngles (quaternionToMatrix q)

/-- `axis_angle_to_angles`, rotation.py:629-643. -/
noncomputable def axisAngleToAngles (v : Vec) (t : ℝ) : ℝ × ℝ × ℝ := matrixToAngles (axisAngleToMatrix v t)

/-- `compose_axis_angle`, rotation.py:245-265. -/
noncomputable def composeAxisAngle (v1 : Vec) (t1 : ℝ) (v2 : Vec) (t2 : ℝ) : Vec × ℝ :=
  quaternionToAxisAngle (composeQuaternion (axisAngleToQuaternion v1 t1) (axisAngleToQuaternion v2 t2))

/-- `rotation_angle_from_axis_angle`, rotation.py:268-284. -/
noncomputable def rotationAngleFromAxisAngle (v1 : Vec) (t1 : ℝ) (v2 : Vec) (t2 : ℝ) : ℝ :=
  rotationAngleFromQuaternion (axisAngleToQuaternion v1 t1) (axisAngleToQuaternion v2 t2)

/-- The matrix of `einsum("aij,a->ij", X, log)`, rotation.py:658-666. -/
def logGenerator (v : Vec) : Mat :=
  v 0 • !![0, 0, 0; 0, 0, -1; 0, 1, 0] + v 1 • !![0, 0, 1; 0, 0, 0; -1, 0, 0] +
    v 2 • !![0, -1, 0; 1, 0, 0; 0, 0, 0]

/-- `log_coordinates_to_matrix`, rotation.py:646-668; `expm` is the exact exponential. -/
noncomputable def logCoordinatesToMatrix (v : Vec) : Mat := NormedSpace.exp (logGenerator v)

/-- `log_coordinates_to_axis_angle`, rotation.py:671-687. -/
noncomputable def logCoordinatesToAxisAngle (v : Vec) : Vec × ℝ :=
  let n2 := v 0 ^ 2 + v 1 ^ 2 + v 2 ^ 2
  let n2' := if n2 > 0 then n2 else 1
  (fun i => v i / Real.sqrt n2', if n2 > 0 then Real.sqrt n2' else 0)

/-- `log_coordinates_to_quaternion`, rotation.py:690-699. -/
noncomputable def logCoordinatesToQuaternion (v : Vec) : Quat :=
  axisAngleToQuaternion (logCoordinatesToAxisAngle v).1 (logCoordinatesToAxisAngle v).2

/-- `log_coordinates_to_angles`, rotation.py:702-715. -/
noncomputable def logCoordinatesToAngles (v : Vec) : ℝ × ℝ × ℝ := matrixToAngles (logCoordinatesToMatrix v)

/-- `axis_angle_to_log_coordinates`, rotation.py:718-730. -/
def axisAngleToLogCoordinates (v : Vec) (t : ℝ) : Vec := fun i => v i * t

/-- `matrix_to_log_coordinates`, rotation.py:733-742. -/
noncomputable def matrixToLogCoordinates (R : Mat) : Vec :=
  axisAngleToLogCoordinates (matrixToAxisAngle R).1 (matrixToAxisAngle R).2

/-- `angles_to_log_coordinates`, rotation.py:745-756. -/
noncomputable def anglesToLogCoordinates (a b c : ℝ) : Vec :=
  axisAngleToLogCoordinates (anglesToAxisAngle a b c).1 (anglesToAxisAngle a b c).2

/-- `quaternion_to_log_coordinates`, rotation.py:759-768. -/
noncomputable def quaternionToLogCoordinates (q : Quat) : Vec :=
  axisAngleToLogCoordinates (quaternionToAxisAngle q).1 (quaternionToAxisAngle q).2

/-- `compose_log_coordinates`, rotation.py:314-328. -/
noncomputable def composeLogCoordinates (v w : Vec) : Vec :=
  quaternionToLogCoordinates (composeQuaternion (logCoordinatesToQuaternion v) (logCoordinatesToQuaternion w))

/-- `inverse_log_coordinates`, rotation.py:331-340. -/
def inverseLogCoordinates (v : Vec) : Vec := -v

/-- `rotation_angle_from_log_coordinates`, rotation.py:343-357. -/
noncomputable def rotationAngleFromLogCoordinates (v w : Vec) : ℝ :=
  rotationAngleFromQuaternion (logCoordinatesToQuaternion v) (logCoordinatesToQuaternion w)

end E3nn.Rot
