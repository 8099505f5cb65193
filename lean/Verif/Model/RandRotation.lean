import Verif.Model.Rotation

/-!
# Model of the random rotations of `e3nn_jax/_src/rotation.py`

`jax.random.uniform(key, (3,) + shape)` is the source of the randomness: the three numbers `x, y, z` of one rotation are inputs here. Simplification:
real numbers for floats, one rotation for an array of them.
-/

namespace E3nn.Rot

/-- `rand_angles`: `x, y, z = jax.random.uniform(key, (3,) + shape)`, then `2πx, arccos(2z - 1), 2πy`, rotation.py:52-67. -/
noncomputable def randAngles (u : ℝ × ℝ × ℝ) : ℝ × ℝ × ℝ :=
  let x := u.1
  let y := u.2.1
  let z := u.2.2
  (2 * Real.pi * x, Real.arccos (2 * z - 1), 2 * Real.pi * y)

/-- `rand_matrix`, rotation.py:7-17. -/
noncomputable def randMatrix (u : ℝ × ℝ × ℝ) : Mat :=
  let a := randAngles u
  anglesToMatrix a.1 a.2.1 a.2.2

/-- `rand_quaternion`, rotation.py:149-159. -/
noncomputable def randQuaternion (u : ℝ × ℝ × ℝ) : Quat :=
  let a := randAngles u
  anglesToQuaternion a.1 a.2.1 a.2.2

/-- `rand_axis_angle`, rotation.py:229-242. -/
noncomputable def randAxisAngle (u : ℝ × ℝ × ℝ) : Vec × ℝ :=
  let a := randAngles u
  anglesToAxisAngle a.1 a.2.1 a.2.2

/-- `rand_log_coordinates`, rotation.py:301-311. -/
noncomputable def randLogCoordinates (u : ℝ × ℝ × ℝ) : Vec :=
  let a := randAxisAngle u
  axisAngleToLogCoordinates a.1 a.2

end E3nn.Rot
