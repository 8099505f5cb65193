import Verif.Model.J
import Verif.Model.Irreps
import Verif.Model.SU2
import Verif.Model.Rotation
import Mathlib.Analysis.SpecialFunctions.Pow.Real

/-!
# Model of the Wigner matrices (`D_from_*`, irreps.py)

Numbers are exact real numbers, `expm` is the exact exponential of matrices.  Batch axes are not
represented (the code maps the functions below over them).
-/

namespace E3nn.Wig

open Matrix E3nn.SU2 E3nn.Rot

/-- `M[inds, reversed_inds] = sin(frequencies * phi); M[inds, inds] = cos(frequencies * phi)`,
irreps.py:1052-1059 (`rot_y`); `frequencies[a] = l - a`. -/
noncomputable def rotY (l : ℕ) (phi : ℝ) : Matrix (Fin (2 * l + 1)) (Fin (2 * l + 1)) ℝ := fun a b =>
  if a = b then Real.cos (((l : ℝ) - a) * phi)
  else if b.val = 2 * l - a.val then Real.sin (((l : ℝ) - a) * phi)
  else 0

/-- `x % (2 * pi)`, irreps.py:1040-1049. -/
noncomputable def modTwoPi (x : ℝ) : ℝ := x - 2 * Real.pi * ⌊x / (2 * Real.pi)⌋

/-- `Jd[l]`, irreps.py:1067 and J.py. -/
noncomputable def jMatrix (l : ℕ) : Matrix (Fin (2 * l + 1)) (Fin (2 * l + 1)) ℝ := fun a b =>
  let e := ((jTables.getD l []).getD a []).getD b ⟨0, 0, 1⟩
  e.num * Real.sqrt e.rad / e.den

/-- The rotation around the x axis, irreps.py:1065-1072. -/
noncomputable def rotX (l : ℕ) (b : ℝ) : Matrix (Fin (2 * l + 1)) (Fin (2 * l + 1)) ℝ :=
  if l < jTables.length then jMatrix l * rotY l b * jMatrix l
  else NormedSpace.exp (b • so3Generators l 0)

/-- `_wigner_D_from_angles(l, alpha, beta, gamma)`, irreps.py:1023-1088. -/
noncomputable def wignerAngles (l : ℕ) (alpha beta gamma : Option ℝ) : Matrix (Fin (2 * l + 1)) (Fin (2 * l + 1)) ℝ :=
  let R := (alpha.map modTwoPi).toList.map (rotY l) ++ (beta.map modTwoPi).toList.map (rotX l) ++
    (gamma.map modTwoPi).toList.map (rotY l)
  match R with
  | [] => 1
  | r :: rs => rs.foldl (· * ·) r

/-- `_wigner_D_from_log_coordinates(l, log)`, irreps.py:1091-1111. -/
noncomputable def wignerLog (l : ℕ) (v : Vec) : Matrix (Fin (2 * l + 1)) (Fin (2 * l + 1)) ℝ :=
  NormedSpace.exp (∑ a, v a • so3Generators l a)

/-- `p ** k`, irreps.py:138 and 192.  (For `p = -1` and `k` not an integer the code gives nan.) -/
noncomputable def parityPow (p : Parity) (k : ℝ) : ℝ := ((p.toInt : ℤ) : ℝ) ^ k

/-- An angle as passed to `D_from_angles`: a Python number or an array (irreps.py:164-177). -/
inductive Angle where
  | py (x : ℝ)
  | arr (x : ℝ)

/-- `if isinstance(alpha, (int, float)) and alpha == 0: None else: jnp.asarray(alpha)`,
irreps.py:164-177. -/
noncomputable def Angle.opt : Angle → Option ℝ
  | .py x => if x = 0 then none else some x
  | .arr x => some x

/-- The number passed (irreps.py:164-177). -/
def Angle.val : Angle → ℝ
  | .py x => x
  | .arr x => x

/-- `Irrep.D_from_log_coordinates`, irreps.py:117-139. -/
noncomputable def dLog (ir : Irrep) (v : Vec) (k : ℝ) : Matrix (Fin (2 * ir.l + 1)) (Fin (2 * ir.l + 1)) ℝ :=
  parityPow ir.p k • wignerLog ir.l v

/-- `Irrep.D_from_angles`, irreps.py:142-193. -/
noncomputable def dAngles (ir : Irrep) (a b c : Angle) (k : ℝ) : Matrix (Fin (2 * ir.l + 1)) (Fin (2 * ir.l + 1)) ℝ :=
  parityPow ir.p k • wignerAngles ir.l a.opt b.opt c.opt

/-- `Irrep.D_from_quaternion`, irreps.py:196-206. -/
noncomputable def dQuaternion (ir : Irrep) (q : Quat) (k : ℝ) : Matrix (Fin (2 * ir.l + 1)) (Fin (2 * ir.l + 1)) ℝ :=
  let a := quaternionToAngles q
  dAngles ir (.arr a.1) (.arr a.2.1) (.arr a.2.2) k

/-- `Irrep.D_from_matrix`, irreps.py:208-231. -/
noncomputable def dMatrix (ir : Irrep) (R : Mat) : Matrix (Fin (2 * ir.l + 1)) (Fin (2 * ir.l + 1)) ℝ :=
  let d : ℝ := SignType.sign R.det
  let a := matrixToAngles (d • R)
  dAngles ir (.arr a.1) (.arr a.2.1) (.arr a.2.2) ((1 - d) / 2)

/-- `Irrep.D_from_axis_angle`, irreps.py:233-236. -/
noncomputable def dAxisAngle (ir : Irrep) (v : Vec) (t : ℝ) (k : ℝ) : Matrix (Fin (2 * ir.l + 1)) (Fin (2 * ir.l + 1)) ℝ :=
  dLog ir (axisAngleToLogCoordinates v t) k

end E3nn.Wig
