import Mathlib.Analysis.SpecialFunctions.Trigonometric.Inverse
import Mathlib.LinearAlgebra.Matrix.Notation
import Mathlib.LinearAlgebra.Matrix.Determinant.Basic
import Mathlib.LinearAlgebra.CrossProduct

/-! # What rotations are, independently of the model -/

namespace E3nn.Rot

open Matrix

/-- Rotation matrices: orthogonal of determinant one. -/
def IsRotation (R : Matrix (Fin 3) (Fin 3) ℝ) : Prop := R * Rᵀ = 1 ∧ R.det = 1

/-- Squared length of a vector. -/
def vnormSq (v : Fin 3 → ℝ) : ℝ := v 0 ^ 2 + v 1 ^ 2 + v 2 ^ 2

/-- Squared length of a quaternion. -/
def qnormSq (q : Fin 4 → ℝ) : ℝ := q 0 ^ 2 + q 1 ^ 2 + q 2 ^ 2 + q 3 ^ 2

/-- The unit vector in the direction of `v`. -/
noncomputable def direction (v : Fin 3 → ℝ) : Fin 3 → ℝ := (Real.sqrt (vnormSq v))⁻¹ • v

/-- `R` turns space by the angle `t` around the unit vector `n`, by the right hand rule: it fixes
`n`, and turns every vector orthogonal to `n` towards the cross product of `n` with it. -/
def TurnsAround (n : Fin 3 → ℝ) (t : ℝ) (R : Matrix (Fin 3) (Fin 3) ℝ) : Prop :=
  R *ᵥ n = n ∧ ∀ w, n ⬝ᵥ w = 0 → R *ᵥ w = Real.cos t • w + Real.sin t • (crossProduct n w)

end E3nn.Rot
