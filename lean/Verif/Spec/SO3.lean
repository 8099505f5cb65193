import Verif.Spec.Rotation
import Mathlib.Algebra.MvPolynomial.CommRing
import Mathlib.MeasureTheory.Constructions.BorelSpace.Basic
import Mathlib.MeasureTheory.Measure.Map
import Mathlib.Analysis.Normed.Field.Basic

/-!
# The uniform distribution of rotations
-/

namespace E3nn.SO3

open MeasureTheory E3nn.Rot
open scoped Matrix

/-- The uniform distribution of rotation matrices (the normalised Haar measure): all the mass is on rotations and it does not change when a fixed rotation is applied first. -/
structure IsHaar (μ : Measure (Fin 3 → Fin 3 → ℝ)) : Prop where
  prob : μ Set.univ = 1
  rot : ∀ᵐ R ∂μ, IsRotation (Matrix.of R)
  inv : ∀ g : Matrix (Fin 3) (Fin 3) ℝ, IsRotation g → μ.map (fun R i j => (g * Matrix.of R) i j) = μ

/-- The value of a polynomial in the nine entries of a matrix. -/
noncomputable def polyAt (p : MvPolynomial (Fin 3 × Fin 3) ℝ) (R : Fin 3 → Fin 3 → ℝ) : ℝ := MvPolynomial.eval (fun ij => R ij.1 ij.2) p

end E3nn.SO3
