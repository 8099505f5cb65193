import Verif.Model.Wigner
import Verif.Model.SphericalHarmonics
import Mathlib.RingTheory.MvPolynomial.Homogeneous

/-!
# What spherical harmonics are

The defining properties, in the documentation of `spherical_harmonics`: polynomials, equivariant; the size is fixed at the pole.
-/

namespace E3nn.SH

open E3nn.Wig Matrix

/-- The length of `Y^l` on the unit sphere: `sqrt((2l+1)/4π)` for `integral`, `sqrt(2l+1)` for `component`, `1` for `norm`. -/
noncomputable def sphLength : Normalization → ℕ → ℝ
  | .integral, l => Real.sqrt ((2 * l + 1) / (4 * Real.pi))
  | .component, l => Real.sqrt (2 * l + 1)
  | .norm, _ => 1

/-- The integral over the unit sphere of the square of one component: `1` for `integral`, `4π` for `component`, `4π/(2l+1)` for `norm`. -/
noncomputable def sphIntegral : Normalization → ℕ → ℝ
  | .integral, _ => 1
  | .component, _ => 4 * Real.pi
  | .norm, l => 4 * Real.pi / (2 * l + 1)

/-- `f` is the spherical harmonics of degree `l`: polynomials of degree `l`, which follow `O(3)` by the Wigner matrices of the irrep `(l, p^l)` for
vectors of parity `p`, and whose value at the pole `(0, 1, 0)` is `c` at the middle index and zero elsewhere. -/
structure IsSphericalHarmonics (c : ℝ) (l : ℕ) (f : (Fin 3 → ℝ) → Fin (2 * l + 1) → ℝ) : Prop where
  polynomial : ∀ k, ∃ P : MvPolynomial (Fin 3) ℝ, P.IsHomogeneous l ∧ ∀ x, f x k = MvPolynomial.eval x P
  equivariant : ∀ (p : Parity) (R : Matrix (Fin 3) (Fin 3) ℝ), R * Rᵀ = 1 → ∀ x, f (dMatrix ⟨1, p⟩ R *ᵥ x) = dMatrix ⟨l, p.pow l⟩ R *ᵥ f x
  pole : ∀ k, f ![0, 1, 0] k = if k.val = l then c else 0

end E3nn.SH
